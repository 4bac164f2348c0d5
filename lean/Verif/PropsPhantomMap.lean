/-
`IntMap` on histories of arbitrary 64-bit keys.
-/
import Verif.PhantomMap

set_option linter.unusedVariables false
set_option linter.unusedSectionVars false

/-! ### Specification -/

namespace Spec

/-- Calling `f` on the entries in a given order: the calls made, and the entries afterwards.  An entry without a value is
a phantom; what `f` is given then is not a value, and there is no telling what it does. -/
def visitP {K V : Type} (f : List (K × V) → K → V → V × Bool) :
    (log : List (K × V)) → Marked K (Option V) → Option (List (K × V) × Marked K (Option V))
  | log, [] => some (log, [])
  | _, (_, _, none) :: _ => none
  | log, (b, k, some v) :: E =>
    if (f log k v).2 then (visitP f (log ++ [(k, v)]) E).map (fun r => (r.1, (b, k, some (f log k v).1) :: r.2))
    else some (log ++ [(k, v)], (b, k, some (f log k v).1) :: E)

section
variable {V : Type} [Inhabited V] (H : BitVec 64 → Nat → BitVec 64)

/-- `MPStep H X op o X'`: on the content `X`, the call `op` may return `o` and leave the content `X'`.  The phantoms have
no value. -/
def MPStep (X : Marked (BitVec 64) (Option V) × Nat) : MOp (BitVec 64) V → MOut (BitVec 64) V → Marked (BitVec 64) (Option V) × Nat → Prop
  | .get k, o, X' => X' = X ∧
    match (seen X.1).get k with
    | none => o = .pair default false
    | some (some v) => o = .pair v true
    | some none => False
  | .val k, o, X' => X' = X ∧
    match (seen X.1).get k with
    | none => o = .one default
    | some (some v) => o = .one v
    | some none => False
  | .ptr k, o, X' => X' = X ∧
    match (seen X.1).get k with
    | none => o = .opt none
    | some (some v) => o = .opt (some v)
    | some none => False
  | .set k v, o, X' => o = .unit ∧
    match (seen X.1).get k with
    | none => Enters H none X k (some v) X'
    | some (some _) => X' = (renew X.1 k (some v), X.2)
    | some none => False
  | .mod k f, o, X' =>
    match (seen X.1).get k with
    | none => o = .calls [(default, false)] ∧ Enters H none X k (some (f default false)) X'
    | some (some w) => o = .calls [(w, true)] ∧ X' = (renew X.1 k (some (f w true)), X.2)
    | some none => False
  | .del k, o, X' => o = .unit ∧ Leaves H X.1 k X'.1 ∧ X'.2 = X.2
  | .len, o, X' => o = .num (BitVec.ofNat 64 (X.1.length + X.2)) ∧ X' = X
  | .dep, o, X' => (∃ q, o = .rat q) ∧ X' = X
  | .write k v, o, X' => o = .unit ∧
    match (seen X.1).get k with
    | none => X' = X
    | some (some _) => X' = (renew X.1 k (some v), X.2)
    | some none => False
  | .all f, o, X' => X'.2 = X.2 ∧ ∃ order l, order.Perm X.1 ∧ visitP f [] order = some (l, X'.1) ∧ o = .log l

/-- Calls that may hang. -/
def MHangs (X : Marked (BitVec 64) (Option V) × Nat) : MOp (BitVec 64) V → Prop
  | .set k _ => Stuck H X.1 k
  | .mod k _ => Stuck H X.1 k
  | _ => False

/-- Calls that take an array of branches for a value: those that are given the key of a phantom in reach, and `All`, if it
comes across a phantom. -/
def MConfuses (X : Marked (BitVec 64) (Option V) × Nat) : MOp (BitVec 64) V → Prop
  | .get k => (seen X.1).get k = some none
  | .val k => (seen X.1).get k = some none
  | .ptr k => (seen X.1).get k = some none
  | .set k _ => (seen X.1).get k = some none
  | .mod k _ => (seen X.1).get k = some none
  | .write k _ => (seen X.1).get k = some none
  | .all f => ∃ order, order.Perm X.1 ∧ visitP f [] order = none
  | _ => False

/-- A sequence of calls. -/
def MPRun : Marked (BitVec 64) (Option V) × Nat → List (MOp (BitVec 64) V) → Res (MOut (BitVec 64) V) → Prop
  | _, [], r => r = .returns []
  | X, op :: ops, r => (r = .hangs ∧ MHangs H X op) ∨ (r = .confuses ∧ MConfuses X op) ∨
    ∃ o X₁ r', r = r'.cons o ∧ MPStep H X op o X₁ ∧ MPRun X₁ ops r'

end

end Spec

namespace Amt
open T Spec

/-! ### The content -/

section
variable {V W : Type} {H : IntKey → Nat → BitVec 64} {t : T IntKey Ptr V} {g g' : IntKey × Ptr × V → W}

theorem marksBy_nodup (H : IntKey → Nat → BitVec 64) (g : IntKey × Ptr × V → W) (t : T IntKey Ptr V) : (seen (marksBy H g t)).keys.Nodup := by
  have := tagged_nodup (nb := nbOf H) (t := t) (d := 0) (pre := fun _ => true)
  rw [marksBy, seen, FMap.keys, List.filter_map, List.map_map, List.map_map]
  exact this

theorem marksBy_get (H : IntKey → Nat → BitVec 64) (g : IntKey × Ptr × V → W) (t : T IntKey Ptr V) (k : IntKey) :
    (seen (marksBy H g t)).get k = (find (nbOf H) k t 0).map (fun e => g (k, e.1, e.2)) := by
  cases hf : find (nbOf H) k t 0 with
  | some e =>
    rw [Option.map_some, FMap.get_eq_some (marksBy_nodup H g t)]
    have := (mem_tagged_find (nbOf_lt H) (pre := fun _ => true) (p := e.1) (v := e.2) rfl).2 hf
    exact List.mem_map.2 ⟨(true, k, g (k, e.1, e.2)), List.mem_filter.2 ⟨List.mem_map.2 ⟨_, this, rfl⟩, rfl⟩, rfl⟩
  | none =>
    rw [Option.map_none, FMap.get_eq_none]
    intro hm
    obtain ⟨v, hv⟩ := FMap.mem_keys.1 hm
    obtain ⟨⟨b, k', v'⟩, h1, h2⟩ := List.mem_map.1 hv
    obtain ⟨h3, h4⟩ := List.mem_filter.1 h1
    obtain ⟨⟨b', k'', p, v''⟩, h5, h6⟩ := List.mem_map.1 h3
    simp only [Prod.mk.injEq] at h2 h6
    simp only at h4
    obtain ⟨rfl, rfl⟩ := h2
    obtain ⟨h7, rfl, rfl⟩ := h6
    rw [h4] at h7
    subst h7
    rw [(mem_tagged_find (nbOf_lt H) rfl).1 h5] at hf
    cases hf

theorem mem_marksBy (H : IntKey → Nat → BitVec 64) (g : IntKey × Ptr × V → W) (t : T IntKey Ptr V) (k : IntKey) :
    k ∈ (seen (marksBy H g t)).keys ↔ find (nbOf H) k t 0 ≠ none := by
  constructor
  · intro hm hf
    refine FMap.get_eq_none.1 ?_ hm
    rw [marksBy_get, hf, Option.map_none]
  · intro hf
    refine Classical.byContradiction fun hm => hf ?_
    have := FMap.get_eq_none.2 hm
    rwa [marksBy_get, Option.map_eq_none_iff] at this

theorem length_marksBy (H : IntKey → Nat → BitVec 64) (g : IntKey × Ptr × V → W) (t : T IntKey Ptr V) : (marksBy H g t).length = (leaves t).length := by
  rw [← tagged_snd (nb := nbOf H) t 0 (fun _ => true), marksBy, List.length_map, List.length_map]
  rfl

theorem marksBy_congr (h : ∀ x ∈ leaves t, g' x = g x) : marksBy H g' t = marksBy H g t :=
  List.map_congr_left (fun x hx => by rw [h x.2 (mem_tagged_leaves (b := x.1) hx)])

theorem marksBy_del {k : IntKey} {e : Ptr × V} (hn : t.isNode = true) (hfd : find (nbOf H) k t 0 = some e)
    (hg : ∀ x ∈ leaves t, g' x = g x) :
    Hides (fun x => Agree H k x 1) (marksBy H g' (delRoot (nbOf H) k t)) (strike (marksBy H g t) k) := by
  obtain ⟨A, C, h1, h2⟩ := tags_del (H := H) (p := e.1) (v := e.2) hn hfd
  have hmem : ∀ x ∈ A ++ C, g' x.2 = g x.2 := by
    intro x hx
    refine hg x.2 (mem_tagged_leaves (nb := nbOf H) (d := 0) (pre := fun _ => true) (b := x.1) ?_)
    show x ∈ tags H t
    rw [h1]
    rcases List.mem_append.1 hx with h | h
    · exact List.mem_append.2 (Or.inl h)
    · exact List.mem_append.2 (Or.inr (List.mem_cons_of_mem _ h))
  have hnd := marksBy_nodup H g t
  rw [marksBy, h1, List.map_append, List.map_cons] at hnd
  have hst : strike (marksBy H g t) k = (A ++ C).map fun x => (x.1, x.2.1, g' x.2) := by
    rw [marksBy, h1, List.map_append, List.map_cons, strike_split hnd, ← List.map_append]
    exact List.map_congr_left (fun x hx => by rw [hmem x hx])
  rw [hst]
  rcases h2 with h2 | ⟨A', e', C', h2, h3, h4⟩
  · refine Or.inl ?_
    rw [marksBy, h2]
  · refine Or.inr ⟨e'.1, g' e', (A' ++ C').map (fun x => (x.1, x.2.1, g' x.2)), ?_, ?_, ?_⟩
    · rw [marksBy, h2]; simp only [List.map_append, List.map_cons]; exact List.perm_middle
    · rw [h3]; simp only [List.map_append, List.map_cons]; exact List.perm_middle
    · refine agree_of_nb (fun j hj => ?_)
      have : j = 0 := by omega
      subst this
      exact h4

end

/-! ### New keys and values -/

section
variable {V : Type} {sum : Maphash} {sd : Seed} {S : IntKey → Prop} {n : Nat} {s : St IntKey V} {h : Nat} {t : T IntKey Ptr V}
  {F : Nat → Prop} {fuel : Nat}

/-- The hooks of `Set` and `Mod` make a cell. -/
theorem cell_ins {R : Type} {ins : Ins IntKey V R} {rNew : R} {key : IntKey} {v : V}
    (hc : ins.chash = byteChash sum intbytes) (hg : ins.guard = false)
    (h1 : ins.newSlot = (newKv (intCfg .inline sum) key v >>= fun p => pure (p, rNew)))
    (h2 : ins.newSplit = (newKv (intCfg .inline sum) key v >>= fun p => pure (p, rNew))) :
    InsNew (intCfg .bare sum) sd (byteStream sum sd intbytes) ins key v rNew (fun m p => ∃ a, p = .blk a ∧ m a = some (.kv none v)) := by
  have hr : ∀ s : St IntKey V, (newKv (intCfg .inline sum) key v >>= fun p => pure (p, rNew)) s =
      .ok ((.blk s.next, rNew), s.push (.kv none v)) := fun s => rfl
  have hn : ∀ s : St IntKey V, NewCell (intCfg .bare sum) s (s.push (.kv none v)) key (.blk s.next) v := fun s =>
    ⟨trivial, fun a ha => by rw [push_mem, if_neg (by omega)], by simp, fun a ha => by cases ha; simp, rfl⟩
  refine ⟨fun ckey d fuel h1 h2 => ?_, fun ckey d fuel h1 h2 => ?_, hg, fun s => ?_, fun s => ?_, ?_, fun s p s' e => ?_, fun s p s' e => ?_⟩
  · rw [hc]; exact byteChash_ok sum intbytes sd key ckey d fuel h1 h2
  · rw [hc]; exact byteChash_diverge sum intbytes sd key ckey h1 fuel
  · exact ⟨_, _, by rw [h1]; exact hr s, hn s⟩
  · exact ⟨_, _, by rw [h2]; exact hr s, hn s⟩
  · rintro m m' p hm ⟨a, ha, hv⟩
    exact ⟨a, ha, by rw [hm a ha]; exact hv⟩
  · rw [h1, hr] at e
    cases e
    exact ⟨_, rfl, by simp⟩
  · rw [h2, hr] at e
    cases e
    exact ⟨_, rfl, by simp⟩

theorem PInv.upsert_nohit {K V R : Type} [DecidableEq K] {c : Cfg K} {sd : Seed} {H : K → Nat → BitVec 64} {S : K → Prop} {n : Nat} {s : St K V}
    {h : Nat} {t : T K Ptr V} {F : Nat → Prop} {fuel : Nat} {ins : Ins K V R} {key : K} (L : Laws c sd H) (hi : PInv c sd S n s h t F)
    (hf : 256 ≤ fuel) (hs : find (nbOf H) key t 0 = none) (hit : Ptr → Amt.M K V R) :
    Amt.upsert c h fuel key ins s = Amt.upsert c h fuel key { ins with hit := hit } s := by
  obtain ⟨lk, hl, hr⟩ := hi.rep
  obtain ⟨cur, b, e1, e2⟩ := search_sim L key (by omega : 255 < 256) t hi.node hl hr hi.ht (by omega : 255 < fuel + 0)
    (start_ok L key h) rfl
  rw [upsert_eq, upsert_eq, bind_ok (getRoot_run h s), bind_ok (getRoot_run h s), hi.seed, bind_ok e1, bind_ok e1]
  rw [find_slot] at hs
  cases hsl : slot (nbOf H) key t 0 with
  | none =>
    rw [hsl] at e2
    simp only at e2
    subst e2
    rfl
  | some e =>
    rw [hsl] at hs e2
    obtain ⟨rfl, _, _, item, x, _, e3, e4, e5, e6⟩ := e2
    simp only [Option.bind_some] at hs
    by_cases hk : key = e.1
    · rw [if_pos hk] at hs; cases hs
    · simp only [upsertFin, if_true]
      refine conflict_hit e3 e4 e5 ?_ hit
      cases hq : c.eq key e.1 with
      | false => rfl
      | true => exact absurd ((L.eq_iff _ _).1 hq) hk

/-- The container, and the kinds of what its entries point to. -/
structure KInv (sum : Maphash) (sd : Seed) (S : IntKey → Prop) (n : Nat) (s : St IntKey V) (h : Nat) (t : T IntKey Ptr V) (F : Nat → Prop) : Prop where
  inv : PInv (intCfg .bare sum) sd S n s h t F
  kind : ∀ e ∈ leaves t, Kinded s.mem e

theorem KInv.bound (hi : KInv sum sd S n s h t F) {e : IntKey × Ptr × V} (he : e ∈ leaves t) {a : Nat} (ha : e.2.1 = .blk a) : a < s.next := by
  obtain ⟨lk, hl, hr⟩ := hi.inv.rep
  exact hl.bound a (hr.leaf_foot rfl he ha)

theorem KInv.kinds (hi : KInv sum sd S n s h t F) {s' : St IntKey V} (hk : Kinds s s') {e : IntKey × Ptr × V} (he : e ∈ leaves t) :
    Kinded s'.mem e ∧ cellOf s'.mem e = cellOf s.mem e := (hi.kind e he).kinds hk (fun _ ha => hi.bound he ha)

/-- A new key with a value. -/
theorem KInv.enter {R : Type} {ins : Ins IntKey V R} {rNew : R} {key : IntKey} {v : V} (hi : KInv sum sd S n s h t F)
    (hc : ins.chash = byteChash sum intbytes) (hg : ins.guard = false)
    (h1 : ins.newSlot = (newKv (intCfg .inline sum) key v >>= fun p => pure (p, rNew)))
    (h2 : ins.newSplit = (newKv (intCfg .inline sum) key v >>= fun p => pure (p, rNew)))
    (hS : SepLast (byteStream sum sd intbytes) S) (hph : ∀ x, Phantom x → S x) (hk : S key)
    (hfd : find (nbOf (byteStream sum sd intbytes)) key t 0 = none) :
    (Stuck (byteStream sum sd intbytes) (marksBy (byteStream sum sd intbytes) (cellOf s.mem) t) key ∧
      ∀ fuel, 256 ≤ fuel → Amt.upsert (intCfg .inline sum) h fuel key ins s = .error .diverge) ∨
    ∃ s' n' t' F', Amt.upsert (intCfg .inline sum) h 256 key ins s = .ok (rNew, s') ∧ KInv sum sd S n' s' h t' F' ∧
      Enters (byteStream sum sd intbytes) none (marksBy (byteStream sum sd intbytes) (cellOf s.mem) t, n) key (some v)
        (marksBy (byteStream sum sd intbytes) (cellOf s'.mem) t', n') := by
  have L := int_laws .bare sum sd
  have hnew := cell_ins (sd := sd) hc hg h1 h2
  have hstr : ∀ {s'}, Amt.upsert (intCfg .bare sum) h 256 key ins s = .ok (rNew, s') → Kinds s s' := by
    intro s' e
    rw [hi.inv.upsert_nohit L (Nat.le_refl _) hfd (fun _ => pure rNew)] at e
    refine Struct.upsert _ _ _ _ ⟨fun _ => Struct.pure _, ?_, ?_⟩ s rNew s' e
    · simp only [h1]; exact Struct.bind (Struct.newKv _ _ _) fun _ => Struct.pure _
    · simp only [h2]; exact Struct.bind (Struct.newKv _ _ _) fun _ => Struct.pure _
  simp only [upsert_inline]
  generalize hH : byteStream sum sd intbytes = H at *
  rcases hi.inv.upsert_new L hnew rfl (int_words .bare sum) hS hk hfd (Nat.le_refl 256)
    (fun k x d ph h => hph ph (phantom_of (by nofun) h)) with
    ⟨p, s', F', e1, h3, h4, ⟨a, ha, hv⟩, h5, h6⟩ | ⟨ph, A, w, s', F', e1, h3, h4, ⟨ys, hA⟩, h5, h6, h7⟩ | ⟨e, h3, h4, h5, h6⟩
  · have hks := hstr e1
    refine Or.inr ⟨s', n, _, F', e1, ⟨h5, fun e he => ?_⟩, Or.inl ⟨?_, rfl⟩⟩
    · have hp := tagged_insP_new (p := p) (v := v) (f := id) (g := (key, .nil, v)) (nbOf_lt H) (by omega : 255 < 256) (pre := fun _ => true) rfl h4 hfd h3
      have hp := hp.map (fun x => x.2)
      rw [List.map_cons, tagged_snd, tagged_snd] at hp
      rcases List.mem_cons.1 (hp.subset he) with rfl | he
      · exact ⟨a, ha, Or.inl ⟨v, hv⟩⟩
      · exact (hi.kinds hks he).1
    · have := marksBy_enters (g := cellOf s.mem) (g' := cellOf s'.mem) (p := p) (v := v) (e := (key, .nil, v)) h4 hfd h3 (fun x hx => (hi.kinds hks hx).2)
      rw [cellOf_kv (e := (key, p, v)) ha hv] at this
      exact this
  · have hks := hstr e1
    refine Or.inr ⟨s', n + 1, _, F', e1, ⟨h6, fun e he => ?_⟩, Or.inr ⟨?_, rfl⟩⟩
    · obtain ⟨X, Y, b, b', e0, _, hp1, hp2, _, _⟩ := tagged_insP_hid (n := 256) (p := .nil) (v := v) (f := id) (g := (ph, .blk A, w))
        (nbOf_lt H) (pre := fun _ => true) h3
      have hp1 := congrArg (List.map (fun x => x.2)) hp1
      have hp2 := congrArg (List.map (fun x => x.2)) hp2
      rw [tagged_snd, List.map_append, List.map_cons] at hp1 hp2
      rw [hp2] at he
      simp only [List.mem_append, List.mem_cons] at he
      have hin : ∀ x, x ∈ X.map (fun x => x.2) ∨ x ∈ Y.map (fun x => x.2) → x ∈ leaves t := by
        intro x hx
        rw [hp1, List.mem_append, List.mem_cons]
        rcases hx with hx | hx
        · exact Or.inl hx
        · exact Or.inr (Or.inr hx)
      rcases he with he | rfl | he
      · exact (hi.kinds hks (hin e (Or.inl he))).1
      · exact ⟨A, rfl, Or.inr ⟨ys, hA⟩⟩
      · exact (hi.kinds hks (hin e (Or.inr he))).1
    · have := marksBy_swallowed (g := cellOf s.mem) (g' := cellOf s'.mem) (sum := sum) (st := .bare) (p0 := .nil) (v0 := v) (A := A) (w := w) (by nofun) hi.inv.node h3 h5 h4
        (fun x hx => (hi.kinds hks hx).2)
      rw [cellOf_links (e := (ph, .blk A, w)) rfl hA] at this
      exact this
  · refine Or.inl ⟨⟨?_, marksBy_stuck hi.inv.node h3 h4 h5⟩, h6⟩
    rw [mem_marksBy, hfd]
    exact fun h => h rfl

/-- A new value for a key that is found. -/
theorem KInv.renew (hi : KInv sum sd S n s h t F) {H : IntKey → Nat → BitVec 64} {key : IntKey} {e : Ptr × V} {a : Nat} {w v : V} (hfd : find (nbOf H) key t 0 = some e)
    (ha : e.1 = .blk a) (hm : s.mem a = some (.kv none w)) :
    KInv sum sd S n (s.put a (.kv none v)) h t F ∧
      marksBy H (cellOf (s.put a (.kv none v)).mem) t = Spec.renew (marksBy H (cellOf s.mem) t) key (some v) := by
  obtain ⟨lk, hl, hr⟩ := hi.inv.rep
  have hap := hr.leaves_apart rfl
  have hcell : ∀ x : IntKey × Ptr × V, x.2.1 ≠ .blk a → cellOf (s.put a (.kv none v)).mem x = cellOf s.mem x ∧
      (Kinded s.mem x → Kinded (s.put a (.kv none v)).mem x) := by
    intro x hx
    have hx' : ∀ b, x.2.1 = .blk b → (s.put a (.kv none v)).mem b = s.mem b := by
      intro b hb
      rw [put_mem, if_neg]
      intro e; rw [e] at hb; exact hx hb
    exact ⟨cellOf_congr hx', fun hk => hk.congr hx'⟩
  refine ⟨⟨hi.inv.revalued rfl (Revalued.put hm), fun x hx => ?_⟩, ?_⟩
  · by_cases hxa : x.2.1 = .blk a
    · exact ⟨a, hxa, Or.inl ⟨v, by simp⟩⟩
    · exact (hcell x hxa).2 (hi.kind x hx)
  · obtain ⟨A, C, h1, _⟩ := tags_del (H := H) (p := e.1) (v := e.2) hi.inv.node hfd
    rw [← tagged_snd (nb := nbOf H) t 0 (fun _ => true)] at hap
    change ((tags H t).map _).Pairwise _ at hap
    rw [h1, List.map_append, List.map_cons, List.pairwise_append, List.pairwise_cons] at hap
    obtain ⟨_, ⟨hC, _⟩, hA⟩ := hap
    have hnd := marksBy_nodup H (cellOf s.mem) t
    rw [marksBy, h1, List.map_append, List.map_cons] at hnd
    rw [marksBy, marksBy, h1, List.map_append, List.map_cons, List.map_append, List.map_cons, renew_split hnd,
      cellOf_kv (m := (s.put a (.kv none v)).mem) (k := none) (v := v) ha (by simp)]
    congr 1
    · refine List.map_congr_left (fun x hx => ?_)
      rw [(hcell x.2 _).1]
      intro hxa
      exact hA x.2 (List.mem_map.2 ⟨x, hx, rfl⟩) _ (List.mem_cons_self ..) a hxa ha
    · congr 1
      refine List.map_congr_left (fun x hx => ?_)
      rw [(hcell x.2 _).1]
      intro hxa
      exact hC x.2 (List.mem_map.2 ⟨x, hx, rfl⟩) a ha hxa

/-! ### Iteration -/

/-- The callback of `All`. -/
def logCall {K : Type} (f : List (K × V) → K → V → V × Bool) (log : List (K × V)) (k : K) (p : Ptr) : M K V (List (K × V) × Bool) :=
  loadKv p >>= fun kv => storeVal p (f log k kv.2).1 >>= fun _ => pure (log ++ [(k, kv.2)], (f log k kv.2).2)

theorem logCall_same {K : Type} {f : List (K × V) → K → V → V × Bool} {log : List (K × V)} {k : K} {p : Ptr} {s s' : St K V} {r : List (K × V) × Bool}
    (h : logCall f log k p s = .ok (r, s')) (a : Nat) : SameKey (s.mem a) (s'.mem a) := by
  cases p with
  | nil => cases h
  | blk b =>
    cases hb : s.mem b with
    | none =>
      have : loadKv (.blk b) s = .error .dangling := by simp [loadKv, hb]
      rw [logCall, bind_err this] at h; cases h
    | some o =>
      cases o with
      | links xs =>
        have : loadKv (.blk b) s = .error .wrongType := by simp [loadKv, hb]
        rw [logCall, bind_err this] at h; cases h
      | kv k' v =>
        rw [logCall, bind_ok (loadKv_ok hb), bind_ok (storeVal_ok hb)] at h
        cases h
        rw [put_mem]
        split
        · rename_i hab
          rw [hab, hb]
          exact Or.inr ⟨_, _, _, rfl, rfl⟩
        · exact Or.inl rfl

theorem logCall_along {K : Type} (f : List (K × V) → K → V → V × Bool) {h : Nat} {F : Nat → Prop} {s₀ : St K V} (es : List (K × Ptr × V)) :
    ∀ (u : List (K × V)) (s : St K V), Still h F s₀ s → Along h F s₀ (logCall f) es u s := by
  induction es with
  | nil => intro u s _; trivial
  | cons e es ih =>
    intro u s hs r s₁ h1
    have h2 : Still h F s₀ s₁ := fun a ha => (hs a ha).trans (logCall_same h1 a)
    exact ⟨h2, fun _ => ih _ _ h2⟩

/-- The calls, one after the other. -/
theorem callAll_visitP {K : Type} [DecidableEq K] (f : List (K × V) → K → V → V × Bool) (xs : List (Bool × K × Ptr × V)) :
    ∀ (log : List (K × V)) (s : St K V), (xs.map fun x => x.2).Pairwise (fun x y => ∀ a, x.2.1 = .blk a → y.2.1 ≠ .blk a) →
    (∀ x ∈ xs, Kinded s.mem x.2) →
    match visitP f log (xs.map fun x => (x.1, x.2.1, cellOf s.mem x.2)) with
    | none => callAll (logCall f) (xs.map fun x => x.2) log s = .error .wrongType
    | some (l, Y) => ∃ b s', callAll (logCall f) (xs.map fun x => x.2) log s = .ok ((l, b), s') ∧ Revalued s s' ∧
        (∀ a, (∀ x ∈ xs, x.2.2.1 ≠ .blk a) → s'.mem a = s.mem a) ∧ (∀ x ∈ xs, Kinded s'.mem x.2) ∧
        Y = xs.map (fun x => (x.1, x.2.1, cellOf s'.mem x.2)) := by
  induction xs with
  | nil =>
    intro log s _ _
    exact ⟨true, s, rfl, Revalued.refl s, fun _ _ => rfl, fun _ hx => (by cases hx), rfl⟩
  | cons x xs ih =>
    intro log s hap hk
    obtain ⟨b, k, p, v0⟩ := x
    rw [List.map_cons] at hap
    obtain ⟨hap1, hap2⟩ := List.pairwise_cons.1 hap
    have hx := hk (b, k, p, v0) (List.mem_cons_self ..)
    rw [List.map_cons, List.map_cons]
    simp only
    cases hc : cellOf s.mem (k, p, v0) with
    | none =>
      obtain ⟨a, ys, h1, h2⟩ := hx.none hc
      simp only at h1
      subst h1
      rw [visitP]
      simp only
      have : loadKv (.blk a) s = .error .wrongType := by simp [loadKv, h2]
      rw [callAll]
      refine bind_err ?_
      rw [logCall]
      exact bind_err this
    | some v =>
      obtain ⟨a, h1, h2⟩ := hx.some hc
      simp only at h1
      subst h1
      have hcall : logCall f log k (.blk a) s = .ok ((log ++ [(k, v)], (f log k v).2), s.put a (.kv none (f log k v).1)) := by
        rw [logCall, bind_ok (loadKv_ok h2), bind_ok (storeVal_ok h2)]; rfl
      have hrest : ∀ x ∈ xs, ∀ a', x.2.2.1 = .blk a' → (s.put a (.kv none (f log k v).1)).mem a' = s.mem a' := by
        intro x hx1 a' ha'
        rw [put_mem, if_neg]
        intro haa
        rw [haa] at ha'
        exact hap1 x.2 (List.mem_map.2 ⟨x, hx1, rfl⟩) a rfl ha'
      have hsame : xs.map (fun x => (x.1, x.2.1, cellOf (s.put a (.kv none (f log k v).1)).mem x.2)) = xs.map (fun x => (x.1, x.2.1, cellOf s.mem x.2)) :=
        List.map_congr_left (fun x hx => by rw [cellOf_congr (hrest x hx)])
      have hkind : ∀ x ∈ xs, Kinded (s.put a (.kv none (f log k v).1)).mem x.2 := fun x hx =>
        (hk x (List.mem_cons_of_mem _ hx)).congr (hrest x hx)
      rw [visitP]
      by_cases hgo : (f log k v).2 = true
      · rw [if_pos hgo]
        have hih := ih (log ++ [(k, v)]) (s.put a (.kv none (f log k v).1)) hap2 hkind
        rw [hsame] at hih
        have hrun : callAll (logCall f) ((k, .blk a, v0) :: xs.map fun x => x.2) log s =
            callAll (logCall f) (xs.map fun x => x.2) (log ++ [(k, v)]) (s.put a (.kv none (f log k v).1)) := by
          rw [callAll, bind_ok hcall]
          simp only [hgo, if_true]
        cases hv : visitP f (log ++ [(k, v)]) (xs.map fun x => (x.1, x.2.1, cellOf s.mem x.2)) with
        | none =>
          rw [hv] at hih
          simp only [Option.map_none]
          rw [hrun]
          exact hih
        | some r =>
          obtain ⟨l, Y⟩ := r
          rw [hv] at hih
          simp only [Option.map_some]
          obtain ⟨b', s', e1, e2, e3, e4, e5⟩ := hih
          have hpa : s'.mem a = some (.kv none (f log k v).1) := by
            rw [e3 a (fun x hx => hap1 x.2 (List.mem_map.2 ⟨x, hx, rfl⟩) a rfl)]
            simp
          refine ⟨b', s', ?_, (Revalued.put h2).trans e2, ?_, ?_, ?_⟩
          · rw [hrun]; exact e1
          · intro a' ha'
            rw [e3 a' (fun x hx => ha' x (List.mem_cons_of_mem _ hx)), put_mem, if_neg]
            rintro rfl
            exact ha' (b, k, .blk a', v0) (List.mem_cons_self ..) rfl
          · intro x hx
            rcases List.mem_cons.1 hx with rfl | hx
            · exact ⟨a, rfl, Or.inl ⟨_, hpa⟩⟩
            · exact e4 x hx
          · rw [List.map_cons, e5]
            simp only
            rw [cellOf_kv (e := (k, .blk a, v0)) rfl hpa]
      · rw [if_neg hgo]
        refine ⟨false, s.put a (.kv none (f log k v).1), ?_, Revalued.put h2, ?_, ?_, ?_⟩
        · rw [callAll, bind_ok hcall]
          simp only [hgo]
          rfl
        · intro a' ha'
          rw [put_mem, if_neg]
          rintro rfl
          exact ha' (b, k, .blk a', v0) (List.mem_cons_self ..) rfl
        · intro x hx
          rcases List.mem_cons.1 hx with rfl | hx
          · exact ⟨a, rfl, Or.inl ⟨(f log k v).1, by simp⟩⟩
          · exact hkind x hx
        · rw [List.map_cons, hsame]
          simp only
          rw [cellOf_kv (m := (s.put a (.kv none (f log k v).1)).mem) (e := (k, .blk a, v0)) (v := (f log k v).1) (k := none) rfl (by simp)]

/-! ### One call on `IntMap` -/

theorem KInv.loadKv (hi : KInv sum sd S n s h t F) {H : IntKey → Nat → BitVec 64} {k : IntKey} {e : Ptr × V} (hfd : find (nbOf H) k t 0 = some e) :
    (cellOf s.mem (k, e.1, e.2) = none ∧ Amt.loadKv e.1 s = .error .wrongType ∧ ∀ w, Amt.storeVal e.1 w s = .error .wrongType) ∨
    ∃ a v, cellOf s.mem (k, e.1, e.2) = some v ∧ e.1 = .blk a ∧ s.mem a = some (.kv none v) ∧ Amt.loadKv e.1 s = .ok ((none, v), s) ∧
      ∀ w, Amt.storeVal e.1 w s = .ok ((), s.put a (.kv none w)) := by
  have he : (k, e.1, e.2) ∈ leaves t :=
    mem_tagged_leaves ((mem_tagged_find (nbOf_lt H) (pre := fun _ => true) (p := e.1) (v := e.2) rfl).2 hfd)
  have hk := hi.kind _ he
  cases hc : cellOf s.mem (k, e.1, e.2) with
  | none =>
    obtain ⟨a, ys, h1, h2⟩ := hk.none hc
    refine Or.inl ⟨rfl, ?_, fun w => ?_⟩
    · simp only at h1; rw [h1]; simp [Amt.loadKv, h2]
    · simp only at h1; rw [h1]; simp [Amt.storeVal, h2]
  | some v =>
    obtain ⟨a, h1, h2⟩ := hk.some hc
    simp only at h1
    exact Or.inr ⟨a, v, rfl, h1, h2, by rw [h1]; exact loadKv_ok h2, fun w => by rw [h1]; exact storeVal_ok h2⟩

theorem int_map_step [Inhabited V] (hi : KInv sum sd S n s h t F)
    (hS : SepLast (byteStream sum sd intbytes) S) (hph : ∀ x, Phantom x → S x) (op : MOp IntKey V) (hop : ∀ k ∈ op.stores, S k) :
    (MHangs (byteStream sum sd intbytes) (marksBy (byteStream sum sd intbytes) (cellOf s.mem) t, n) op ∧
      ∀ fuel, 256 ≤ fuel → (IntMap (V := V) sum).exec fuel (some h) op s = .error .diverge) ∨
    (MConfuses (marksBy (byteStream sum sd intbytes) (cellOf s.mem) t, n) op ∧
      ∀ fuel, 256 ≤ fuel → (IntMap (V := V) sum).exec fuel (some h) op s = .error .wrongType) ∨
    ∃ o s' n' t' F', (∀ fuel, 256 ≤ fuel → (IntMap (V := V) sum).exec fuel (some h) op s = .ok (o, s')) ∧
      KInv sum sd S n' s' h t' F' ∧
      MPStep (byteStream sum sd intbytes) (marksBy (byteStream sum sd intbytes) (cellOf s.mem) t, n) op o
        (marksBy (byteStream sum sd intbytes) (cellOf s'.mem) t', n') := by
  have L := int_laws .bare sum sd
  have hf : 256 ≤ 256 := Nat.le_refl _
  have hx : ∀ {o s'}, (IntMap (V := V) sum).exec 256 (some h) op s = .ok (o, s') →
      ∀ fuel, 256 ≤ fuel → (IntMap (V := V) sum).exec fuel (some h) op s = .ok (o, s') :=
    fun e fuel hf => (MapImpl.exec_ext (IntMap_mono sum) hf (some h) op).ok e
  have hxe : (IntMap (V := V) sum).exec 256 (some h) op s = .error .wrongType →
      ∀ fuel, 256 ≤ fuel → (IntMap (V := V) sum).exec fuel (some h) op s = .error .wrongType := by
    intro e fuel hf
    rcases MapImpl.exec_ext (IntMap_mono sum) hf (some h) op s with h1 | h1
    · rw [e] at h1; cases h1
    · rw [h1, e]
  have hPtr : ∀ k, (IntMap (V := V) sum).Ptr 256 (some h) k s = .ok ((find (nbOf (byteStream sum sd intbytes)) k t 0).map (fun e => e.1), s) := by
    intro k
    have := hi.inv.lookup L rfl hf k
    rw [← lookup_inline] at this
    exact this
  have hget := marksBy_get (byteStream sum sd intbytes) (cellOf s.mem) t
  have hnew := fun {R : Type} {ins : Ins IntKey V R} {rNew : R} {key : IntKey} {v : V} => hi.enter (ins := ins) (rNew := rNew) (key := key) (v := v)
  have hdel := fun k => hi.inv.delete (fuel := 256) L (skip := (IntMap (V := V) sum).delSkip) (fun _ => rfl) k hf
  have hhit := fun {R : Type} {ins : Ins IntKey V R} {key : IntKey} {p : Ptr} {v : V} =>
    hi.inv.upsert_hit (ins := ins) (key := key) (p := p) (v := v) L rfl hf
  generalize hH : byteStream sum sd intbytes = H at *
  cases op with
  | get k =>
    cases hfd : find (nbOf H) k t 0 with
    | none =>
      refine Or.inr (Or.inr ⟨.pair default false, s, n, t, F, hx ?_, hi, rfl, ?_⟩)
      · rw [MapImpl.exec, MapImpl.Get, bind_assoc_M, bind_ok (hPtr k), hfd]; rfl
      · simp only [hget, hfd, Option.map_none]
    | some e =>
      rcases hi.loadKv hfd with ⟨h1, h2, _⟩ | ⟨a, v, h1, _, _, h2, _⟩
      · refine Or.inr (Or.inl ⟨?_, hxe ?_⟩)
        · show _ = _
          rw [hget, hfd]; exact congrArg some h1
        · rw [MapImpl.exec, MapImpl.Get, bind_assoc_M, bind_ok (hPtr k), hfd]
          exact bind_err (bind_err h2)
      · refine Or.inr (Or.inr ⟨.pair v true, s, n, t, F, hx ?_, hi, rfl, ?_⟩)
        · rw [MapImpl.exec, MapImpl.Get, bind_assoc_M, bind_ok (hPtr k), hfd]
          simp only [Option.map_some]
          rw [bind_assoc_M, bind_ok h2]; rfl
        · simp only; rw [hget, hfd, Option.map_some, h1]
  | val k =>
    cases hfd : find (nbOf H) k t 0 with
    | none =>
      refine Or.inr (Or.inr ⟨.one default, s, n, t, F, hx ?_, hi, rfl, ?_⟩)
      · rw [MapImpl.exec, MapImpl.Val, bind_assoc_M, bind_ok (hPtr k), hfd]; rfl
      · simp only [hget, hfd, Option.map_none]
    | some e =>
      rcases hi.loadKv hfd with ⟨h1, h2, _⟩ | ⟨a, v, h1, _, _, h2, _⟩
      · refine Or.inr (Or.inl ⟨?_, hxe ?_⟩)
        · show _ = _
          rw [hget, hfd]; exact congrArg some h1
        · rw [MapImpl.exec, MapImpl.Val, bind_assoc_M, bind_ok (hPtr k), hfd]
          exact bind_err (bind_err h2)
      · refine Or.inr (Or.inr ⟨.one v, s, n, t, F, hx ?_, hi, rfl, ?_⟩)
        · rw [MapImpl.exec, MapImpl.Val, bind_assoc_M, bind_ok (hPtr k), hfd]
          simp only [Option.map_some]
          rw [bind_assoc_M, bind_ok h2]; rfl
        · simp only; rw [hget, hfd, Option.map_some, h1]
  | ptr k =>
    cases hfd : find (nbOf H) k t 0 with
    | none =>
      refine Or.inr (Or.inr ⟨.opt none, s, n, t, F, hx ?_, hi, rfl, ?_⟩)
      · rw [MapImpl.exec, bind_ok (hPtr k), hfd]; rfl
      · simp only [hget, hfd, Option.map_none]
    | some e =>
      rcases hi.loadKv hfd with ⟨h1, h2, _⟩ | ⟨a, v, h1, _, _, h2, _⟩
      · refine Or.inr (Or.inl ⟨?_, hxe ?_⟩)
        · show _ = _
          rw [hget, hfd]; exact congrArg some h1
        · rw [MapImpl.exec, bind_ok (hPtr k), hfd]
          exact bind_err h2
      · refine Or.inr (Or.inr ⟨.opt (some v), s, n, t, F, hx ?_, hi, rfl, ?_⟩)
        · rw [MapImpl.exec, bind_ok (hPtr k), hfd]
          simp only [Option.map_some]
          rw [bind_ok h2]; rfl
        · simp only; rw [hget, hfd, Option.map_some, h1]
  | write k w =>
    cases hfd : find (nbOf H) k t 0 with
    | none =>
      refine Or.inr (Or.inr ⟨.unit, s, n, t, F, hx ?_, hi, rfl, ?_⟩)
      · rw [MapImpl.exec, bind_ok (hPtr k), hfd]; rfl
      · simp only [hget, hfd, Option.map_none]
    | some e =>
      rcases hi.loadKv hfd with ⟨h1, _, h2⟩ | ⟨a, v, h1, h3, h4, _, h2⟩
      · refine Or.inr (Or.inl ⟨?_, hxe ?_⟩)
        · show _ = _
          rw [hget, hfd]; exact congrArg some h1
        · rw [MapImpl.exec, bind_ok (hPtr k), hfd]
          exact bind_err (h2 w)
      · obtain ⟨h5, h6⟩ := hi.renew (v := w) hfd h3 h4
        refine Or.inr (Or.inr ⟨.unit, _, n, t, F, hx ?_, h5, rfl, ?_⟩)
        · rw [MapImpl.exec, bind_ok (hPtr k), hfd]
          simp only [Option.map_some]
          rw [bind_ok (h2 w)]; rfl
        · simp only; rw [hget, hfd, Option.map_some, h1]; simp only; rw [h6]
  | set k w =>
    have hk := hop k (by simp [MOp.stores])
    cases hfd : find (nbOf H) k t 0 with
    | none =>
      rcases hnew (ins := (IntMap (V := V) sum).setI k w) rfl rfl rfl rfl hS hph hk hfd with ⟨h1, h2⟩ | ⟨s', n', t', F', e1, h3, h4⟩
      · refine Or.inl ⟨h1, fun fuel hf => ?_⟩
        rw [MapImpl.exec]
        exact bind_err (h2 fuel hf)
      · refine Or.inr (Or.inr ⟨.unit, s', n', t', F', hx ?_, h3, rfl, ?_⟩)
        · have : (IntMap (V := V) sum).Set 256 (some h) k w s = .ok ((), s') := e1
          rw [MapImpl.exec, bind_ok this]; rfl
        · simp only; rw [hget, hfd]; exact h4
    | some e =>
      have hset : (IntMap (V := V) sum).Set 256 (some h) k w s = storeVal e.1 w s := by
        have := hhit (ins := (IntMap (V := V) sum).setI k w) (p := e.1) (v := e.2) hfd
        rw [← upsert_inline] at this
        exact this
      rcases hi.loadKv hfd with ⟨h1, _, h2⟩ | ⟨a, v, h1, h3, h4, _, h2⟩
      · refine Or.inr (Or.inl ⟨?_, hxe ?_⟩)
        · show _ = _
          rw [hget, hfd]; exact congrArg some h1
        · rw [MapImpl.exec]
          exact bind_err (by rw [hset]; exact h2 w)
      · obtain ⟨h5, h6⟩ := hi.renew (v := w) hfd h3 h4
        refine Or.inr (Or.inr ⟨.unit, _, n, t, F, hx ?_, h5, rfl, ?_⟩)
        · have : (IntMap (V := V) sum).Set 256 (some h) k w s = .ok ((), s.put a (.kv none w)) := by rw [hset]; exact h2 w
          rw [MapImpl.exec, bind_ok this]; rfl
        · simp only; rw [hget, hfd, Option.map_some, h1]; simp only; rw [h6]
  | mod k f =>
    have hk := hop k (by simp [MOp.stores])
    cases hfd : find (nbOf H) k t 0 with
    | none =>
      rcases hnew (ins := (IntMap (V := V) sum).modI k f) (rNew := [(default, false)]) rfl rfl rfl rfl hS hph hk hfd with ⟨h1, h2⟩ | ⟨s', n', t', F', e1, h3, h4⟩
      · refine Or.inl ⟨h1, fun fuel hf => ?_⟩
        rw [MapImpl.exec]
        exact bind_err (h2 fuel hf)
      · refine Or.inr (Or.inr ⟨.calls [(default, false)], s', n', t', F', hx ?_, h3, ?_⟩)
        · have : (IntMap (V := V) sum).Mod 256 (some h) k f s = .ok ([(default, false)], s') := e1
          rw [MapImpl.exec, bind_ok this]; rfl
        · rw [MPStep]; simp only; rw [hget, hfd]; exact ⟨trivial, h4⟩
    | some e =>
      have hset : (IntMap (V := V) sum).Mod 256 (some h) k f s = (Amt.loadKv e.1 >>= fun kv => storeVal e.1 (f kv.2 true) >>= fun _ => pure [(kv.2, true)]) s := by
        have := hhit (ins := (IntMap (V := V) sum).modI k f) (p := e.1) (v := e.2) hfd
        rw [← upsert_inline] at this
        exact this
      rcases hi.loadKv hfd with ⟨h1, h2, _⟩ | ⟨a, v, h1, h3, h4, h7, h2⟩
      · refine Or.inr (Or.inl ⟨?_, hxe ?_⟩)
        · show _ = _
          rw [hget, hfd]; exact congrArg some h1
        · rw [MapImpl.exec]
          exact bind_err (by rw [hset]; exact bind_err h2)
      · obtain ⟨h5, h6⟩ := hi.renew (v := f v true) hfd h3 h4
        refine Or.inr (Or.inr ⟨.calls [(v, true)], _, n, t, F, hx ?_, h5, ?_⟩)
        · have : (IntMap (V := V) sum).Mod 256 (some h) k f s = .ok ([(v, true)], s.put a (.kv none (f v true))) := by
            rw [hset, bind_ok h7, bind_ok (h2 _)]; rfl
          rw [MapImpl.exec, bind_ok this]; rfl
        · rw [MPStep]; simp only; rw [hget, hfd, Option.map_some, h1]; simp only; rw [h6]; exact ⟨trivial, rfl⟩
  | len =>
    refine Or.inr (Or.inr ⟨.num _, s, n, t, F, hx ?_, hi, rfl, rfl⟩)
    simp only
    rw [length_marksBy, ← size_eq_length t 0, ← hi.inv.len]; rfl
  | dep =>
    obtain ⟨q, hq⟩ := Dep_run s h
    refine Or.inr (Or.inr ⟨.rat q, s, n, t, F, hx ?_, hi, ⟨q, rfl⟩, rfl⟩)
    rw [MapImpl.exec, bind_ok hq]; rfl
  | del k =>
    have hsim := hdel k
    have hex : ∀ s', Amt.delete (intCfg .bare sum) h 256 (IntMap (V := V) sum).delSkip k s = .ok ((), s') →
        (IntMap (V := V) sum).exec 256 (some h) (.del k) s = .ok (.unit, s') := by
      intro s' e
      rw [← delete_inline] at e
      have : (IntMap (V := V) sum).Del 256 (some h) k s = .ok ((), s') := e
      rw [MapImpl.exec, bind_ok this]; rfl
    cases hfd : find (nbOf H) k t 0 with
    | none =>
      rw [hfd] at hsim
      refine Or.inr (Or.inr ⟨.unit, s, n, t, F, hx (hex s hsim), hi, rfl, ?_, rfl⟩)
      rw [Spec.Leaves, if_neg]
      rw [mem_marksBy]; exact fun h => h hfd
    | some e =>
      rw [hfd] at hsim
      obtain ⟨s', F', e1, e2, e3⟩ := hsim
      have hks := Struct.delete _ _ _ _ _ _ _ _ e1
      refine Or.inr (Or.inr ⟨.unit, s', n, _, F', hx (hex s' e1), ⟨e2, fun x hx => ?_⟩, rfl, ?_, rfl⟩)
      · refine (hi.kinds hks ?_).1
        obtain ⟨A, C, h1, h2⟩ := tags_del (H := H) (p := e.1) (v := e.2) hi.inv.node hfd
        have h3 := h2.snd
        rw [tags, tagged_snd] at h3
        rw [← h3] at hx
        rw [← tagged_snd (nb := nbOf H) t 0 (fun _ => true)]
        show x ∈ (tags H t).map _
        rw [h1]
        simp only [List.map_append, List.map_cons, List.mem_append, List.mem_cons] at hx ⊢
        rcases hx with hx | hx
        · exact Or.inl hx
        · exact Or.inr (Or.inr hx)
      · rw [Spec.Leaves, if_pos (by rw [mem_marksBy, hfd]; nofun)]
        exact ⟨marksBy_del hi.inv.node hfd (fun x hx => (hi.kinds hks hx).2), marksBy_nodup _ _ _⟩
  | all f =>
    obtain ⟨lk, hl, hr⟩ := hi.inv.rep
    have hscan : (IntMap (V := V) sum).All 256 (some h) (fun log k v => (log ++ [(k, v)], f log k v)) [] s =
        (callAll (logCall f) (leaves t) [] >>= fun r => pure r.1) s := by
      rw [MapImpl.All_eq, MapImpl.AllWith, deref, pure_bind_M]
      refine bind_congr_at ?_ (fun _ _ _ => rfl)
      exact scan_calls L (F₀ := F) (h := h) (s₀ := s) (s := s) (u := []) (logCall f) (Or.inl rfl) t hi.inv.node hl hr hi.inv.ht (by omega : 255 < 256 + 0)
        (Or.inl rfl) (fun _ h => h) (Still.refl _ _ _) (logCall_along f _ _ _ (Still.refl _ _ _))
    have hap := hr.leaves_apart rfl
    have hlv : leaves t = (tags H t).map (fun x => x.2) := (tagged_snd (nb := nbOf H) t 0 (fun _ => true)).symm
    rw [hlv] at hap
    have hcall := callAll_visitP f (tags H t) [] s hap (fun x hx => hi.kind x.2 (mem_tagged_leaves (b := x.1) hx))
    rw [← hlv] at hcall
    cases hv : visitP f [] (marksBy H (cellOf s.mem) t) with
    | none =>
      rw [marksBy] at hv
      rw [hv] at hcall
      refine Or.inr (Or.inl ⟨⟨_, List.Perm.refl _, by rw [← hv]; rfl⟩, hxe ?_⟩)
      rw [MapImpl.exec]
      refine bind_err ?_
      rw [hscan]
      exact bind_err hcall
    | some r =>
      obtain ⟨l, Y⟩ := r
      have hv' := hv
      rw [marksBy] at hv
      rw [hv] at hcall
      obtain ⟨b, s', e1, e2, e3, e4, e5⟩ := hcall
      refine Or.inr (Or.inr ⟨.log l, s', n, t, F, hx ?_, ⟨hi.inv.revalued rfl e2, fun x hx => ?_⟩, rfl, _, l, List.Perm.refl _, ?_, rfl⟩)
      · have : (IntMap (V := V) sum).All 256 (some h) (fun log k v => (log ++ [(k, v)], f log k v)) [] s = .ok (l, s') := by
          rw [hscan, bind_ok e1]; rfl
        rw [MapImpl.exec, bind_ok this]; rfl
      · rw [hlv] at hx
        obtain ⟨y, hy, rfl⟩ := List.mem_map.1 hx
        exact e4 y hy
      · rw [hv', e5]; rfl

theorem int_map_run [Inhabited V] (hS : SepLast (byteStream sum sd intbytes) S) (hph : ∀ x, Phantom x → S x) (ops : List (MOp IntKey V)) :
    ∀ {n : Nat} {s : St IntKey V} {t : T IntKey Ptr V} {F : Nat → Prop},
    KInv sum sd S n s h t F → (∀ k, Stores ops k → S k) →
    ∃ r, MPRun (byteStream sum sd intbytes) (marksBy (byteStream sum sd intbytes) (cellOf s.mem) t, n) ops r ∧
      Becomes (fun fuel => (IntMap (V := V) sum).run fuel (some h) ops s) r := by
  induction ops with
  | nil =>
    intro n s t F hi _
    exact ⟨.returns [], rfl, s, fun _ _ => rfl⟩
  | cons op ops ih =>
    intro n s t F hi hks
    rcases int_map_step hi hS hph op (fun k hk => hks k ⟨op, by simp, hk⟩) with ⟨h1, h2⟩ | ⟨h1, h2⟩ | ⟨o, s1, n1, t1, F1, e1, i1, st1⟩
    · refine ⟨.hangs, Or.inl ⟨rfl, h1⟩, fun fuel hf => ?_⟩
      dsimp only
      rw [MapImpl.run]
      exact bind_err (h2 fuel hf)
    · refine ⟨.confuses, Or.inr (Or.inl ⟨rfl, h1⟩), fun fuel hf => ?_⟩
      dsimp only
      rw [MapImpl.run]
      exact bind_err (h2 fuel hf)
    · obtain ⟨r, h3, h4⟩ := ih i1 fun k hk => hks k (by obtain ⟨op', h1, h2⟩ := hk; exact ⟨op', by simp [h1], h2⟩)
      refine ⟨r.cons o, Or.inr (Or.inr ⟨o, _, r, rfl, st1, h3⟩), ?_⟩
      cases r with
      | returns os =>
        obtain ⟨s', h5⟩ := h4
        exact ⟨s', fun fuel hf => by dsimp only; rw [MapImpl.run, bind_ok (e1 fuel hf), bind_ok (h5 fuel hf)]; rfl⟩
      | hangs => exact fun fuel hf => by dsimp only; rw [MapImpl.run, bind_ok (e1 fuel hf)]; exact bind_err (h4 fuel hf)
      | confuses => exact fun fuel hf => by dsimp only; rw [MapImpl.run, bind_ok (e1 fuel hf)]; exact bind_err (h4 fuel hf)

/-- C61.  Every history of calls on an `IntMap`, whatever the keys, provided that their digests for iteration 15
differ from each other and from those of the phantoms: the calls answer as specified, or one of them hangs, or takes an array
of links for a value, as specified.  There is no other fault. -/
theorem C61_IntMap [Inhabited V] (sum : Maphash) (sd : Seed) {ops : List (MOp IntKey V)}
    (hS : LastApart (byteStream sum sd intbytes) (fun k => Stores ops k ∨ Phantom k)) (s : St IntKey V) :
    ∃ r, MPRun (byteStream sum sd intbytes) ([], 0) ops r ∧
      Becomes (fun fuel => ((IntMap (V := V) sum).session fuel sd ops s).map (fun x => (x.1.2, x.2))) r := by
  obtain ⟨s1, e1, i1⟩ := PInv.new (V := V) (intCfg .bare sum) sd (fun k => Stores ops k ∨ Phantom k) s
  obtain ⟨r, h1, h2⟩ := int_map_run (sepLast_of hS) (fun _ h => Or.inr h) ops ⟨i1, by intro e he; rw [leaves_node] at he; simp [leaves] at he⟩
    (fun _ h => Or.inl h)
  have h0 : marksBy (byteStream sum sd intbytes) (cellOf s1.mem) (.node 0#32 fun _ => .empty) = [] := by
    have : (leaves (V := V) (P := Ptr) (K := IntKey) (.node 0#32 fun _ => .empty)) = [] := by rw [leaves_node]; simp [leaves]
    rw [marksBy, List.map_eq_nil_iff]
    exact List.map_eq_nil_iff.1 ((tagged_snd (nb := nbOf (byteStream sum sd intbytes)) (.node 0#32 fun _ => .empty) 0 (fun _ => true)).trans this)
  rw [h0] at h1
  refine ⟨r, h1, ?_⟩
  cases r with
  | returns os =>
    obtain ⟨s', h3⟩ := h2
    exact ⟨s', fun fuel hf => by dsimp only; rw [MapImpl.session, MapImpl.New, bind_ok e1, bind_ok (h3 fuel hf)]; rfl⟩
  | hangs => exact fun fuel hf => by dsimp only; rw [MapImpl.session, MapImpl.New, bind_ok e1, bind_err (h2 fuel hf)]; rfl
  | confuses => exact fun fuel hf => by dsimp only; rw [MapImpl.session, MapImpl.New, bind_ok e1, bind_err (h2 fuel hf)]; rfl

end

end Amt

/-! ### No key comes from anywhere else, and no confusion without wide keys -/

namespace Spec

/-- What a call on a map says about keys: those it reports are in `S`. -/
def MReports {K V : Type} (S : K → Prop) : MOp K V → MOut K V → Prop
  | .get k, o => ∀ v, o = .pair v true → S k
  | .ptr k, o => ∀ v, o = .opt (some v) → S k
  | .mod k _, o => ∀ v, o = .calls [(v, true)] → S k
  | .all _, o => ∃ l, o = .log l ∧ ∀ e ∈ l, S e.1
  | _, _ => True

end Spec

namespace Amt
open T Spec

section
variable {V : Type} {H : IntKey → Nat → BitVec 64} {S : IntKey → Prop}

theorem mem_of_get {K V : Type} [DecidableEq K] : ∀ {m : FMap K V} {k : K} {v : V}, m.get k = some v → (k, v) ∈ m := by
  intro m
  induction m with
  | nil => intro k v h; cases h
  | cons e m ih =>
    intro k v h
    obtain ⟨k', v'⟩ := e
    rw [FMap.get] at h
    split at h
    · next hk => cases h; rw [hk]; simp
    · exact List.mem_cons_of_mem _ (ih h)

theorem get_seen_mem {K V : Type} [DecidableEq K] {X : Marked K V} {k : K} {v : V} (h : (seen X).get k = some v) : (true, k, v) ∈ X := by
  have h1 := mem_of_get h
  simp only [seen, List.mem_map, List.mem_filter] at h1
  obtain ⟨⟨b, e⟩, ⟨h2, h3⟩, rfl⟩ := h1
  simp only at h3
  rw [h3] at h2
  exact h2

theorem mem_renew {K V : Type} [DecidableEq K] {X : Marked K V} {k : K} {v : V} {e : Bool × K × V} (h : e ∈ renew X k v) :
    e ∈ X ∨ e = (true, k, v) := by
  rw [renew] at h
  obtain ⟨x, h1, rfl⟩ := List.mem_map.1 h
  split
  · next hc => exact Or.inr (by simp_all)
  · exact Or.inl h1

/-- Visiting changes values only, and only calls `f` on entries that have one. -/
theorem visitP_mem (f : List (IntKey × V) → IntKey → V → V × Bool) : ∀ {E Y : Marked IntKey (Option V)} {log l : List (IntKey × V)},
    visitP f log E = some (l, Y) →
    (∀ e ∈ l, e ∈ log ∨ ∃ b, (b, e.1, some e.2) ∈ E) ∧ ∀ y ∈ Y, y ∈ E ∨ ∃ v w, y = (y.1, y.2.1, some w) ∧ (y.1, y.2.1, some v) ∈ E := by
  intro E
  induction E with
  | nil =>
    intro Y log l h
    simp only [visitP, Option.some.injEq, Prod.mk.injEq] at h
    obtain ⟨rfl, rfl⟩ := h
    exact ⟨fun e h => Or.inl h, nofun⟩
  | cons x E ih =>
    intro Y log l h
    obtain ⟨b, k, v⟩ := x
    cases v with
    | none => cases h
    | some v =>
      rw [visitP] at h
      split at h
      · cases hv : visitP f (log ++ [(k, v)]) E with
        | none => rw [hv] at h; cases h
        | some r =>
          rw [hv] at h
          simp only [Option.map_some, Option.some.injEq, Prod.mk.injEq] at h
          obtain ⟨rfl, rfl⟩ := h
          obtain ⟨h1, h2⟩ := ih (Y := r.2) (l := r.1) hv
          refine ⟨fun e he => ?_, fun y hy => ?_⟩
          · rcases h1 e he with h3 | ⟨b', h3⟩
            · simp only [List.mem_append, List.mem_singleton] at h3
              rcases h3 with h3 | rfl
              · exact Or.inl h3
              · exact Or.inr ⟨b, by simp⟩
            · exact Or.inr ⟨b', by simp [h3]⟩
          · rcases List.mem_cons.1 hy with rfl | hy
            · exact Or.inr ⟨v, _, rfl, by simp⟩
            · rcases h2 y hy with h3 | ⟨v', w, h3, h4⟩
              · exact Or.inl (by simp [h3])
              · exact Or.inr ⟨v', w, h3, by simp [h4]⟩
      · simp only [Option.some.injEq, Prod.mk.injEq] at h
        obtain ⟨rfl, rfl⟩ := h
        refine ⟨fun e he => ?_, fun y hy => ?_⟩
        · simp only [List.mem_append, List.mem_singleton] at he
          rcases he with h3 | rfl
          · exact Or.inl h3
          · exact Or.inr ⟨b, by simp⟩
        · rcases List.mem_cons.1 hy with rfl | hy
          · exact Or.inr ⟨v, _, rfl, by simp⟩
          · exact Or.inl (by simp [hy])

theorem leaves_mem {X X' : Marked IntKey V} {k : IntKey} (h : Leaves H X k X') {e : Bool × IntKey × V} (he : e ∈ X') : ∃ b, (b, e.2) ∈ X := by
  rw [Leaves] at h
  split at h
  · have hs : ∀ e ∈ strike X k, e ∈ X := fun e he => (List.mem_filter.1 he).1
    rcases h.1 with h2 | ⟨x, v, R, h2, h3, _⟩
    · exact ⟨e.1, hs _ (h2.symm.subset he)⟩
    · have := h2.subset he
      simp only [List.mem_cons] at this
      rcases this with rfl | this
      · exact ⟨false, hs _ (h3.symm.subset (by simp))⟩
      · exact ⟨e.1, hs _ (h3.symm.subset (by simp [this]))⟩
  · rw [h] at he; exact ⟨e.1, he⟩

/-- The entries that have a value have keys in `S`. -/
def Backed (S : IntKey → Prop) (X : Marked IntKey (Option V)) : Prop := ∀ b k v, (b, k, some v) ∈ X → S k

theorem Enters.backed {X X' : Marked IntKey (Option V) × Nat} {k : IntKey} {v : V} (hX : Backed S X.1) (hk : S k)
    (h : Enters H none X k (some v) X') : Backed S X'.1 := by
  intro b k' v' hm
  rcases h with ⟨h2, _⟩ | ⟨⟨d, b1, x, v1, b', R, _, h3, _, _, _, _, h4, _⟩, _⟩
  · have := h2.subset hm
    simp only [List.mem_cons, Prod.mk.injEq] at this
    rcases this with ⟨_, rfl, _⟩ | this
    · exact hk
    · exact hX _ _ _ this
  · have := h4.subset hm
    simp only [List.mem_cons, Prod.mk.injEq] at this
    rcases this with ⟨_, _, h5⟩ | this
    · cases h5
    · exact hX b k' v' (h3.symm.subset (List.mem_cons_of_mem _ this))

theorem Backed.renew {X : Marked IntKey (Option V)} (hX : Backed S X) {k : IntKey} {v w : V} (hk : (seen X).get k = some (some w)) :
    Backed S (renew X k (some v)) := by
  intro b k' v' hm
  rcases mem_renew hm with h | h
  · exact hX _ _ _ h
  · cases h; exact hX _ _ _ (get_seen_mem hk)

theorem mpStep_keys [Inhabited V] {X X' : Marked IntKey (Option V) × Nat} {op : MOp IntKey V} {o : MOut IntKey V}
    (hX : Backed S X.1) (h : MPStep H X op o X') :
    MReports S op o ∧ ∀ S' : IntKey → Prop, (∀ k, S k → S' k) → (∀ k ∈ op.stores, S' k) → Backed S' X'.1 := by
  have mono : ∀ {X : Marked IntKey (Option V)}, Backed S X → ∀ S' : IntKey → Prop, (∀ k, S k → S' k) → Backed S' X :=
    fun h S' hs b k v hm => hs k (h b k v hm)
  have hget : ∀ {k v}, (seen X.1).get k = some (some v) → S k := fun h => hX _ _ _ (get_seen_mem h)
  cases op with
  | get k =>
    obtain ⟨rfl, h1⟩ := h
    refine ⟨fun v hv => ?_, fun S' hs _ => mono hX S' hs⟩
    subst hv
    split at h1
    · cases h1
    · next hg => exact hget hg
    · cases h1
  | val k => exact ⟨trivial, fun S' hs _ => by rw [h.1]; exact mono hX S' hs⟩
  | ptr k =>
    obtain ⟨rfl, h1⟩ := h
    refine ⟨fun v hv => ?_, fun S' hs _ => mono hX S' hs⟩
    subst hv
    split at h1
    · cases h1
    · next hg => exact hget hg
    · cases h1
  | set k v =>
    refine ⟨trivial, fun S' hs hk => ?_⟩
    have h1 := h.2
    split at h1
    · exact Enters.backed (mono hX S' hs) (hk k (by simp [MOp.stores])) h1
    · next hg => rw [h1]; exact mono (hX.renew hg) S' hs
    · cases h1
  | mod k f =>
    rw [MPStep] at h
    split at h
    · obtain ⟨rfl, h1⟩ := h
      refine ⟨fun v hv => (by cases hv), fun S' hs hk => ?_⟩
      exact Enters.backed (mono hX S' hs) (hk k (by simp [MOp.stores])) h1
    · next hg =>
      obtain ⟨rfl, h1⟩ := h
      refine ⟨fun v _ => hget hg, fun S' hs hk => ?_⟩
      rw [h1]; exact mono (hX.renew hg) S' hs
    · cases h
  | del k =>
    refine ⟨trivial, fun S' hs _ b k' v hm => ?_⟩
    obtain ⟨b', h1⟩ := leaves_mem h.2.1 hm
    exact hs _ (hX _ _ _ h1)
  | len => obtain ⟨rfl, rfl⟩ := h; exact ⟨trivial, fun S' hs _ => mono hX S' hs⟩
  | dep => obtain ⟨_, rfl⟩ := h; exact ⟨trivial, fun S' hs _ => mono hX S' hs⟩
  | write k v =>
    refine ⟨trivial, fun S' hs hk => ?_⟩
    have h1 := h.2
    split at h1
    · rw [h1]; exact mono hX S' hs
    · next hg => rw [h1]; exact mono (hX.renew hg) S' hs
    · cases h1
  | all f =>
    obtain ⟨_, order, l, h1, h2, rfl⟩ := h
    obtain ⟨h3, h4⟩ := visitP_mem f h2
    refine ⟨⟨l, rfl, fun e he => ?_⟩, fun S' hs _ b k v hm => hs k ?_⟩
    · rcases h3 e he with h5 | ⟨b, h5⟩
      · cases h5
      · exact hX _ _ _ (h1.subset h5)
    · rcases h4 _ hm with h5 | ⟨v', w, h5, h6⟩
      · exact hX _ _ _ (h1.subset h5)
      · exact hX _ _ _ (h1.subset h6)

theorem MReports.mono {K V : Type} {S S' : K → Prop} (h : ∀ k, S k → S' k) {op : MOp K V} {o : MOut K V} (h1 : MReports S op o) : MReports S' op o := by
  cases op with
  | get k => exact fun v e => h k (h1 v e)
  | ptr k => exact fun v e => h k (h1 v e)
  | mod k f => exact fun v e => h k (h1 v e)
  | all f => obtain ⟨l, h2, h3⟩ := h1; exact ⟨l, h2, fun e he => h _ (h3 e he)⟩
  | _ => trivial

theorem mpRun_keys [Inhabited V] {ops : List (MOp IntKey V)} :
    ∀ {S : IntKey → Prop} {X : Marked IntKey (Option V) × Nat} {outs : List (MOut IntKey V)}, Backed S X.1 →
    MPRun H X ops (.returns outs) → ∀ (i : Nat) op o, ops[i]? = some op → outs[i]? = some o →
    MReports (fun k => Stores (ops.take i) k ∨ S k) op o := by
  induction ops with
  | nil => intro S X outs _ _ i op o h; simp at h
  | cons op ops ih =>
    intro S X outs hX h i op' o' h1 h2
    rcases h with ⟨h, _⟩ | ⟨h, _⟩ | ⟨o, X₁, r', h3, h4, h5⟩
    · cases h
    · cases h
    · cases r' with
      | hangs => cases h3
      | confuses => cases h3
      | returns os =>
        cases h3
        have h6 := mpStep_keys hX h4
        cases i with
        | zero =>
          simp at h1 h2
          rw [← h1, ← h2]
          exact MReports.mono (fun k hk => Or.inr hk) h6.1
        | succ i =>
          refine MReports.mono ?_ (ih (h6.2 (fun k => k ∈ op.stores ∨ S k) (fun _ h => Or.inr h) (fun _ h => Or.inl h)) h5 i op' o' (by simpa using h1)
            (by simpa using h2))
          intro k hk
          rcases hk with ⟨op₁, h7, h8⟩ | h7 | h7
          · exact Or.inl ⟨op₁, by simp [h7], h8⟩
          · exact Or.inl ⟨op, by simp, h7⟩
          · exact Or.inr h7

/-- C61, keys: a key that an `IntMap` reports to have, be it to `Get`, `Ptr`, `Mod` or in a visit by `All`, was stored before. -/
theorem C61_keys [Inhabited V] (sum : Maphash) (sd : Seed) {ops : List (MOp IntKey V)}
    (hS : LastApart (byteStream sum sd intbytes) (fun k => Stores ops k ∨ Phantom k)) (s : St IntKey V) {fuel : Nat} (hf : 256 ≤ fuel)
    {h : Option Nat} {outs : List (MOut IntKey V)} {s' : St IntKey V} (he : (IntMap (V := V) sum).session fuel sd ops s = .ok ((h, outs), s')) :
    ∀ (i : Nat) op o, ops[i]? = some op → outs[i]? = some o → MReports (Stores (ops.take i)) op o := by
  obtain ⟨r, h1, h2⟩ := C61_IntMap sum sd hS s
  cases r with
  | returns os =>
    obtain ⟨s1, h3⟩ := h2
    have h4 := h3 fuel hf
    dsimp only at h4
    rw [he] at h4
    cases h4
    intro i op o h5 h6
    exact MReports.mono (fun k hk => hk.resolve_right id) (mpRun_keys (S := fun _ => False) (by intro b k v hm; cases hm) h1 i op o h5 h6)
  | hangs => have h4 := h2 fuel hf; dsimp only at h4; rw [he] at h4; cases h4
  | confuses => have h4 := h2 fuel hf; dsimp only at h4; rw [he] at h4; cases h4

/-! Keys whose upper half is zero -/

/-- Entries with a value, and a narrow key. -/
def Narrow (X : Marked IntKey (Option V) × Nat) : Prop := X.2 = 0 ∧ ∀ e ∈ X.1, upper e.2.1 = 0#32 ∧ e.2.2 ≠ none

theorem Enters.narrow {X X' : Marked IntKey (Option V) × Nat} {k : IntKey} {v : V} (hX : Narrow X) (hk : upper k = 0#32)
    (h : Enters H none X k (some v) X') : Narrow X' := by
  rcases h with ⟨h2, h0⟩ | ⟨⟨d, b1, x, v1, b', R, _, h3, _, _, _, h5, h4, _⟩, _⟩
  · refine ⟨h0.trans hX.1, fun e hm => ?_⟩
    have := h2.subset hm
    simp only [List.mem_cons] at this
    rcases this with rfl | this
    · exact ⟨hk, nofun⟩
    · exact hX.2 _ this
  · rw [(hX.2 (b1, x, v1) (h3.symm.subset (by simp))).1] at h5
    simp at h5

theorem Narrow.renew {X : Marked IntKey (Option V) × Nat} (hX : Narrow X) {k : IntKey} {v w : V} (hk : (seen X.1).get k = some (some w)) :
    Narrow (renew X.1 k (some v), X.2) := by
  refine ⟨hX.1, fun e hm => ?_⟩
  rcases mem_renew hm with h | rfl
  · exact hX.2 _ h
  · exact ⟨(hX.2 _ (get_seen_mem hk)).1, nofun⟩

theorem mpStep_narrow [Inhabited V] {X X' : Marked IntKey (Option V) × Nat} {op : MOp IntKey V} {o : MOut IntKey V}
    (hX : Narrow X) (hk : ∀ k ∈ op.stores, upper k = 0#32) (h : MPStep H X op o X') : Narrow X' := by
  cases op with
  | get k => rw [h.1]; exact hX
  | val k => rw [h.1]; exact hX
  | ptr k => rw [h.1]; exact hX
  | set k v =>
    have h1 := h.2
    split at h1
    · exact Enters.narrow hX (hk k (by simp [MOp.stores])) h1
    · next hg => rw [h1]; exact hX.renew hg
    · cases h1
  | mod k f =>
    rw [MPStep] at h
    split at h
    · exact Enters.narrow hX (hk k (by simp [MOp.stores])) h.2
    · next hg => rw [h.2]; exact hX.renew hg
    · cases h
  | del k =>
    refine ⟨h.2.2.trans hX.1, fun e he => ?_⟩
    obtain ⟨b', h1⟩ := leaves_mem h.2.1 he
    exact hX.2 (b', e.2) h1
  | len => obtain ⟨rfl, rfl⟩ := h; exact hX
  | dep => obtain ⟨_, rfl⟩ := h; exact hX
  | write k v =>
    have h1 := h.2
    split at h1
    · rw [h1]; exact hX
    · next hg => rw [h1]; exact hX.renew hg
    · cases h1
  | all f =>
    obtain ⟨h0, order, l, h1, h2, rfl⟩ := h
    obtain ⟨h3, h4⟩ := visitP_mem f h2
    refine ⟨h0.trans hX.1, fun e he => ?_⟩
    rcases h4 _ he with h5 | ⟨v', w, h5, h6⟩
    · exact hX.2 _ (h1.subset h5)
    · refine ⟨(hX.2 _ (h1.subset h6)).1, ?_⟩
      rw [h5]; nofun

theorem visitP_some (f : List (IntKey × V) → IntKey → V → V × Bool) : ∀ {E : Marked IntKey (Option V)} {log : List (IntKey × V)},
    (∀ e ∈ E, e.2.2 ≠ none) → visitP f log E ≠ none := by
  intro E
  induction E with
  | nil => intro log _; nofun
  | cons x E ih =>
    intro log h
    obtain ⟨b, k, v⟩ := x
    cases v with
    | none => exact absurd rfl (h (b, k, none) (by simp))
    | some v =>
      rw [visitP]
      split
      · rw [Ne, Option.map_eq_none_iff]; exact ih fun e he => h e (by simp [he])
      · nofun

theorem mpRun_narrow [Inhabited V] {ops : List (MOp IntKey V)} : ∀ {X : Marked IntKey (Option V) × Nat}, Narrow X →
    (∀ k, Stores ops k → upper k = 0#32) → ¬ MPRun H X ops .confuses := by
  induction ops with
  | nil => intro X _ _ h; cases h
  | cons op ops ih =>
    intro X hX hk h
    rcases h with ⟨h, _⟩ | ⟨_, h⟩ | ⟨o, X₁, r', h3, h4, h5⟩
    · cases h
    · have hn : ∀ {k}, (seen X.1).get k = some none → False := fun h => (hX.2 _ (get_seen_mem h)).2 rfl
      cases op with
      | all f =>
        obtain ⟨order, h1, h2⟩ := h
        exact visitP_some f (fun e he => (hX.2 e (h1.subset he)).2) h2
      | len => exact h
      | dep => exact h
      | del k => exact h
      | _ => exact hn h
    · cases r' with
      | hangs => cases h3
      | returns os => cases h3
      | confuses =>
        exact ih (mpStep_narrow hX (fun k hk' => hk k ⟨op, by simp, hk'⟩) h4)
          (fun k hk' => hk k (by obtain ⟨op', h1, h2⟩ := hk'; exact ⟨op', by simp [h1], h2⟩)) h5

/-- C61, confusion: an array of links is taken for a value only if a key was stored that is not between 0 and 2³²-1. -/
theorem C61_confusion [Inhabited V] (sum : Maphash) (sd : Seed) {ops : List (MOp IntKey V)}
    (hS : LastApart (byteStream sum sd intbytes) (fun k => Stores ops k ∨ Phantom k)) (s : St IntKey V) {fuel : Nat} (hf : 256 ≤ fuel)
    (he : (IntMap (V := V) sum).session fuel sd ops s = .error .wrongType) : ∃ k, Stores ops k ∧ 2 ^ 32 ≤ k.toNat := by
  obtain ⟨r, h1, h2⟩ := C61_IntMap sum sd hS s
  cases r with
  | returns os => obtain ⟨s1, h3⟩ := h2; have h4 := h3 fuel hf; dsimp only at h4; rw [he] at h4; cases h4
  | hangs => have h4 := h2 fuel hf; dsimp only at h4; rw [he] at h4; cases h4
  | confuses =>
    refine Classical.byContradiction fun hc => mpRun_narrow (X := ([], 0)) ⟨rfl, by simp⟩ (fun k hk => ?_) h1
    have h3 : k.toNat < 2 ^ 32 := Nat.lt_of_not_le fun h => hc ⟨k, hk, h⟩
    apply BitVec.eq_of_toNat_eq
    simp [upper, Nat.shiftRight_eq_div_pow, Nat.div_eq_of_lt h3]

/-! ### The hypotheses can be met -/

/-- A history that ends in confusion, as `C24_IntMap_refuted` shows: here is what C61 says of it. -/
example : ∃ r, MPRun (byteStream toyHash 0#64 intbytes) ([], 0) [.set (-1#64) 7, .set 255#64 8, .all fun _ _ v => (v, true)] r ∧
    Becomes (fun fuel => ((IntMap (V := Nat) toyHash).session fuel 0#64 [.set (-1#64) 7, .set 255#64 8, .all fun _ _ v => (v, true)] St.init).map
      (fun x => (x.1.2, x.2))) r :=
  C61_IntMap toyHash 0#64 (fun a b _ _ hab => by rw [toyHash_int, toyHash_int]; exact hab) St.init

/-- There is no other way to explain that confusion than by a key of more than 32 bits. -/
example : ∃ k, Stores (V := Nat) [.set (-1#64) 7, .set 255#64 8, .all fun _ _ v => (v, true)] k ∧ 2 ^ 32 ≤ k.toNat :=
  C61_confusion toyHash 0#64 (fun a b _ _ hab => by rw [toyHash_int, toyHash_int]; exact hab) St.init (Nat.le_refl 256)
    (MapImpl.fault_of (V := Nat) (IntMap_mono toyHash) (f := 256) (by decide) (by decide +kernel) (Nat.le_refl _))

/-- The step in which the two keys are lost, and the confusion. -/
example : MPRun (V := Nat) (byteStream toyHash 0#64 intbytes) ([(true, -1#64, some 7)], 0) [.set 255#64 8, .all fun _ _ v => (v, true)] .confuses := by
  refine Or.inr (Or.inr ⟨.unit, ([(false, 0x0000800100008001#64, none)], 1), .confuses, rfl, ⟨rfl, ?_⟩,
    Or.inr (Or.inl ⟨rfl, _, List.Perm.refl _, rfl⟩)⟩)
  show Enters _ _ _ _ _ _
  refine Or.inr ⟨⟨0, true, -1#64, some 7, false, [], by decide, List.Perm.refl _, by decide, ?_, by decide +kernel, by decide +kernel, ?_, ?_⟩, rfl⟩
  · refine ⟨fun _ j hj => ?_, fun _ => rfl⟩
    obtain rfl : j = 0 := by omega
    decide +kernel
  · rw [show phantomOf (nibble (byteStream toyHash 0#64 intbytes) 255#64 (0 + 2)) (nibble (byteStream toyHash 0#64 intbytes) (-1#64) (0 + 2)) =
      0x0000800100008001#64 by decide +kernel]
  · refine ⟨fun h => (by cases h), fun h => absurd (h 0 (by decide)) (by decide +kernel)⟩

end

end Amt
