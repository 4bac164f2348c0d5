/-
The generic containers on histories in which `Set`, `Mod` or `Add` loses keys: what is still true of them.
-/
import Verif.LooseSim
import Verif.PropsHang

set_option linter.unusedVariables false
set_option linter.unusedSectionVars false

/-! ### Specification -/

namespace Spec

section
variable {K V : Type} [DecidableEq K]

/-- The content of a container some of whose entries are out of reach: the entries, each with a mark that says
whether searches find it. -/
abbrev Marked (K V : Type) := List (Bool × K × V)

/-- What searches find. -/
def seen (E : Marked K V) : FMap K V := (E.filter (fun e => e.1)).map (fun e => e.2)

/-- All that is stored, found or not. -/
def stored (E : Marked K V) : FMap K V := E.map (fun e => e.2)

/-- `Y` is `X`, in some order, except that one entry, whose key satisfies `Q`, may have gone out of reach. -/
def Hides (Q : K → Prop) (X Y : Marked K V) : Prop :=
  Y.Perm X ∨ ∃ k v R, X.Perm ((true, k, v) :: R) ∧ Y.Perm ((false, k, v) :: R) ∧ Q k

/-- A new value for the key `k`, where searches find it. -/
def renew (E : Marked K V) (k : K) (v : V) : Marked K V :=
  E.map (fun e => if e.1 = true ∧ e.2.1 = k then (true, k, v) else e)

/-- Without the entry of `k` that searches find. -/
def strike (E : Marked K V) (k : K) : Marked K V := E.filter (fun e => !(e.1 && decide (e.2.1 = k)))

/-- Storing `v` under `k`.  If `k` is new, this may hide a key `x` that agrees with `k` on a non-empty prefix of its
nibbles, `d+1` of them, if `wrong x d` is not the digest of `x` that belongs to depth `d`. -/
def Puts (H : K → Nat → BitVec 64) (wrong : K → Nat → BitVec 64) (E : Marked K V) (k : K) (v : V) (E' : Marked K V) : Prop :=
  if k ∈ (seen E).keys then E' = renew E k v
  else ∃ Y, Hides (fun x => ∃ d, Agree H k x (d + 1) ∧ wrong x d ≠ H x (d / 16)) E Y ∧ E'.Perm ((true, k, v) :: Y)

variable [Inhabited V]

/-- `GStep H E op o E'`: on the content `E`, the call `op` may return `o` and leave the content `E'`. -/
def GStep (H : K → Nat → BitVec 64) (E : Marked K V) : MOp K V → MOut K V → Marked K V → Prop
  | .get k, o, E' => o = .pair (((seen E).get k).getD default) ((seen E).get k).isSome ∧ E' = E
  | .val k, o, E' => o = .one (((seen E).get k).getD default) ∧ E' = E
  | .ptr k, o, E' => o = .opt ((seen E).get k) ∧ E' = E
  | .set k v, o, E' => o = .unit ∧ Puts H (fun x d => H x (d % 16)) E k v E'
  | .mod k f, o, E' =>
    match (seen E).get k with
    | some v => o = .calls [(v, true)] ∧ Puts H (fun _ d => H k (d % 16)) E k (f v true) E'
    | none => o = .calls [(default, false)] ∧ Puts H (fun _ d => H k (d % 16)) E k (f default false) E'
  | .del k, o, E' => o = .unit ∧
    if k ∈ (seen E).keys then Hides (fun x => Agree H k x 1) E' (strike E k) ∧ (seen E').keys.Nodup else E' = E
  | .len, o, E' => o = .num (BitVec.ofNat 64 E.length) ∧ E' = E
  | .dep, o, E' => (∃ q, o = .rat q) ∧ E' = E
  | .write k v, o, E' => o = .unit ∧ E' = renew E k v
  | .all f, o, E' => ∃ order, order.Perm E ∧ o = .log (visit f [] (stored order)).1 ∧
      E'.map (fun e => e.1) = order.map (fun e => e.1) ∧ stored E' = (visit f [] (stored order)).2

/-- A sequence of calls. -/
def GRun (H : K → Nat → BitVec 64) : Marked K V → List (MOp K V) → List (MOut K V) → Marked K V → Prop
  | E, [], os, E' => os = [] ∧ E' = E
  | E, op :: ops, os, E' => ∃ o os' E₁, os = o :: os' ∧ GStep H E op o E₁ ∧ GRun H E₁ ops os' E'

end

section
variable {K : Type} [DecidableEq K]

/-- As `GStep`, for sets: the entries carry no values. -/
def SGStep (H : K → Nat → BitVec 64) (E : Marked K Unit) : SOp K → SOut K → Marked K Unit → Prop
  | .has k, o, E' => o = .bool (decide (k ∈ (seen E).keys)) ∧ E' = E
  | .add k, o, E' => o = .unit ∧ Puts H (fun x d => H x (d % 16)) E k () E'
  | .del k, o, E' => o = .unit ∧
    if k ∈ (seen E).keys then Hides (fun x => Agree H k x 1) E' (strike E k) ∧ (seen E').keys.Nodup else E' = E
  | .len, o, E' => o = .num (BitVec.ofNat 64 E.length) ∧ E' = E
  | .dep, o, E' => (∃ q, o = .rat q) ∧ E' = E
  | .all f, o, E' => E' = E ∧ ∃ order, order.Perm E ∧ o = .log (visitS f [] (stored order).keys)

/-- A sequence of calls. -/
def SGRun (H : K → Nat → BitVec 64) : Marked K Unit → List (SOp K) → List (SOut K) → Marked K Unit → Prop
  | E, [], os, E' => os = [] ∧ E' = E
  | E, op :: ops, os, E' => ∃ o os' E₁, os = o :: os' ∧ SGStep H E op o E₁ ∧ SGRun H E₁ ops os' E'

end

/-- Any two different keys in `S` have different digests for some iteration below `m`, and for some iteration from
`m` to 15. -/
def TwiceApart {K : Type} (H : K → Nat → BitVec 64) (S : K → Prop) (m : Nat) : Prop :=
  ∀ a b, S a → S b → a ≠ b → (∃ i, i < m ∧ H a i ≠ H b i) ∧ ∃ i, m ≤ i ∧ i ≤ 15 ∧ H a i ≠ H b i

end Spec

namespace Amt
open T Spec

section
variable {K V : Type} [DecidableEq K]

/-! ### Marked contents -/

theorem seen_append (A C : Marked K V) : seen (A ++ C) = seen A ++ seen C := by simp [seen]

theorem seen_keys_nodup_split {A C : Marked K V} {k : K} {v : V} (h : (seen (A ++ (true, k, v) :: C)).keys.Nodup) :
    (∀ e ∈ A, ¬ (e.1 = true ∧ e.2.1 = k)) ∧ ∀ e ∈ C, ¬ (e.1 = true ∧ e.2.1 = k) := by
  have h' : (FMap.keys (seen A) ++ k :: FMap.keys (seen C)).Nodup := by
    simpa [seen, FMap.keys] using h
  rw [List.nodup_append] at h'
  obtain ⟨h1, h2, h3⟩ := h'
  constructor
  · rintro ⟨b, x, w⟩ he ⟨hb, hx⟩
    simp only at hb hx
    subst hb; subst hx
    refine h3 x ?_ x (by simp) rfl
    exact FMap.mem_keys.2 ⟨w, List.mem_map.2 ⟨_, List.mem_filter.2 ⟨he, rfl⟩, rfl⟩⟩
  · rintro ⟨b, x, w⟩ he ⟨hb, hx⟩
    simp only at hb hx
    subst hb; subst hx
    refine (List.nodup_cons.1 h2).1 ?_
    exact FMap.mem_keys.2 ⟨w, List.mem_map.2 ⟨_, List.mem_filter.2 ⟨he, rfl⟩, rfl⟩⟩

theorem renew_split {A C : Marked K V} {k : K} {v w : V} (h : (seen (A ++ (true, k, v) :: C)).keys.Nodup) :
    renew (A ++ (true, k, v) :: C) k w = A ++ (true, k, w) :: C := by
  obtain ⟨h1, h2⟩ := seen_keys_nodup_split h
  have hid : ∀ L : Marked K V, (∀ e ∈ L, ¬ (e.1 = true ∧ e.2.1 = k)) →
      L.map (fun e => if e.1 = true ∧ e.2.1 = k then (true, k, w) else e) = L := by
    intro L hL
    conv => rhs; rw [← List.map_id L]
    exact List.map_congr_left (fun e he => by rw [if_neg (hL e he)]; rfl)
  rw [renew, List.map_append, List.map_cons, hid A h1, hid C h2]
  simp

theorem strike_split {A C : Marked K V} {k : K} {v : V} (h : (seen (A ++ (true, k, v) :: C)).keys.Nodup) :
    strike (A ++ (true, k, v) :: C) k = A ++ C := by
  obtain ⟨h1, h2⟩ := seen_keys_nodup_split h
  have hid : ∀ L : Marked K V, (∀ e ∈ L, ¬ (e.1 = true ∧ e.2.1 = k)) →
      L.filter (fun e => !(e.1 && decide (e.2.1 = k))) = L := by
    intro L hL
    rw [List.filter_eq_self]
    intro e he
    have := hL e he
    cases hb : e.1 <;> simp_all
  rw [strike, List.filter_append, List.filter_cons, hid A h1, hid C h2]
  simp

/-- The content that a trie represents. -/
def marks (H : K → Nat → BitVec 64) (t : T K Ptr V) : Marked K V := (tags H t).map (fun x => (x.1, x.2.1, x.2.2.2))

variable {c : Cfg K} {sd : Seed} {H : K → Nat → BitVec 64} {M : Nat} {S : K → Prop} {s : St K V} {h : Nat} {t : T K Ptr V}
  {F : Nat → Prop} {fuel : Nat}

theorem marks_seen_nodup (H : K → Nat → BitVec 64) (t : T K Ptr V) : (seen (marks H t)).keys.Nodup := by
  have := tagged_nodup (nb := nbOf H) (t := t) (d := 0) (pre := fun _ => true)
  rw [marks, seen, FMap.keys, List.filter_map, List.map_map, List.map_map]
  exact this

theorem seen_marks_get (H : K → Nat → BitVec 64) (t : T K Ptr V) (k : K) :
    (seen (marks H t)).get k = (find (nbOf H) k t 0).map (fun e => e.2) := by
  cases hf : find (nbOf H) k t 0 with
  | some e =>
    rw [Option.map_some, FMap.get_eq_some (marks_seen_nodup H t)]
    have := (mem_tagged_find (nbOf_lt H) (pre := fun _ => true) (p := e.1) (v := e.2) rfl).2 hf
    exact List.mem_map.2 ⟨(true, k, e.2), List.mem_filter.2 ⟨List.mem_map.2 ⟨_, this, rfl⟩, rfl⟩, rfl⟩
  | none =>
    rw [Option.map_none, FMap.get_eq_none]
    intro hm
    obtain ⟨v, hv⟩ := FMap.mem_keys.1 hm
    obtain ⟨⟨b, k', v'⟩, h1, h2⟩ := List.mem_map.1 hv
    obtain ⟨h3, h4⟩ := List.mem_filter.1 h1
    obtain ⟨⟨b', k'', p, v''⟩, h5, h6⟩ := List.mem_map.1 h3
    simp only [Prod.mk.injEq] at h2 h6
    simp only at h4
    obtain ⟨rfl, rfl⟩ := h2
    obtain ⟨h7, rfl, rfl⟩ := h6
    rw [h4] at h7
    subst h7
    rw [(mem_tagged_find (nbOf_lt H) rfl).1 h5] at hf
    cases hf

theorem mem_seen_marks (H : K → Nat → BitVec 64) (t : T K Ptr V) (k : K) :
    k ∈ (seen (marks H t)).keys ↔ find (nbOf H) k t 0 ≠ none := by
  constructor
  · intro hm hf
    refine FMap.get_eq_none.1 ?_ hm
    rw [seen_marks_get, hf, Option.map_none]
  · intro hf
    refine Classical.byContradiction fun hm => hf ?_
    have := FMap.get_eq_none.2 hm
    rwa [seen_marks_get, Option.map_eq_none_iff] at this

theorem stored_marks (H : K → Nat → BitVec 64) (t : T K Ptr V) : stored (marks H t) = absT t := by
  rw [stored, marks, List.map_map, absT, ← tagged_snd (nb := nbOf H) t 0 (fun _ => true), List.map_map]
  rfl

theorem length_marks (H : K → Nat → BitVec 64) (t : T K Ptr V) : (marks H t).length = (leaves t).length := by
  rw [← tagged_snd (nb := nbOf H) t 0 (fun _ => true), marks, List.length_map, List.length_map]
  rfl

/-- Forgetting the cells. -/
theorem Fade.hides {Q : K × Ptr × V → Prop} {Q' : K → Prop} {X Y : List (Bool × K × Ptr × V)} (hf : Fade Q X Y)
    (hQ : ∀ e, Q e → Q' e.1) :
    Hides Q' (X.map fun x => (x.1, x.2.1, x.2.2.2)) (Y.map fun x => (x.1, x.2.1, x.2.2.2)) := by
  rcases hf with rfl | ⟨A, e, C, rfl, rfl, hq⟩
  · exact Or.inl (List.Perm.refl _)
  · refine Or.inr ⟨e.1, e.2.2, (A ++ C).map fun x => (x.1, x.2.1, x.2.2.2), ?_, ?_, hQ e hq⟩
    · simp only [List.map_append, List.map_cons]; exact List.perm_middle
    · simp only [List.map_append, List.map_cons]; exact List.perm_middle

theorem agree_of_nb {k x : K} {d : Nat} (h : ∀ j, j < d → nbOf H x j = nbOf H k j) : Agree H k x d := by
  intro j hj
  rw [← nbOf_eq_nibble, ← nbOf_eq_nibble]
  exact (h j hj).symm

theorem marks_del {k : K} {e : Ptr × V} (hn : t.isNode = true) (hfd : find (nbOf H) k t 0 = some e) :
    Hides (fun x => Agree H k x 1) (marks H (delRoot (nbOf H) k t)) (strike (marks H t) k) := by
  obtain ⟨A, C, h1, h2⟩ := tags_del (H := H) (p := e.1) (v := e.2) hn hfd
  have hnd := marks_seen_nodup H t
  rw [marks, h1, List.map_append, List.map_cons] at hnd
  have hst : strike (marks H t) k = (A ++ C).map fun x => (x.1, x.2.1, x.2.2.2) := by
    rw [marks, h1, List.map_append, List.map_cons, strike_split hnd, List.map_append]
  rw [hst]
  refine h2.hides ?_
  intro e' he'
  refine agree_of_nb (fun j hj => ?_)
  have : j = 0 := by omega
  subst this
  exact he'

/-- Storing a value under a key. -/
theorem LInv.puts {k : K} {p : Ptr} {v : V} {f : V → V} {D wrong : K → Nat → BitVec 64} (hi : LInv c sd H M S s h t F)
    (hS : Sep2 H M S) (hM : M % 16 = 0) (hM0 : 0 < M) (hk : S k) (hD : ∀ x d, D x d = wrong x d) :
    Puts H wrong (marks H t) k (match (seen (marks H t)).get k with | some w => f w | none => v)
      (marks H (insW (nbOf H) (altNb H D) 256 k p v v f t 0)) := by
  have hg := seen_marks_get H t k
  rw [Puts]
  split
  · rename_i hm
    rw [mem_seen_marks] at hm
    cases hf : find (nbOf H) k t 0 with
    | none => exact absurd hf hm
    | some e =>
      rw [hf, Option.map_some] at hg
      simp only [hg]
      obtain ⟨A, C, h1, h2⟩ := tags_ins_old (H := H) (D := D) (q := p) (v' := v) (f := f) (p := e.1) (v := e.2) hf
      have hnd := marks_seen_nodup H t
      rw [marks, h1, List.map_append, List.map_cons] at hnd
      rw [marks, h2, marks, h1, List.map_append, List.map_cons, List.map_append, List.map_cons, renew_split hnd]
  · rename_i hm
    rw [mem_seen_marks] at hm
    have hf : find (nbOf H) k t 0 = none := Classical.byContradiction hm
    rw [hf, Option.map_none] at hg
    simp only [hg]
    obtain ⟨Y, h1, h2⟩ := tags_ins_new (p := p) (v := v) (f := f) (D := D) hi.node (hi.slotSep hS hM hM0 hk D) hf
    refine ⟨_, h2.hides ?_, h1.map _⟩
    rintro e ⟨d, _, h3, h4⟩
    exact ⟨d, agree_of_nb h3, by rw [← hD]; exact h4⟩

end

/-! ### One call on a map -/

section
variable {K V : Type} [DecidableEq K] [Inhabited V] {I : KeyImpl K} {sd : Seed} {M : Nat} {S : K → Prop} {s : St K V}
  {h : Nat} {t : T K Ptr V} {F : Nat → Prop} {fuel : Nat}

theorem generic_map_step (heq : ∀ a b, I.equal a b = true ↔ a = b)
    (hi : LInv (GenericMap (V := V) I).cfg sd (fun k n => I.hash k sd n) M S s h t F) (hf : 256 ≤ fuel)
    (hS : Sep2 (fun k n => I.hash k sd n) M S) (hM : M % 16 = 0) (hM0 : 0 < M) (op : MOp K V) (hop : ∀ k ∈ op.stores, S k) :
    ∃ o s' t' F', (GenericMap I).exec fuel (some h) op s = .ok (o, s') ∧
      LInv (GenericMap (V := V) I).cfg sd (fun k n => I.hash k sd n) M S s' h t' F' ∧ Chg s s' h F F' ∧
      GStep (fun k n => I.hash k sd n) (marks (fun k n => I.hash k sd n) t) op o (marks (fun k n => I.hash k sd n) t') := by
  have ok := GenericMap_ok (V := V) (sd := sd) I heq
  have hPtr : ∀ k, (GenericMap (V := V) I).Ptr fuel (some h) k s
      = .ok ((find (nbOf fun k n => I.hash k sd n) k t 0).map (fun e => e.1), s) := hi.lookup ok.laws (ok.laws.keep ok.store) hf
  have hload : ∀ {k p v}, find (nbOf fun k n => I.hash k sd n) k t 0 = some (p, v) → ∃ o, loadKv p s = .ok ((o, v), s) :=
    fun hfd => (hi.cell ok.laws (find_mem (nbOf_lt _) hfd)).load ok.store
  have hz : ∀ k, (GenericMap (V := V) I).cfg.encT k = 0#32 := fun _ => rfl
  cases op with
  | get k =>
    refine ⟨.pair _ _, s, t, F, ?_, hi, Chg.refl _ _ _, ⟨rfl, rfl⟩⟩
    rw [MapImpl.exec, MapImpl.Get, bind_assoc_M, bind_ok (hPtr k), seen_marks_get]
    cases hfd : find (nbOf fun k n => I.hash k sd n) k t 0 with
    | none => rfl
    | some e =>
      obtain ⟨o, e1⟩ := hload hfd
      simp only [Option.map_some]
      rw [bind_assoc_M, bind_ok e1]
      rfl
  | val k =>
    refine ⟨.one _, s, t, F, ?_, hi, Chg.refl _ _ _, ⟨rfl, rfl⟩⟩
    rw [MapImpl.exec]
    simp only [MapImpl.Val]
    rw [bind_assoc_M, bind_ok (hPtr k), seen_marks_get]
    cases hfd : find (nbOf fun k n => I.hash k sd n) k t 0 with
    | none => rfl
    | some e =>
      obtain ⟨o, e1⟩ := hload hfd
      simp only [Option.map_some]
      rw [bind_assoc_M, bind_ok e1]
      rfl
  | ptr k =>
    refine ⟨.opt _, s, t, F, ?_, hi, Chg.refl _ _ _, ⟨rfl, rfl⟩⟩
    rw [MapImpl.exec, bind_ok (hPtr k), seen_marks_get]
    cases hfd : find (nbOf fun k n => I.hash k sd n) k t 0 with
    | none => rfl
    | some e =>
      obtain ⟨o, e1⟩ := hload hfd
      simp only [Option.map_some]
      rw [bind_ok e1]
      rfl
  | len =>
    refine ⟨.num _, s, t, F, ?_, hi, Chg.refl _ _ _, ⟨rfl, rfl⟩⟩
    rw [length_marks, ← size_eq_length t 0, ← hi.len]; rfl
  | dep =>
    obtain ⟨q, hq⟩ := Dep_run s h
    refine ⟨.rat q, s, t, F, ?_, hi, Chg.refl _ _ _, ⟨⟨q, rfl⟩, rfl⟩⟩
    rw [MapImpl.exec, bind_ok hq]; rfl
  | set k v =>
    have hk := hop k (by simp [MOp.stores])
    obtain ⟨p, s', F', e1, e2, e3⟩ := hi.upsert (fuel := fuel) (ins := (GenericMap (V := V) I).setI k v)
      (D := fun x d => I.hash x sd (d % 16)) ok.laws (ok.set k v) (fun _ _ _ _ => rfl) rfl hz hS hM hM0 hk hf
    have e1' : (GenericMap (V := V) I).Set fuel (some h) k v s = .ok ((), s') := by
      rw [MapImpl.Set, deref, pure_bind_M, e1]
    refine ⟨.unit, s', _, F', ?_, e2, e3, rfl, ?_⟩
    · rw [MapImpl.exec, bind_ok e1']; rfl
    · have := hi.puts (p := p) (v := v) (f := fun _ => v) (D := fun x d => I.hash x sd (d % 16)) hS hM hM0 hk (fun _ _ => rfl)
      cases hg : (seen (marks (fun k n => I.hash k sd n) t)).get k <;> (rw [hg] at this; exact this)
  | mod k f =>
    have hk := hop k (by simp [MOp.stores])
    obtain ⟨p, s', F', e1, e2, e3⟩ := hi.upsert (fuel := fuel) (ins := (GenericMap (V := V) I).modI k f)
      (D := fun _ d => I.hash k sd (d % 16)) ok.laws (ok.mod k f) (fun _ _ _ _ => rfl) rfl hz hS hM hM0 hk hf
    have e1' := (show (GenericMap (V := V) I).Mod fuel (some h) k f s
      = upsert (GenericMap (V := V) I).cfg h fuel k ((GenericMap (V := V) I).modI k f) s from rfl).trans e1
    refine ⟨.calls (match find (nbOf fun k n => I.hash k sd n) k t 0 with
      | some e => [(e.2, true)] | none => [(default, false)]), s', _, F', ?_, e2, e3, ?_⟩
    · rw [MapImpl.exec, bind_ok e1']
      cases find (nbOf fun k n => I.hash k sd n) k t 0 <;> rfl
    · have := hi.puts (p := p) (v := f default false) (f := fun v => f v true) (D := fun _ d => I.hash k sd (d % 16))
        hS hM hM0 hk (fun _ _ => rfl)
      have hg := seen_marks_get (fun k n => I.hash k sd n) t k
      simp only [GStep]
      cases hfd : find (nbOf fun k n => I.hash k sd n) k t 0 with
      | some e => rw [hfd, Option.map_some] at hg; rw [hg] at this ⊢; exact ⟨rfl, this⟩
      | none => rw [hfd, Option.map_none] at hg; rw [hg] at this ⊢; exact ⟨rfl, this⟩
  | del k =>
    have hsim := hi.delete (fuel := fuel) ok.laws hM0 (skip := (GenericMap (V := V) I).delSkip) (fun _ => rfl) k hf
    have hex : ∀ s', Amt.delete (GenericMap (V := V) I).cfg h fuel (GenericMap (V := V) I).delSkip k s = .ok ((), s') →
        (GenericMap I).exec fuel (some h) (.del k) s = .ok (.unit, s') := by
      intro s' e
      have : (GenericMap (V := V) I).Del fuel (some h) k s = .ok ((), s') := by rw [MapImpl.Del, deref, pure_bind_M, e]
      rw [MapImpl.exec, bind_ok this]; rfl
    cases hfd : find (nbOf fun k n => I.hash k sd n) k t 0 with
    | none =>
      rw [hfd] at hsim
      refine ⟨_, s, t, F, hex s hsim, hi, Chg.refl _ _ _, rfl, ?_⟩
      rw [if_neg]
      rw [mem_seen_marks]; exact fun h => h hfd
    | some e =>
      rw [hfd] at hsim
      obtain ⟨s', F', e1, e2, e3⟩ := hsim
      refine ⟨_, s', _, F', hex s' e1, e2, e3, rfl, ?_⟩
      rw [if_pos (by rw [mem_seen_marks, hfd]; nofun)]
      exact ⟨marks_del hi.node hfd, marks_seen_nodup _ _⟩
  | write k v =>
    cases hfd : find (nbOf fun k n => I.hash k sd n) k t 0 with
    | none =>
      refine ⟨.unit, s, t, F, ?_, hi, Chg.refl _ _ _, rfl, ?_⟩
      · rw [MapImpl.exec, bind_ok (hPtr k), hfd]; rfl
      · have hns : k ∉ (seen (marks (fun k n => I.hash k sd n) t)).keys := by
          rw [mem_seen_marks]; exact fun h => h hfd
        rw [renew]
        conv => lhs; rw [← List.map_id (marks (fun k n => I.hash k sd n) t)]
        refine List.map_congr_left (fun e he => ?_)
        rw [if_neg]
        · rfl
        · rintro ⟨hb, hke⟩
          refine hns (FMap.mem_keys.2 ⟨e.2.2, ?_⟩)
          exact List.mem_map.2 ⟨e, List.mem_filter.2 ⟨he, hb⟩, by rw [← hke]⟩
    | some e =>
      obtain ⟨q, s', F', e1, e2, e3⟩ := hi.store ok.store ok.laws (p := e.1) (v0 := e.2) hfd hz hS hM hM0 v
      refine ⟨.unit, s', _, F', ?_, e2, e3, rfl, ?_⟩
      · rw [MapImpl.exec, bind_ok (hPtr k), hfd]
        simp only [Option.map_some]
        rw [bind_ok e1]; rfl
      · obtain ⟨A, C, h1, h2⟩ := tags_ins_old (H := fun k n => I.hash k sd n) (D := fun k d => I.hash k sd (d / 16)) (q := q)
          (v' := v) (f := fun _ => v) (p := e.1) (v := e.2) hfd
        have hnd := marks_seen_nodup (fun k n => I.hash k sd n) t
        rw [marks, h1, List.map_append, List.map_cons] at hnd
        rw [marks, h2, marks, h1, List.map_append, List.map_cons, List.map_append, List.map_cons, renew_split hnd]
  | all f =>
    obtain ⟨s', F', e1, e2, e3⟩ := hi.scan (fuel := fuel)
      (visitMap_ok ok.laws ok.store (fun log k v => (log ++ [(k, v)], f log k v))) hf []
    have hl := scanT_leaves (fun (log : List (K × V)) k v => (log ++ [(k, v)], f log k v)) t []
    have hv := scanL_visit f (leaves t) []
    have h1 := congrArg (fun x => x.1) hl
    have h2 := congrArg (fun x => x.2.1) hl
    simp only at h1 h2
    have e1' : (GenericMap (V := V) I).All fuel (some h) (fun log k v => (log ++ [(k, v)], f log k v)) [] s
        = .ok ((scanT (fun (log : List (K × V)) k v => (log ++ [(k, v)], f log k v)) t []).1, s') := by
      rw [MapImpl.All, deref, pure_bind_M, bind_ok e1]; rfl
    refine ⟨_, s', _, F', ?_, e2, e3, marks (fun k n => I.hash k sd n) t, List.Perm.refl _, rfl, ?_, ?_⟩
    · rw [MapImpl.exec, bind_ok e1', h1, hv.1, stored_marks]; rfl
    · have := tagged_fst_veq (nb := nbOf fun k n => I.hash k sd n) (d := 0) (pre := fun _ => true)
        (scanT_veq (fun (log : List (K × V)) k v => (log ++ [(k, v)], f log k v)) t [])
      rw [marks, marks, List.map_map, List.map_map]
      exact this
    · rw [stored_marks, stored_marks, absT, absT, ← hv.2, ← h2]

end

/-! ### Histories of a map -/

theorem marks_new {K V : Type} [DecidableEq K] [Inhabited V] (H : K → Nat → BitVec 64) :
    marks H (.node 0#32 fun _ => (.empty : T K Ptr V)) = [] := by
  have := stored_marks H (.node 0#32 fun _ => (.empty : T K Ptr V))
  rw [absT_new, stored] at this
  exact List.map_eq_nil_iff.1 this

theorem digits_inj (n : Nat) : ∀ a b : Nat, a < 16 ^ n → b < 16 ^ n → (∀ j, j < n → a / 16 ^ j % 16 = b / 16 ^ j % 16) → a = b := by
  induction n with
  | zero => intro a b ha hb _; simp at ha hb; omega
  | succ n ih =>
    intro a b ha hb h
    have h0 := h 0 (by omega)
    rw [Nat.pow_zero, Nat.div_one, Nat.div_one] at h0
    have := ih (a / 16) (b / 16) (by rw [Nat.pow_succ] at ha; omega) (by rw [Nat.pow_succ] at hb; omega) (fun j hj => by
      have := h (j + 1) (by omega)
      rw [Nat.pow_succ, Nat.mul_comm, ← Nat.div_div_eq_div_mul, ← Nat.div_div_eq_div_mul] at this
      exact this)
    omega

/-- Different digests differ in a nibble. -/
theorem exists_nibble {K : Type} {H : K → Nat → BitVec 64} {a b : K} {i : Nat} (h : H a i ≠ H b i) :
    ∃ j, 16 * i ≤ j ∧ j < 16 * (i + 1) ∧ nbOf H a j ≠ nbOf H b j := by
  refine Classical.byContradiction fun hn => h ?_
  apply BitVec.eq_of_toNat_eq
  refine digits_inj 16 _ _ (by have := (H a i).isLt; simpa using this) (by have := (H b i).isLt; simpa using this) (fun j hj => ?_)
  refine Classical.byContradiction fun hne => hn ⟨16 * i + j, by omega, by omega, ?_⟩
  rw [nbOf_eq_nibble, nbOf_eq_nibble, nibble, nibble, show (16 * i + j) / 16 = i by omega, show (16 * i + j) % 16 = j by omega]
  exact hne

theorem sep2_of_twiceApart {K : Type} {H : K → Nat → BitVec 64} {S : K → Prop} {m : Nat} (h : TwiceApart H S m) :
    Sep2 H (16 * m) S := by
  intro a b ha hb hab
  obtain ⟨⟨i, h1, h2⟩, i', h3, h4, h5⟩ := h a b ha hb hab
  obtain ⟨j, g1, g2, g3⟩ := exists_nibble h2
  obtain ⟨j', g4, g5, g6⟩ := exists_nibble h5
  exact ⟨⟨j, by omega, g3⟩, j', by omega, by omega, g6⟩

section
variable {K V : Type} [DecidableEq K] [Inhabited V] {I : KeyImpl K} {sd : Seed} {M : Nat} {S : K → Prop} {h : Nat} {fuel : Nat}

theorem generic_map_run (heq : ∀ a b, I.equal a b = true ↔ a = b) (hf : 256 ≤ fuel)
    (hS : Sep2 (fun k n => I.hash k sd n) M S) (hM : M % 16 = 0) (hM0 : 0 < M) (ops : List (MOp K V)) :
    ∀ {s : St K V} {t : T K Ptr V} {F : Nat → Prop},
    LInv (GenericMap (V := V) I).cfg sd (fun k n => I.hash k sd n) M S s h t F → (∀ k, Stores ops k → S k) →
    ∃ os s' t' F', (GenericMap I).run fuel (some h) ops s = .ok (os, s') ∧
      LInv (GenericMap (V := V) I).cfg sd (fun k n => I.hash k sd n) M S s' h t' F' ∧ Chg s s' h F F' ∧
      GRun (fun k n => I.hash k sd n) (marks (fun k n => I.hash k sd n) t) ops os (marks (fun k n => I.hash k sd n) t') := by
  induction ops with
  | nil =>
    intro s t F hi _
    exact ⟨[], s, t, F, rfl, hi, Chg.refl _ _ _, rfl, rfl⟩
  | cons op ops ih =>
    intro s t F hi hks
    obtain ⟨o, s1, t1, F1, e1, i1, c1, st1⟩ := generic_map_step heq hi hf hS hM hM0 op fun k hk => hks k ⟨op, by simp, hk⟩
    obtain ⟨os, s2, t2, F2, e2, i2, c2, st2⟩ := ih i1 fun k hk => hks k (by obtain ⟨op', h1, h2⟩ := hk; exact ⟨op', by simp [h1], h2⟩)
    refine ⟨o :: os, s2, t2, F2, ?_, i2, c1.trans c2, o, os, _, rfl, st1, st2⟩
    rw [MapImpl.run, bind_ok e1, bind_ok e2]; rfl

/-- C48.  Every history of calls on a generic map whose keys have different digests for an iteration below `m` and for
another one from `m` on: all calls return, without a memory fault, and answer as specified. -/
theorem C48_Map (I : KeyImpl K) (heq : ∀ a b, I.equal a b = true ↔ a = b) (sd : Seed) {m : Nat} (hm : 0 < m)
    {ops : List (MOp K V)} (hS : TwiceApart (fun k n => I.hash k sd n) (Stores ops) m) (s : St K V) :
    ∃ os s' E, GRun (fun k n => I.hash k sd n) [] ops os E ∧
      ∀ fuel, 256 ≤ fuel → (GenericMap I).session fuel sd ops s = .ok ((some s.next, os), s') := by
  obtain ⟨s1, e1, i1⟩ := LInv.new (GenericMap (V := V) I).cfg sd (fun k n => I.hash k sd n) (show 0 < 16 * m by omega) (Stores ops) s
  obtain ⟨os, s2, t2, F2, e2, i2, _, st⟩ := generic_map_run heq (Nat.le_refl 256) (sep2_of_twiceApart hS) (by omega) (by omega) ops i1
    (fun _ h => h)
  rw [marks_new] at st
  refine ⟨os, s2, _, st, fun fuel hf => (MapImpl.session_ext (GenericMap_mono I) hf sd ops).ok ?_⟩
  rw [MapImpl.session, MapImpl.New, bind_ok e1, bind_ok e2]
  rfl

end

/-! ### Sets -/

theorem marks_ext {K V : Type} : ∀ {X Y : Marked K V}, X.map (fun e => e.1) = Y.map (fun e => e.1) → stored X = stored Y → X = Y := by
  intro X
  induction X with
  | nil => intro Y h _; cases Y <;> simp_all
  | cons x X ih =>
    intro Y h1 h2
    cases Y with
    | nil => simp at h1
    | cons y Y =>
      simp only [List.map_cons, List.cons.injEq, stored] at h1 h2
      rw [ih h1.2 h2.2, Prod.ext h1.1 h2.1]

section
variable {K : Type} [DecidableEq K] {I : KeyImpl K} {sd : Seed} {M : Nat} {S : K → Prop} {s : St K Unit}
  {h : Nat} {t : T K Ptr Unit} {F : Nat → Prop} {fuel : Nat}

theorem generic_set_step (heq : ∀ a b, I.equal a b = true ↔ a = b)
    (hi : LInv (GenericSet I).cfg sd (fun k n => I.hash k sd n) M S s h t F) (hf : 256 ≤ fuel)
    (hS : Sep2 (fun k n => I.hash k sd n) M S) (hM : M % 16 = 0) (hM0 : 0 < M) (op : SOp K) (hop : ∀ k ∈ op.stores, S k) :
    ∃ o s' t' F', (GenericSet I).exec fuel (some h) op s = .ok (o, s') ∧
      LInv (GenericSet I).cfg sd (fun k n => I.hash k sd n) M S s' h t' F' ∧ Chg s s' h F F' ∧
      SGStep (fun k n => I.hash k sd n) (marks (fun k n => I.hash k sd n) t) op o (marks (fun k n => I.hash k sd n) t') := by
  have ok := GenericSet_ok (sd := sd) I heq
  have hz : ∀ k, (GenericSet I).cfg.encT k = 0#32 := fun _ => rfl
  cases op with
  | has k =>
    refine ⟨.bool _, s, t, F, ?_, hi, Chg.refl _ _ _, ⟨rfl, rfl⟩⟩
    have : (GenericSet I).Has fuel (some h) k s
        = .ok (decide (k ∈ (seen (marks (fun k n => I.hash k sd n) t)).keys), s) := by
      rw [SetImpl.Has, deref, pure_bind_M, bind_ok (hi.lookup ok.laws rfl hf k)]
      cases hfd : find (nbOf fun k n => I.hash k sd n) k t 0 with
      | none => rw [decide_eq_false (by rw [mem_seen_marks]; exact fun h => h hfd)]; rfl
      | some e => rw [decide_eq_true (by rw [mem_seen_marks, hfd]; nofun)]; rfl
    rw [SetImpl.exec, bind_ok this]; rfl
  | len =>
    refine ⟨.num _, s, t, F, ?_, hi, Chg.refl _ _ _, ⟨rfl, rfl⟩⟩
    rw [length_marks, ← size_eq_length t 0, ← hi.len]; rfl
  | dep =>
    obtain ⟨q, hq⟩ := Dep_run s h
    refine ⟨.rat q, s, t, F, ?_, hi, Chg.refl _ _ _, ⟨⟨q, rfl⟩, rfl⟩⟩
    rw [SetImpl.exec, SetImpl.Dep, bind_ok hq]; rfl
  | add k =>
    have hk := hop k (by simp [SOp.stores])
    obtain ⟨p, s', F', e1, e2, e3⟩ := hi.upsert (fuel := fuel) (ins := (GenericSet I).addI k)
      (D := fun x d => I.hash x sd (d % 16)) ok.laws (ok.add k) (fun _ _ _ _ => rfl) rfl hz hS hM hM0 hk hf
    have e1' : (GenericSet I).Add fuel (some h) k s = .ok ((), s') := by
      rw [SetImpl.Add, deref, pure_bind_M, e1]
    refine ⟨.unit, s', _, F', ?_, e2, e3, rfl, ?_⟩
    · rw [SetImpl.exec, bind_ok e1']; rfl
    · have := hi.puts (p := p) (v := ()) (f := fun _ => ()) (D := fun x d => I.hash x sd (d % 16)) hS hM hM0 hk (fun _ _ => rfl)
      cases hg : (seen (marks (fun k n => I.hash k sd n) t)).get k <;> (rw [hg] at this; exact this)
  | del k =>
    have hsim := hi.delete (fuel := fuel) ok.laws hM0 (skip := (GenericSet I).delSkip) (fun _ => rfl) k hf
    have hex : ∀ s', Amt.delete (GenericSet I).cfg h fuel (GenericSet I).delSkip k s = .ok ((), s') →
        (GenericSet I).exec fuel (some h) (.del k) s = .ok (.unit, s') := by
      intro s' e
      have : (GenericSet I).Del fuel (some h) k s = .ok ((), s') := by rw [SetImpl.Del, deref, pure_bind_M, e]
      rw [SetImpl.exec, bind_ok this]; rfl
    cases hfd : find (nbOf fun k n => I.hash k sd n) k t 0 with
    | none =>
      rw [hfd] at hsim
      refine ⟨_, s, t, F, hex s hsim, hi, Chg.refl _ _ _, rfl, ?_⟩
      rw [if_neg]
      rw [mem_seen_marks]; exact fun h => h hfd
    | some e =>
      rw [hfd] at hsim
      obtain ⟨s', F', e1, e2, e3⟩ := hsim
      refine ⟨_, s', _, F', hex s' e1, e2, e3, rfl, ?_⟩
      rw [if_pos (by rw [mem_seen_marks, hfd]; nofun)]
      exact ⟨marks_del hi.node hfd, marks_seen_nodup _ _⟩
  | all f =>
    obtain ⟨s', F', e1, e2, e3⟩ := hi.scan (fuel := fuel)
      (visitSet_ok (V := Unit) ok.laws (fun log k => (log ++ [k], f log k))) hf []
    have hl := scanT_leaves (fun (log : List K) k (v : Unit) => (log ++ [k], v, f log k)) t []
    have hv := scanL_visitS f (leaves t) []
    have h1 := congrArg (fun x => x.1) hl
    simp only at h1
    have hve := scanT_veq (fun (log : List K) k (v : Unit) => (log ++ [k], v, f log k)) t []
    have e1' : (GenericSet I).All fuel (some h) (fun log k => (log ++ [k], f log k)) [] s
        = .ok ((scanT (fun (log : List K) k (v : Unit) => (log ++ [k], v, f log k)) t []).1, s') := by
      rw [SetImpl.All, deref, pure_bind_M, bind_ok e1]; rfl
    refine ⟨_, s', _, F', ?_, e2, e3, ?_, marks (fun k n => I.hash k sd n) t, List.Perm.refl _, rfl⟩
    · rw [SetImpl.exec, bind_ok e1', h1, hv, stored_marks, ← absS_eq]; rfl
    · refine marks_ext ?_ ?_
      · have := tagged_fst_veq (nb := nbOf fun k n => I.hash k sd n) (d := 0) (pre := fun _ => true) hve
        rw [marks, marks, List.map_map, List.map_map]
        exact this
      · have := congrArg (List.map fun e => (e.1, ())) hve.keys
        rw [List.map_map, List.map_map] at this
        rw [stored_marks, stored_marks]
        exact this

theorem generic_set_run (heq : ∀ a b, I.equal a b = true ↔ a = b) (hf : 256 ≤ fuel)
    (hS : Sep2 (fun k n => I.hash k sd n) M S) (hM : M % 16 = 0) (hM0 : 0 < M) (ops : List (SOp K)) :
    ∀ {s : St K Unit} {t : T K Ptr Unit} {F : Nat → Prop},
    LInv (GenericSet I).cfg sd (fun k n => I.hash k sd n) M S s h t F → (∀ k, SStores ops k → S k) →
    ∃ os s' t' F', (GenericSet I).run fuel (some h) ops s = .ok (os, s') ∧
      LInv (GenericSet I).cfg sd (fun k n => I.hash k sd n) M S s' h t' F' ∧ Chg s s' h F F' ∧
      SGRun (fun k n => I.hash k sd n) (marks (fun k n => I.hash k sd n) t) ops os (marks (fun k n => I.hash k sd n) t') := by
  induction ops with
  | nil =>
    intro s t F hi _
    exact ⟨[], s, t, F, rfl, hi, Chg.refl _ _ _, rfl, rfl⟩
  | cons op ops ih =>
    intro s t F hi hks
    obtain ⟨o, s1, t1, F1, e1, i1, c1, st1⟩ := generic_set_step heq hi hf hS hM hM0 op fun k hk => hks k ⟨op, by simp, hk⟩
    obtain ⟨os, s2, t2, F2, e2, i2, c2, st2⟩ := ih i1 fun k hk => hks k (by obtain ⟨op', h1, h2⟩ := hk; exact ⟨op', by simp [h1], h2⟩)
    refine ⟨o :: os, s2, t2, F2, ?_, i2, c1.trans c2, o, os, _, rfl, st1, st2⟩
    rw [SetImpl.run, bind_ok e1, bind_ok e2]; rfl

/-- C49.  As C48, for sets. -/
theorem C49_Set (I : KeyImpl K) (heq : ∀ a b, I.equal a b = true ↔ a = b) (sd : Seed) {m : Nat} (hm : 0 < m)
    {ops : List (SOp K)} (hS : TwiceApart (fun k n => I.hash k sd n) (SStores ops) m) (s : St K Unit) :
    ∃ os s' E, SGRun (fun k n => I.hash k sd n) [] ops os E ∧
      ∀ fuel, 256 ≤ fuel → (GenericSet I).session fuel sd ops s = .ok ((some s.next, os), s') := by
  obtain ⟨s1, e1, i1⟩ := LInv.new (GenericSet I).cfg sd (fun k n => I.hash k sd n) (show 0 < 16 * m by omega) (SStores ops) s
  obtain ⟨os, s2, t2, F2, e2, i2, _, st⟩ := generic_set_run heq (Nat.le_refl 256) (sep2_of_twiceApart hS) (by omega) (by omega) ops i1
    (fun _ h => h)
  rw [marks_new] at st
  refine ⟨os, s2, _, st, fun fuel hf => (SetImpl.session_ext (GenericSet_mono I) hf sd ops).ok ?_⟩
  rw [SetImpl.session, SetImpl.New, bind_ok e1, bind_ok e2]
  rfl

end

end Amt
