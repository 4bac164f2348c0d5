/-
`Set`, `Mod`, `Add` and `Del` of the generic containers on tries in which some entries are out of reach, and the
invariant of such containers.
-/
import Verif.Loose
import Verif.Refine

set_option linter.unusedVariables false
set_option linter.unusedSectionVars false

namespace Amt
open T

variable {K V : Type} [DecidableEq K]

/-- The digests that an insertion works with when the key `ckey` at depth `d` is in the way: those of `H`, except
that the one `ckey` has at depth `d` is `D ckey d`. -/
def altH (H : K → Nat → BitVec 64) (D : K → Nat → BitVec 64) (ckey : K) (d : Nat) : K → Nat → BitVec 64 :=
  fun k i => if k = ckey ∧ i = d / 16 then D ckey d else H k i

theorem altH_key {H : K → Nat → BitVec 64} {D : K → Nat → BitVec 64} {ckey key : K} {d : Nat} (h : key ≠ ckey) :
    altH H D ckey d key = H key := by
  funext i; simp [altH, h]

theorem hdAt_altH (H : K → Nat → BitVec 64) (D : K → Nat → BitVec 64) (ckey : K) (d : Nat) :
    hdAt (altH H D ckey d) ckey d = D ckey d >>> (4 * (d % 16)) := by
  simp [hdAt, altH]

theorem altH_later {H : K → Nat → BitVec 64} {D : K → Nat → BitVec 64} {ckey : K} {d : Nat} (k : K) {i : Nat}
    (h : d / 16 < i) : altH H D ckey d k i = H k i := by
  rw [altH, if_neg]; omega

theorem nbOf_altH_later {H : K → Nat → BitVec 64} {D : K → Nat → BitVec 64} {ckey : K} {d : Nat} (k : K) {j : Nat}
    (h : d / 16 < j / 16) : nbOf (altH H D ckey d) k j = nbOf H k j := by
  simp only [nbOf, hdAt, altH_later k h]

/-- The nibbles used by an insertion. -/
def altNb (H : K → Nat → BitVec 64) (D : K → Nat → BitVec 64) : K → Nat → K → Nat → Nat :=
  fun ckey d => nbOf (altH H D ckey d)

theorem altNb_lt (H D : K → Nat → BitVec 64) (k : K) (d : Nat) (k' : K) (d' : Nat) : altNb H D k d k' d' < 16 := nbOf_lt _ _ _

theorem altNb_keeps (H D : K → Nat → BitVec 64) (key : K) : KeyKeeps (nbOf H) (altNb H D) key := by
  intro k d j hne
  simp only [altNb, nbOf, hdAt, altH_key hne]

/-- An insertion whose rehash of a displaced key yields `D` instead of the digest that a search will use. -/
theorem upsert_loose {R : Type} {c : Cfg K} {sd : Seed} {H D : K → Nat → BitVec 64} {ins : Ins K V R}
    {key : K} {f : V → V} {vSlot vSplit : V} {gHit : V → R} {rNew : R} (L : Laws c sd H)
    (hi : InsOk c sd H { ins with chash := idealChash H } key f vSlot vSplit gHit rNew)
    (hC : ∀ ckey d fuel, key ≠ ckey → ins.chash sd key ckey d fuel = .ok (D ckey d >>> (4 * (d % 16)), d / 16 + 1))
    (hg : ins.guard = false) (hz : ∀ k, c.encT k = 0#32)
    (h : Nat) {B n : Nat} (hB : B < 256) (hn : B < n)
    {s : St K V} {fuel0 : Nat} (hf0 : B < fuel0) (t : T K Ptr V) :
    ∀ {d b0 i0 : Nat} {xs0 : List Link} {lk : Link} {F : Nat → Prop} {cur : Cur} {fuel : Nat},
    t.isNode = true → Loc s b0 i0 xs0 lk F → Rep c s.mem t d lk F → Ht B t d → Canon t ∨ CanonRoot t →
    SlotSep (nbOf H) (altNb H D) B key t d → B < fuel + d →
    CurOk H key d cur → cur.l = ⟨.blk b0, i0⟩ →
    ∃ p s' lk' F', (search c sd key fuel cur >>= upsertFin c sd h fuel0 key ins) s
        = .ok ((match find (nbOf H) key t d with | some e => gHit e.2 | none => rNew), s') ∧
      Upd c h s s' b0 i0 xs0 lk' F F' t (insW (nbOf H) (altNb H D) n key p vSlot vSplit f t d) d := by
  induction t with
  | empty => intro d b0 i0 xs0 lk F cur fuel h; cases h
  | leaf => intro d b0 i0 xs0 lk F cur fuel h; cases h
  | node st ch ih =>
    intro d b0 i0 xs0 lk F cur fuel _ hl hr hh hcan hsep hf hc hcl
    have hst : st = 0#32 := by
      rcases hcan with h | h
      · exact h.1.1
      · exact h.1
    have hcanC : ∀ i, i < 16 → Canon (ch i) := by
      rcases hcan with h | h
      · exact h.2
      · exact h.2
    obtain ⟨b, xs, G, ha, ho, hrep⟩ := hr
    have hd : d ≤ B := hh.1
    obtain ⟨fuel, rfl⟩ : ∃ f, fuel = f + 1 := ⟨fuel - 1, by omega⟩
    have hr16 := nbOf_lt H key d
    rw [find]
    simp only [insW]
    cases he : ch (nbOf H key d) with
    | empty =>
      rw [bind_ok (search_empty hl ha hc hcl he fuel)]
      simp only [upsertFin, find]
      obtain ⟨p', s', lk', F', e1, hu⟩ := insertSlot_sim hi h hl ha ho hrep hc hcl he
      refine ⟨p', s', lk', F', e1, ?_⟩
      rw [hst] at hu ⊢
      simpa [insW] using hu
    | leaf k p v =>
      rw [bind_ok (search_leaf hl ha hc hcl he fuel)]
      simp only [upsertFin, if_true]
      have hsl : slot (nbOf H) key (.node st ch) d = some (k, p, v) := by rw [slot, he]; rfl
      have hlv : lev (nbOf H) key (.node st ch) d = d + 1 := by rw [lev, he]; rfl
      obtain ⟨p', s', lk', F', e1, hu⟩ := conflict_sim' (H' := altH H D k d) L hi h hB hn hl ha ho hrep
        (push_ok hc (nbOf H key d)) hcl he hf0 (fun hne => altH_key hne)
        (fun hne => by rw [hC _ _ _ hne, hdAt_altH])
        (fun k' j h1 h2 h3 => by rw [L.digest k' j h2 h3, altH_later]; omega)
        (fun _ => Or.inl hg)
        (fun hne => by
          have := hsep _ hsl hne
          rw [hlv] at this
          exact this)
        (fun _ _ => by rw [hz]; simp)
      refine ⟨p', s', lk', F', ?_, ?_⟩
      · rw [e1, find]
        by_cases hk : key = k
        · simp [hk]
        · simp [hk]
      · rw [insW]
        rw [T.ins, hz] at hu
        exact hu
    | node st' ch' =>
      have hocc : occ ch (nbOf H key d) = true := by simp [occ, he, isEmpty]
      rw [bind_run, search_node hl ha hc hcl he fuel, ← bind_run]
      have hd' := descend_ok L (push_ok hc (nbOf H key d)) (by have := hh.2 _ hr16; rw [he] at this; have := this.1; omega : d + 1 < 256)
        ⟨.blk b, cnt (occ ch) (nbOf H key d)⟩
      obtain ⟨p', s', lk', F', e1, hu⟩ := ih (nbOf H key d) (d := d + 1) (fuel := fuel) (by rw [he]; rfl)
        (hl.child ha ho hr16 hocc) (hrep _ hr16) (hh.2 _ hr16) (Or.inl (hcanC _ hr16)) hsep (by omega) hd'.1 hd'.2.1
      rw [he] at e1
      have hu' := Upd.lift hl ha ho hrep hr16 hocc hu (by rw [he]; rfl) (by rw [he]; rfl)
      rw [he] at hu'
      exact ⟨p', s', lk, _, e1, hu'⟩

/-! ### The invariant -/

/-- The heap holds a container with root `h` that represents `t` and owns the addresses `F`; all stored keys satisfy
`S`, but they need not sit where their nibbles say. -/
structure LInv (c : Cfg K) (sd : Seed) (H : K → Nat → BitVec 64) (M : Nat) (S : K → Prop) (s : St K V) (h : Nat)
    (t : T K Ptr V) (F : Nat → Prop) : Prop where
  rep : ∃ lk, Loc s h 0 [lk] lk F ∧ Rep c s.mem t 0 lk F
  seed : (s.roots h).seed = sd
  node : t.isNode = true
  ht : Ht 255 t 0
  canon : CanonRoot t
  shallow : Shallow (nbOf H) M t 0 (fun _ => true)
  keys : ∀ e ∈ leaves t, S e.1
  len : (s.roots h).len = BitVec.ofNat 64 (size t 0)
  dep : (s.roots h).dep = BitVec.ofNat 64 (dsum t 0)

section
variable {c : Cfg K} {sd : Seed} {H : K → Nat → BitVec 64} {M : Nat} {S : K → Prop} {s : St K V} {h : Nat} {t : T K Ptr V}
  {F : Nat → Prop} {fuel : Nat}

theorem Upd.linv {s' : St K V} {t' : T K Ptr V}
    {F' : Nat → Prop} {lk lk' : Link} (hi : LInv c sd H M S s h t F) (hl : Loc s h 0 [lk] lk F)
    (hu : Upd c h s s' h 0 [lk] lk' F F' t t' 0)
    (hn : t'.isNode = true) (hh : Ht 255 t' 0) (hc : CanonRoot t') (hsh : Shallow (nbOf H) M t' 0 (fun _ => true))
    (he : ∀ e ∈ leaves t', S e.1) :
    LInv c sd H M S s' h t' F' ∧ Chg s s' h F F' := by
  refine ⟨⟨⟨lk', hu.loc hl, hu.rep⟩, by rw [hu.acct.seed, hi.seed], hn, hh, hc, hsh, he, ?_, ?_⟩,
    ⟨hu.frame, hu.next, hu.foot, hu.acct.other⟩⟩
  · have := hu.acct.len
    rw [hi.len, BitVec.add_comm (BitVec.ofNat 64 (size t 0))] at this
    exact (BitVec.add_left_inj _).1 this
  · have := hu.acct.dep
    rw [hi.dep, BitVec.add_comm (BitVec.ofNat 64 (dsum t 0))] at this
    exact (BitVec.add_left_inj _).1 this

theorem LInv.new (c : Cfg K) (sd : Seed) (H : K → Nat → BitVec 64) {M : Nat} (hM : 0 < M) (S : K → Prop) (s : St K V) :
    ∃ s', newRoot sd s = .ok (some s.next, s') ∧
      LInv c sd H M S s' s.next (.node 0#32 fun _ => .empty) (fun a => a = s.next + 1) := by
  obtain ⟨s', e1, i1, _⟩ := Inv.new c sd H True s
  refine ⟨s', e1, i1.rep, i1.seed, i1.node, i1.ht, i1.canon trivial, ?_, ?_, i1.len, i1.dep⟩
  · rw [Shallow, if_neg (by omega)]; exact fun _ _ => trivial
  · intro e he; rw [leaves_node] at he; simp [leaves] at he

theorem LInv.lookup (L : Laws c sd H) (hi : LInv c sd H M S s h t F) (hk : c.forget = false) (hf : 256 ≤ fuel) (key : K) :
    Amt.lookup c h fuel key s = .ok ((find (nbOf H) key t 0).map (fun e => e.1), s) := by
  obtain ⟨lk, hl, hr⟩ := hi.rep
  rw [lookup_eq, bind_ok (getRoot_run h s), hi.seed]
  exact lookup_sim L hk key (by omega : 255 < 256) t hi.node hl hr hi.ht (by omega) (start_ok L key h) rfl

theorem LInv.lookup_has (L : Laws c sd H) (hi : LInv c sd H M S s h t F) (hf : 256 ≤ fuel) (key : K) :
    ∃ o, Amt.lookup c h fuel key s = .ok (o, s) ∧ o.isSome = (find (nbOf H) key t 0).isSome := by
  obtain ⟨lk, hl, hr⟩ := hi.rep
  rw [lookup_eq, bind_ok (getRoot_run h s), hi.seed]
  obtain ⟨o, e1, e2, _⟩ := lookup_simQ L key (by omega : 255 < 256) t (d := 0) (fuel := fuel) hi.node hl hr hi.ht (by omega) (start_ok L key h) rfl
  exact ⟨o, e1, e2⟩

/-- Two different keys satisfying `S` differ in a nibble above depth `M` and in one below. -/
def Sep2 (H : K → Nat → BitVec 64) (M : Nat) (S : K → Prop) : Prop :=
  ∀ a b, S a → S b → a ≠ b → (∃ j, j < M ∧ nbOf H a j ≠ nbOf H b j) ∧ ∃ j, M ≤ j ∧ j ≤ 255 ∧ nbOf H a j ≠ nbOf H b j

theorem LInv.lev_le (hi : LInv c sd H M S s h t F) (hS : Sep2 H M S) {key : K} (hk : S key)
    (hf : find (nbOf H) key t 0 = none) : lev (nbOf H) key t 0 ≤ M :=
  hi.shallow.lev_le (nbOf_lt H) (Nat.zero_le _) (fun _ _ _ _ j hj => by omega) rfl
    (fun e he hne => (hS key e.1 hk (hi.keys e he) (Ne.symm hne)).1) hf

theorem LInv.slotSep (hi : LInv c sd H M S s h t F) (hS : Sep2 H M S) (hM : M % 16 = 0) (hM0 : 0 < M) {key : K} (hk : S key)
    (D : K → Nat → BitVec 64) : SlotSep (nbOf H) (altNb H D) 255 key t 0 := by
  intro e he hne
  have hf : find (nbOf H) key t 0 = none := by
    rw [find_slot, he, Option.bind_some, if_neg hne]
  have hlev := hi.lev_le hS hk hf
  obtain ⟨-, j, h1, h2, h3⟩ := hS key e.1 hk (hi.keys e (slot_mem (nbOf_lt H) he)) hne
  refine ⟨j, by omega, h2, ?_⟩
  have hj : (lev (nbOf H) key t 0 - 1) / 16 < j / 16 := by omega
  simp only [altNb, nbOf_altH_later _ hj]
  exact h3

theorem mem_insW {nb : K → Nat → Nat} {nb' : K → Nat → K → Nat → Nat} {n : Nat} {key : K} {p : Ptr} {v vs : V} {f : V → V}
    {t : T K Ptr V} {d : Nat} {e : K × Ptr × V} (hnb' : ∀ k d k' d', nb' k d k' d' < 16)
    (h : e ∈ leaves (insW nb nb' n key p v vs f t d)) : e.1 = key ∨ e ∈ leaves t := by
  induction t generalizing d with
  | empty => simp [insW, leaves] at h; exact Or.inl (by rw [h])
  | leaf k' p' v' =>
    rw [insW] at h
    split at h
    · rename_i heq; simp [leaves] at h; left; rw [h]; exact heq.symm
    · rcases mem_splitT (fun a b => hnb' _ _ a b) h with rfl | rfl
      · exact Or.inl rfl
      · right; simp [leaves]
  | node st ch ih =>
    rw [insW] at h
    obtain ⟨i, hi, he⟩ := mem_leaves_node.1 h
    by_cases hji : i = nb key d
    · subst hji
      rw [upd_same] at he
      rcases ih _ he with h1 | h1
      · exact Or.inl h1
      · exact Or.inr (mem_leaves_node.2 ⟨_, hi, h1⟩)
    · rw [upd_other _ _ hji] at he
      exact Or.inr (mem_leaves_node.2 ⟨_, hi, he⟩)

theorem LInv.upsert {R : Type} {ins : Ins K V R} {key : K} {f : V → V} {vSlot vSplit : V} {gHit : V → R} {rNew : R}
    {D : K → Nat → BitVec 64} (L : Laws c sd H) (hi : LInv c sd H M S s h t F)
    (hins : InsOk c sd H { ins with chash := idealChash H } key f vSlot vSplit gHit rNew)
    (hC : ∀ ckey d fuel, key ≠ ckey → ins.chash sd key ckey d fuel = .ok (D ckey d >>> (4 * (d % 16)), d / 16 + 1))
    (hg : ins.guard = false) (hz : ∀ k, c.encT k = 0#32)
    (hS : Sep2 H M S) (hM : M % 16 = 0) (hM0 : 0 < M) (hk : S key) (hf : 256 ≤ fuel) :
    ∃ p s' F', Amt.upsert c h fuel key ins s
        = .ok ((match find (nbOf H) key t 0 with | some e => gHit e.2 | none => rNew), s') ∧
      LInv c sd H M S s' h (insW (nbOf H) (altNb H D) 256 key p vSlot vSplit f t 0) F' ∧ Chg s s' h F F' := by
  obtain ⟨lk, hl, hr⟩ := hi.rep
  have hsep := hi.slotSep hS hM hM0 hk D
  obtain ⟨p, s', lk', F', e1, hu⟩ := upsert_loose L hins hC hg hz h (by omega : 255 < 256) (by omega : 255 < 256)
    (by omega : 255 < fuel) t hi.node hl hr hi.ht (Or.inr hi.canon) hsep (by omega : 255 < fuel + 0)
    (start_ok L key h) rfl
  refine ⟨p, s', F', ?_, ?_⟩
  · rw [upsert_eq, bind_ok (getRoot_run h s), hi.seed]
    exact e1
  · refine Upd.linv hi hl hu ?_ (Ht_insW hsep (nbOf_lt H) hi.ht)
      (CanonRoot_insW (nbOf_lt H) (altNb_lt H D) (by omega : 255 < 256) hsep hi.canon)
      (Shallow_insW (nbOf_lt H) (altNb_lt H D) (by omega : 255 < 256) (altNb_keeps H D key) hi.shallow
        (hi.lev_le hS hk) rfl hsep) (fun e he => ?_)
    · have := hi.node
      cases t with
      | node st ch => rfl
      | empty => cases this
      | leaf => cases this
    · rcases mem_insW (altNb_lt H D) he with h1 | h1
      · rw [h1]; exact hk
      · exact hi.keys e h1

/-- On a key that is found, `Set`, `Mod` and `Add` only run their hit branch on its cell. -/
theorem LInv.upsert_hitQ {R : Type} {ins : Ins K V R} {key : K} {p : Ptr} {v : V}
    (L : Laws c sd H) (hi : LInv c sd H M S s h t F) (hf : 256 ≤ fuel) (hs : find (nbOf H) key t 0 = some (p, v)) :
    ∃ q, Amt.upsert c h fuel key ins s = ins.hit q s ∧ (c.forget = false → q = p) := by
  obtain ⟨lk, hl, hr⟩ := hi.rep
  obtain ⟨cur, b, e1, e2⟩ := search_sim L key (by omega : 255 < 256) t hi.node hl hr hi.ht (by omega : 255 < fuel + 0)
    (start_ok L key h) rfl
  rw [upsert_eq, bind_ok (getRoot_run h s), hi.seed, bind_ok e1]
  rw [find_slot] at hs
  cases hsl : slot (nbOf H) key t 0 with
  | none => rw [hsl] at hs; cases hs
  | some e =>
    rw [hsl] at hs e2
    obtain ⟨rfl, _, _, item, x, _, e3, e4, e5, e6⟩ := e2
    simp only [Option.bind_some] at hs
    by_cases hk : key = e.1
    · rw [if_pos hk] at hs
      simp only [Option.some.injEq] at hs
      simp only [upsertFin, conflict, if_true]
      rw [bind_ok e3, bind_ok e4, bind_ok e5, if_pos ((L.eq_iff _ _).2 hk)]
      exact ⟨_, rfl, fun hf => by rw [e6 hf, hs]⟩
    · rw [if_neg hk] at hs; cases hs

theorem LInv.upsert_hit {R : Type} {ins : Ins K V R} {key : K} {p : Ptr} {v : V}
    (L : Laws c sd H) (hi : LInv c sd H M S s h t F) (hk : c.forget = false) (hf : 256 ≤ fuel) (hs : find (nbOf H) key t 0 = some (p, v)) :
    Amt.upsert c h fuel key ins s = ins.hit p s := by
  obtain ⟨q, e1, e2⟩ := hi.upsert_hitQ (ins := ins) L hf hs
  rw [e1, e2 hk]

theorem LInv.cell (hi : LInv c sd H M S s h t F) (L : Laws c sd H) {e : K × Ptr × V} (he : e ∈ leaves t) : KvAt c s.mem e.1 e.2.1 e.2.2 := by
  obtain ⟨lk, _, hr⟩ := hi.rep
  exact hr.cell L.keep e he

/-- A search for a key finds an entry that is stored. -/
theorem find_mem {P : Type} {nb : K → Nat → Nat} (hnb : ∀ k d, nb k d < 16) {key : K} {t : T K P V} {d : Nat} {p : P} {v : V}
    (h : find nb key t d = some (p, v)) : (key, p, v) ∈ leaves t :=
  mem_tagged_leaves ((mem_tagged_find hnb (pre := fun _ => true) rfl).2 h)

/-- Storing through the pointer of a key that is found. -/
theorem LInv.store (hs : c.store ≠ .bare) (L : Laws c sd H) (hi : LInv c sd H M S s h t F) {key : K} {p : Ptr} {v0 : V}
    (hfd : find (nbOf H) key t 0 = some (p, v0)) (hz : ∀ k, c.encT k = 0#32)
    (hS : Sep2 H M S) (hM : M % 16 = 0) (hM0 : 0 < M) (v : V) :
    ∃ q s' F', storeVal p v s = .ok ((), s') ∧
      LInv c sd H M S s' h (insW (nbOf H) (altNb H fun k d => H k (d / 16)) 256 key q v v (fun _ => v) t 0) F' ∧
      Chg s s' h F F' := by
  have hk : S key := hi.keys (key, p, v0) (find_mem (nbOf_lt H) hfd)
  obtain ⟨q, s', F', e1, e2, e3⟩ := hi.upsert (ins := setIns c (idealChash H) false key v) (fuel := 256)
    (D := fun k d => H k (d / 16)) L (setIns_ok hs (idealChash_ok sd H) false v) (fun _ _ _ _ => rfl) rfl hz hS hM hM0 hk (Nat.le_refl _)
  refine ⟨q, s', F', ?_, e2, e3⟩
  rw [hfd, hi.upsert_hit L (L.keep hs) (Nat.le_refl _) hfd] at e1
  exact e1

/-- `Del` removes the entry of a key that is found, and does nothing otherwise. -/
theorem LInv.delete (L : Laws c sd H) (hi : LInv c sd H M S s h t F) (hM0 : 0 < M) {skip : Bool → Bool} (hsk : ∀ b, skip b = !b)
    (key : K) (hf : 256 ≤ fuel) :
    match find (nbOf H) key t 0 with
    | none => Amt.delete c h fuel skip key s = .ok ((), s)
    | some _ => ∃ s' F', Amt.delete c h fuel skip key s = .ok ((), s') ∧
        LInv c sd H M S s' h (delRoot (nbOf H) key t) F' ∧ Chg s s' h F F' := by
  obtain ⟨lk, hl, hr⟩ := hi.rep
  have hnb := nbOf_lt H
  have hnode := hi.node
  cases ht : t with
  | empty => rw [ht] at hnode; cases hnode
  | leaf => rw [ht] at hnode; cases hnode
  | node st ch =>
  subst ht
  have hrun : ∀ (s : St K V), (s.roots h).seed = sd → Amt.delete c h fuel skip key s
      = (search c sd key fuel (start c sd key h) >>= deleteFin c h skip key) s := by
    intro s hs; rw [delete_eq, bind_ok (getRoot_run h s), hs]
  rw [hrun s hi.seed]
  have hsim := delete_sim L skip key (h := h) (by omega : 255 < 256) (.node st ch) rfl hl hr hi.ht
    (by omega : 255 < fuel + 0) (start_ok L key h) rfl rfl
  have hfs := find_slot (nb := nbOf H) key (.node st ch) 0
  cases hs : slot (nbOf H) key (.node st ch) 0 with
  | none => rw [hs] at hsim hfs; rw [hfs]; exact hsim
  | some e =>
    rw [hs] at hsim hfs
    rw [Option.bind_some] at hfs
    simp only [hsk] at hsim
    by_cases hke : key = e.1
    · rw [if_pos hke] at hfs
      rw [if_neg (by simp [hke])] at hsim
      rw [hfs]
      obtain ⟨s', lk', F', hout⟩ := hsim
      have hcut : cut (nbOf H) key (ch (nbOf H key 0)) (0 + 1) = del (nbOf H) key (ch (nbOf H key 0)) 1 :=
        cut_eq_del' (p := e.2.1) (v := e.2.2) (by rw [hke]; rw [hke] at hs; exact hs)
      have hmk : mkAt st 0 (upd ch (nbOf H key 0) (cut (nbOf H) key (ch (nbOf H key 0)) (0 + 1)))
          = delRoot (nbOf H) key (.node st ch) := by rw [hcut]; rfl
      rw [hmk] at hout
      have hfd : find (nbOf H) key (ch (nbOf H key 0)) 1 ≠ none := by
        have : find (nbOf H) key (.node st ch) 0 = find (nbOf H) key (ch (nbOf H key 0)) 1 := rfl
        rw [← this, hfs]; nofun
      refine ⟨s', F', hout.node rfl, Upd.linv hi hl hout.upd rfl ?_ ?_ ?_ ?_⟩
      · rw [delRoot]
        exact Ht_upd hi.ht (Ht_del hnb (hi.ht.2 _ (hnb key 0)))
      · rw [delRoot]
        refine ⟨hi.canon.1, fun i hi16 => ?_⟩
        by_cases hii : i = nbOf H key 0
        · subst hii; rw [upd_same]; exact Canon_del hnb (hi.canon.2 _ hi16)
        · rw [upd_other _ _ hii]; exact hi.canon.2 i hi16
      · rw [delRoot]
        have hsh := hi.shallow
        refine Shallow_upd hsh (by omega) ?_
        rw [Shallow, if_neg (by omega)] at hsh
        exact Shallow_del hnb (hsh _ (hnb key 0)) (hi.canon.2 _ (hnb key 0)) hfd
      · intro e' he'
        rw [delRoot] at he'
        obtain ⟨i, hi16, he''⟩ := mem_leaves_node.1 he'
        by_cases hii : i = nbOf H key 0
        · subst hii; rw [upd_same] at he''
          exact hi.keys e' (mem_leaves_node.2 ⟨_, hi16, mem_del hnb he''⟩)
        · rw [upd_other _ _ hii] at he''
          exact hi.keys e' (mem_leaves_node.2 ⟨_, hi16, he''⟩)
    · rw [if_neg hke] at hfs
      rw [if_pos (by simp [hke])] at hsim
      rw [hfs]; exact hsim

theorem LInv.scan {U : Type} {visit : U → Link → Amt.M K V (U × Bool)} {g : U → K → V → U × V × Bool} {N : Nat}
    (hi : LInv c sd H N S s h t F) (hv : VisitOk c visit g) (hf : 256 ≤ fuel) (u : U) :
    ∃ s' F', Amt.scan visit fuel u ⟨.blk h, 0⟩ s = .ok (((scanT g t u).1, (scanT g t u).2.2), s') ∧
      LInv c sd H N S s' h (scanT g t u).2.1 F' ∧ Chg s s' h F F' := by
  obtain ⟨lk, hl, hr⟩ := hi.rep
  obtain ⟨s', F', e1, hu⟩ := scan_sim hv h t (u := u) (fuel := fuel) hi.node hl hr hi.ht (by omega)
  have hve := scanT_veq g t u
  exact ⟨s', F', e1, Upd.linv hi hl hu (by rw [hve.isNode]; exact hi.node) (hve.Ht hi.ht)
    (hve.CanonRoot hi.canon) (Shallow_veq hve hi.shallow) (fun e he => by
      obtain ⟨v, hv⟩ := hve.mem_key he
      exact hi.keys (e.1, e.2.1, v) hv)⟩

/-! ### What the operations do to the tagged entries -/

/-- The entries with their tags. -/
def tags (H : K → Nat → BitVec 64) (t : T K Ptr V) : List (Bool × K × Ptr × V) := tagged (nbOf H) t 0 (fun _ => true)

theorem tags_del {key : K} {p : Ptr} {v : V} (hn : t.isNode = true) (hf : find (nbOf H) key t 0 = some (p, v)) :
    ∃ A C, tags H t = A ++ (true, key, p, v) :: C ∧
      Fade (fun e => nbOf H e.1 0 = nbOf H key 0) (tags H (delRoot (nbOf H) key t)) (A ++ C) := by
  cases t with
  | empty => cases hn
  | leaf => cases hn
  | node st ch =>
    obtain ⟨A', C', h1, h2⟩ := tagged_del (nbOf_lt H) (key := key) (t := ch (nbOf H key 0)) (d := 1)
      (pre := fun k => true && decide (nbOf H k 0 = nbOf H key 0)) (by simp) hf
    obtain ⟨A, C, hu⟩ := tagged_upd (nb := nbOf H) ch (nbOf_lt H key 0) 0 (fun _ => true)
    have h0 := hu st (ch (nbOf H key 0))
    rw [upd_self] at h0
    refine ⟨A ++ A', C' ++ C, ?_, ?_⟩
    · rw [tags, h0, h1]; simp
    · rw [tags, delRoot, hu]
      have h3 := h2.mono (Q' := fun e => nbOf H e.1 0 = nbOf H key 0)
        (fun e he _ => by
          have := tagged_pre he
          simpa using this)
      have := h3.context A C
      simpa using this

/-- A new key displaces at most one other, which agrees with it up to the depth `d` of its slot and has a wrong
digest there. -/
theorem tags_ins_new {key : K} {p : Ptr} {v : V} {f : V → V} {D : K → Nat → BitVec 64} (hn : t.isNode = true)
    (hs : SlotSep (nbOf H) (altNb H D) 255 key t 0) (hf : find (nbOf H) key t 0 = none) :
    ∃ Y, (tags H (insW (nbOf H) (altNb H D) 256 key p v v f t 0)).Perm ((true, key, p, v) :: Y) ∧
      Fade (fun e => ∃ d, d + 1 = lev (nbOf H) key t 0 ∧ (∀ j, j < d + 1 → nbOf H e.1 j = nbOf H key j) ∧ D e.1 d ≠ H e.1 (d / 16))
        (tags H t) Y := by
  obtain ⟨w, Y, hw, h1, h2⟩ := tagged_insW_new (p := p) (v := v) (vs := v) (f := f) (nbOf_lt H) (altNb_lt H D)
    (by omega : 255 < 256) (altNb_keeps H D key) (pre := fun _ => true) rfl hs hf
  have : w = v := by rcases hw with h | h <;> exact h
  subst this
  refine ⟨Y, h1, h2.mono ?_⟩
  rintro e _ ⟨_, q, j, h3, h4⟩
  have hlev : 1 ≤ lev (nbOf H) key t 0 := by
    cases t with
    | empty => cases hn
    | leaf => cases hn
    | node st ch => rw [lev]; exact lev_ge _ _ _ _
  refine ⟨lev (nbOf H) key t 0 - 1, by omega, fun j hj => q j (Nat.zero_le _) (by omega), fun hD => h4 ?_⟩
  have : altH H D e.1 (lev (nbOf H) key t 0 - 1) = H := by
    funext k i
    rw [altH]
    split
    · rename_i hc; rw [hD, hc.1, hc.2]
    · rfl
  rw [altNb, this]

theorem tags_ins_old {key : K} {p q : Ptr} {v v' : V} {f : V → V} {D : K → Nat → BitVec 64}
    (hf : find (nbOf H) key t 0 = some (p, v)) :
    ∃ A C, tags H t = A ++ (true, key, p, v) :: C ∧
      tags H (insW (nbOf H) (altNb H D) 256 key q v' v' f t 0) = A ++ (true, key, p, f v) :: C :=
  tagged_insW_old (nbOf_lt H) rfl hf

/-- The tags do not depend on the values. -/
theorem tagged_fst_veq {P : Type} {nb : K → Nat → Nat} {t t' : T K P V} {d : Nat} {pre : K → Bool} (h : VEq t t') :
    (tagged nb t' d pre).map (fun x => x.1) = (tagged nb t d pre).map (fun x => x.1) := by
  induction t generalizing t' d pre with
  | empty => rw [VEq] at h; subst h; rfl
  | leaf => obtain ⟨_, rfl⟩ := h; rfl
  | node st ch ih =>
    obtain ⟨ch', rfl, h1⟩ := h
    rw [tagged_node, tagged_node, List.map_flatMap, List.map_flatMap]
    exact flatMap_congr' (fun i _ => ih i (h1 i))

end

end Amt
