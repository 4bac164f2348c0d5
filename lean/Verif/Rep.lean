/- When does a heap represent a trie?  (Proof device.) -/
import Verif.Exec
import Verif.Bits
import Verif.Trie

set_option linter.unusedVariables false

namespace Amt
open T

variable {K V : Type}

/-- The cell of a stored key.  `IntSet` has no cells, and never follows the pointer of a key-value link. -/
def KvAt (c : Cfg K) (m : Nat → Option (Obj K V)) (k : K) (p : Ptr) (v : V) : Prop :=
  match c.store with
  | .boxed => ∃ a, p = .blk a ∧ m a = some (.kv (some k) v)
  | .inline => ∃ a, p = .blk a ∧ m a = some (.kv none v)
  | .bare => True

theorem KvAt.frame {c : Cfg K} {m m' : Nat → Option (Obj K V)} {k : K} {p : Ptr} {v : V}
    (h : KvAt c m k p v) (hm : ∀ a, p = .blk a → m' a = m a) : KvAt c m' k p v := by
  unfold KvAt at *
  split
  · rename_i hs; rw [hs] at h; obtain ⟨a, h1, h2⟩ := h; exact ⟨a, h1, by rw [hm a h1, h2]⟩
  · rename_i hs; rw [hs] at h; obtain ⟨a, h1, h2⟩ := h; exact ⟨a, h1, by rw [hm a h1, h2]⟩
  · rename_i hs; rw [hs] at h; exact h

/-- Slot `i` is in use. -/
def occ (ch : Nat → T K Ptr V) (i : Nat) : Bool := !(ch i).isEmpty

/-- Slot `i` holds a key. -/
def lf (ch : Nat → T K Ptr V) (i : Nat) : Bool := (ch i).isLeaf

/-- Size of the array of a branch at depth `d` with `n` items. -/
def capOf (d n : Nat) : Nat := if d = 0 then 16 else 4 * ((n + 3) / 4)

theorem le_capOf {d n : Nat} (h : n ≤ 16) : n ≤ capOf d n := by
  unfold capOf; split <;> omega

/-- The type bits `x` of a branch: those of its keys, and the wrong ones in `st`, which are all on absent slots. -/
structure TmIs (x st : BitVec 32) (ch : Nat → T K Ptr V) : Prop where
  bit : ∀ i, x.getLsbD i = ((decide (i < 16) && lf ch i) || st.getLsbD i)
  absent : ∀ i, i < 16 → st.getLsbD i = true → ch i = .empty

/-- The array of a branch. -/
structure Arr (m : Nat → Option (Obj K V)) (st : BitVec 32) (ch : Nat → T K Ptr V) (d : Nat) (lk : Link) (b : Nat)
    (xs : List Link) : Prop where
  ptr : lk.ptr = .blk b
  mem : m b = some (.links xs)
  len : xs.length = capOf d (cnt (occ ch) 16)
  pm : BitsAre lk.pmap (occ ch)
  tm : TmIs lk.tmap st ch

/-- The addresses owned by a branch: its array and, disjointly, those of its items. -/
structure Own (F : Nat → Prop) (b : Nat) (G : Nat → Nat → Prop) : Prop where
  foot : ∀ a, F a ↔ a = b ∨ ∃ i, i < 16 ∧ G i a
  nob : ∀ i, i < 16 → ¬ G i b
  disj : ∀ i j a, i < 16 → j < 16 → G i a → G j a → i = j

/-- The link `lk` of a branch at depth `d - 1` (or the root link, `d = 0`) represents the trie, which owns
exactly the addresses in `F`. -/
def Rep (c : Cfg K) (m : Nat → Option (Obj K V)) : T K Ptr V → Nat → Link → (Nat → Prop) → Prop
  | .empty, _, _, F => ∀ a, ¬ F a
  | .leaf k p v, _, lk, F => ∃ q, lk = mkLink c k q ∧ KvAt c m k q v ∧ (∀ a, F a ↔ q = .blk a) ∧ (c.forget = false → q = p)
  | .node st ch, d, lk, F => ∃ b xs G, Arr m st ch d lk b xs ∧ Own F b G ∧
      ∀ i, i < 16 → Rep c m (ch i) (d + 1) (xs.getD (cnt (occ ch) i) {}) (G i)

theorem Rep.leaf_mk {c : Cfg K} {m : Nat → Option (Obj K V)} {k : K} {p : Ptr} {v : V} {d : Nat} {lk : Link} {F : Nat → Prop}
    (h1 : lk = mkLink c k p) (h2 : KvAt c m k p v) (h3 : ∀ a, F a ↔ p = .blk a) : Rep c m (.leaf k p v) d lk F :=
  ⟨p, h1, h2, h3, fun _ => rfl⟩

/-- Pointers are kept: the link is that of the tree. -/
theorem Rep.leaf_inv {c : Cfg K} (hf : c.forget = false) {m : Nat → Option (Obj K V)} {k : K} {p : Ptr} {v : V} {d : Nat} {lk : Link}
    {F : Nat → Prop} (h : Rep c m (.leaf k p v) d lk F) : lk = mkLink c k p ∧ KvAt c m k p v ∧ ∀ a, F a ↔ p = .blk a := by
  obtain ⟨q, h1, h2, h3, hq⟩ := h
  rw [hq hf] at h1 h2 h3
  exact ⟨h1, h2, h3⟩

theorem Rep.frame {c : Cfg K} {m m' : Nat → Option (Obj K V)} {t : T K Ptr V} {d : Nat} {lk : Link}
    {F : Nat → Prop} (h : Rep c m t d lk F) (hm : ∀ a, F a → m' a = m a) : Rep c m' t d lk F := by
  induction t generalizing d lk F with
  | empty => exact h
  | leaf k p v =>
    obtain ⟨q, h1, h2, h3, hq⟩ := h
    exact ⟨q, h1, h2.frame (fun a ha => hm a ((h3 a).2 ha)), h3, hq⟩
  | node st ch ih =>
    obtain ⟨b, xs, G, ha, ho, hr⟩ := h
    refine ⟨b, xs, G, ⟨ha.ptr, ?_, ha.len, ha.pm, ha.tm⟩, ho, fun i hi => ?_⟩
    · rw [hm b ((ho.foot b).2 (Or.inl rfl)), ha.mem]
    · exact ih i (hr i hi) (fun a hg => hm a ((ho.foot a).2 (Or.inr ⟨i, hi, hg⟩)))

/-! ### Pointers that are not kept -/

theorem Cfg.kept_eq {c : Cfg K} (h : c.forget = false) (p : Ptr) : c.kept p = p := by simp [Cfg.kept, h]

theorem Cfg.kept_blk {c : Cfg K} {p : Ptr} {a : Nat} (h : c.kept p = .blk a) : p = .blk a := by
  unfold Cfg.kept at h
  split at h
  · cases h
  · exact h

/-- The same tree but for the pointers. -/
def SameBut : T K Ptr V → T K Ptr V → Prop
  | .empty, .empty => True
  | .leaf k _ v, .leaf k' _ v' => k = k' ∧ v = v'
  | .node st ch, .node st' ch' => st = st' ∧ ∀ i, SameBut (ch i) (ch' i)
  | _, _ => False

theorem SameBut.refl (t : T K Ptr V) : SameBut t t := by
  induction t with
  | empty => trivial
  | leaf => exact ⟨rfl, rfl⟩
  | node st ch ih => exact ⟨rfl, ih⟩

theorem SameBut.kind {t t' : T K Ptr V} (h : SameBut t t') : t.isEmpty = t'.isEmpty ∧ t.isLeaf = t'.isLeaf := by
  cases t <;> cases t' <;> first | exact ⟨rfl, rfl⟩ | exact h.elim

theorem SameBut.tsum {t t' : T K Ptr V} (h : SameBut t t') (g : Nat → Nat) (d : Nat) : T.tsum g t d = T.tsum g t' d := by
  induction t generalizing t' d with
  | empty =>
    cases t' with
    | empty => rfl
    | leaf => exact h.elim
    | node => exact h.elim
  | leaf =>
    cases t' with
    | empty => exact h.elim
    | leaf => rfl
    | node => exact h.elim
  | node st ch ih =>
    cases t' with
    | empty => exact h.elim
    | leaf => exact h.elim
    | node st' ch' =>
      simp only [T.tsum]
      exact congrArg List.sum (List.map_congr_left fun i _ => ih i (h.2 i) _)

theorem SameBut.upd {ch ch' : Nat → T K Ptr V} (h : ∀ i, SameBut (ch i) (ch' i)) (r : Nat) {t t' : T K Ptr V} (ht : SameBut t t') (i : Nat) :
    SameBut (T.upd ch r t i) (T.upd ch' r t' i) := by
  unfold T.upd
  split
  · exact ht
  · exact h i

theorem SameBut.splitT (nb : K → Nat → Nat) (k : K) (p : Ptr) (v : V) (k' : K) (q q' : Ptr) (v' : V) (st : BitVec 32) (n d : Nat) :
    SameBut (T.splitT nb k p v k' q v' st n d) (T.splitT nb k p v k' q' v' st n d) := by
  induction n generalizing st d with
  | zero => trivial
  | succ n ih =>
    unfold T.splitT
    split
    · exact ⟨rfl, SameBut.upd (fun _ => SameBut.refl .empty) _ (ih _ _)⟩
    · exact ⟨rfl, SameBut.upd (SameBut.upd (fun _ => SameBut.refl .empty) _ (t := .leaf k' q v') (t' := .leaf k' q' v') ⟨rfl, rfl⟩) _ (SameBut.refl _)⟩

/-- Pointers are not kept: they may be anything in the tree. -/
theorem Rep.sameBut {c : Cfg K} (hf : c.forget = true) {m : Nat → Option (Obj K V)} {t t' : T K Ptr V} {d : Nat} {lk : Link}
    {F : Nat → Prop} (h : Rep c m t d lk F) (ht : SameBut t t') : Rep c m t' d lk F := by
  induction t generalizing t' d lk F with
  | empty => cases t' <;> first | exact h | exact ht.elim
  | leaf k p v =>
    cases t' with
    | empty => exact ht.elim
    | node => exact ht.elim
    | leaf k' p' v' =>
      obtain ⟨rfl, rfl⟩ := ht
      obtain ⟨q, h1, h2, h3, _⟩ := h
      exact ⟨q, h1, h2, h3, fun h => by rw [hf] at h; cases h⟩
  | node st ch ih =>
    cases t' with
    | empty => exact ht.elim
    | leaf => exact ht.elim
    | node st' ch' =>
      obtain ⟨rfl, hc⟩ := ht
      obtain ⟨b, xs, G, ha, ho, hr⟩ := h
      have h1 : occ ch' = occ ch := funext fun i => by unfold occ; rw [(hc i).kind.1]
      have h2 : lf ch' = lf ch := funext fun i => by unfold lf; rw [(hc i).kind.2]
      refine ⟨b, xs, G, ⟨ha.ptr, ha.mem, by rw [h1]; exact ha.len, by rw [h1]; exact ha.pm, ⟨?_, ?_⟩⟩, ho, fun i hi => ?_⟩
      · rw [h2]; exact ha.tm.bit
      · intro i hi hs
        have e := ha.tm.absent i hi hs
        have := (hc i).kind.1
        rw [e] at this
        cases h' : ch' i <;> rw [h'] at this <;> first | rfl | cases this
      · rw [h1]; exact ih i (hr i hi) (hc i)

theorem Rep.congr_foot {c : Cfg K} {m : Nat → Option (Obj K V)} {t : T K Ptr V} {d : Nat} {lk : Link}
    {F F' : Nat → Prop} (h : Rep c m t d lk F) (hF : ∀ a, F' a ↔ F a) : Rep c m t d lk F' := by
  have : F' = F := funext fun a => propext (hF a)
  rw [this]; exact h

theorem Rep.empty_iff {c : Cfg K} {m : Nat → Option (Obj K V)} {d : Nat} {lk : Link}
    {F : Nat → Prop} (h : Rep c m (.empty : T K Ptr V) d lk F) (lk' : Link) (d' : Nat)
    (m' : Nat → Option (Obj K V)) : Rep c m' (.empty : T K Ptr V) d' lk' F := h

theorem cnt_le16 (ch : Nat → T K Ptr V) : cnt (occ ch) 16 ≤ 16 := cnt_le _ _

theorem Arr.cnt_le_len {m : Nat → Option (Obj K V)} {st : BitVec 32} {ch : Nat → T K Ptr V} {d : Nat} {lk : Link} {b : Nat}
    {xs : List Link} (h : Arr m st ch d lk b xs) : cnt (occ ch) 16 ≤ xs.length := by
  rw [h.len]; exact le_capOf (cnt_le16 ch)

theorem Arr.idx_lt {m : Nat → Option (Obj K V)} {st : BitVec 32} {ch : Nat → T K Ptr V} {d : Nat} {lk : Link} {b : Nat}
    {xs : List Link} (h : Arr m st ch d lk b xs) {i : Nat} (hi : i < 16) (ho : occ ch i = true) :
    cnt (occ ch) i < xs.length :=
  Nat.lt_of_lt_of_le (cnt_lt _ hi ho) h.cnt_le_len

theorem Arr.slot {m : Nat → Option (Obj K V)} {st : BitVec 32} {ch : Nat → T K Ptr V} {d : Nat} {lk : Link} {b : Nat}
    {xs : List Link} (h : Arr m st ch d lk b xs) {i : Nat} (hi : i < 16) (ho : occ ch i = true) :
    xs[cnt (occ ch) i]? = some (xs.getD (cnt (occ ch) i) {}) := by
  have := h.idx_lt hi ho
  rw [List.getD_eq_getElem?_getD, List.getElem?_eq_getElem this]; rfl

theorem getD_of_getElem? {xs : List Link} {i : Nat} {x : Link} (h : xs[i]? = some x) :
    xs.getD i {} = x := by
  rw [List.getD_eq_getElem?_getD, h]; rfl

theorem occ_upd {ch : Nat → T K Ptr V} {r : Nat} {x : T K Ptr V} (h : (x.isEmpty) = (ch r).isEmpty) :
    occ (upd ch r x) = occ ch := by
  funext i
  by_cases hi : i = r
  · subst hi; simp [occ, h]
  · simp [occ, upd, hi]

theorem occ_upd_other {ch : Nat → T K Ptr V} {r j : Nat} {x : T K Ptr V} (h : j ≠ r) :
    occ (upd ch r x) j = occ ch j := by simp [occ, upd, h]

theorem lf_upd_other {ch : Nat → T K Ptr V} {r j : Nat} {x : T K Ptr V} (h : j ≠ r) :
    lf (upd ch r x) j = lf ch j := by simp [lf, upd, h]

/-- There are no wrong bits on occupied slots. -/
theorem TmIs.st_occ {x st : BitVec 32} {ch : Nat → T K Ptr V} (h : TmIs x st ch) {r : Nat} (hr : r < 16)
    (hocc : occ ch r = true) : st.getLsbD r = false := by
  cases hs : st.getLsbD r with
  | false => rfl
  | true => rw [occ, h.absent r hr hs] at hocc; cases hocc

theorem TmIs.getLsbD {x st : BitVec 32} {ch : Nat → T K Ptr V} (h : TmIs x st ch) {r : Nat} (hr : r < 16)
    (hocc : occ ch r = true) : x.getLsbD r = lf ch r := by
  rw [h.bit r, h.st_occ hr hocc]; simp [hr]

theorem TmIs.st_clear {x st : BitVec 32} {ch : Nat → T K Ptr V} (h : TmIs x st ch) {r : Nat} (hr : r < 16)
    (hocc : occ ch r = true) : st &&& ~~~bitOf r = st := by
  apply BitVec.eq_of_getLsbD_eq
  intro i _
  rw [getLsbD_andNot_bitOf (by omega)]
  by_cases hi : i = r
  · subst hi; rw [h.st_occ hr hocc]; rfl
  · simp [hi]

/-- The item of an occupied slot is replaced by one of the same kind. -/
theorem TmIs.replace {x st : BitVec 32} {ch : Nat → T K Ptr V} (h : TmIs x st ch) {r : Nat} {t' : T K Ptr V}
    (hocc : occ ch r = true) (hlf : t'.isLeaf = (ch r).isLeaf) : TmIs x st (upd ch r t') where
  bit i := by
    rw [h.bit i]
    by_cases hi : i = r
    · subst hi; simp [lf, hlf]
    · rw [lf_upd_other hi]
  absent i hi hs := by
    have := h.absent i hi hs
    by_cases hir : i = r
    · subst hir; rw [occ, this] at hocc; cases hocc
    · rw [upd_other _ _ hir, this]

/-- A key is put into a slot; a wrong bit on it becomes right. -/
theorem TmIs.leaf {x st : BitVec 32} {ch : Nat → T K Ptr V} (h : TmIs x st ch) {r : Nat} (hr : r < 16) {t' : T K Ptr V}
    (hlf : t'.isLeaf = true) : TmIs (x ||| bitOf r) (st &&& ~~~bitOf r) (upd ch r t') where
  bit i := by
    rw [getLsbD_or_bitOf (by omega), getLsbD_andNot_bitOf (by omega), h.bit i]
    by_cases hi : i = r
    · subst hi; simp [lf, hlf, hr]
    · simp [hi, lf_upd_other hi]
  absent i hi hs := by
    rw [getLsbD_andNot_bitOf (by omega)] at hs
    by_cases hir : i = r
    · subst hir; simp at hs
    · rw [upd_other _ _ hir]; exact h.absent i hi (by simpa [hir] using hs)

/-- An occupied slot gets something that is not a key. -/
theorem TmIs.unleaf {x st : BitVec 32} {ch : Nat → T K Ptr V} (h : TmIs x st ch) {r : Nat} (hr : r < 16) {t' : T K Ptr V}
    (hocc : occ ch r = true) (hlf : t'.isLeaf = false) : TmIs (x &&& ~~~bitOf r) st (upd ch r t') where
  bit i := by
    rw [getLsbD_andNot_bitOf (by omega), h.bit i]
    by_cases hi : i = r
    · subst hi; simp [lf, hlf, h.st_occ hr hocc]
    · simp [hi, lf_upd_other hi]
  absent i hi hs := by
    have := h.absent i hi hs
    by_cases hir : i = r
    · subst hir; rw [occ, this] at hocc; cases hocc
    · rw [upd_other _ _ hir, this]

/-- The test `l.pmap == l.tmap`. -/
theorem TmIs.eq_pm {x y st : BitVec 32} {ch : Nat → T K Ptr V} (h : TmIs x st ch) (hp : BitsAre y (occ ch)) :
    y = x ↔ (∀ i, i < 16 → occ ch i = lf ch i) ∧ st = 0#32 := by
  constructor
  · intro e
    have hb : ∀ i, (decide (i < 16) && occ ch i) = ((decide (i < 16) && lf ch i) || st.getLsbD i) := by
      intro i; rw [← hp i, e, h.bit i]
    have hs : ∀ i, st.getLsbD i = false := by
      intro i
      cases hst : st.getLsbD i with
      | false => rfl
      | true =>
        have := hb i
        rw [hst] at this
        by_cases hi : i < 16
        · rw [occ, h.absent i hi hst] at this; simp [isEmpty] at this
        · simp [hi] at this
    refine ⟨fun i hi => ?_, ?_⟩
    · have := hb i; rw [hs i] at this; simpa [hi] using this
    · apply BitVec.eq_of_getLsbD_eq
      intro i _; rw [hs i]; simp
  · rintro ⟨h1, h2⟩
    apply BitVec.eq_of_getLsbD_eq
    intro i _
    rw [hp i, h.bit i, h2]
    by_cases hi : i < 16
    · simp [hi, h1 i hi]
    · simp [hi]

/-- Replace the item of an occupied slot by another one. -/
theorem Rep.replace {c : Cfg K} {m m' : Nat → Option (Obj K V)} {st st' : BitVec 32} {ch : Nat → T K Ptr V} {d : Nat}
    {lk lk' lkc : Link} {b : Nat} {xs : List Link} {F : Nat → Prop} {G : Nat → Nat → Prop}
    {G' : Nat → Prop} {r : Nat} {t' : T K Ptr V}
    (ha : Arr m st ch d lk b xs) (ho : Own F b G)
    (hr : ∀ i, i < 16 → Rep c m (ch i) (d + 1) (xs.getD (cnt (occ ch) i) {}) (G i))
    (hr16 : r < 16) (hocc : occ ch r = true) (ht' : t'.isEmpty = false)
    (hb : m' b = some (.links (xs.set (cnt (occ ch) r) lkc)))
    (hfr : ∀ i a, i < 16 → i ≠ r → G i a → m' a = m a)
    (hrep : Rep c m' t' (d + 1) lkc G') (hGb : ¬ G' b)
    (hGd : ∀ i a, i < 16 → i ≠ r → G i a → ¬ G' a)
    (hptr : lk'.ptr = lk.ptr) (hpm : lk'.pmap = lk.pmap) (htm : TmIs lk'.tmap st' (upd ch r t')) :
    Rep c m' (.node st' (upd ch r t')) d lk' (fun a => a = b ∨ G' a ∨ ∃ i, i < 16 ∧ i ≠ r ∧ G i a) := by
  have hocc' : occ (upd ch r t') = occ ch := by
    apply occ_upd; rw [ht']; simpa [occ] using hocc.symm
  refine ⟨b, xs.set (cnt (occ ch) r) lkc, fun i a => if i = r then G' a else G i a, ?_, ?_, ?_⟩
  · refine ⟨by rw [hptr, ha.ptr], hb, ?_, ?_, htm⟩
    · rw [List.length_set, hocc']; exact ha.len
    · rw [hocc', hpm]; exact ha.pm
  · refine ⟨fun a => ?_, fun i hi => ?_, fun i j a hi hj h1 h2 => ?_⟩
    · constructor
      · rintro (h | h | ⟨i, hi, hne, h⟩)
        · exact Or.inl h
        · exact Or.inr ⟨r, hr16, by simpa using h⟩
        · exact Or.inr ⟨i, hi, by simpa [hne] using h⟩
      · rintro (h | ⟨i, hi, h⟩)
        · exact Or.inl h
        · by_cases hne : i = r
          · rw [if_pos hne] at h; exact Or.inr (Or.inl h)
          · rw [if_neg hne] at h; exact Or.inr (Or.inr ⟨i, hi, hne, h⟩)
    · by_cases hne : i = r
      · simpa [hne] using hGb
      · simpa [hne] using ho.nob i hi
    · by_cases h3 : i = r <;> by_cases h4 : j = r
      · rw [h3, h4]
      · rw [if_pos h3] at h1; rw [if_neg h4] at h2; exact absurd h1 (hGd j a hj h4 h2)
      · rw [if_neg h3] at h1; rw [if_pos h4] at h2; exact absurd h2 (hGd i a hi h3 h1)
      · rw [if_neg h3] at h1; rw [if_neg h4] at h2; exact ho.disj i j a hi hj h1 h2
  · intro i hi
    rw [hocc']
    by_cases hne : i = r
    · subst hne
      have hl := ha.idx_lt hi hocc
      have hx : (xs.set (cnt (occ ch) i) lkc)[cnt (occ ch) i]? = some lkc := by
        simp [hl]
      rw [upd_same, getD_of_getElem? hx]
      simpa using hrep
    · rw [upd_other _ _ hne]
      simp only [if_neg hne]
      have h0 := hr i hi
      by_cases hoi : occ ch i = true
      · have hne' : cnt (occ ch) r ≠ cnt (occ ch) i := fun h => hne (cnt_inj hocc hoi h).symm
        have : (xs.set (cnt (occ ch) r) lkc).getD (cnt (occ ch) i) {} = xs.getD (cnt (occ ch) i) {} := by
          rw [List.getD_eq_getElem?_getD, List.getD_eq_getElem?_getD, List.getElem?_set, if_neg hne']
        rw [this]
        exact h0.frame (fun a hg => hfr i a hi hne hg)
      · have he : ch i = .empty := by
          have : (ch i).isEmpty = true := by simpa [occ] using hoi
          exact isEmpty_iff.1 this
        rw [he] at h0 ⊢
        exact h0

/-! ### Accounting and updates -/

/-- How the counters of root `h` follow a change from `t` to `t'` (both at level `d`). -/
structure Acct (h : Nat) (s s' : St K V) (t t' : T K Ptr V) (d : Nat) : Prop where
  other : ∀ a, a ≠ h → s'.roots a = s.roots a
  seed : (s'.roots h).seed = (s.roots h).seed
  len : (s'.roots h).len + BitVec.ofNat 64 (size t d) = (s.roots h).len + BitVec.ofNat 64 (size t' d)
  dep : (s'.roots h).dep + BitVec.ofNat 64 (dsum t d) = (s.roots h).dep + BitVec.ofNat 64 (dsum t' d)

theorem bv_acct {a b : BitVec 64} {x y : Nat} (C : Nat)
    (h : a + BitVec.ofNat 64 x = b + BitVec.ofNat 64 y) :
    a + BitVec.ofNat 64 (C + x) = b + BitVec.ofNat 64 (C + y) := by
  rw [BitVec.ofNat_add, BitVec.ofNat_add, BitVec.add_comm (BitVec.ofNat 64 C), ← BitVec.add_assoc, h,
    BitVec.add_comm (BitVec.ofNat 64 C) (BitVec.ofNat 64 y), ← BitVec.add_assoc]

theorem Acct.lift {h : Nat} {s s' : St K V} {st st' : BitVec 32} {ch : Nat → T K Ptr V} {r d : Nat} {t' : T K Ptr V}
    (hr : r < 16) (ha : Acct h s s' (ch r) t' (d + 1)) :
    Acct h s s' (.node st ch) (.node st' (upd ch r t')) d := by
  refine ⟨ha.other, ha.seed, ?_, ?_⟩
  · obtain ⟨C, hC⟩ := tsum_upd (fun _ => 1) ch hr d
    have h1 := hC st (ch r); rw [upd_self] at h1
    unfold size; rw [h1, hC st' t']
    exact bv_acct C ha.len
  · obtain ⟨C, hC⟩ := tsum_upd (fun l => l - 1) ch hr d
    have h1 := hC st (ch r); rw [upd_self] at h1
    unfold dsum; rw [h1, hC st' t']
    exact bv_acct C ha.dep

theorem Acct.refl (h : Nat) {s s' : St K V} (t : T K Ptr V) (d : Nat) (hr : s'.roots = s.roots) :
    Acct h s s' t t d := ⟨fun _ _ => by rw [hr], by rw [hr], by rw [hr], by rw [hr]⟩

/-- The program turned `t`, whose link is element `i0` of the array `xs0` at `b0`, into `t'`, whose link
is now `lk'`, touching nothing else. -/
structure Upd (c : Cfg K) (h : Nat) (s s' : St K V) (b0 i0 : Nat) (xs0 : List Link) (lk' : Link)
    (F F' : Nat → Prop) (t t' : T K Ptr V) (d : Nat) : Prop where
  link : s'.mem b0 = some (.links (xs0.set i0 lk'))
  frame : ∀ a, a < s.next → a ≠ b0 → ¬ F a → s'.mem a = s.mem a
  next : s.next ≤ s'.next
  foot : ∀ a, F' a → F a ∨ (s.next ≤ a ∧ a < s'.next)
  rep : Rep c s'.mem t' d lk' F'
  acct : Acct h s s' t t' d

/-- Where a link is. -/
structure Loc (s : St K V) (b0 i0 : Nat) (xs0 : List Link) (lk : Link) (F : Nat → Prop) : Prop where
  mem : s.mem b0 = some (.links xs0)
  get : xs0[i0]? = some lk
  lt : b0 < s.next
  nF : ¬ F b0
  bound : ∀ a, F a → a < s.next

theorem set_self {xs : List Link} {i : Nat} {x : Link} (h : xs[i]? = some x) : xs.set i x = xs := by
  apply List.ext_getElem?
  intro j
  rw [List.getElem?_set]
  by_cases hj : i = j
  · subst hj
    rw [if_pos rfl, h]
    have : i < xs.length := by
      rcases Nat.lt_or_ge i xs.length with h' | h'
      · exact h'
      · rw [List.getElem?_eq_none h'] at h; cases h
    rw [if_pos this]
  · rw [if_neg hj]

/-- The location of an item of a located branch. -/
theorem Loc.child {s : St K V} {b0 i0 : Nat} {xs0 : List Link} {lk : Link} {F : Nat → Prop}
    (hl : Loc s b0 i0 xs0 lk F) {st : BitVec 32} {ch : Nat → T K Ptr V} {d b : Nat} {xs : List Link}
    {G : Nat → Nat → Prop} (ha : Arr s.mem st ch d lk b xs) (ho : Own F b G) {r : Nat} (hr : r < 16)
    (hocc : occ ch r = true) :
    Loc s b (cnt (occ ch) r) xs (xs.getD (cnt (occ ch) r) {}) (G r) where
  mem := ha.mem
  get := ha.slot hr hocc
  lt := hl.bound b ((ho.foot b).2 (Or.inl rfl))
  nF := ho.nob r hr
  bound a hg := hl.bound a ((ho.foot a).2 (Or.inr ⟨r, hr, hg⟩))

/-- An update of an item of a branch, possibly followed by a change of the branch's own type bits. -/
theorem Upd.lift' {c : Cfg K} {h : Nat} {s s' s'' : St K V} {b0 i0 : Nat} {xs0 : List Link} {lk lk' : Link}
    {F : Nat → Prop} {st st' : BitVec 32} {ch : Nat → T K Ptr V} {d b r : Nat} {xs : List Link} {G : Nat → Nat → Prop}
    {lkc : Link} {G' : Nat → Prop} {t' : T K Ptr V}
    (hl : Loc s b0 i0 xs0 lk F) (ha : Arr s.mem st ch d lk b xs) (ho : Own F b G)
    (hrep : ∀ i, i < 16 → Rep c s.mem (ch i) (d + 1) (xs.getD (cnt (occ ch) i) {}) (G i))
    (hr : r < 16) (hocc : occ ch r = true)
    (hu : Upd c h s s' b (cnt (occ ch) r) xs lkc (G r) G' (ch r) t' (d + 1))
    (hne : t'.isEmpty = false)
    (hptr : lk'.ptr = lk.ptr) (hpm : lk'.pmap = lk.pmap) (htm : TmIs lk'.tmap st' (upd ch r t'))
    (hs'' : s'' = s'.put b0 (.links (xs0.set i0 lk'))) :
    Upd c h s s'' b0 i0 xs0 lk' F (fun a => a = b ∨ G' a ∨ ∃ i, i < 16 ∧ i ≠ r ∧ G i a)
      (.node st ch) (.node st' (upd ch r t')) d := by
  have hbF : F b := (ho.foot b).2 (Or.inl rfl)
  have hbb0 : b ≠ b0 := fun e => hl.nF (e ▸ hbF)
  have hGF : ∀ i a, i < 16 → G i a → F a := fun i a hi hg => (ho.foot a).2 (Or.inr ⟨i, hi, hg⟩)
  have hG'b0 : ¬ G' b0 := by
    intro hg
    rcases hu.foot b0 hg with h1 | h1
    · exact hl.nF (hGF r b0 hr h1)
    · have := hl.lt; omega
  have hG'b : ¬ G' b := by
    intro hg
    rcases hu.foot b hg with h1 | h1
    · exact ho.nob r hr h1
    · have := hl.bound b hbF; omega
  have hfr' : ∀ i a, i < 16 → i ≠ r → G i a → s'.mem a = s.mem a := by
    intro i a hi hne hg
    apply hu.frame a (hl.bound a (hGF i a hi hg))
    · intro e; subst e; exact ho.nob i hi hg
    · intro h2; exact hne (ho.disj i r a hi hr hg h2)
  subst hs''
  refine ⟨by simp, ?_, hu.next, ?_, ?_, ?_⟩
  · intro a h1 h2 h3
    rw [put_mem, if_neg h2]
    exact hu.frame a h1 (fun e => h3 (e ▸ hbF)) (fun hg => h3 (hGF r a hr hg))
  · rintro a (h1 | h1 | ⟨i, hi, _, hg⟩)
    · exact Or.inl (h1 ▸ hbF)
    · rcases hu.foot a h1 with h2 | h2
      · exact Or.inl (hGF r a hr h2)
      · exact Or.inr h2
    · exact Or.inl (hGF i a hi hg)
  · refine Rep.replace (m := s.mem) (lkc := lkc) ha ho hrep hr hocc hne ?_ ?_ ?_ hG'b ?_ hptr hpm htm
    · rw [put_mem, if_neg hbb0]; exact hu.link
    · intro i a hi hne hg
      have : a ≠ b0 := fun e => hl.nF (e ▸ hGF i a hi hg)
      rw [put_mem, if_neg this]; exact hfr' i a hi hne hg
    · apply hu.rep.frame
      intro a hg
      have hab : a ≠ b0 := fun e => hG'b0 (e ▸ hg)
      rw [put_mem, if_neg hab]
    · intro i a hi hne hg hg'
      rcases hu.foot a hg' with h2 | h2
      · exact hne (ho.disj i r a hi hr hg h2)
      · have := hl.bound a (hGF i a hi hg); omega
  · have := Acct.lift (st := st) (st' := st') (ch := ch) (r := r) (d := d) hr hu.acct
    exact ⟨this.other, this.seed, this.len, this.dep⟩

/-- An update of an item that keeps its kind. -/
theorem Upd.lift {c : Cfg K} {h : Nat} {s s' : St K V} {b0 i0 : Nat} {xs0 : List Link} {lk : Link}
    {F : Nat → Prop} {st : BitVec 32} {ch : Nat → T K Ptr V} {d b r : Nat} {xs : List Link} {G : Nat → Nat → Prop}
    {lkc : Link} {G' : Nat → Prop} {t' : T K Ptr V}
    (hl : Loc s b0 i0 xs0 lk F) (ha : Arr s.mem st ch d lk b xs) (ho : Own F b G)
    (hrep : ∀ i, i < 16 → Rep c s.mem (ch i) (d + 1) (xs.getD (cnt (occ ch) i) {}) (G i))
    (hr : r < 16) (hocc : occ ch r = true)
    (hu : Upd c h s s' b (cnt (occ ch) r) xs lkc (G r) G' (ch r) t' (d + 1))
    (hne : t'.isEmpty = false) (hlf : t'.isLeaf = (ch r).isLeaf) :
    Upd c h s s' b0 i0 xs0 lk F (fun a => a = b ∨ G' a ∨ ∃ i, i < 16 ∧ i ≠ r ∧ G i a)
      (.node st ch) (.node st (upd ch r t')) d := by
  have hbF : F b := (ho.foot b).2 (Or.inl rfl)
  have hbb0 : b0 ≠ b := fun e => hl.nF (e ▸ hbF)
  have hmem : s'.mem b0 = some (.links xs0) := by
    rw [hu.frame b0 hl.lt hbb0 (fun hg => hl.nF ((ho.foot _).2 (Or.inr ⟨r, hr, hg⟩))), hl.mem]
  refine Upd.lift' (st' := st) hl ha ho hrep hr hocc hu hne rfl rfl ?_ ?_
  · exact ha.tm.replace hocc hlf
  · rw [set_self hl.get, put_self hmem]

end Amt
