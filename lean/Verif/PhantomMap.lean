/-
`IntMap` seen as a set of cells: the tree of an `IntMap` is that of an `IntSet` whose links carry the addresses of the
cells.  Used only in proofs.
-/
import Verif.PropsPhantom
import Verif.Kinds
import Verif.Callback

set_option linter.unusedVariables false
set_option linter.unusedSectionVars false

namespace Amt
open T Spec

/-! ### Programs that do not look into cells -/

section
variable {V : Type} (sum : Maphash)

theorem search_inline (sd : Seed) (key : IntKey) (fuel : Nat) : ∀ cur,
    (search (intCfg .inline sum) sd key fuel cur : M IntKey V (Cur × Bool)) = search (intCfg .bare sum) sd key fuel cur := by
  induction fuel with
  | zero => intro cur; rfl
  | succ fuel ih =>
    intro cur
    unfold search
    congr 1
    funext lk
    simp only [ih]
    rfl

theorem readKey_inline (x : Link) : (readKey (intCfg .inline sum) x : M IntKey V IntKey) = readKey (intCfg .bare sum) x := rfl

theorem lookup_inline (h fuel : Nat) (key : IntKey) :
    (lookup (intCfg .inline sum) h fuel key : M IntKey V (Option Ptr)) = lookup (intCfg .bare sum) h fuel key := by
  unfold lookup
  simp only [search_inline]
  rfl

theorem split_inline {R : Type} (sd : Seed) (h : Nat) (key ckey : IntKey) (cptr : Ptr) (ins : Ins IntKey V R) (fuel : Nat) :
    ∀ item d hd chd w cw, split (intCfg .inline sum) sd h key ckey cptr ins fuel item d hd chd w cw =
      split (intCfg .bare sum) sd h key ckey cptr ins fuel item d hd chd w cw := by
  induction fuel with
  | zero => intros; rfl
  | succ fuel ih =>
    intros
    unfold split
    simp only [ih]
    rfl

theorem upsert_inline {R : Type} (h fuel : Nat) (key : IntKey) (ins : Ins IntKey V R) :
    upsert (intCfg .inline sum) h fuel key ins = upsert (intCfg .bare sum) h fuel key ins := by
  unfold upsert conflict
  simp only [search_inline, split_inline]
  rfl

theorem delete_inline (h fuel : Nat) (skip : Bool → Bool) (key : IntKey) :
    (delete (intCfg .inline sum) h fuel skip key : M IntKey V Unit) = delete (intCfg .bare sum) h fuel skip key := by
  unfold delete
  simp only [search_inline]
  rfl

end

/-! ### Values may change -/

section
variable {K V : Type} [DecidableEq K] {c : Cfg K}

/-- Arrays of links are the same, other cells may have changed. -/
def Revalued (s s' : St K V) : Prop :=
  s'.next = s.next ∧ s'.roots = s.roots ∧ ∀ a xs, s.mem a = some (.links xs) → s'.mem a = some (.links xs)

theorem Revalued.refl (s : St K V) : Revalued s s := ⟨rfl, rfl, fun _ _ h => h⟩

theorem Revalued.trans {s s' s'' : St K V} (h1 : Revalued s s') (h2 : Revalued s' s'') : Revalued s s'' :=
  ⟨h2.1.trans h1.1, h2.2.1.trans h1.2.1, fun a xs h => h2.2.2 a xs (h1.2.2 a xs h)⟩

theorem Revalued.put {s : St K V} {a : Nat} {k : Option K} {v w : V} (h : s.mem a = some (.kv k v)) : Revalued s (s.put a (.kv k w)) := by
  refine ⟨rfl, rfl, fun b xs hb => ?_⟩
  rw [put_mem, if_neg]
  · exact hb
  · intro e; rw [e, h] at hb; cases hb

theorem Rep.revalued (hb : c.store = .bare) {m m' : Nat → Option (Obj K V)} {t : T K Ptr V} {d : Nat} {lk : Link}
    {F : Nat → Prop} (h : Rep c m t d lk F) (hm : ∀ a xs, m a = some (.links xs) → m' a = some (.links xs)) : Rep c m' t d lk F := by
  induction t generalizing d lk F with
  | empty => exact h
  | leaf k p v =>
    obtain ⟨q, h1, h2, h3⟩ := h
    refine ⟨q, h1, ?_, h3⟩
    unfold KvAt
    rw [hb]
    trivial
  | node st ch ih =>
    obtain ⟨b, xs, G, ha, ho, hr⟩ := h
    exact ⟨b, xs, G, ⟨ha.ptr, hm b xs ha.mem, ha.len, ha.pm, ha.tm⟩, ho, fun i hi => ih i (hr i hi)⟩

theorem PInv.revalued (hb : c.store = .bare) {sd : Seed} {S : K → Prop} {n : Nat} {s s' : St K V} {h : Nat} {t : T K Ptr V} {F : Nat → Prop}
    (hi : PInv c sd S n s h t F) (hr : Revalued s s') : PInv c sd S n s' h t F := by
  obtain ⟨lk, hl, hrep⟩ := hi.rep
  refine ⟨⟨lk, ⟨hr.2.2 _ _ hl.mem, hl.get, ?_, hl.nF, ?_⟩, hrep.revalued hb hr.2.2⟩, ?_, hi.node, hi.ht, hi.keys, ?_⟩
  · rw [hr.1]; exact hl.lt
  · rw [hr.1]; exact hl.bound
  · rw [hr.2.1]; exact hi.seed
  · rw [hr.2.1]; exact hi.len

/-! ### The cells of the entries -/

theorem Rep.leaf_foot (hfg : c.forget = false) {m : Nat → Option (Obj K V)} {t : T K Ptr V} {d : Nat} {lk : Link}
    {F : Nat → Prop} (h : Rep c m t d lk F) {e : K × Ptr × V} (he : e ∈ leaves t) {a : Nat} (ha : e.2.1 = .blk a) : F a := by
  induction t generalizing d lk F with
  | empty => simp [leaves] at he
  | leaf k p v =>
    obtain ⟨h1, h2, h3⟩ := Rep.leaf_inv hfg h
    simp only [leaves, List.mem_singleton] at he
    rw [he] at ha
    exact (h3 a).2 ha
  | node st ch ih =>
    obtain ⟨b, xs, G, _, ho, hr⟩ := h
    obtain ⟨i, hi, he'⟩ := mem_leaves_node.1 he
    exact (ho.foot a).2 (Or.inr ⟨i, hi, ih i (hr i hi) he'⟩)

/-- No two entries share a cell. -/
theorem Rep.leaves_apart (hfg : c.forget = false) {m : Nat → Option (Obj K V)} {t : T K Ptr V} {d : Nat} {lk : Link}
    {F : Nat → Prop} (h : Rep c m t d lk F) : (leaves t).Pairwise (fun x y => ∀ a, x.2.1 = .blk a → y.2.1 ≠ .blk a) := by
  induction t generalizing d lk F with
  | empty => simp [leaves]
  | leaf k p v => simp [leaves]
  | node st ch ih =>
    obtain ⟨b, xs, G, _, ho, hr⟩ := h
    rw [leaves_node, List.pairwise_flatMap]
    refine ⟨fun i hi => ih i (hr i (List.mem_range.1 hi)), ?_⟩
    refine List.Pairwise.imp_of_mem ?_ List.pairwise_lt_range
    intro i j hi hj hij x hx y hy a hxa hya
    have hi := List.mem_range.1 hi
    have hj := List.mem_range.1 hj
    have := ho.disj i j a hi hj ((hr i hi).leaf_foot hfg hx hxa) ((hr j hj).leaf_foot hfg hy hya)
    omega

/-- The value in the cell of an entry, if it is one. -/
def cellOf (m : Nat → Option (Obj K V)) (e : K × Ptr × V) : Option V :=
  match e.2.1 with
  | .nil => none
  | .blk a =>
    match m a with
    | some (.kv _ v) => some v
    | _ => none

/-- The entry has a cell, or points to an array of branches. -/
def Kinded (m : Nat → Option (Obj K V)) (e : K × Ptr × V) : Prop :=
  ∃ a, e.2.1 = .blk a ∧ ((∃ v, m a = some (.kv none v)) ∨ ∃ ys, m a = some (.links ys))

theorem Kinded.some {m : Nat → Option (Obj K V)} {e : K × Ptr × V} (h : Kinded m e) {v : V} (hc : cellOf m e = .some v) :
    ∃ a, e.2.1 = .blk a ∧ m a = .some (.kv none v) := by
  obtain ⟨a, h1, ⟨w, h2⟩ | ⟨ys, h2⟩⟩ := h
  · rw [cellOf, h1] at hc
    simp only [h2, Option.some.injEq] at hc
    exact ⟨a, h1, by rw [h2, hc]⟩
  · rw [cellOf, h1] at hc
    simp only [h2] at hc
    cases hc

theorem Kinded.none {m : Nat → Option (Obj K V)} {e : K × Ptr × V} (h : Kinded m e) (hc : cellOf m e = .none) :
    ∃ a ys, e.2.1 = .blk a ∧ m a = .some (.links ys) := by
  obtain ⟨a, h1, ⟨w, h2⟩ | ⟨ys, h2⟩⟩ := h
  · rw [cellOf, h1] at hc
    simp only [h2] at hc
    cases hc
  · exact ⟨a, ys, h1, h2⟩

theorem cellOf_kv {m : Nat → Option (Obj K V)} {e : K × Ptr × V} {a : Nat} {k : Option K} {v : V} (h1 : e.2.1 = .blk a) (h2 : m a = .some (.kv k v)) :
    cellOf m e = .some v := by
  rw [cellOf, h1]; simp only [h2]

theorem cellOf_links {m : Nat → Option (Obj K V)} {e : K × Ptr × V} {a : Nat} {ys : List Link} (h1 : e.2.1 = .blk a) (h2 : m a = .some (.links ys)) :
    cellOf m e = .none := by
  rw [cellOf, h1]; simp only [h2]

theorem cellOf_congr {m m' : Nat → Option (Obj K V)} {e : K × Ptr × V} (h : ∀ a, e.2.1 = .blk a → m' a = m a) : cellOf m' e = cellOf m e := by
  unfold cellOf
  split
  · rfl
  · rename_i a ha
    rw [h a ha]

theorem Kinded.congr {m m' : Nat → Option (Obj K V)} {e : K × Ptr × V} (hk : Kinded m e) (h : ∀ a, e.2.1 = .blk a → m' a = m a) : Kinded m' e := by
  obtain ⟨a, h1, h2⟩ := hk
  exact ⟨a, h1, by rw [h a h1]; exact h2⟩

theorem Kinded.kinds {s s' : St K V} {e : K × Ptr × V} (hk : Kinded s.mem e) (h : Kinds s s') (hb : ∀ a, e.2.1 = .blk a → a < s.next) :
    Kinded s'.mem e ∧ cellOf s'.mem e = cellOf s.mem e := by
  obtain ⟨a, h1, ⟨v, h2⟩ | ⟨ys, h2⟩⟩ := hk
  · have h3 := (h.2 a (hb a h1)).1 _ _ h2
    rw [h2] at h3
    exact ⟨⟨a, h1, Or.inl ⟨v, h3⟩⟩, by rw [cellOf_kv h1 h2, cellOf_kv h1 h3]⟩
  · obtain ⟨zs, h3⟩ := (h.2 a (hb a h1)).2 _ h2
    exact ⟨⟨a, h1, Or.inr ⟨zs, h3⟩⟩, by rw [cellOf_links h1 h2, cellOf_links h1 h3]⟩

end

end Amt
