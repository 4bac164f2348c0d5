/-
How much memory the link arrays of a container take (C75).  README.md says that the layout is "compact": the arrays
of a container with `N` keys have at most `16 + N + 4 B` slots, where `B` is the number of branches other than the
root, and `B` is at most half the sum of the depths of the keys; on average over a family of hash functions as in
`PropsExpect`, `B` is of the order of `N`.
-/
import Verif.PropsExpect

set_option linter.unusedVariables false
set_option linter.unusedSectionVars false

namespace Spec

/-- The bound on the average number of branches other than the root, for `N` keys; `J` may be chosen freely, the bound
is best near `log16 N`. -/
def branchBound (c m J N : Nat) : Rat := (16 * 16 ^ J - 16) / 15 + c * N ^ 2 / (30 * 16 ^ J) + c * (256 - m) * N ^ 2 / (2 * 16 ^ m)

end Spec

namespace Amt
open T Spec

/-- `l` lists the link arrays of the container with root `r`: the paths to them, each once, with their numbers of
slots. -/
def Arrays {K V : Type} (s : St K V) (r : Nat) (l : List (List Nat × Nat)) : Prop :=
  (l.map Prod.fst).Nodup ∧ ∀ p n, (p, n) ∈ l ↔
    ∃ lk b xs, BranchAt s r p lk ∧ lk.ptr = .blk b ∧ s.mem b = some (.links xs) ∧ xs.length = n

/-! ### The paths that keys share -/

section
variable {K : Type} [DecidableEq K] {H : K → Nat → BitVec 64} {ks : List K} {k : K}

/-- The first `j` nibbles. -/
def pathOf (H : K → Nat → BitVec 64) (k : K) (j : Nat) : List Nat := (List.range j).map (nibble H k)

theorem length_pathOf (j : Nat) : (pathOf H k j).length = j := by simp [pathOf]

theorem under_iff {p : List Nat} : Under H p k ↔ pathOf H k p.length = p := by
  constructor
  · intro h
    apply List.ext_getElem
    · simp [pathOf]
    · intro i h1 h2
      simp only [pathOf, List.getElem_map, List.getElem_range]
      exact h i _ (List.getElem?_eq_getElem h2)
  · intro h i r hr
    obtain ⟨hi, rfl⟩ := List.getElem?_eq_some_iff.1 hr
    have : (pathOf H k p.length)[i]'(by simpa [pathOf] using hi) = p[i] := by simp only [h]
    rw [← this]
    simp [pathOf]

theorem agree_of_under {a b : K} {p : List Nat} (ha : Under H p a) (hb : Under H p b) : ∀ i, i < p.length → nibble H a i = nibble H b i :=
  fun i hi => by rw [ha i _ (List.getElem?_eq_getElem hi), hb i _ (List.getElem?_eq_getElem hi)]

theorem under_of_agree {a b : K} {p : List Nat} (ha : Under H p a) (h : ∀ i, i < p.length → nibble H a i = nibble H b i) : Under H p b := by
  intro i r hr
  rw [← h i (List.getElem?_eq_some_iff.1 hr).1]
  exact ha i r hr

theorem under_pathOf (j : Nat) : Under H (pathOf H k j) k := under_iff.2 (by rw [length_pathOf])

/-- Every element once. -/
def once {α : Type} [DecidableEq α] : List α → List α
  | [] => []
  | a :: l => if a ∈ once l then once l else a :: once l

theorem mem_once {α : Type} [DecidableEq α] {a : α} {l : List α} : a ∈ once l ↔ a ∈ l := by
  induction l with
  | nil => simp [once]
  | cons b l ih =>
    rw [once]
    split
    · rename_i h
      rw [ih, List.mem_cons]
      constructor
      · exact Or.inr
      · rintro (rfl | h')
        · exact ih.1 h
        · exact h'
    · rw [List.mem_cons, List.mem_cons, ih]

theorem nodup_once {α : Type} [DecidableEq α] (l : List α) : (once l).Nodup := by
  induction l with
  | nil => simp [once]
  | cons b l ih =>
    rw [once]
    split
    · exact ih
    · exact List.nodup_cons.2 ⟨by assumption, ih⟩

/-- The paths of length `j` that two keys share, once each. -/
def forksAt (H : K → Nat → BitVec 64) (ks : List K) (j : Nat) : List (List Nat) :=
  once ((ks.filter fun k => crowded H ks k j).map fun k => pathOf H k j)

/-- Those of length 1 to 255. -/
def forks (H : K → Nat → BitVec 64) (ks : List K) : List (List Nat) := (List.range 255).flatMap fun j => forksAt H ks (j + 1)

theorem crowded_iff {j : Nat} : crowded H ks k j = true ↔ ∃ x ∈ ks, x ≠ k ∧ ∀ i, i < j → nibble H k i = nibble H x i := by
  rw [crowded, List.any_eq_true]
  constructor
  · rintro ⟨x, h1, h2⟩
    obtain ⟨h3, h4⟩ := List.mem_filter.1 h1
    exact ⟨x, h3, of_decide_eq_true h4, of_decide_eq_true h2⟩
  · rintro ⟨x, h1, h2, h3⟩
    exact ⟨x, List.mem_filter.2 ⟨h1, decide_eq_true h2⟩, decide_eq_true h3⟩

/-- Two keys share the path `p`. -/
def Fork (H : K → Nat → BitVec 64) (ks : List K) (p : List Nat) : Prop :=
  ∃ a ∈ ks, ∃ b ∈ ks, a ≠ b ∧ Under H p a ∧ Under H p b

theorem mem_forksAt {j : Nat} {p : List Nat} : p ∈ forksAt H ks j ↔ p.length = j ∧ Fork H ks p := by
  rw [forksAt, mem_once, List.mem_map]
  constructor
  · rintro ⟨k, hk, rfl⟩
    obtain ⟨h1, h2⟩ := List.mem_filter.1 hk
    obtain ⟨x, h3, h4, h5⟩ := crowded_iff.1 h2
    exact ⟨length_pathOf j, k, h1, x, h3, Ne.symm h4, under_pathOf j, under_of_agree (under_pathOf j) (by rwa [length_pathOf])⟩
  · rintro ⟨rfl, a, ha, b, hb, hab, ua, ub⟩
    exact ⟨a, List.mem_filter.2 ⟨ha, crowded_iff.2 ⟨b, hb, Ne.symm hab, agree_of_under ua ub⟩⟩, under_iff.1 ua⟩

theorem nodup_forksAt (j : Nat) : (forksAt H ks j).Nodup := nodup_once _

theorem mem_forks {p : List Nat} : p ∈ forks H ks ↔ p ≠ [] ∧ p.length ≤ 255 ∧ Fork H ks p := by
  rw [forks, List.mem_flatMap]
  constructor
  · rintro ⟨j, hj, hp⟩
    have hj := List.mem_range.1 hj
    obtain ⟨h1, h2⟩ := mem_forksAt.1 hp
    exact ⟨fun e => (by subst e; cases h1), by omega, h2⟩
  · rintro ⟨h1, h2, h3⟩
    have := List.length_pos_iff.2 h1
    exact ⟨p.length - 1, List.mem_range.2 (by omega), mem_forksAt.2 ⟨by omega, h3⟩⟩

theorem nodup_forks : (forks H ks).Nodup := by
  rw [forks]
  refine List.pairwise_flatMap.2 ⟨fun j _ => nodup_forksAt _, ?_⟩
  refine List.Pairwise.imp ?_ List.nodup_range
  intro i j hij p hp q hq e
  subst e
  have := (mem_forksAt.1 hp).1
  have := (mem_forksAt.1 hq).1
  omega

theorem length_forks : (forks H ks).length = ((List.range 255).map fun j => (forksAt H ks (j + 1)).length).sum := by
  rw [forks, List.length_flatMap]

/-! ### How many there are -/

/-- Every path of length `j` that is shared is the path of two crowded keys. -/
theorem forksAt_crowded (hn : ks.Nodup) (j : Nat) :
    2 * (forksAt H ks j).length ≤ (ks.map fun k => (crowded H ks k j).toNat).sum := by
  rw [← sum_const]
  refine Nat.le_trans (sum_le_sum (g := fun p => (ks.map fun k => (crowded H ks k j && decide (pathOf H k j = p)).toNat).sum) ?_) ?_
  · intro p hp
    obtain ⟨rfl, a, ha, b, hb, hab, ua, ub⟩ := mem_forksAt.1 hp
    rw [← length_filter_eq]
    have := List.Nodup.length_le_of_subset (l₁ := [a, b]) (by simp [hab])
      (l₂ := ks.filter fun k => crowded H ks k p.length && decide (pathOf H k p.length = p)) (by
        intro x hx
        rw [List.mem_cons, List.mem_singleton] at hx
        rcases hx with rfl | rfl
        · exact List.mem_filter.2 ⟨ha, by
            rw [crowded_iff.2 ⟨b, hb, Ne.symm hab, agree_of_under ua ub⟩, Bool.true_and, decide_eq_true (under_iff.1 ua)]⟩
        · exact List.mem_filter.2 ⟨hb, by
            rw [crowded_iff.2 ⟨a, ha, hab, agree_of_under ub ua⟩, Bool.true_and, decide_eq_true (under_iff.1 ub)]⟩)
    simpa using this
  · rw [sum_swap]
    apply sum_le_sum
    intro k _
    cases hc : crowded H ks k j
    · simp only [Bool.false_and, Bool.toNat_false]
      rw [sum_const]; omega
    · rw [← length_filter_eq]
      have := List.Nodup.length_le_of_subset (l₁ := (forksAt H ks j).filter fun p => true && decide (pathOf H k j = p))
        (List.Pairwise.filter _ (nodup_forksAt j)) (l₂ := [pathOf H k j]) (by
          intro x hx
          simpa using (of_decide_eq_true (by simpa using (List.mem_filter.1 hx).2 : decide (pathOf H k j = x) = true)).symm)
      simpa using this

theorem forksAt_le (j : Nat) : (forksAt H ks j).length ≤ 16 ^ j := by
  have := List.Nodup.length_le_of_subset (nodup_forksAt (H := H) (ks := ks) j) (l₂ := vecs (List.range 16) j) (by
    intro p hp
    obtain ⟨rfl, a, ha, b, hb, hab, ua, ub⟩ := mem_forksAt.1 hp
    refine mem_vecs fun x hx => ?_
    rw [← under_iff.1 ua] at hx
    obtain ⟨i, _, rfl⟩ := List.mem_map.1 hx
    exact List.mem_range.2 (nibble_lt a i))
  rwa [length_vecs, List.length_range] at this

/-- There are at most half as many branches as the sum of the depths. -/
theorem forks_depthSum (hn : ks.Nodup) : 2 * (forks H ks).length ≤ depthSum H ks := by
  rw [length_forks, ← sum_mul]
  refine Nat.le_trans (sum_le_sum fun j _ => forksAt_crowded hn (j + 1)) ?_
  rw [sum_swap, depthSum]
  apply sum_le_sum
  intro k _
  refine Nat.le_trans (sum_le_sum (g := fun j => (decide (j < depthIn H ks k)).toNat) ?_) (depthIn_ge _ 255)
  intro j hj
  have hj := List.mem_range.1 hj
  cases hc : crowded H ks k (j + 1)
  · simp
  · obtain ⟨x, h1, h2, h3⟩ := crowded_iff.1 hc
    have h4 := le_depthIn (H := H) h1 h2
    have h5 := le_sharedLen.2 ⟨(by omega : j + 1 ≤ 256), h3⟩
    rw [decide_eq_true (by omega)]
    exact Nat.le_refl _

/-- The slots in use in the branch at `p`. -/
def usedAt (H : K → Nat → BitVec 64) (ks : List K) (p : List Nat) : List Nat :=
  (List.range 16).filter fun i => ks.any fun k => decide (pathOf H k (p ++ [i]).length = p ++ [i])

/-- A slot in use leads to another branch or to a key. -/
theorem used_le (hn : ks.Nodup) : ((forks H ks).map fun p => (usedAt H ks p).length).sum ≤ (forks H ks).length + ks.length := by
  let l := (forks H ks).flatMap fun p => (usedAt H ks p).map fun i => p ++ [i]
  have hl : l.length = ((forks H ks).map fun p => (usedAt H ks p).length).sum := by
    simp only [l, List.length_flatMap, List.length_map]
  have hln : l.Nodup := by
    refine List.pairwise_flatMap.2 ⟨fun p _ => ?_, ?_⟩
    · refine List.Pairwise.map _ (fun a b hab e => hab ?_) (List.Pairwise.filter _ List.nodup_range)
      simpa using e
    · refine List.Pairwise.imp ?_ nodup_forks
      intro p q hpq x hx y hy e
      obtain ⟨i, _, rfl⟩ := List.mem_map.1 hx
      obtain ⟨j, _, rfl⟩ := List.mem_map.1 hy
      exact hpq (List.append_inj' e rfl).1
  have hmem : ∀ q ∈ l, ∃ p ∈ forks H ks, q ≠ [] ∧ q.length = p.length + 1 ∧ (∀ k, Under H q k → Under H p k) ∧
      ∃ k ∈ ks, pathOf H k q.length = q := by
    intro q hq
    obtain ⟨p, hp, hq⟩ := List.mem_flatMap.1 hq
    obtain ⟨i, hi, rfl⟩ := List.mem_map.1 hq
    obtain ⟨k, hk, hd⟩ := List.any_eq_true.1 (List.mem_filter.1 hi).2
    exact ⟨p, hp, by simp, by simp, fun k h => (under_snoc.1 h).1, k, hk, of_decide_eq_true hd⟩
  rw [← hl]
  have hsplit : l.length = (l.filter fun q => decide (q ∈ forks H ks)).length + (l.filter fun q => decide (q ∉ forks H ks)).length := by
    rw [← List.countP_eq_length_filter, ← List.countP_eq_length_filter, List.length_eq_countP_add_countP (fun q => decide (q ∈ forks H ks))]
    congr 1
    apply List.countP_congr
    intro x _
    simp
  have h1 : (l.filter fun q => decide (q ∈ forks H ks)).length ≤ (forks H ks).length :=
    List.Nodup.length_le_of_subset (List.Pairwise.filter _ hln) fun q hq => of_decide_eq_true (List.mem_filter.1 hq).2
  let g : List Nat → Option K := fun q => ks.find? fun k => decide (pathOf H k q.length = q)
  have hg : ∀ q ∈ l, ∃ k ∈ ks, g q = some k ∧ Under H q k := by
    intro q hq
    obtain ⟨p, hp, _, _, _, k, hk, he⟩ := hmem q hq
    have hs : (g q).isSome := List.find?_isSome.2 ⟨k, hk, decide_eq_true he⟩
    obtain ⟨k', hk'⟩ := Option.isSome_iff_exists.1 hs
    have hf : ks.find? (fun k => decide (pathOf H k q.length = q)) = some k' := hk'
    exact ⟨k', List.mem_of_find?_eq_some hf, hk', under_iff.2 (of_decide_eq_true (List.find?_some hf :))⟩
  have key : ∀ q ∈ l, ∀ q' ∈ l, q ∉ forks H ks → ∀ k, Under H q k → Under H q' k → ¬ q.length < q'.length := by
    intro q hq q' hq' hqf k u u' hlt
    obtain ⟨p', hp', _, hlen, hup, _⟩ := hmem q' hq'
    obtain ⟨_, _, hne, _⟩ := hmem q hq
    obtain ⟨h1, h2, a, ha, b, hb, hab, ua, ub⟩ := mem_forks.1 hp'
    have uk := hup k u'
    exact hqf (mem_forks.2 ⟨hne, by omega, a, ha, b, hb, hab,
      under_of_agree u fun i hi => agree_of_under uk ua i (by omega), under_of_agree u fun i hi => agree_of_under uk ub i (by omega)⟩)
  have h2 : ((l.filter fun q => decide (q ∉ forks H ks)).map g).Nodup := by
    refine List.Pairwise.map _ ?_ (List.Pairwise.and_mem.1 (List.Pairwise.filter _ hln))
    rintro q q' ⟨hq, hq', hne⟩ e
    obtain ⟨hq, hqf⟩ := List.mem_filter.1 hq
    obtain ⟨hq', hqf'⟩ := List.mem_filter.1 hq'
    obtain ⟨k, _, e1, u⟩ := hg q hq
    obtain ⟨k', _, e2, u'⟩ := hg q' hq'
    rw [e1, e2] at e
    cases e
    have n1 := key q hq q' hq' (of_decide_eq_true hqf) k u u'
    have n2 := key q' hq' q hq (of_decide_eq_true hqf') k u' u
    have hlen : q.length = q'.length := by omega
    apply hne
    rw [← under_iff.1 u, ← under_iff.1 u', hlen]
  have h3 : ((l.filter fun q => decide (q ∉ forks H ks)).map g).length ≤ (ks.map some).length :=
    List.Nodup.length_le_of_subset h2 (by
      intro x hx
      obtain ⟨q, hq, rfl⟩ := List.mem_map.1 hx
      obtain ⟨k, hk, e, _⟩ := hg q (List.mem_filter.1 hq).1
      rw [e]
      exact List.mem_map_of_mem hk)
  rw [List.length_map, List.length_map] at h3
  omega

/-- The arrays, with their sizes. -/
def arraysOf (H : K → Nat → BitVec 64) (ks : List K) : List (List Nat × Nat) :=
  ([], 16) :: (forks H ks).map fun p => (p, 4 * (((usedAt H ks p).length + 3) / 4))

theorem length_arraysOf : (arraysOf H ks).length = (forks H ks).length + 1 := by simp [arraysOf]

theorem slots_le (hn : ks.Nodup) : ((arraysOf H ks).map Prod.snd).sum ≤ 16 + ks.length + 4 * (forks H ks).length := by
  have h := used_le (H := H) hn
  have h2 : ((forks H ks).map fun p => 4 * (((usedAt H ks p).length + 3) / 4)).sum
      ≤ ((forks H ks).map fun p => (usedAt H ks p).length + 3).sum := sum_le_sum fun p _ => by omega
  rw [sum_add, sum_const] at h2
  simp only [arraysOf, List.map_cons, List.map_map, List.sum_cons, Function.comp_def]
  omega

end

/-- The shape of a container determines its arrays. -/
theorem Shape.arrays {K V : Type} [DecidableEq K] {s : St K V} {r : Nat} {H : K → Nat → BitVec 64} {ks : List K} (hs : Shape s r H ks)
    (ht : ∀ p lk, BranchAt s r p lk → p.length ≤ 255 ∧ (∀ i, 16 ≤ i → lk.pmap.getLsbD i = false) ∧
      ∃ b xs, lk.ptr = .blk b ∧ s.mem b = some (.links xs) ∧ xs.length = if p = [] then 16 else 4 * ((bitsBelow lk.pmap 16 + 3) / 4)) :
    Arrays s r (arraysOf H ks) := by
  have hbits : ∀ p lk, BranchAt s r p lk → bitsBelow lk.pmap 16 = (usedAt H ks p).length := by
    intro p lk hb
    rw [bitsBelow, usedAt]
    congr 1
    apply List.filter_congr
    intro i hi
    have := (hs.2 p lk hb i (List.mem_range.1 hi)).1
    rw [Bool.eq_iff_iff, this, List.any_eq_true]
    simp only [under_iff, decide_eq_true_eq]
  refine ⟨?_, fun p n => ⟨fun hp => ?_, ?_⟩⟩
  · rw [arraysOf, List.map_cons, List.map_map]
    refine List.nodup_cons.2 ⟨fun h => ?_, ?_⟩
    · obtain ⟨p, hp, e⟩ := List.mem_map.1 h
      exact (mem_forks.1 hp).1 e
    · simpa [Function.comp_def] using nodup_forks
  · rcases List.mem_cons.1 hp with e | hp
    · cases e
      obtain ⟨lk, hb⟩ := (hs.1 []).2 (Or.inl rfl)
      obtain ⟨_, _, b, xs, h1, h2, h3⟩ := ht _ _ hb
      exact ⟨lk, b, xs, hb, h1, h2, by simpa using h3⟩
    · obtain ⟨q, hq, e⟩ := List.mem_map.1 hp
      obtain ⟨rfl, rfl⟩ := Prod.mk.inj e
      obtain ⟨h1, h2, h3⟩ := mem_forks.1 hq
      obtain ⟨lk, hb⟩ := (hs.1 q).2 (Or.inr h3)
      obtain ⟨_, _, b, xs, h4, h5, h6⟩ := ht _ _ hb
      rw [if_neg h1, hbits q lk hb] at h6
      exact ⟨lk, b, xs, hb, h4, h5, h6⟩
  · rintro ⟨lk, b, xs, hb, h1, h2, rfl⟩
    obtain ⟨h3, _, b', xs', h4, h5, h6⟩ := ht _ _ hb
    rw [h1] at h4; cases h4
    rw [h2] at h5; cases h5
    by_cases hp : p = []
    · subst hp
      rw [if_pos rfl] at h6
      rw [h6]
      exact List.mem_cons_self
    · rw [if_neg hp, hbits p lk hb] at h6
      refine List.mem_cons_of_mem _ (List.mem_map.2 ⟨p, mem_forks.2 ⟨hp, h3, ?_⟩, by rw [h6]⟩)
      rcases (hs.1 p).1 ⟨lk, hb⟩ with e | h
      · exact absurd e hp
      · exact h

/-! ### The average -/

section
variable {K : Type} [DecidableEq K] {W : Type} {Ω : List W} {H : W → K → Nat → BitVec 64} {ks : List K} {c m J : Nat}

/-- The number of branches at level `j`, added up over the family. -/
def forkSum (Ω : List W) (H : W → K → Nat → BitVec 64) (ks : List K) (j : Nat) : Nat := (Ω.map fun w => (forksAt (H w) ks j).length).sum

/-- The same for the first `t` levels. -/
def forkSums (Ω : List W) (H : W → K → Nat → BitVec 64) (ks : List K) (t : Nat) : Nat :=
  ((List.range t).map fun j => forkSum Ω H ks (j + 1)).sum

theorem forkSums_succ (t : Nat) : forkSums Ω H ks (t + 1) = forkSums Ω H ks t + forkSum Ω H ks (t + 1) := by
  simp [forkSums, List.range_succ]

theorem forkSums_low (t : Nat) : 15 * forkSums Ω H ks t + 16 * Ω.length ≤ 16 * 16 ^ t * Ω.length := by
  induction t with
  | zero => simp [forkSums]
  | succ t ih =>
    have : forkSum Ω H ks (t + 1) ≤ 16 ^ (t + 1) * Ω.length := by
      rw [← sum_const]
      exact sum_le_sum fun w _ => forksAt_le _
    rw [forkSums_succ]
    rw [Nat.pow_succ] at this ⊢
    generalize 16 ^ t = p at *
    have e1 : p * 16 * Ω.length = 16 * (p * Ω.length) := by grind
    have e2 : 16 * (p * 16) * Ω.length = 256 * (p * Ω.length) := by grind
    have e3 : 16 * p * Ω.length = 16 * (p * Ω.length) := by grind
    omega

theorem forkSum_spread (hn : ks.Nodup) (hs : Spread c m Ω H ks) {i j : Nat} (hi : i ≤ m) (hij : i ≤ j) :
    2 * 16 ^ i * forkSum Ω H ks j ≤ ks.length ^ 2 * (c * Ω.length) := by
  have h1 : 2 * forkSum Ω H ks j ≤ (ks.map fun k => crowd Ω H ks k j).sum := by
    rw [forkSum, ← sum_mul]
    refine Nat.le_trans (sum_le_sum fun w _ => forksAt_crowded hn j) ?_
    rw [sum_swap]
    exact Nat.le_refl _
  have h2 : 16 ^ i * (ks.map fun k => crowd Ω H ks k j).sum ≤ ks.length * (ks.length * (c * Ω.length)) := by
    rw [← sum_mul, Nat.mul_comm ks.length, ← sum_const]
    apply sum_le_sum
    intro k hk
    refine Nat.le_trans (Nat.mul_le_mul_left _ (crowd_le_meets j)) ?_
    rw [← sum_mul]
    refine Nat.le_trans (sum_le_sum (g := fun _ => c * Ω.length) fun x hx => ?_) ?_
    · obtain ⟨h1, h2⟩ := List.mem_filter.1 hx
      rw [decide_eq_true_eq] at h2
      exact Nat.le_trans (Nat.mul_le_mul_left _ (meets_anti hij)) (hs k hk x h1 (Ne.symm h2) i hi)
    · rw [sum_const, Nat.mul_comm]
      exact Nat.mul_le_mul_right _ (List.length_filter_le _ _)
  have h3 := Nat.mul_le_mul_left (16 ^ i) h1
  have e : 2 * 16 ^ i * forkSum Ω H ks j = 16 ^ i * (2 * forkSum Ω H ks j) := by grind
  have e' : ks.length ^ 2 * (c * Ω.length) = ks.length * (ks.length * (c * Ω.length)) := by grind
  omega

theorem forkSums_mid (hn : ks.Nodup) (hs : Spread c m Ω H ks) (n : Nat) (h : J + n ≤ m) :
    30 * 16 ^ (J + n) * forkSums Ω H ks (J + n) + ks.length ^ 2 * (c * Ω.length)
      ≤ 30 * 16 ^ (J + n) * forkSums Ω H ks J + 16 ^ n * (ks.length ^ 2 * (c * Ω.length)) := by
  induction n with
  | zero => simp
  | succ n ih =>
    have ih := ih (by omega)
    have h1 := forkSum_spread hn hs (i := J + n + 1) (j := J + n + 1) (by omega) (Nat.le_refl _)
    rw [← Nat.add_assoc, forkSums_succ]
    generalize forkSum Ω H ks (J + n + 1) = b at *
    generalize forkSums Ω H ks (J + n) = S at *
    generalize forkSums Ω H ks J = T at *
    generalize ks.length ^ 2 * (c * Ω.length) = C at *
    rw [Nat.pow_succ] at h1 ⊢
    rw [Nat.pow_succ 16 n]
    generalize 16 ^ (J + n) = p at *
    generalize 16 ^ n = q at *
    have e1 : 30 * (p * 16) * (S + b) = 16 * (30 * p * S) + 15 * (2 * (p * 16) * b) := by grind
    have e2 : 30 * (p * 16) * T + q * 16 * C = 16 * (30 * p * T + q * C) := by grind
    omega

theorem forkSums_high (hn : ks.Nodup) (hs : Spread c m Ω H ks) (n : Nat) :
    2 * 16 ^ m * forkSums Ω H ks (m + n) ≤ 2 * 16 ^ m * forkSums Ω H ks m + n * (ks.length ^ 2 * (c * Ω.length)) := by
  induction n with
  | zero => simp
  | succ n ih =>
    have h1 := forkSum_spread hn hs (i := m) (j := m + n + 1) (Nat.le_refl _) (by omega)
    rw [← Nat.add_assoc, forkSums_succ, Nat.mul_add, Nat.add_mul n 1, Nat.one_mul, ← Nat.add_assoc]
    exact Nat.add_le_add ih h1

theorem forkSums_le (hn : ks.Nodup) (hs : Spread c m Ω H ks) (hJ : J ≤ m) (hm : m ≤ 256) :
    (forkSums Ω H ks 256 : Rat) ≤ Ω.length * branchBound c m J ks.length := by
  have h1 := forkSums_low (Ω := Ω) (H := H) (ks := ks) J
  have h2 := forkSums_mid hn hs (J := J) (m - J) (by omega)
  have h3 := forkSums_high hn hs (256 - m)
  rw [show J + (m - J) = m by omega] at h2
  rw [show m + (256 - m) = 256 by omega] at h3
  have hpe : (16 : Nat) ^ m = 16 ^ J * 16 ^ (m - J) := by rw [← Nat.pow_add, show J + (m - J) = m by omega]
  have hp : (0 : Rat) < 16 ^ J := by
    have := Rat.natCast_pos.2 (show 0 < 16 ^ J from Nat.pow_pos (by decide))
    simpa using this
  have hq : (0 : Rat) < 16 ^ (m - J) := by
    have := Rat.natCast_pos.2 (show 0 < 16 ^ (m - J) from Nat.pow_pos (by decide))
    simpa using this
  have hpe' : (16 : Rat) ^ m = 16 ^ J * 16 ^ (m - J) := by
    have := congrArg (fun n : Nat => (n : Rat)) hpe
    simpa using this
  have hsub : ((256 - m : Nat) : Rat) = 256 - m := by
    have : ((256 - m + m : Nat) : Rat) = 256 := by rw [Nat.sub_add_cancel hm]; rfl
    rw [Rat.natCast_add] at this
    grind
  have hC : (0 : Rat) ≤ ((ks.length ^ 2 * (c * Ω.length) : Nat) : Rat) := Rat.natCast_nonneg
  have h1 := Rat.natCast_le_natCast.2 h1
  have h2 := Rat.natCast_le_natCast.2 h2
  have h3 := Rat.natCast_le_natCast.2 h3
  simp only [Rat.natCast_mul, Rat.natCast_add, Rat.natCast_pow, hsub] at h1 h2 h3 hC
  have n1 : (forkSums Ω H ks J : Rat) ≤ Ω.length * ((16 * 16 ^ J - 16) / 15) := by
    generalize (16 : Rat) ^ J = p at *
    generalize (forkSums Ω H ks J : Rat) = A at *
    generalize (Ω.length : Rat) = w at *
    have h1 : 15 * A + 16 * w ≤ 16 * p * w := h1
    grind
  have n2 : (forkSums Ω H ks m : Rat) ≤ forkSums Ω H ks J + Ω.length * (c * ks.length ^ 2 / (30 * 16 ^ J)) := by
    refine Rat.le_of_mul_le_mul_left (c := 30 * 16 ^ m) ?_ (by rw [hpe']; have := Rat.mul_pos hp hq; grind)
    have e : (30 * 16 ^ m : Rat) * (forkSums Ω H ks J + Ω.length * (c * ks.length ^ 2 / (30 * 16 ^ J)))
        = 30 * 16 ^ m * forkSums Ω H ks J + 16 ^ (m - J) * (ks.length ^ 2 * (c * Ω.length)) := by
      rw [hpe']
      generalize (16 : Rat) ^ J = p at *
      have : p ≠ 0 := by grind
      grind
    rw [e]
    refine Rat.le_trans ?_ h2
    generalize (ks.length : Rat) ^ 2 * (c * Ω.length) = C at *
    generalize (16 : Rat) ^ m = pm at *
    have : (((30 : Nat) : Rat)) = 30 := rfl
    have : (((16 : Nat) : Rat)) = 16 := rfl
    grind
  have n3 : (forkSums Ω H ks 256 : Rat) ≤ forkSums Ω H ks m + Ω.length * (c * (256 - m) * ks.length ^ 2 / (2 * 16 ^ m)) := by
    have hpm : (0 : Rat) < 16 ^ m := by rw [hpe']; exact Rat.mul_pos hp hq
    refine Rat.le_of_mul_le_mul_left (c := 2 * 16 ^ m) ?_ (by grind)
    have e : (2 * 16 ^ m : Rat) * (forkSums Ω H ks m + Ω.length * (c * (256 - m) * ks.length ^ 2 / (2 * 16 ^ m)))
        = 2 * 16 ^ m * forkSums Ω H ks m + (256 - m) * (ks.length ^ 2 * (c * Ω.length)) := by
      generalize (16 : Rat) ^ m = p at *
      have : p ≠ 0 := by grind
      grind
    rw [e]
    exact h3
  rw [branchBound]
  generalize ((16 : Rat) * 16 ^ J - 16) / 15 = x at *
  generalize (c : Rat) * ks.length ^ 2 / (30 * 16 ^ J) = y at *
  generalize (c : Rat) * (256 - m) * ks.length ^ 2 / (2 * 16 ^ m) = z at *
  generalize (Ω.length : Rat) = w at *
  grind

theorem forks_avg (hn : ks.Nodup) (hs : Spread c m Ω H ks) (hJ : J ≤ m) (hm : m ≤ 256) :
    ((Ω.map fun w => (forks (H w) ks).length).sum : Rat) ≤ Ω.length * branchBound c m J ks.length := by
  refine Rat.le_trans (Rat.natCast_le_natCast.2 ?_) (forkSums_le hn hs hJ hm)
  simp only [length_forks]
  rw [sum_swap, show (256 : Nat) = 255 + 1 from rfl, forkSums_succ]
  exact Nat.le_add_right _ _

/-- The number of slots, on average. -/
theorem slots_avg (hn : ks.Nodup) (hs : Spread c m Ω H ks) (hJ : J ≤ m) (hm : m ≤ 256) {cov : List W} (hc : cov.Sublist Ω) :
    ((cov.map fun w => ((arraysOf (H w) ks).map Prod.snd).sum).sum : Rat)
      ≤ Ω.length * (16 + ks.length + 4 * branchBound c m J ks.length) := by
  have h1 : (cov.map fun w => ((arraysOf (H w) ks).map Prod.snd).sum).sum
      ≤ (16 + ks.length) * Ω.length + 4 * (Ω.map fun w => (forks (H w) ks).length).sum := by
    refine Nat.le_trans (sum_sublist hc _) ?_
    rw [← sum_const, ← sum_mul, ← sum_add]
    exact sum_le_sum fun w _ => slots_le hn
  have h1 := Rat.natCast_le_natCast.2 h1
  have h2 := forks_avg hn hs hJ hm
  simp only [Rat.natCast_mul, Rat.natCast_add] at h1
  generalize branchBound c m J ks.length = B at *
  have e4 : (((4 : Nat) : Rat)) = 4 := rfl
  have e16 : (((16 : Nat) : Rat)) = 16 := rfl
  rw [e4, e16] at h1
  grind

end

/-! ### The theorems -/

section
variable {K V : Type} [DecidableEq K] [Inhabited V] {fuel c m J : Nat}

/-- C75, maps: after any covered history, the container has finitely many link arrays; there are at most as many besides
that of the root as half the sum of the depths of the keys, and together they have at most 16 slots, one for every key,
and four for every array besides that of the root. -/
theorem C75_map {I : MapImpl K V} {sd : Seed} {H : K → Nat → BitVec 64} {P : Bool → List K → K → Prop} {lossy : V → V} {ex : Prop}
    (hc : MapContainer I sd H P lossy ex) (hex : ex) {ops : List (MOp K V)} (h : EachNew P [] ops) (hf : 256 ≤ fuel) (s : St K V) :
    ∃ r os s₁ l, I.session fuel sd ops s = .ok ((some r, os), s₁) ∧ Arrays s₁ r l ∧
      2 * l.length ≤ 2 + depthSum H (keysAfter [] ops) ∧
      (l.map Prod.snd).sum + 4 ≤ 16 + (keysAfter [] ops).length + 4 * l.length := by
  obtain ⟨r, os, s₁, e, hsh⟩ := C27_map_shape hc hex h hf s
  obtain ⟨r', os', s₁', e', ht⟩ := C27_map hc h hf s
  rw [e] at e'
  cases e'
  have hn : (keysAfter [] ops).Nodup := nodup_keysAfter (by simp) ops
  refine ⟨r, os, s₁, _, e, hsh.arrays ht, ?_, ?_⟩
  · have := forks_depthSum (H := H) hn
    rw [length_arraysOf]; omega
  · have := slots_le (H := H) hn
    rw [length_arraysOf]; omega

/-- C75, maps: on average over a family of hash functions that spreads the stored keys (see `Spread`), the arrays have at
most `16 + N + 4 * branchBound c m J N` slots, which is of the order of `N`. -/
theorem C75_average {W : Type} {Ω cov : List W} {I : W → MapImpl K V} {sd : W → Seed} {H : W → K → Nat → BitVec 64}
    {P : W → Bool → List K → K → Prop} {lossy : V → V} {ex : Prop}
    (hc : ∀ w, MapContainer (I w) (sd w) (H w) (P w) lossy ex) (hex : ex) {ops : List (MOp K V)} (hcov : cov.Sublist Ω)
    (h : ∀ w ∈ cov, EachNew (P w) [] ops) (hs : Spread c m Ω H (keysAfter [] ops)) (hJ : J ≤ m) (hm : m ≤ 256) (hf : 256 ≤ fuel)
    (s : W → St K V) :
    ∃ l : W → List (List Nat × Nat),
      (∀ w ∈ cov, ∃ r os s₁, (I w).session fuel (sd w) ops (s w) = .ok ((some r, os), s₁) ∧ Arrays s₁ r (l w)) ∧
      ((cov.map fun w => ((l w).map Prod.snd).sum).sum : Rat)
        ≤ Ω.length * (16 + (keysAfter [] ops).length + 4 * branchBound c m J (keysAfter [] ops).length) := by
  refine ⟨fun w => arraysOf (H w) (keysAfter [] ops), fun w hw => ?_, slots_avg (nodup_keysAfter (by simp) ops) hs hJ hm hcov⟩
  obtain ⟨r, os, s₁, e, hsh⟩ := C27_map_shape (hc w) hex (h w hw) hf (s w)
  obtain ⟨r', os', s₁', e', ht⟩ := C27_map (hc w) (h w hw) hf (s w)
  rw [e] at e'
  cases e'
  exact ⟨r, os, s₁, e, hsh.arrays ht⟩

end

section
variable {K : Type} [DecidableEq K] {fuel c m J : Nat}

/-- C75, sets. -/
theorem C75_set {I : SetImpl K} {sd : Seed} {H : K → Nat → BitVec 64} {P : List K → K → Prop} {inv : Bool} {ex : Prop}
    (hc : SetContainer I sd H P inv ex) (hex : ex) {ops : List (SOp K)} (h : SEachNew H inv P [] ops) (hf : 256 ≤ fuel) (s : St K Unit) :
    ∃ r os s₁ l, I.session fuel sd ops s = .ok ((some r, os), s₁) ∧ Arrays s₁ r l ∧
      2 * l.length ≤ 2 + depthSum H (elemsAfterX H inv [] ops) ∧
      (l.map Prod.snd).sum + 4 ≤ 16 + (elemsAfterX H inv [] ops).length + 4 * l.length := by
  obtain ⟨r, os, s₁, e, hsh⟩ := C27_set_shape hc hex h hf s
  obtain ⟨r', os', s₁', e', ht⟩ := C27_set hc h hf s
  rw [e] at e'
  cases e'
  have hn : (elemsAfterX H inv [] ops).Nodup := nodup_elemsAfterX inv (by simp) ops
  refine ⟨r, os, s₁, _, e, hsh.arrays ht, ?_, ?_⟩
  · have := forks_depthSum (H := H) hn
    rw [length_arraysOf]; omega
  · have := slots_le (H := H) hn
    rw [length_arraysOf]; omega

/-- C75, sets whose `Del` does what it should, on average. -/
theorem C75_set_average {W : Type} {Ω cov : List W} {I : W → SetImpl K} {sd : W → Seed} {H : W → K → Nat → BitVec 64}
    {P : W → List K → K → Prop} {ex : Prop} (hc : ∀ w, SetContainer (I w) (sd w) (H w) (P w) false ex) (hex : ex)
    {ops : List (SOp K)} (hcov : cov.Sublist Ω) (h : ∀ w ∈ cov, SEachNew (H w) false (P w) [] ops)
    (hs : Spread c m Ω H (elemsAfter [] ops)) (hJ : J ≤ m) (hm : m ≤ 256) (hf : 256 ≤ fuel) (s : W → St K Unit) :
    ∃ l : W → List (List Nat × Nat),
      (∀ w ∈ cov, ∃ r os s₁, (I w).session fuel (sd w) ops (s w) = .ok ((some r, os), s₁) ∧ Arrays s₁ r (l w)) ∧
      ((cov.map fun w => ((l w).map Prod.snd).sum).sum : Rat)
        ≤ Ω.length * (16 + (elemsAfter [] ops).length + 4 * branchBound c m J (elemsAfter [] ops).length) := by
  refine ⟨fun w => arraysOf (H w) (elemsAfter [] ops), fun w hw => ?_,
    slots_avg (by rw [← elemsAfterX_false (H := fun _ _ => 0#64)]; exact nodup_elemsAfterX false (by simp) ops) hs hJ hm hcov⟩
  obtain ⟨r, os, s₁, e, hsh⟩ := C27_set_shape (hc w) hex (h w hw) hf (s w)
  obtain ⟨r', os', s₁', e', ht⟩ := C27_set (hc w) (h w hw) hf (s w)
  rw [e] at e'
  cases e'
  rw [elemsAfterX_false] at hsh
  exact ⟨r, os, s₁, e, hsh.arrays ht⟩

end

/-- C75 for a random hash function: the average over all functions from the stored keys to 64-bit digests, for a
`StringMap`. -/
theorem C75_random {V : Type} [Inhabited V] {fuel J : Nat} (sd : Seed) {ops : List (MOp ByteStr V)} {cov : List (List (BitVec 64))}
    (hcov : cov.Sublist (allHashes (keysAfter [] ops)))
    (h : ∀ v ∈ cov, EachNew (fun _ => ByteFits (byteStream (tableHash (keysAfter [] ops) v) sd id)) [] ops)
    (hJ : J ≤ 16) (hf : 256 ≤ fuel) (s : St ByteStr V) :
    ∃ l : List (BitVec 64) → List (List Nat × Nat),
      (∀ v ∈ cov, ∃ r os s₁, (StringMap (tableHash (keysAfter [] ops) v)).session fuel sd ops s = .ok ((some r, os), s₁) ∧
        Arrays s₁ r (l v)) ∧
      ((cov.map fun v => ((l v).map Prod.snd).sum).sum : Rat) ≤ ((2 ^ 64) ^ (keysAfter [] ops).length : Nat) *
        (16 + (keysAfter [] ops).length + 4 * branchBound 1 16 J (keysAfter [] ops).length) := by
  obtain ⟨l, h1, h2⟩ := C75_average (c := 1) (m := 16) (fun v => MapContainer.string (tableHash (keysAfter [] ops) v) sd) trivial hcov h
    (spread_all _ sd) hJ (by decide) hf fun _ => s
  refine ⟨l, h1, ?_⟩
  rwa [allHashes, length_vecs, digests, List.length_map, List.length_range] at h2

/-! ### Instances -/

/-- With a random hash function, the arrays of a map with a million keys have less than 5.41 slots per key on average (a
link is 16 bytes long). -/
example : (16 : Rat) + 16 ^ 5 + 4 * branchBound 1 16 5 (16 ^ 5) < 541 / 100 * 16 ^ 5 := by decide +kernel

example := C75_map (MapContainer.string (V := Nat) toyHash 0#64) trivial exOps_str (Nat.le_refl 256) St.init
example := C75_set (SetContainer.string toyHash 0#64) trivial exOpsS_str (Nat.le_refl 256) St.init

example := C75_average (J := 1) (fun sd => MapContainer.string (V := Nat) affineHash sd) trivial (List.Sublist.refl exSeeds) affine_covered
  (spread_sub spread_affine (by decide +kernel)) (by decide) (by decide) (Nat.le_refl 256) fun _ => St.init

example := C75_set_average (J := 1) (fun sd => SetContainer.string affineHash sd) trivial (List.Sublist.refl exSeeds) affine_covered_set
  (spread_sub spread_affine (by decide +kernel)) (by decide) (by decide) (Nat.le_refl 256) fun _ => St.init

example := C75_random (J := 1) (ops := exOps strKey) (cov := [[0x11#64, 0x21#64, 0x31#64, 0x12#64]]) 0#64
  (List.singleton_sublist.2 exVec) (by decide +kernel) (by decide) (Nat.le_refl 256) St.init

/-- Twenty keys of which two at a time share a nibble, but not two nibbles: ten branches besides the root. -/
example : (forksAt (fun (k : Nat) _ => BitVec.ofNat 64 (k % 10 + 16 * k)) (List.range 20) 1).length = 10 ∧
    forksAt (fun (k : Nat) _ => BitVec.ofNat 64 (k % 10 + 16 * k)) (List.range 20) 2 = [] := by
  decide +kernel

end Amt
