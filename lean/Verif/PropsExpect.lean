/-
How deep a container is (C63).  amt.go:29 and README.md:9 say that "the depth of a map or set will be on the order
of log16(N)".  The lower bound holds for every hash function; the upper bound holds on average over a family of hash
functions (for instance, one function under all seeds) that is as unlikely to make two keys share nibbles as a random
function is.
-/
import Verif.PropsShape

set_option linter.unusedVariables false
set_option linter.unusedSectionVars false

namespace Spec

/-- For how many of the hash functions in `Ω` do `a` and `b` have the same first `j` nibbles. -/
def meets {W K : Type} (Ω : List W) (H : W → K → Nat → BitVec 64) (a b : K) (j : Nat) : Nat :=
  (Ω.filter fun w => decide (∀ i, i < j → nibble (H w) a i = nibble (H w) b i)).length

/-- Two different keys in `ks` share their first `j ≤ m` nibbles with probability at most `c / 16^j`, over the hash
functions in `Ω`.  (For a random function `c = 1`; a family with `c = 1` is called universal.) -/
def Spread {W K : Type} (c m : Nat) (Ω : List W) (H : W → K → Nat → BitVec 64) (ks : List K) : Prop :=
  ∀ a ∈ ks, ∀ b ∈ ks, a ≠ b → ∀ j ≤ m, 16 ^ j * meets Ω H a b j ≤ c * Ω.length

/-- `L` plus what is added to it in the bounds below: `1 / 15` for a universal family and a negligible amount if
`16^L`, the number of keys, is much less than `16^m`. -/
def depthBound (c m L : Nat) : Rat := L + c / 15 + c * (256 - m) * 16 ^ L / 16 ^ m

instance {W K : Type} [DecidableEq K] (c m : Nat) (Ω : List W) (H : W → K → Nat → BitVec 64) (ks : List K) :
    Decidable (Spread c m Ω H ks) := by
  unfold Spread; infer_instance

end Spec

namespace Amt
open T Spec

/-! ### Sums -/

section
variable {α β : Type}

theorem sum_le_sum {l : List α} {f g : α → Nat} (h : ∀ a ∈ l, f a ≤ g a) : (l.map f).sum ≤ (l.map g).sum := by
  induction l with
  | nil => simp
  | cons a l ih =>
    simp only [List.map_cons, List.sum_cons]
    exact Nat.add_le_add (h a (by simp)) (ih fun b hb => h b (by simp [hb]))

theorem sum_add (l : List α) (f g : α → Nat) : (l.map fun a => f a + g a).sum = (l.map f).sum + (l.map g).sum := by
  induction l with
  | nil => simp
  | cons a l ih => simp only [List.map_cons, List.sum_cons, ih]; omega

theorem sum_swap (l : List α) (l' : List β) (f : α → β → Nat) :
    (l.map fun a => (l'.map fun b => f a b).sum).sum = (l'.map fun b => (l.map fun a => f a b).sum).sum := by
  induction l with
  | nil =>
    simp only [List.map_nil, List.sum_nil]
    induction l' with
    | nil => simp
    | cons b l' ih => simpa using ih
  | cons a l ih => simp only [List.map_cons, List.sum_cons, ih, sum_add]

theorem sum_const (l : List α) (c : Nat) : (l.map fun _ => c).sum = c * l.length := by
  induction l with
  | nil => simp
  | cons a l ih => simp only [List.map_cons, List.sum_cons, ih, List.length_cons]; rw [Nat.mul_succ]; omega

theorem sum_mul (l : List α) (c : Nat) (f : α → Nat) : (l.map fun a => c * f a).sum = c * (l.map f).sum := by
  induction l with
  | nil => simp
  | cons a l ih => simp only [List.map_cons, List.sum_cons, ih, Nat.mul_add]

theorem length_filter_eq (l : List α) (p : α → Bool) : (l.filter p).length = (l.map fun a => (p a).toNat).sum := by
  induction l with
  | nil => simp
  | cons a l ih =>
    cases h : p a <;> simp [h, ih]
    omega

theorem sum_sublist {l l' : List α} (h : l.Sublist l') (f : α → Nat) : (l.map f).sum ≤ (l'.map f).sum := by
  induction h with
  | slnil => simp
  | cons a _ ih => simp only [List.map_cons, List.sum_cons]; omega
  | cons_cons a _ ih => simp only [List.map_cons, List.sum_cons]; omega

end

/-! ### The upper bound -/

section
variable {K : Type} [DecidableEq K] {W : Type} {Ω : List W} {H : W → K → Nat → BitVec 64} {ks : List K} {k : K}

/-- Some key of `ks` other than `k` has the same first `j` nibbles as `k`. -/
def crowded (H : K → Nat → BitVec 64) (ks : List K) (k : K) (j : Nat) : Bool :=
  (ks.filter fun x => decide (x ≠ k)).any fun x => decide (∀ i, i < j → nibble H k i = nibble H x i)

theorem depthIn_crowded {H : K → Nat → BitVec 64} :
    depthIn H ks k ≤ ((List.range 256).map fun j => (crowded H ks k (j + 1)).toNat).sum := by
  rw [← length_filter_eq]
  apply depthIn_le
  intro x hx hxk
  have h1 := length_filter_lt 256 (sharedLen H k x)
  rw [Nat.min_eq_right (sharedLen_le H k x)] at h1
  rw [← h1, ← List.countP_eq_length_filter, ← List.countP_eq_length_filter]
  apply List.countP_mono_left
  intro j _ hj
  rw [decide_eq_true_eq] at hj
  exact List.any_eq_true.2 ⟨x, List.mem_filter.2 ⟨hx, by simpa using hxk⟩, decide_eq_true (le_sharedLen.1 hj).2⟩

theorem levels_crowded {H : K → Nat → BitVec 64} (hn : ks.Nodup) :
    levels H ks k ≤ 1 + ((List.range 256).map fun j => (crowded H ks k (j + 1)).toNat).sum := by
  rw [← length_filter_eq, levels, ← List.countP_eq_length_filter, ← List.countP_eq_length_filter]
  refine Nat.add_le_add_left ?_ 1
  refine Nat.le_trans (List.countP_mono_left ?_) (List.Sublist.countP_le (List.range_sublist.2 (by decide : 255 ≤ 256)))
  intro j _ hj
  rw [decide_eq_true_eq] at hj
  obtain ⟨a, ha, b, hb, hne⟩ := exists_two (f := id) (by rw [List.map_id]; exact List.Pairwise.filter _ hn) hj
  have : ∃ x ∈ ks.filter (fun x => decide (j < sharedLen H k x)), x ≠ k := by
    by_cases hak : a = k
    · exact ⟨b, hb, fun e => hne (by rw [hak, e])⟩
    · exact ⟨a, ha, hak⟩
  obtain ⟨x, hx, hxk⟩ := this
  obtain ⟨h1, h2⟩ := List.mem_filter.1 hx
  rw [decide_eq_true_eq] at h2
  exact List.any_eq_true.2 ⟨x, List.mem_filter.2 ⟨h1, by simpa using hxk⟩, decide_eq_true (le_sharedLen.1 h2).2⟩

/-- The number of hash functions for which some other key shares `j` nibbles with `k`. -/
def crowd (Ω : List W) (H : W → K → Nat → BitVec 64) (ks : List K) (k : K) (j : Nat) : Nat :=
  (Ω.map fun w => (crowded (H w) ks k j).toNat).sum

theorem any_toNat_le {α : Type} (l : List α) (p : α → Bool) : (l.any p).toNat ≤ (l.map fun a => (p a).toNat).sum := by
  induction l with
  | nil => simp
  | cons a l ih =>
    simp only [List.any_cons, List.map_cons, List.sum_cons]
    cases p a <;> simp at ih ⊢
    exact ih

/-- There are at most as many as there are hash functions, … -/
theorem crowd_le_length (j : Nat) : crowd Ω H ks k j ≤ Ω.length := by
  rw [crowd, ← length_filter_eq]
  exact List.length_filter_le _ _

/-- … and at most as many as make one of the keys share `j` nibbles. -/
theorem crowd_le_meets (j : Nat) :
    crowd Ω H ks k j ≤ ((ks.filter fun x => decide (x ≠ k)).map fun x => meets Ω H k x j).sum := by
  simp only [crowd, crowded]
  refine Nat.le_trans (sum_le_sum fun w _ => any_toNat_le _ _) ?_
  rw [sum_swap]
  apply sum_le_sum
  intro x _
  rw [meets, length_filter_eq]
  exact Nat.le_refl _

theorem meets_anti {a b : K} {i j : Nat} (h : i ≤ j) : meets Ω H a b j ≤ meets Ω H a b i := by
  rw [meets, meets, ← List.countP_eq_length_filter, ← List.countP_eq_length_filter]
  apply List.countP_mono_left
  intro w _ hw
  rw [decide_eq_true_eq] at hw ⊢
  exact fun x hx => hw x (by omega)

variable {c m L : Nat}

theorem crowd_spread (hs : Spread c m Ω H (k :: ks)) (hN : (ks.filter fun x => decide (x ≠ k)).length ≤ 16 ^ L) {i j : Nat}
    (hi : i ≤ m) (hij : i ≤ j) : 16 ^ i * crowd Ω H ks k j ≤ 16 ^ L * (c * Ω.length) := by
  refine Nat.le_trans (Nat.mul_le_mul_left _ (crowd_le_meets j)) ?_
  rw [← sum_mul]
  refine Nat.le_trans (sum_le_sum (g := fun _ => c * Ω.length) fun x hx => ?_) ?_
  · obtain ⟨h1, h2⟩ := List.mem_filter.1 hx
    rw [decide_eq_true_eq] at h2
    exact Nat.le_trans (Nat.mul_le_mul_left _ (meets_anti hij)) (hs k (by simp) x (by simp [h1]) (Ne.symm h2) i hi)
  · rw [sum_const, Nat.mul_comm]
    exact Nat.mul_le_mul_right _ hN

/-- The sum of the first `t` of the numbers. -/
def crowds (Ω : List W) (H : W → K → Nat → BitVec 64) (ks : List K) (k : K) (t : Nat) : Nat :=
  ((List.range t).map fun j => crowd Ω H ks k (j + 1)).sum

theorem crowds_succ (t : Nat) : crowds Ω H ks k (t + 1) = crowds Ω H ks k t + crowd Ω H ks k (t + 1) := by
  simp [crowds, List.range_succ]

theorem crowds_low (t : Nat) : crowds Ω H ks k t ≤ Ω.length * t := by
  induction t with
  | zero => simp [crowds]
  | succ t ih =>
    rw [crowds_succ, Nat.mul_succ]
    exact Nat.add_le_add ih (crowd_le_length _)

theorem crowds_mid (hs : Spread c m Ω H (k :: ks)) (hN : (ks.filter fun x => decide (x ≠ k)).length ≤ 16 ^ L) (n : Nat) (h : L + n ≤ m) :
    15 * 16 ^ (L + n) * crowds Ω H ks k (L + n) + c * Ω.length * 16 ^ L
      ≤ 15 * 16 ^ (L + n) * (Ω.length * L) + c * Ω.length * 16 ^ (L + n) := by
  induction n with
  | zero =>
    have := Nat.mul_le_mul_left (15 * 16 ^ L) (crowds_low (Ω := Ω) (H := H) (ks := ks) (k := k) L)
    simp only [Nat.add_zero]
    omega
  | succ n ih =>
    have ih := ih (by omega)
    have h1 := crowd_spread hs hN (i := L + n + 1) (j := L + n + 1) (by omega) (Nat.le_refl _)
    rw [← Nat.add_assoc, crowds_succ]
    generalize crowd Ω H ks k (L + n + 1) = b at *
    generalize crowds Ω H ks k (L + n) = S at *
    rw [Nat.pow_succ] at h1 ⊢
    generalize 16 ^ (L + n) = p at *
    generalize 16 ^ L = q at *
    generalize c * Ω.length = C at *
    generalize Ω.length * L = X at *
    have e1 : 15 * (p * 16) * (S + b) = 16 * (15 * p * S) + 15 * (p * 16 * b) := by grind
    have e2 : 15 * (p * 16) * X + C * (p * 16) = 16 * (15 * p * X + C * p) := by grind
    have e3 : q * C = C * q := Nat.mul_comm _ _
    omega

theorem crowds_high (hs : Spread c m Ω H (k :: ks)) (hN : (ks.filter fun x => decide (x ≠ k)).length ≤ 16 ^ L) (hL : L ≤ m) (n : Nat) :
    15 * 16 ^ m * crowds Ω H ks k (m + n)
      ≤ Ω.length * (15 * 16 ^ m * L + c * 16 ^ m + 15 * n * c * 16 ^ L) := by
  induction n with
  | zero =>
    have := crowds_mid hs hN (m - L) (by omega)
    rw [show L + (m - L) = m by omega] at this
    have e : Ω.length * (15 * 16 ^ m * L + c * 16 ^ m + 15 * 0 * c * 16 ^ L)
      = 15 * 16 ^ m * (Ω.length * L) + c * Ω.length * 16 ^ m := by grind
    rw [e]
    simp only [Nat.add_zero] at this ⊢
    omega
  | succ n ih =>
    have h1 := crowd_spread hs hN (i := m) (j := m + n + 1) (by omega) (by omega)
    rw [← Nat.add_assoc, crowds_succ]
    have e : Ω.length * (15 * 16 ^ m * L + c * 16 ^ m + 15 * (n + 1) * c * 16 ^ L)
      = Ω.length * (15 * 16 ^ m * L + c * 16 ^ m + 15 * n * c * 16 ^ L) + 15 * (16 ^ L * (c * Ω.length)) := by grind
    have e' : 15 * 16 ^ m * (crowds Ω H ks k (m + n) + crowd Ω H ks k (m + n + 1))
      = 15 * 16 ^ m * crowds Ω H ks k (m + n) + 15 * (16 ^ m * crowd Ω H ks k (m + n + 1)) := by grind
    rw [e, e']
    omega

theorem crowds_le (hs : Spread c m Ω H (k :: ks)) (hN : (ks.filter fun x => decide (x ≠ k)).length ≤ 16 ^ L) (hL : L ≤ m) (hm : m ≤ 256) :
    ((crowds Ω H ks k 256 : Nat) : Rat) ≤ Ω.length * depthBound c m L := by
  have h := crowds_high hs hN hL (256 - m)
  rw [show m + (256 - m) = 256 by omega] at h
  have h' := Rat.natCast_le_natCast.2 h
  have hp : (0 : Rat) < 16 ^ m := by
    have := Rat.natCast_pos.2 (show 0 < 16 ^ m from Nat.pow_pos (by decide))
    simpa using this
  have hsub : ((256 - m : Nat) : Rat) = 256 - m := by
    have : ((256 - m + m : Nat) : Rat) = 256 := by rw [Nat.sub_add_cancel hm]; rfl
    rw [Rat.natCast_add] at this
    grind
  simp only [Rat.natCast_mul, Rat.natCast_add, Rat.natCast_pow, hsub] at h'
  refine Rat.le_of_mul_le_mul_left (c := 15 * 16 ^ m) ?_ (by grind)
  have e : (15 * 16 ^ m : Rat) * (Ω.length * depthBound c m L)
      = Ω.length * (15 * 16 ^ m * L + c * 16 ^ m + 15 * (256 - m) * c * 16 ^ L) := by
    rw [depthBound]
    generalize (16 : Rat) ^ m = p at *
    have : p ≠ 0 := by grind
    grind
  rw [e]
  exact h'

/-- On average over `Ω`, a key has depth at most `depthBound c m L`, … -/
theorem depthIn_avg (hs : Spread c m Ω H (k :: ks)) (hN : (ks.filter fun x => decide (x ≠ k)).length ≤ 16 ^ L) (hL : L ≤ m) (hm : m ≤ 256) :
    ((Ω.map fun w => depthIn (H w) ks k).sum : Rat) ≤ Ω.length * depthBound c m L := by
  refine Rat.le_trans (Rat.natCast_le_natCast.2 ?_) (crowds_le hs hN hL hm)
  refine Nat.le_trans (sum_le_sum fun w _ => depthIn_crowded) ?_
  rw [sum_swap]
  exact Nat.le_refl _

/-- … and a search for any key visits at most one branch more. -/
theorem levels_avg (hn : ks.Nodup) (hs : Spread c m Ω H (k :: ks)) (hN : (ks.filter fun x => decide (x ≠ k)).length ≤ 16 ^ L) (hL : L ≤ m)
    (hm : m ≤ 256) : ((Ω.map fun w => levels (H w) ks k).sum : Rat) ≤ Ω.length * (1 + depthBound c m L) := by
  have h : (Ω.map fun w => levels (H w) ks k).sum ≤ Ω.length + crowds Ω H ks k 256 := by
    refine Nat.le_trans (sum_le_sum fun w _ => levels_crowded hn) ?_
    rw [sum_add, sum_const, sum_swap, Nat.one_mul]
    exact Nat.le_refl _
  have h1 := Rat.natCast_le_natCast.2 h
  have h2 := crowds_le hs hN hL hm
  rw [Rat.natCast_add] at h1
  grind

theorem spread_sub {ks' : List K} (hs : Spread c m Ω H ks) (h : ∀ x ∈ ks', x ∈ ks) : Spread c m Ω H ks' :=
  fun a ha b hb hab j hj => hs a (h a ha) b (h b hb) hab j hj

theorem depthBound_nonneg (hm : m ≤ 256) : 0 ≤ (Ω.length : Rat) * depthBound c m L := by
  have h0 : (0 : Rat) ≤ 0 * depthBound c m L := by grind
  have : (0 : Rat) ≤ depthBound c m L := by
    have h1 : (0 : Rat) < 15 * 16 ^ m := by
      have := Rat.natCast_pos.2 (show 0 < 15 * 16 ^ m from Nat.mul_pos (by decide) (Nat.pow_pos (by decide)))
      simpa using this
    refine Rat.le_of_mul_le_mul_left (c := 15 * 16 ^ m) ?_ h1
    have h2 : (0 : Rat) ≤ ((15 * 16 ^ m * L + c * 16 ^ m + 15 * (256 - m) * c * 16 ^ L : Nat) : Rat) := Rat.natCast_nonneg
    have hsub : ((256 - m : Nat) : Rat) = 256 - m := by
      have : ((256 - m + m : Nat) : Rat) = 256 := by rw [Nat.sub_add_cancel hm]; rfl
      rw [Rat.natCast_add] at this
      grind
    simp only [Rat.natCast_mul, Rat.natCast_add, Rat.natCast_pow, hsub] at h2
    have e : (15 * 16 ^ m : Rat) * depthBound c m L = (15 * 16 ^ m * L + c * 16 ^ m + 15 * (256 - m) * c * 16 ^ L) := by
      rw [depthBound]
      generalize (16 : Rat) ^ m = p at *
      have : p ≠ 0 := by grind
      grind
    rw [e]
    have z : (15 * 16 ^ m : Rat) * 0 = 0 := by grind
    rw [z]
    exact h2
  have := Rat.mul_le_mul_of_nonneg_left this (Rat.natCast_nonneg (a := Ω.length))
  grind

theorem sum_le_length_mul {α : Type} {l : List α} {f : α → Nat} {b : Rat} (h : ∀ a ∈ l, (f a : Rat) ≤ b) :
    ((l.map f).sum : Rat) ≤ l.length * b := by
  induction l with
  | nil => simp
  | cons a l ih =>
    have h1 := h a (by simp)
    have h2 := ih fun x hx => h x (by simp [hx])
    simp only [List.map_cons, List.sum_cons, List.length_cons, Rat.natCast_add]
    grind

/-- The mean depth, too. -/
theorem meanDepth_avg (hs : Spread c m Ω H ks) (hN : ks.length ≤ 16 ^ L) (hL : L ≤ m) (hm : m ≤ 256) {cov : List W} (hc : cov.Sublist Ω) :
    (cov.map fun w => meanDepth (H w) ks).sum ≤ Ω.length * depthBound c m L := by
  by_cases hk : ks = []
  · subst hk
    have : (cov.map fun w => meanDepth (H w) ([] : List K)).sum = 0 := by
      clear hc
      induction cov with
      | nil => rfl
      | cons w l ih =>
        simp only [List.map_cons, List.sum_cons, ih]
        rw [meanDepth, if_pos rfl, Rat.add_zero]
    rw [this]
    exact depthBound_nonneg hm
  · have hpos : (0 : Rat) < ks.length := Rat.natCast_pos.2 (List.length_pos_iff.2 hk)
    have e : (ks.length : Rat) * (cov.map fun w => meanDepth (H w) ks).sum = ((cov.map fun w => depthSum (H w) ks).sum : Nat) := by
      clear hc
      induction cov with
      | nil => simp
      | cons w l ih =>
        simp only [List.map_cons, List.sum_cons, Rat.natCast_add, ← ih, meanDepth, if_neg hk]
        grind
    refine Rat.le_of_mul_le_mul_left (c := ks.length) ?_ hpos
    rw [e]
    refine Rat.le_trans (Rat.natCast_le_natCast.2 (sum_sublist hc _)) ?_
    simp only [depthSum]
    rw [sum_swap]
    exact sum_le_length_mul fun k hk => depthIn_avg (spread_sub hs fun x hx => by
      rcases List.mem_cons.1 hx with rfl | hx
      · exact hk
      · exact hx) (Nat.le_trans (List.length_filter_le _ _) hN) hL hm

end

/-! ### The lower bound -/

section
variable {K : Type} [DecidableEq K] {H : K → Nat → BitVec 64} {ks : List K}

/-- The number whose digits to base 16 are the first `j` nibbles. -/
def prefixOf (H : K → Nat → BitVec 64) (k : K) : Nat → Nat
  | 0 => 0
  | j + 1 => prefixOf H k j * 16 + nibble H k j

theorem nibble_lt (k : K) (j : Nat) : nibble H k j < 16 := Nat.mod_lt _ (by decide)

theorem prefixOf_lt (k : K) (j : Nat) : prefixOf H k j < 16 ^ j := by
  induction j with
  | zero => simp [prefixOf]
  | succ j ih =>
    have := nibble_lt (H := H) k j
    rw [prefixOf, Nat.pow_succ]
    omega

theorem prefixOf_inj {a b : K} {j : Nat} (h : prefixOf H a j = prefixOf H b j) : Agree H a b j := by
  induction j with
  | zero => exact fun i hi => absurd hi (by omega)
  | succ j ih =>
    have h1 := nibble_lt (H := H) a j
    have h2 := nibble_lt (H := H) b j
    rw [prefixOf, prefixOf] at h
    have ih := ih (by omega)
    intro i hi
    by_cases hij : i = j
    · subst hij; omega
    · exact ih i (by omega)

/-- At most `16^j` keys are less than `j` deep. -/
theorem shallow_le (hn : ks.Nodup) {j : Nat} (hj : j ≤ 256) :
    (ks.filter fun k => decide (depthIn H ks k < j)).length ≤ 16 ^ j := by
  have h1 : ((ks.filter fun k => decide (depthIn H ks k < j)).map fun k => prefixOf H k j).Nodup := by
    refine List.Pairwise.map _ ?_ (List.Pairwise.and_mem.1 (List.Pairwise.filter _ hn))
    rintro a b ⟨ha, hb, hab⟩ he
    obtain ⟨ha1, ha2⟩ := List.mem_filter.1 ha
    rw [decide_eq_true_eq] at ha2
    have := le_depthIn (H := H) (List.mem_filter.1 hb).1 (Ne.symm hab)
    have := le_sharedLen.2 ⟨hj, prefixOf_inj he⟩
    omega
  have := List.Nodup.length_le_of_subset h1 (l₂ := List.range (16 ^ j)) (by
    intro x hx
    obtain ⟨k, _, rfl⟩ := List.mem_map.1 hx
    exact List.mem_range.2 (prefixOf_lt k j))
  simpa using this

theorem depthIn_ge (d L : Nat) : ((List.range L).map fun j => (decide (j < d)).toNat).sum ≤ d := by
  rw [← length_filter_eq, length_filter_lt]
  omega

theorem geometric (L : Nat) : 15 * ((List.range L).map fun j => 16 ^ (j + 1)).sum + 16 = 16 * 16 ^ L := by
  induction L with
  | zero => simp
  | succ L ih =>
    rw [List.range_succ, List.map_append, List.sum_append, Nat.mul_add]
    simp only [List.map_cons, List.map_nil, List.sum_cons, List.sum_nil]
    rw [Nat.pow_succ]
    omega

theorem depthSum_ge (hn : ks.Nodup) {L : Nat} (hL : L ≤ 256) (hN : 16 ^ L ≤ ks.length) :
    15 * L * ks.length ≤ 15 * depthSum H ks + 16 * ks.length := by
  have h1 : ((List.range L).map fun j => (ks.filter fun k => decide (j < depthIn H ks k)).length).sum ≤ depthSum H ks := by
    simp only [length_filter_eq]
    rw [sum_swap, depthSum]
    exact sum_le_sum fun k _ => depthIn_ge _ _
  have h2 : L * ks.length ≤ ((List.range L).map fun j => (ks.filter fun k => decide (j < depthIn H ks k)).length).sum
      + ((List.range L).map fun j => 16 ^ (j + 1)).sum := by
    rw [← sum_add]
    have := sum_const (List.range L) ks.length
    rw [List.length_range, Nat.mul_comm] at this
    rw [← this]
    apply sum_le_sum
    intro j hj
    have hj := List.mem_range.1 hj
    have h3 := shallow_le (H := H) hn (j := j + 1) (by omega)
    have h4 : (ks.filter fun k => decide (j < depthIn H ks k)).length + (ks.filter fun k => decide (depthIn H ks k < j + 1)).length = ks.length := by
      rw [← List.countP_eq_length_filter, ← List.countP_eq_length_filter, List.length_eq_countP_add_countP (fun k => decide (j < depthIn H ks k))]
      congr 1
      apply List.countP_congr
      intro x _
      simp
      omega
    omega
  have h3 := geometric L
  have e : 15 * L * ks.length = 15 * (L * ks.length) := Nat.mul_assoc _ _ _
  omega

theorem meanDepth_ge (hn : ks.Nodup) {L : Nat} (hL : L ≤ 256) (hN : 16 ^ L ≤ ks.length) :
    (L : Rat) - 16 / 15 ≤ meanDepth H ks := by
  have hpos : 0 < ks.length := Nat.lt_of_lt_of_le (Nat.pow_pos (by decide)) hN
  have hk : ks ≠ [] := List.length_pos_iff.1 hpos
  have hpos := Rat.natCast_pos.2 hpos
  have h := Rat.natCast_le_natCast.2 (depthSum_ge (H := H) hn hL hN)
  simp only [Rat.natCast_mul, Rat.natCast_add] at h
  refine Rat.le_of_mul_le_mul_left (c := 15 * ks.length) ?_ (by grind)
  rw [meanDepth, if_neg hk]
  have : (ks.length : Rat) ≠ 0 := by grind
  have e : (15 * ks.length : Rat) * (depthSum H ks / ks.length) = 15 * depthSum H ks := by grind
  rw [e]
  grind

end

/-! ### The family of all hash functions -/

section
variable {α : Type}

/-- All lists of length `n` of elements of `D`. -/
def vecs (D : List α) : Nat → List (List α)
  | 0 => [[]]
  | n + 1 => D.flatMap fun x => (vecs D n).map fun v => x :: v

theorem length_vecs (D : List α) (n : Nat) : (vecs D n).length = D.length ^ n := by
  induction n with
  | zero => rfl
  | succ n ih =>
    rw [vecs, List.length_flatMap]
    simp only [List.length_map, ih]
    rw [sum_const, Nat.pow_succ]

theorem countP_vecs (D : List α) (n : Nat) (p : List α → Bool) :
    (vecs D (n + 1)).countP p = (D.map fun x => (vecs D n).countP fun v => p (x :: v)).sum := by
  rw [vecs, List.countP_flatMap]
  congr 1
  apply List.map_congr_left
  intro x _
  simp only [Function.comp, List.countP_map]
  rfl

theorem countP_at {D : List α} {d : α} {e : Nat} {p : α → Bool} (h : e * D.countP p ≤ D.length) {n b : Nat} (hb : b < n) :
    e * (vecs D n).countP (fun v => p (v.getD b d)) ≤ D.length ^ n := by
  induction n generalizing b with
  | zero => omega
  | succ n ih =>
    rw [countP_vecs]
    cases b with
    | zero =>
      simp only [List.getD_cons_zero]
      have : ∀ x, (vecs D n).countP (fun v => p x) = D.length ^ n * (p x).toNat := by
        intro x
        rw [← length_vecs]
        cases p x <;> simp
      simp only [this]
      rw [sum_mul, ← length_filter_eq, ← List.countP_eq_length_filter, Nat.pow_succ,
        show e * (D.length ^ n * D.countP p) = D.length ^ n * (e * D.countP p) by grind]
      exact Nat.mul_le_mul_left _ h
    | succ b =>
      simp only [List.getD_cons_succ]
      rw [sum_const, Nat.pow_succ, ← Nat.mul_assoc]
      exact Nat.mul_le_mul_right _ (ih (by omega))

theorem countP_two {D : List α} {d : α} {e : Nat} {p : α → α → Bool} (h : ∀ x ∈ D, e * D.countP (p x) ≤ D.length)
    (hp : ∀ x y, p x y = p y x) {n a b : Nat} (ha : a < n) (hb : b < n) (hab : a ≠ b) :
    e * (vecs D n).countP (fun v => p (v.getD a d) (v.getD b d)) ≤ D.length ^ n := by
  induction n generalizing a b with
  | zero => omega
  | succ n ih =>
    have key : ∀ b, b < n → e * (D.map fun x => (vecs D n).countP fun v => p x (v.getD b d)).sum ≤ D.length ^ (n + 1) := by
      intro b hb
      rw [← sum_mul]
      refine Nat.le_trans (sum_le_sum (g := fun _ => D.length ^ n) fun x hx => countP_at (h x hx) hb) ?_
      rw [sum_const, Nat.pow_succ]
      exact Nat.le_refl _
    rw [countP_vecs]
    cases a with
    | zero =>
      cases b with
      | zero => exact absurd rfl hab
      | succ b =>
        simp only [List.getD_cons_zero, List.getD_cons_succ]
        exact key b (by omega)
    | succ a =>
      cases b with
      | zero =>
        simp only [List.getD_cons_zero, List.getD_cons_succ]
        have := key a (by omega)
        simpa only [hp] using this
      | succ b =>
        simp only [List.getD_cons_succ]
        rw [sum_const, Nat.pow_succ, ← Nat.mul_assoc]
        exact Nat.mul_le_mul_right _ (ih (by omega) (by omega) (by omega))

end

theorem countP_mod {e r : Nat} (hr : r < e) (q : Nat) : (List.range (e * q)).countP (fun i => decide (i % e = r)) = q := by
  induction q with
  | zero => simp
  | succ q ih =>
    rw [Nat.mul_succ, List.range_add, List.countP_append, ih, List.countP_map]
    congr 1
    have : ∀ i ∈ List.range e, ((fun i => decide (i % e = r)) ∘ fun x => e * q + x) i = true ↔ (fun i => i == r) i = true := by
      intro i hi
      have hi := List.mem_range.1 hi
      simp [Nat.mod_eq_of_lt hi]
    rw [List.countP_congr this]
    have := List.count_range (a := r) (n := e)
    simpa [List.count, hr] using this

/-- All 64-bit digests. -/
def digests : List (BitVec 64) := (List.range (2 ^ 64)).map (BitVec.ofNat 64)

/-- The hash function that sends the keys `ks` to the digests `v`.  (`toyHash`, `tableHash ks v`, … are values that
the parameter `sum` of the model may have; what `Sum64` returns for other byte strings does not matter here.) -/
def tableHash (ks : List (List UInt8)) (v : List (BitVec 64)) : Maphash := fun _ bs => v.getD (ks.idxOf bs) 0#64

/-- All hash functions on the keys `ks`. -/
def allHashes (ks : List (List UInt8)) : List (List (BitVec 64)) := vecs digests ks.length

/-- The first `j` digits to base 16. -/
theorem mod_of_digits {x y j : Nat} (h : ∀ i, i < j → x / 16 ^ i % 16 = y / 16 ^ i % 16) : x % 16 ^ j = y % 16 ^ j := by
  induction j with
  | zero => simp [Nat.mod_one]
  | succ j ih =>
    have h1 := ih fun i hi => h i (by omega)
    have h2 := h j (by omega)
    rw [Nat.pow_succ, Nat.mod_mul, Nat.mod_mul, h1, h2]

theorem countP_digests (x : BitVec 64) {j : Nat} (hj : j ≤ 16) :
    16 ^ j * digests.countP (fun y => decide (x.toNat % 16 ^ j = y.toNat % 16 ^ j)) ≤ digests.length := by
  rw [digests, List.countP_map, List.length_map, List.length_range]
  have e : (2 : Nat) ^ 64 = 16 ^ j * 16 ^ (16 - j) := by
    rw [← Nat.pow_add, show j + (16 - j) = 16 by omega]
  have h := countP_mod (Nat.mod_lt x.toNat (show 0 < 16 ^ j from Nat.pow_pos (by decide))) (16 ^ (16 - j))
  have : (List.range (2 ^ 64)).countP ((fun y : BitVec 64 => decide (x.toNat % 16 ^ j = y.toNat % 16 ^ j)) ∘ BitVec.ofNat 64)
      = (List.range (16 ^ j * 16 ^ (16 - j))).countP (fun i => decide (i % 16 ^ j = x.toNat % 16 ^ j)) := by
    rw [← e]
    apply List.countP_congr
    intro i hi
    have hi := List.mem_range.1 hi
    simp only [Function.comp, BitVec.toNat_ofNat, Nat.mod_eq_of_lt hi, decide_eq_true_eq]
    exact eq_comm
  rw [this, h, e]
  exact Nat.le_refl _

/-- A random function is as good as it gets. -/
theorem spread_all (ks : List (List UInt8)) (sd : Seed) :
    Spread 1 16 (allHashes ks) (fun v => byteStream (tableHash ks v) sd id) ks := by
  intro a ha b hb hab j hj
  rw [Nat.one_mul, allHashes, length_vecs, meets, ← List.countP_eq_length_filter]
  refine Nat.le_trans (Nat.mul_le_mul_left _ (List.countP_mono_left ?_))
    (countP_two (d := 0#64) (p := fun x y => decide (x.toNat % 16 ^ j = y.toNat % 16 ^ j)) (a := ks.idxOf a) (b := ks.idxOf b)
      (fun x _ => countP_digests x hj) (fun x y => by rw [decide_eq_decide]; exact eq_comm)
      (List.idxOf_lt_length_iff.2 ha) (List.idxOf_lt_length_iff.2 hb) ?_)
  · intro v _ hv
    rw [decide_eq_true_eq] at hv ⊢
    apply mod_of_digits
    intro i hi
    have := hv i hi
    simpa [nibble, byteStream, tableHash, Nat.div_eq_of_lt (show i < 16 by omega), Nat.mod_eq_of_lt (show i < 16 by omega)] using this
  · intro e
    have h1 := List.getElem_idxOf (List.idxOf_lt_length_iff.2 ha)
    have h2 := List.getElem_idxOf (List.idxOf_lt_length_iff.2 hb)
    simp only [e] at h1
    exact hab (h1.symm.trans h2)

/-! ### C63 -/

section
variable {K V : Type} [DecidableEq K] [Inhabited V] {fuel c m L : Nat}

/-- C63, lower bound: whatever the hash function, `Dep` of a map with at least `16^L` keys is at least `L - 16/15`. -/
theorem C63_lower {I : MapImpl K V} {sd : Seed} {H : K → Nat → BitVec 64} {P : Bool → List K → K → Prop} {lossy : V → V} {ex : Prop}
    (hc : MapContainer I sd H P lossy ex) (hex : ex) {ops : List (MOp K V)} (h : EachNew P [] ops) (hlen : ops.length < 2 ^ 56)
    (hL : L ≤ 256) (hN : 16 ^ L ≤ (keysAfter [] ops).length) (hf : 256 ≤ fuel) (s : St K V) :
    ∃ q : Rat, I.After fuel sd s ops [.dep] [.rat q] ∧ L - 16 / 15 ≤ q :=
  ⟨_, C15_dep hc hex h hlen hf s, meanDepth_ge (nodup_keysAfter (by simp) ops) hL hN⟩

/-- C63, upper bound: for a family `Ω` of hash functions (or of seeds) that spreads the stored keys, at most `16^L` of
them, the average of `Dep` over the family is at most `depthBound c m L`.  (Functions with which the history is not
covered, for instance because two keys have the same digests, are left out on the left side, that is, they
count as zero.) -/
theorem C63_dep {W : Type} {Ω cov : List W} {I : W → MapImpl K V} {sd : W → Seed} {H : W → K → Nat → BitVec 64}
    {P : W → Bool → List K → K → Prop} {lossy : V → V} {ex : Prop}
    (hc : ∀ w, MapContainer (I w) (sd w) (H w) (P w) lossy ex) (hex : ex) {ops : List (MOp K V)} (hcov : cov.Sublist Ω)
    (h : ∀ w ∈ cov, EachNew (P w) [] ops) (hlen : ops.length < 2 ^ 56) (hs : Spread c m Ω H (keysAfter [] ops))
    (hN : (keysAfter [] ops).length ≤ 16 ^ L) (hL : L ≤ m) (hm : m ≤ 256) (hf : 256 ≤ fuel) (s : W → St K V) :
    ∃ q : W → Rat, (∀ w ∈ cov, (I w).After fuel (sd w) (s w) ops [.dep] [.rat (q w)]) ∧
      (cov.map q).sum ≤ Ω.length * depthBound c m L :=
  ⟨_, fun w hw => C15_dep (hc w) hex (h w hw) hlen hf (s w), meanDepth_avg hs hN hL hm hcov⟩

/-- C63: the number of rounds that a search for `k` (present or absent) makes, on average over the family: at most one
more. -/
theorem C63_search {W : Type} {Ω cov : List W} {I : W → MapImpl K V} {sd : W → Seed} {H : W → K → Nat → BitVec 64}
    {P : W → Bool → List K → K → Prop} {lossy : V → V} {ex : Prop}
    (hc : ∀ w, MapContainer (I w) (sd w) (H w) (P w) lossy ex) (hex : ex) {ops : List (MOp K V)} (hcov : cov.Sublist Ω)
    (h : ∀ w ∈ cov, EachNew (P w) [] ops) {k : K} (hs : Spread c m Ω H (k :: keysAfter [] ops))
    (hN : (keysAfter [] ops).length ≤ 16 ^ L) (hL : L ≤ m) (hm : m ≤ 256) (hf : 256 ≤ fuel) (s : W → St K V) :
    ∃ r : W → Nat, (∀ w ∈ cov, ∃ mp os s₁, (I w).session fuel (sd w) ops (s w) = .ok ((mp, os), s₁) ∧
        ∀ op, op.seeks = some k → ∀ n, (n < r w → (I w).exec n mp op s₁ = .error .diverge) ∧
          (r w ≤ n → ∃ o s₂, (I w).exec n mp op s₁ = .ok (o, s₂))) ∧
      ((cov.map r).sum : Rat) ≤ Ω.length * (1 + depthBound c m L) := by
  refine ⟨fun w => levels (H w) (keysAfter [] ops) k, fun w hw => ?_, ?_⟩
  · obtain ⟨mp, os, s₁, h1, h2⟩ := C37_map (hc w) hex (h w hw) hf (s w)
    exact ⟨mp, os, s₁, h1, fun op hop n => ⟨(h2 op k hop n).1, fun hn => ((h2 op k hop n).2 hn).2⟩⟩
  · exact Rat.le_trans (Rat.natCast_le_natCast.2 (sum_sublist hcov _))
      (levels_avg (nodup_keysAfter (by simp) ops) hs (Nat.le_trans (List.length_filter_le _ _) hN) hL hm)

end

section
variable {K : Type} [DecidableEq K] {fuel c m L : Nat}

/-- C63, lower bound, sets. -/
theorem C63_set_lower {I : SetImpl K} {sd : Seed} {H : K → Nat → BitVec 64} {P : List K → K → Prop} {inv : Bool} {ex : Prop}
    (hc : SetContainer I sd H P inv ex) (hex : ex) {ops : List (SOp K)} (h : SEachNew H inv P [] ops) (hlen : ops.length < 2 ^ 56)
    (hL : L ≤ 256) (hN : 16 ^ L ≤ (elemsAfterX H inv [] ops).length) (hf : 256 ≤ fuel) (s : St K Unit) :
    ∃ q : Rat, I.After fuel sd s ops [.dep] [.rat q] ∧ L - 16 / 15 ≤ q :=
  ⟨_, C15_set hc hex h hlen hf s, meanDepth_ge (nodup_elemsAfterX inv (by simp) ops) hL hN⟩

/-- C63, upper bound, sets whose `Del` does what it should. -/
theorem C63_set_dep {W : Type} {Ω cov : List W} {I : W → SetImpl K} {sd : W → Seed} {H : W → K → Nat → BitVec 64}
    {P : W → List K → K → Prop} {ex : Prop} (hc : ∀ w, SetContainer (I w) (sd w) (H w) (P w) false ex) (hex : ex)
    {ops : List (SOp K)} (hcov : cov.Sublist Ω) (h : ∀ w ∈ cov, SEachNew (H w) false (P w) [] ops) (hlen : ops.length < 2 ^ 56)
    (hs : Spread c m Ω H (elemsAfter [] ops)) (hN : (elemsAfter [] ops).length ≤ 16 ^ L) (hL : L ≤ m) (hm : m ≤ 256)
    (hf : 256 ≤ fuel) (s : W → St K Unit) :
    ∃ q : W → Rat, (∀ w ∈ cov, (I w).After fuel (sd w) (s w) ops [.dep] [.rat (q w)]) ∧
      (cov.map q).sum ≤ Ω.length * depthBound c m L :=
  ⟨_, fun w hw => elemsAfterX_false (H w) [] ops ▸ C15_set (hc w) hex (h w hw) hlen hf (s w), meanDepth_avg hs hN hL hm hcov⟩

/-- C63, searches, sets whose `Del` does what it should. -/
theorem C63_set_search {W : Type} {Ω cov : List W} {I : W → SetImpl K} {sd : W → Seed} {H : W → K → Nat → BitVec 64}
    {P : W → List K → K → Prop} {ex : Prop} (hc : ∀ w, SetContainer (I w) (sd w) (H w) (P w) false ex) (hex : ex)
    {ops : List (SOp K)} (hcov : cov.Sublist Ω) (h : ∀ w ∈ cov, SEachNew (H w) false (P w) [] ops) {k : K}
    (hs : Spread c m Ω H (k :: elemsAfter [] ops)) (hN : (elemsAfter [] ops).length ≤ 16 ^ L) (hL : L ≤ m) (hm : m ≤ 256)
    (hf : 256 ≤ fuel) (s : W → St K Unit) :
    ∃ r : W → Nat, (∀ w ∈ cov, ∃ mp os s₁, (I w).session fuel (sd w) ops (s w) = .ok ((mp, os), s₁) ∧
        ∀ op, op.seeks = some k → ∀ n, (n < r w → (I w).exec n mp op s₁ = .error .diverge) ∧
          (r w ≤ n → ∃ o s₂, (I w).exec n mp op s₁ = .ok (o, s₂))) ∧
      ((cov.map r).sum : Rat) ≤ Ω.length * (1 + depthBound c m L) := by
  refine ⟨fun w => levels (H w) (elemsAfter [] ops) k, fun w hw => ?_, ?_⟩
  · obtain ⟨mp, os, s₁, h1, h2⟩ := C37_set (hc w) hex (h w hw) hf (s w)
    rw [elemsAfterX_false] at h2
    exact ⟨mp, os, s₁, h1, fun op hop n => ⟨(h2 op k hop n).1, fun hn => ((h2 op k hop n).2 hn).2⟩⟩
  · exact Rat.le_trans (Rat.natCast_le_natCast.2 (sum_sublist hcov _))
      (levels_avg (by rw [← elemsAfterX_false (H := fun _ _ => 0#64)]; exact nodup_elemsAfterX false (by simp) ops) hs
        (Nat.le_trans (List.length_filter_le _ _) hN) hL hm)

end

/-- C63 for a random hash function: the average of `Dep` of a `StringMap` with at most `16^L` keys over all functions
from the stored keys to 64-bit digests is at most `L + 1/15` plus `240 / 16^(16-L)`. -/
theorem C63_random {V : Type} [Inhabited V] {fuel L : Nat} (sd : Seed) {ops : List (MOp ByteStr V)} {cov : List (List (BitVec 64))}
    (hcov : cov.Sublist (allHashes (keysAfter [] ops)))
    (h : ∀ v ∈ cov, EachNew (fun _ => ByteFits (byteStream (tableHash (keysAfter [] ops) v) sd id)) [] ops)
    (hlen : ops.length < 2 ^ 56) (hN : (keysAfter [] ops).length ≤ 16 ^ L) (hL : L ≤ 16) (hf : 256 ≤ fuel) (s : St ByteStr V) :
    ∃ q : List (BitVec 64) → Rat,
      (∀ v ∈ cov, (StringMap (tableHash (keysAfter [] ops) v)).After fuel sd s ops [.dep] [.rat (q v)]) ∧
      (cov.map q).sum ≤ ((2 ^ 64) ^ (keysAfter [] ops).length : Nat) * (L + 1 / 15 + 240 * 16 ^ L / 16 ^ 16) := by
  obtain ⟨q, h1, h2⟩ := C63_dep (c := 1) (m := 16) (fun v => MapContainer.string (tableHash (keysAfter [] ops) v) sd) trivial hcov h
    hlen (spread_all _ sd) hN hL (by decide) hf fun _ => s
  refine ⟨q, h1, ?_⟩
  rw [allHashes, length_vecs, digests, List.length_map, List.length_range] at h2
  have e : depthBound 1 16 L = L + 1 / 15 + 240 * 16 ^ L / 16 ^ 16 := by
    rw [depthBound]
    grind
  rw [← e]
  exact h2

/-! ### Instances -/

/-- Multiplication in the field with 16 elements. -/
def mul16 (a b : Nat) : Nat :=
  [3, 2, 1, 0].foldl (fun r i =>
    let r := if 8 ≤ r then (r * 2) ^^^ 19 else r * 2
    if b.testBit i then r ^^^ a else r) 0

/-- A hash function of single bytes that depends on the seed: the first nibble is an affine function of the seed. -/
def affineHash : Maphash := fun sd bs =>
  let b := (bs.headD 0).toNat
  BitVec.ofNat 64 (((b / 16) ^^^ mul16 (sd.toNat % 16) (b % 16)) + 16 * b)

def exSeeds : List Seed := (List.range 16).map (BitVec.ofNat 64)

/-- The sixteen seeds are a universal family, as far as the first nibble is concerned. -/
theorem spread_affine : Spread 1 1 exSeeds (fun sd => byteStream affineHash sd id) (strKey 0x12 :: keysAfter [] (exOps strKey)) := by
  decide +kernel

example : 0 < meets exSeeds (fun sd => byteStream affineHash sd id) (strKey 0x01) (strKey 0x12) 1 := by decide +kernel

/-- `k` differs from each of `ks` in the second or the third nibble. -/
def Soon {K : Type} (H : K → Nat → BitVec 64) (ks : List K) (k : K) : Prop :=
  ∀ k' ∈ ks, ∃ j ∈ [1, 2], nibble H k j ≠ nibble H k' j

instance {K : Type} (H : K → Nat → BitVec 64) (ks : List K) (k : K) : Decidable (Soon H ks k) := by
  unfold Soon; infer_instance

theorem Soon.fits {K : Type} [DecidableEq K] {H : K → Nat → BitVec 64} {ks : List K} {k : K} (h : Soon H ks k) : ByteFits H ks k :=
  .of_near fun k' hk => by
    obtain ⟨j, hj, hne⟩ := h k' hk
    exact ⟨j, by simp at hj; omega, hne⟩

theorem affine_covered : ∀ sd ∈ exSeeds, EachNew (fun _ => ByteFits (byteStream affineHash sd id)) [] (exOps strKey) := by
  have : exSeeds.all (fun sd => decide (EachNew (fun _ => Soon (byteStream affineHash sd id)) [] (exOps strKey))) = true := by
    decide +kernel
  exact fun sd h => EachNew.mono (fun _ _ _ => Soon.fits) (of_decide_eq_true (List.all_eq_true.1 this sd h))

example := C63_dep (L := 1) (fun sd => MapContainer.string (V := Nat) affineHash sd) trivial (List.Sublist.refl exSeeds) affine_covered
  (by decide) (spread_sub spread_affine (by decide +kernel)) (by decide +kernel) (by decide) (by decide) (Nat.le_refl 256) fun _ => St.init

example := C63_search (L := 1) (fun sd => MapContainer.string (V := Nat) affineHash sd) trivial (List.Sublist.refl exSeeds) affine_covered
  spread_affine (by decide +kernel) (by decide) (by decide) (Nat.le_refl 256) fun _ => St.init

theorem SEachNew'.mono {K : Type} [DecidableEq K] {P Q : List K → K → Prop} (hPQ : ∀ ks k, P ks k → Q ks k)
    {ks : List K} {ops : List (SOp K)} (h : SEachNew' P ks ops) : SEachNew' Q ks ops := by
  induction ops generalizing ks with
  | nil => trivial
  | cons op ops ih => exact ⟨fun k hk hn => hPQ _ _ (h.1 k hk hn), ih h.2⟩

theorem affine_covered_set : ∀ sd ∈ exSeeds,
    SEachNew (byteStream affineHash sd id) false (ByteFits (byteStream affineHash sd id)) [] (exOpsS strKey) := by
  have : exSeeds.all (fun sd => decide (SEachNew' (Soon (byteStream affineHash sd id)) [] (exOpsS strKey))) = true := by
    decide +kernel
  exact fun sd h => SEachNew'.toX _ (SEachNew'.mono (fun _ _ => Soon.fits) (of_decide_eq_true (List.all_eq_true.1 this sd h)))

example := C63_set_dep (L := 1) (fun sd => SetContainer.string affineHash sd) trivial (List.Sublist.refl exSeeds) affine_covered_set
  (by decide) (spread_sub spread_affine (by decide +kernel)) (by decide +kernel) (by decide) (by decide) (Nat.le_refl 256) fun _ => St.init

example := C63_set_search (L := 1) (fun sd => SetContainer.string affineHash sd) trivial (List.Sublist.refl exSeeds) affine_covered_set
  (k := strKey 0x12) (spread_sub spread_affine (by decide +kernel)) (by decide +kernel) (by decide) (by decide) (Nat.le_refl 256) fun _ => St.init

/-- Twenty keys. -/
def exMany {K : Type} (key : UInt8 → K) : List (MOp K Nat) := (List.range 20).map fun i => .set (key (UInt8.ofNat (7 * i))) i

def exManyS {K : Type} (key : UInt8 → K) : List (SOp K) := (List.range 20).map fun i => .add (key (UInt8.ofNat (7 * i)))

example := C63_lower (L := 1) (ops := exMany strKey) (MapContainer.string (V := Nat) toyHash 0#64) trivial (by decide +kernel) (by decide)
  (by decide) (by decide +kernel) (Nat.le_refl 256) St.init

example := C63_set_lower (L := 1) (ops := exManyS strKey) (SetContainer.string toyHash 0#64) trivial (SEachNew'.toX _ (by decide +kernel))
  (by decide) (by decide) (by rw [elemsAfterX_false]; decide +kernel) (Nat.le_refl 256) St.init

theorem mem_vecs {α : Type} {D : List α} {v : List α} (h : ∀ x ∈ v, x ∈ D) : v ∈ vecs D v.length := by
  induction v with
  | nil => simp [vecs]
  | cons x v ih =>
    rw [List.length_cons, vecs]
    exact List.mem_flatMap.2 ⟨x, h x (by simp), List.mem_map.2 ⟨v, ih fun y hy => h y (by simp [hy]), rfl⟩⟩

theorem mem_digests (x : BitVec 64) : x ∈ digests :=
  List.mem_map.2 ⟨x.toNat, List.mem_range.2 x.isLt, by simp⟩

theorem exVec : [0x11#64, 0x21#64, 0x31#64, 0x12#64] ∈ allHashes (keysAfter [] (exOps strKey)) := by
  have h : (keysAfter [] (exOps strKey)).length = 4 := by decide +kernel
  rw [allHashes, h]
  exact mem_vecs (v := [0x11#64, 0x21#64, 0x31#64, 0x12#64]) fun x _ => mem_digests x

/-- The hash function that sends the four keys to four given digests, the first three of which share a nibble. -/
example := C63_random (L := 1) (ops := exOps strKey) (cov := [[0x11#64, 0x21#64, 0x31#64, 0x12#64]]) 0#64
  (List.singleton_sublist.2 exVec)
  (by decide +kernel) (by decide) (by decide +kernel) (by decide) (Nat.le_refl 256) St.init

/-- With a random hash function, four billion keys are at an average depth of less than 8.0667. -/
example : (8 : Rat) + 1 / 15 + 240 * 16 ^ 8 / 16 ^ 16 < 80667 / 10000 := by decide +kernel

end Amt
