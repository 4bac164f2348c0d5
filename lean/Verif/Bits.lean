/- Facts about the bit operations of `Verif/Model.lean`: bitmaps, ranks, nibbles. -/
import Verif.Model

namespace Amt

/-- Number of `i < n` with `f i`. -/
def cnt (f : Nat → Bool) (n : Nat) : Nat := (List.range n).countP f

@[simp] theorem cnt_zero (f : Nat → Bool) : cnt f 0 = 0 := rfl

theorem cnt_succ (f : Nat → Bool) (n : Nat) : cnt f (n + 1) = cnt f n + (if f n then 1 else 0) := by
  simp [cnt, List.range_succ, List.countP_append, List.countP_cons]

theorem cnt_congr {f g : Nat → Bool} {n : Nat} (h : ∀ i, i < n → f i = g i) : cnt f n = cnt g n := by
  induction n with
  | zero => rfl
  | succ n ih =>
    rw [cnt_succ, cnt_succ, ih (fun i hi => h i (by omega)), h n (by omega)]

theorem cnt_mono (f : Nat → Bool) {m n : Nat} (h : m ≤ n) : cnt f m ≤ cnt f n := by
  induction n with
  | zero => have : m = 0 := by omega
            subst this; exact Nat.le_refl _
  | succ n ih =>
    rcases Nat.lt_or_ge n m with h' | h'
    · have : m = n + 1 := by omega
      subst this; exact Nat.le_refl _
    · rw [cnt_succ]; exact Nat.le_trans (ih h') (Nat.le_add_right _ _)

theorem cnt_lt (f : Nat → Bool) {i n : Nat} (h : i < n) (hf : f i = true) : cnt f i < cnt f n := by
  have := cnt_mono f (m := i + 1) (n := n) h
  rw [cnt_succ, hf] at this
  simp at this; omega

theorem cnt_le (f : Nat → Bool) (n : Nat) : cnt f n ≤ n := by
  induction n with
  | zero => simp
  | succ n ih => rw [cnt_succ]; split <;> omega

theorem cnt_zeros {f : Nat → Bool} {m n : Nat} (h : m ≤ n) (hz : ∀ i, m ≤ i → i < n → f i = false) :
    cnt f n = cnt f m := by
  induction n with
  | zero => have : m = 0 := by omega
            subst this; rfl
  | succ n ih =>
    rcases Nat.lt_or_ge n m with h' | h'
    · have : m = n + 1 := by omega
      subst this; rfl
    · rw [cnt_succ, ih h' (fun i h1 h2 => hz i h1 (by omega)), hz n h' (by omega)]; simp

theorem cnt_eq_zero {f : Nat → Bool} {n : Nat} : cnt f n = 0 ↔ ∀ i, i < n → f i = false := by
  constructor
  · intro h i hi
    cases hf : f i with
    | false => rfl
    | true => have := cnt_lt f hi hf; omega
  · intro h
    have := cnt_zeros (f := f) (m := 0) (n := n) (Nat.zero_le _) (fun i _ hi => h i hi)
    simpa using this

/-- Setting a clear position. -/
theorem cnt_set {f g : Nat → Bool} {i : Nat} (hi : f i = false) (hg : g i = true)
    (ho : ∀ j, j ≠ i → g j = f j) (n : Nat) : cnt g n = cnt f n + (if i < n then 1 else 0) := by
  induction n with
  | zero => simp
  | succ n ih =>
    rw [cnt_succ, cnt_succ, ih]
    by_cases h : n = i
    · subst h; simp [hi, hg]
    · rw [ho n h]
      by_cases h2 : i < n
      · have : i < n + 1 := by omega
        simp [h2, this]; omega
      · have : ¬ i < n + 1 := by omega
        simp [h2, this]

/-- Two positions with the same rank that are both set are equal. -/
theorem cnt_inj {f : Nat → Bool} {i j : Nat} (hi : f i = true) (hj : f j = true)
    (h : cnt f i = cnt f j) : i = j := by
  rcases Nat.lt_trichotomy i j with h1 | h1 | h1
  · have := cnt_lt f h1 hi; omega
  · exact h1
  · have := cnt_lt f h1 hj; omega

/-! ### Bitmaps -/

theorem getLsbD_bitOf {r : Nat} (hr : r < 32) (i : Nat) :
    (bitOf r).getLsbD i = decide (i = r) := by
  unfold bitOf
  rw [BitVec.getLsbD_shiftLeft]
  by_cases h : i = r
  · subst h; simp [hr]
  · by_cases h2 : i < r
    · simp [h2, h]
    · have : i - r ≠ 0 := by omega
      simp [h, BitVec.getLsbD_one, this]

theorem and_bitOf_eq_zero {x : BitVec 32} {r : Nat} (hr : r < 32) :
    x &&& bitOf r = 0#32 ↔ x.getLsbD r = false := by
  constructor
  · intro h
    have := congrArg (fun y => BitVec.getLsbD y r) h
    simpa [BitVec.getLsbD_and, getLsbD_bitOf hr] using this
  · intro h
    apply BitVec.eq_of_getLsbD_eq
    intro i _
    simp only [BitVec.getLsbD_and, getLsbD_bitOf hr, BitVec.getLsbD_zero]
    by_cases hi : i = r
    · subst hi; simp [h]
    · simp [hi]

theorem and_bitOf_ne_zero {x : BitVec 32} {r : Nat} (hr : r < 32) :
    x &&& bitOf r ≠ 0#32 ↔ x.getLsbD r = true := by
  rw [Ne, and_bitOf_eq_zero hr]; simp

theorem getLsbD_or_bitOf {x : BitVec 32} {r : Nat} (hr : r < 32) (i : Nat) :
    (x ||| bitOf r).getLsbD i = (x.getLsbD i || decide (i = r)) := by
  rw [BitVec.getLsbD_or, getLsbD_bitOf hr]

theorem getLsbD_andNot_bitOf {x : BitVec 32} {r : Nat} (hr : r < 32) (i : Nat) :
    (x &&& ~~~bitOf r).getLsbD i = (x.getLsbD i && !decide (i = r)) := by
  rw [BitVec.getLsbD_and, BitVec.getLsbD_not, getLsbD_bitOf hr]
  by_cases h : i < 32
  · simp [h]
  · rw [BitVec.getLsbD_of_ge x i (by omega)]; simp

theorem bitOf_inj {r q : Nat} (hr : r < 32) (hq : q < 32) : bitOf r = bitOf q ↔ r = q := by
  constructor
  · intro h
    have := congrArg (fun y => BitVec.getLsbD y r) h
    simpa [getLsbD_bitOf hr, getLsbD_bitOf hq] using this
  · intro h; rw [h]

theorem bitOf_toNat {r : Nat} (hr : r < 32) : (bitOf r).toNat = 2 ^ r := by
  unfold bitOf
  rw [BitVec.toNat_shiftLeft]
  simp [Nat.one_shiftLeft]
  exact Nat.lt_of_lt_of_eq (Nat.pow_lt_pow_right (a := 2) (by decide) hr) (by decide)

theorem bitOf_lt {r q : Nat} (hr : r < 32) (hq : q < 32) : bitOf r < bitOf q ↔ r < q := by
  rw [BitVec.lt_def, bitOf_toNat hr, bitOf_toNat hq]
  exact Nat.pow_lt_pow_iff_right (a := 2) (by decide)

/-- `x` has exactly the bits `f` says, among the 16 usable ones. -/
def BitsAre (x : BitVec 32) (f : Nat → Bool) : Prop := ∀ i, x.getLsbD i = (decide (i < 16) && f i)

theorem popcount_eq (x : BitVec 32) : popcount x = cnt (fun i => x.getLsbD i) 32 := rfl

theorem BitsAre.popcount {x : BitVec 32} {f : Nat → Bool} (h : BitsAre x f) : popcount x = cnt f 16 := by
  rw [popcount_eq, cnt_zeros (m := 16) (by omega)]
  · exact cnt_congr (fun i hi => by rw [h i]; simp [hi])
  · intro i h1 _; rw [h i]; have : ¬ i < 16 := by omega
    simp [this]

theorem BitsAre.rankOf {x : BitVec 32} {f : Nat → Bool} (h : BitsAre x f) {r : Nat} (hr : r ≤ 16) :
    rankOf x r = cnt f r := by
  unfold Amt.rankOf
  rw [popcount_eq]
  have key : ∀ i, i < 32 → (x &&& ~~~(BitVec.allOnes 32 <<< r)).getLsbD i
      = (decide (i < r) && f i) := by
    intro i hi
    rw [BitVec.getLsbD_and, BitVec.getLsbD_not, BitVec.getLsbD_shiftLeft, h i]
    by_cases h1 : i < r
    · have : i < 16 := by omega
      simp [h1, this, hi]
    · have h3 : (BitVec.allOnes 32).getLsbD (i - r) = true := by
        rw [BitVec.getLsbD_allOnes]; simp; omega
      rw [h3]; simp [h1, hi]
  rw [cnt_congr key, cnt_zeros (m := r) (by omega)]
  · exact cnt_congr (fun i hi => by simp [hi])
  · intro i h1 _; have : ¬ i < r := by omega
    simp [this]

theorem BitsAre.ext {x y : BitVec 32} {f g : Nat → Bool} (hx : BitsAre x f) (hy : BitsAre y g) :
    x = y ↔ ∀ i, i < 16 → f i = g i := by
  constructor
  · intro h i hi
    have h1 := hx i; have h2 := hy i
    rw [h] at h1; rw [h1] at h2; simpa [hi] using h2
  · intro h
    apply BitVec.eq_of_getLsbD_eq
    intro i _
    rw [hx i, hy i]
    by_cases hi : i < 16
    · simp [hi, h i hi]
    · simp [hi]

theorem BitsAre.congr {x : BitVec 32} {f g : Nat → Bool} (hx : BitsAre x f)
    (h : ∀ i, i < 16 → f i = g i) : BitsAre x g := by
  intro i; rw [hx i]
  by_cases hi : i < 16
  · simp [hi, h i hi]
  · simp [hi]

theorem BitsAre.zero : BitsAre 0#32 (fun _ => false) := by
  intro i; simp

theorem BitsAre.or_bit {x : BitVec 32} {f g : Nat → Bool} (hx : BitsAre x f) {r : Nat} (hr : r < 16)
    (hg : g r = true) (ho : ∀ j, j ≠ r → g j = f j) : BitsAre (x ||| bitOf r) g := by
  intro i
  rw [getLsbD_or_bitOf (by omega), hx i]
  by_cases h : i = r
  · subst h; simp [hr, hg]
  · simp [h, ho i h]

theorem BitsAre.andNot_bit {x : BitVec 32} {f g : Nat → Bool} (hx : BitsAre x f) {r : Nat} (hr : r < 16)
    (hg : g r = false) (ho : ∀ j, j ≠ r → g j = f j) : BitsAre (x &&& ~~~bitOf r) g := by
  intro i
  rw [getLsbD_andNot_bitOf (by omega), hx i]
  by_cases h : i = r
  · subst h; simp [hg]
  · simp [h, ho i h]

/-! ### Nibbles -/

theorem radixOf_lt (x : BitVec 64) : radixOf x < 16 := by
  unfold radixOf
  rw [BitVec.toNat_and]
  exact Nat.lt_of_le_of_lt Nat.and_le_right (by decide)

/-- `trailingZeros` finds the lowest set bit. -/
theorem trailingZeros_spec {x : BitVec 32} {r : Nat} (hr : r < 32) (h : x.getLsbD r = true)
    (hlow : ∀ i, i < r → x.getLsbD i = false) : trailingZeros x = r := by
  unfold trailingZeros
  have : (List.range 32).find? (fun i => x.getLsbD i) = some r := by
    rw [List.find?_range_eq_some]
    refine ⟨by simpa using h, by simpa using hr, ?_⟩
    intro j hj; simp [hlow j hj]
  rw [this]; rfl

end Amt
