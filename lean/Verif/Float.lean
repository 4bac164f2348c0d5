/-
`float64`: rounding to nearest, ties to even, and `Dep` with its conversions and its division.
-/
import Verif.Containers

set_option linter.unusedVariables false
set_option exponentiation.threshold 5000

namespace Spec

/-- The finite `float64` numbers that are not negative, in units of 2^-1074, the smallest one (IEEE 754 binary64: a significand of 53 bits
and an exponent). -/
def IsF64 (x : Nat) : Prop := ∃ n e, n < 2 ^ 53 ∧ e ≤ 2045 ∧ x = n * 2 ^ e

/-- The distance of two numbers. -/
def gap (a b : Nat) : Nat := (a - b) + (b - a)

/-- `x` is the `float64` that the number `a / b` (in units of 2^-1074) is rounded to: the nearest one, and of two equally near ones that with an even significand.
(A significand has the leading bit set, unless the exponent is the smallest.) -/
structure RoundsTo (a b x : Nat) : Prop where
  float : IsF64 x
  nearest : ∀ y, IsF64 y → gap a (x * b) ≤ gap a (y * b)
  even : ∀ y, IsF64 y → y ≠ x → gap a (y * b) = gap a (x * b) → ∃ n e, x = n * 2 ^ e ∧ n < 2 ^ 53 ∧ e ≤ 2045 ∧ n % 2 = 0 ∧ (e = 0 ∨ 2 ^ 52 ≤ n)

end Spec

namespace Amt
open Spec

/-- `a / b` rounded to a whole number, ties to even. -/
def rne (a b : Nat) : Nat :=
  if 2 * (a % b) < b then a / b
  else if b < 2 * (a % b) then a / b + 1
  else if a / b % 2 = 0 then a / b else a / b + 1

/-- The exponent of the `float64` next to `a / b`. -/
def expo (a b : Nat) : Nat := Nat.log2 (a / (2 ^ 52 * b))

/-- Round `a / b`, in units of 2^-1074, to a `float64`. -/
def round64 (a b : Nat) : Nat := rne a (b * 2 ^ expo a b) * 2 ^ expo a b

/-- `float64(n)` for a `uint64`. -/
def toF64 (n : Nat) : Nat := round64 (n * 2 ^ 1074) 1

/-- `x / y` for `float64`s (both positive): the quotient, in units of 2^-1074, is rounded. -/
def divF64 (x y : Nat) : Nat := round64 (x * 2 ^ 1074) y

/-- `x / y` for `float64`s that are not negative.  `none` is a result that is not finite: NaN or an infinity if `y` is zero, an infinity if the quotient is rounded
to 2^1024 or more. -/
def quoF64 (x y : Nat) : Option Nat :=
  if y = 0 then none else if 2 ^ 2098 ≤ divF64 x y then none else some (divF64 x y)

/-- `root.Dep` (amt.go:87-92): `if r == nil || r.len == 0 { return 0 }`, `return float64(r.dep) / float64(r.len)`. -/
def depGo (len dep : BitVec 64) : Option Nat :=
  if len = 0#64 then some 0 else quoF64 (toF64 dep.toNat) (toF64 len.toNat)

/-- The number that `depGo` returns, see `depGo_eq`. -/
def depF64 (len dep : BitVec 64) : Nat :=
  if len = 0#64 then 0 else divF64 (toF64 dep.toNat) (toF64 len.toNat)

/-! ### Rounding is right -/

theorem rne_spec (a : Nat) {b : Nat} (hb : 0 < b) :
    (∀ k, gap a (rne a b * b) ≤ gap a (k * b)) ∧ (∀ k, k ≠ rne a b → gap a (k * b) = gap a (rne a b * b) → rne a b % 2 = 0) := by
  have h1 : a / b * b + a % b = a := Nat.div_add_mod' a b
  have h2 : a % b < b := Nat.mod_lt a hb
  -- a multiple is below `q b`, or above `(q+1) b`
  have hk : ∀ k, k * b + b ≤ a / b * b ∨ k = a / b ∨ k = a / b + 1 ∨ a / b * b + 2 * b ≤ k * b := by
    intro k
    rcases Nat.lt_trichotomy k (a / b) with h | h | h
    · left
      have := Nat.mul_le_mul_right b (Nat.succ_le_of_lt h)
      rw [Nat.succ_mul] at this; exact this
    · exact Or.inr (Or.inl h)
    · by_cases h' : k = a / b + 1
      · exact Or.inr (Or.inr (Or.inl h'))
      · right; right; right
        have : a / b + 2 ≤ k := by omega
        have := Nat.mul_le_mul_right b this
        rw [Nat.add_mul] at this; exact this
  have e1 : (a / b + 1) * b = a / b * b + b := Nat.succ_mul ..
  unfold rne gap
  generalize hq : a / b = q at *
  generalize hr : a % b = r at *
  by_cases c1 : 2 * r < b
  · rw [if_pos c1]
    refine ⟨fun k => ?_, fun k hne he => ?_⟩
    · rcases hk k with h | h | h | h
      · omega
      · subst h; omega
      · subst h; rw [e1]; omega
      · omega
    · rcases hk k with h | h | h | h
      · omega
      · exact absurd h hne
      · subst h; rw [e1] at he; omega
      · omega
  · rw [if_neg c1]
    by_cases c2 : b < 2 * r
    · rw [if_pos c2, e1]
      refine ⟨fun k => ?_, fun k hne he => ?_⟩
      · rcases hk k with h | h | h | h
        · omega
        · subst h; omega
        · subst h; rw [e1]; omega
        · omega
      · rcases hk k with h | h | h | h
        · omega
        · subst h; omega
        · exact absurd h hne
        · omega
    · rw [if_neg c2]
      by_cases c3 : q % 2 = 0
      · rw [if_pos c3]
        refine ⟨fun k => ?_, fun k hne he => c3⟩
        rcases hk k with h | h | h | h
        · omega
        · subst h; omega
        · subst h; rw [e1]; omega
        · omega
      · rw [if_neg c3, e1]
        refine ⟨fun k => ?_, fun k hne he => by omega⟩
        rcases hk k with h | h | h | h
        · omega
        · subst h; omega
        · subst h; rw [e1]; omega
        · omega

theorem expo_lt {a b : Nat} (hb : 0 < b) : a < 2 ^ 53 * (b * 2 ^ expo a b) := by
  have h1 : a / (2 ^ 52 * b) < 2 ^ (expo a b + 1) := Nat.lt_log2_self
  have h2 : 0 < 2 ^ 52 * b := by omega
  have h3 := (Nat.div_lt_iff_lt_mul h2).1 h1
  rw [Nat.pow_succ] at h3
  calc a < 2 ^ expo a b * 2 * (2 ^ 52 * b) := h3
    _ = 2 ^ 53 * (b * 2 ^ expo a b) := by
      rw [show (2 : Nat) ^ 53 = 2 * 2 ^ 52 by decide]
      simp only [Nat.mul_comm, Nat.mul_left_comm, Nat.mul_assoc]

theorem expo_le {a b : Nat} (hb : 0 < b) (h : expo a b ≠ 0) : 2 ^ 52 * (b * 2 ^ expo a b) ≤ a := by
  have h2 : 0 < 2 ^ 52 * b := by omega
  have h3 : a / (2 ^ 52 * b) ≠ 0 := by
    intro h4
    apply h
    unfold expo
    rw [h4]; rfl
  have h1 : 2 ^ expo a b ≤ a / (2 ^ 52 * b) := Nat.log2_self_le h3
  have h4 := (Nat.le_div_iff_mul_le h2).1 h1
  calc 2 ^ 52 * (b * 2 ^ expo a b) = 2 ^ expo a b * (2 ^ 52 * b) := by simp only [Nat.mul_comm, Nat.mul_left_comm, Nat.mul_assoc]
    _ ≤ a := h4

theorem rne_le {a b c : Nat} (hb : 0 < b) (h : a ≤ c * b) : rne a b ≤ c := by
  have h1 := (rne_spec a hb).1 c
  apply Nat.le_of_not_lt
  intro hlt
  have h2 := Nat.mul_le_mul_right b (Nat.succ_le_of_lt hlt)
  rw [Nat.succ_mul] at h2
  unfold gap at h1
  have h5 : a = c * b ∨ a < c * b := by omega
  rcases h5 with h5 | h5
  · omega
  · -- `c b - a < b` fails only if `a` is further away
    have h3 : a / b * b + a % b = a := Nat.div_add_mod' a b
    have h4 : a % b < b := Nat.mod_lt a hb
    have h6 : a / b + 1 ≤ c := by
      apply Nat.le_of_not_lt
      intro h7
      have := Nat.mul_le_mul_right b (show c ≤ a / b by omega)
      omega
    have h7 : rne a b ≤ a / b + 1 := by
      unfold rne
      split
      · omega
      · split
        · omega
        · split <;> omega
    omega

theorem rne_ge {a b c : Nat} (hb : 0 < b) (h : c * b ≤ a) : c ≤ rne a b := by
  have : c ≤ a / b := (Nat.le_div_iff_mul_le hb).2 h
  unfold rne
  split
  · exact this
  · split
    · omega
    · split <;> omega

/-- `round64` rounds as it should. -/
theorem round64_spec {a b : Nat} (hb : 0 < b) (ha : a < 2 ^ 53 * (b * 2 ^ 2044)) : RoundsTo a b (round64 a b) := by
  have hlt := expo_lt (a := a) hb
  have hle := expo_le (a := a) hb
  have hF : expo a b ≤ 2044 := by
    apply Nat.le_of_not_lt
    intro h
    have h1 := hle (by omega)
    have h2 : 2 ^ 2045 ≤ 2 ^ expo a b := Nat.pow_le_pow_right (by omega) h
    have h3 := Nat.mul_le_mul_left b h2
    rw [show (2 : Nat) ^ 2045 = 2 ^ 2044 * 2 from Nat.pow_succ .., ← Nat.mul_assoc] at h3
    omega
  generalize hFF : expo a b = F at *
  have hpos : 0 < b * 2 ^ F := Nat.mul_pos hb (Nat.two_pow_pos F)
  obtain ⟨s1, s2⟩ := rne_spec a hpos
  have hm : rne a (b * 2 ^ F) ≤ 2 ^ 53 := rne_le hpos (Nat.le_of_lt hlt)
  have hxb : ∀ n, n * 2 ^ F * b = n * (b * 2 ^ F) := fun n => by rw [Nat.mul_assoc, Nat.mul_comm (2 ^ F) b]
  have hx : round64 a b * b = rne a (b * 2 ^ F) * (b * 2 ^ F) := by unfold round64; rw [hFF, hxb]
  -- other floats
  have hy : ∀ y, IsF64 y → (∃ k, y = k * 2 ^ F) ∨ (gap a (round64 a b * b) < gap a (y * b)) := by
    rintro y ⟨n, f, h1, h2, h3⟩
    by_cases hf : F ≤ f
    · refine Or.inl ⟨n * 2 ^ (f - F), ?_⟩
      rw [h3, Nat.mul_assoc, ← Nat.pow_add, Nat.sub_add_cancel hf]
    · right
      have h4 := hle (by omega)
      have h5 : y * b < 2 ^ 52 * (b * 2 ^ F) := by
        rw [h3]
        have h6 : n * 2 ^ f < 2 ^ 53 * 2 ^ f := Nat.mul_lt_mul_of_pos_right h1 (Nat.two_pow_pos f)
        have h7 : (2 : Nat) ^ 53 * 2 ^ f ≤ 2 ^ 52 * 2 ^ F := by
          rw [← Nat.pow_add, ← Nat.pow_add]
          exact Nat.pow_le_pow_right (by omega) (by omega)
        calc n * 2 ^ f * b < 2 ^ 53 * 2 ^ f * b := Nat.mul_lt_mul_of_pos_right h6 hb
          _ ≤ 2 ^ 52 * 2 ^ F * b := Nat.mul_le_mul_right b h7
          _ = 2 ^ 52 * (b * 2 ^ F) := by rw [hxb]
      have h8 := s1 (2 ^ 52)
      rw [hx]
      unfold gap at *
      omega
  refine ⟨?_, fun y h => ?_, fun y h hne he => ?_⟩
  · by_cases h : rne a (b * 2 ^ F) < 2 ^ 53
    · exact ⟨_, F, h, by omega, by unfold round64; rw [hFF]⟩
    · refine ⟨2 ^ 52, F + 1, by decide, by omega, ?_⟩
      unfold round64
      rw [hFF, show rne a (b * 2 ^ F) = 2 ^ 53 by omega, ← Nat.pow_add, ← Nat.pow_add]
      congr 1
      omega
  · rcases hy y h with ⟨k, rfl⟩ | h
    · rw [hx, hxb]; exact s1 k
    · exact Nat.le_of_lt h
  · rcases hy y h with ⟨k, rfl⟩ | h
    · rw [hx, hxb] at he
      have hev := s2 k (by
        intro hk
        apply hne
        unfold round64
        rw [hFF, hk]) he
      by_cases h : rne a (b * 2 ^ F) < 2 ^ 53
      · refine ⟨_, F, by unfold round64; rw [hFF], h, by omega, hev, ?_⟩
        by_cases h0 : F = 0
        · exact Or.inl h0
        · exact Or.inr (rne_ge hpos (hle h0))
      · refine ⟨2 ^ 52, F + 1, ?_, by decide, by omega, by decide, Or.inr (Nat.le_refl _)⟩
        unfold round64
        rw [hFF, show rne a (b * 2 ^ F) = 2 ^ 53 by omega, ← Nat.pow_add, ← Nat.pow_add]
        congr 1
        omega
    · omega

/-! ### What correct rounding implies -/

theorem gap_scale (a b c : Nat) : gap (a * c) (b * c) = gap a b * c := by
  unfold gap
  rw [Nat.add_mul, Nat.sub_mul, Nat.sub_mul]

/-- Only the quotient matters. -/
theorem _root_.Spec.RoundsTo.scale {a b c x : Nat} (hc : 0 < c) : RoundsTo (a * c) (b * c) x ↔ RoundsTo a b x := by
  have e : ∀ y, gap (a * c) (y * (b * c)) = gap a (y * b) * c := fun y => by rw [← Nat.mul_assoc, gap_scale]
  constructor
  · rintro ⟨h1, h2, h3⟩
    refine ⟨h1, fun y hy => ?_, fun y hy hne he => h3 y hy hne ?_⟩
    · have := h2 y hy
      rw [e, e] at this
      exact Nat.le_of_mul_le_mul_right this hc
    · rw [e, e, he]
  · rintro ⟨h1, h2, h3⟩
    refine ⟨h1, fun y hy => ?_, fun y hy hne he => h3 y hy hne ?_⟩
    · rw [e, e]
      exact Nat.mul_le_mul_right c (h2 y hy)
    · rw [e, e] at he
      exact Nat.eq_of_mul_eq_mul_right hc he

theorem _root_.Spec.RoundsTo.congr {a b a' b' x : Nat} (hb : 0 < b) (hb' : 0 < b') (h : a * b' = a' * b) (hx : RoundsTo a b x) :
    RoundsTo a' b' x := by
  have h1 := (RoundsTo.scale (a := a) (b := b) (x := x) hb').2 hx
  rw [h, Nat.mul_comm b b'] at h1
  exact (RoundsTo.scale hb).1 h1

/-- A number that is a `float64` is not changed. -/
theorem _root_.Spec.RoundsTo.exact {b x y : Nat} (hb : 0 < b) (hy : IsF64 y) (h : RoundsTo (y * b) b x) : x = y := by
  have h1 := h.nearest y hy
  rw [gap_scale, gap_scale] at h1
  have h2 := Nat.le_of_mul_le_mul_right h1 hb
  unfold gap at h2
  omega

/-- Rounding does not cross a `float64`. -/
theorem _root_.Spec.RoundsTo.le {a b x y : Nat} (hb : 0 < b) (hy : IsF64 y) (h : RoundsTo a b x) (hle : a ≤ y * b) : x ≤ y := by
  have h1 := h.nearest y hy
  apply Nat.le_of_not_lt
  intro hlt
  have h2 := Nat.mul_lt_mul_of_pos_right hlt hb
  unfold gap at h1
  omega

theorem _root_.Spec.RoundsTo.ge {a b x y : Nat} (hb : 0 < b) (hy : IsF64 y) (h : RoundsTo a b x) (hle : y * b ≤ a) : y ≤ x := by
  have h1 := h.nearest y hy
  apply Nat.le_of_not_lt
  intro hlt
  have h2 := Nat.mul_lt_mul_of_pos_right hlt hb
  unfold gap at h1
  omega

/-- Two ways to write a number with a significand as large as possible are the same. -/
theorem canon_unique {n e n' e' : Nat} (h : n * 2 ^ e = n' * 2 ^ e') (hn : n < 2 ^ 53) (hn' : n' < 2 ^ 53)
    (hc : e = 0 ∨ 2 ^ 52 ≤ n) (hc' : e' = 0 ∨ 2 ^ 52 ≤ n') : n = n' ∧ e = e' := by
  have key : ∀ {n e n' e' : Nat}, n * 2 ^ e = n' * 2 ^ e' → n < 2 ^ 53 → (e' = 0 ∨ 2 ^ 52 ≤ n') → ¬ e < e' := by
    intro n e n' e' h hn hc' hlt
    obtain ⟨d, rfl⟩ : ∃ d, e' = e + (d + 1) := ⟨e' - e - 1, by omega⟩
    rw [Nat.pow_add, Nat.mul_comm (2 ^ e), ← Nat.mul_assoc] at h
    have h1 := Nat.eq_of_mul_eq_mul_right (Nat.two_pow_pos e) h
    rw [Nat.pow_succ, ← Nat.mul_assoc] at h1
    have h2 : n' * 1 ≤ n' * 2 ^ d := Nat.mul_le_mul_left n' (Nat.two_pow_pos d)
    omega
  have h1 := key h hn hc'
  have h2 := key h.symm hn' hc
  have h3 : e = e' := by omega
  subst h3
  exact ⟨Nat.eq_of_mul_eq_mul_right (Nat.two_pow_pos e) h, rfl⟩

/-- A number is rounded to one `float64` only. -/
theorem _root_.Spec.RoundsTo.unique {a b x y : Nat} (hb : 0 < b) (hx : RoundsTo a b x) (hy : RoundsTo a b y) : x = y := by
  have main : ∀ {x y : Nat}, RoundsTo a b x → RoundsTo a b y → ¬ x < y := by
    intro x y hx hy hlt
    have h1 := hx.nearest y hy.float
    have h2 := hy.nearest x hx.float
    have h3 : gap a (y * b) = gap a (x * b) := by omega
    obtain ⟨n, e, e1, e2, e3, e4, e5⟩ := hx.even y hy.float (by omega) h3
    obtain ⟨n', e', f1, f2, f3, f4, f5⟩ := hy.even x hx.float (by omega) h3.symm
    -- the next float above `x`
    have hz : IsF64 ((n + 1) * 2 ^ e) := ⟨n + 1, e, by omega, e3, rfl⟩
    have h5 := hx.nearest _ hz
    have h6 : x < (n + 1) * 2 ^ e := by
      rw [e1]; exact Nat.mul_lt_mul_of_pos_right (Nat.lt_succ_self n) (Nat.two_pow_pos e)
    have h7 : y ≤ (n + 1) * 2 ^ e := by
      apply Nat.le_of_not_lt
      intro h8
      have h9 := Nat.mul_lt_mul_of_pos_right h6 hb
      have h10 := Nat.mul_lt_mul_of_pos_right h8 hb
      unfold gap at h3 h5
      omega
    have h8 : ∀ k, x < k * 2 ^ e → (n + 1) * 2 ^ e ≤ k * 2 ^ e := by
      intro k hk
      rw [e1] at hk
      have := Nat.lt_of_mul_lt_mul_right hk
      exact Nat.mul_le_mul_right _ this
    have h9 : y = (n + 1) * 2 ^ e := by
      by_cases he : e ≤ e'
      · have : y = (n' * 2 ^ (e' - e)) * 2 ^ e := by rw [f1, Nat.mul_assoc, ← Nat.pow_add, Nat.sub_add_cancel he]
        have h10 := h8 (n' * 2 ^ (e' - e)) (by rw [← this]; exact hlt)
        rw [← this] at h10
        omega
      · -- a float with a smaller exponent is below `x`
        exfalso
        have h11 : y < 2 ^ 53 * 2 ^ e' := by
          rw [f1]; exact Nat.mul_lt_mul_of_pos_right f2 (Nat.two_pow_pos e')
        have h12 : (2 : Nat) ^ 53 * 2 ^ e' ≤ 2 ^ 52 * 2 ^ e := by
          rw [← Nat.pow_add, ← Nat.pow_add]
          exact Nat.pow_le_pow_right (by omega) (by omega)
        have h13 : 2 ^ 52 * 2 ^ e ≤ n * 2 ^ e := Nat.mul_le_mul_right _ (by omega)
        omega
    have h10 := canon_unique (h9.symm.trans f1) (by omega) f2 (by omega) f5
    omega
  have h1 := main hx hy
  have h2 := main hy hx
  omega

/-- The relative error is at most 2^-53, above the smallest numbers. -/
theorem _root_.Spec.RoundsTo.error {a b x : Nat} (hb : 0 < b) (h : RoundsTo a b x) (hlo : 2 ^ 52 * b ≤ a)
    (ha : a < 2 ^ 53 * (b * 2 ^ 2044)) : gap a (x * b) * 2 ^ 53 ≤ a := by
  rw [h.unique hb (round64_spec hb ha)]
  have hlt := expo_lt (a := a) hb
  have hle := expo_le (a := a) hb
  have hle' : 2 ^ 52 * (b * 2 ^ expo a b) ≤ a := by
    by_cases h0 : expo a b = 0
    · rw [h0]; simpa using hlo
    · exact hle h0
  have hpos : 0 < b * 2 ^ expo a b := Nat.mul_pos hb (Nat.two_pow_pos _)
  have e : round64 a b * b = rne a (b * 2 ^ expo a b) * (b * 2 ^ expo a b) := by
    unfold round64; rw [Nat.mul_assoc, Nat.mul_comm (2 ^ expo a b) b]
  rw [e]
  have s1 := (rne_spec a hpos).1
  generalize b * 2 ^ expo a b = c at *
  have d1 : a / c * c + a % c = a := Nat.div_add_mod' a c
  have d2 : a % c < c := Nat.mod_lt a hpos
  have g1 := s1 (a / c)
  have g2 := s1 (a / c + 1)
  rw [Nat.succ_mul] at g2
  unfold gap at *
  omega

/-! ### Conversion and division -/

theorem isF64_of_lt {n : Nat} (h : n < 2 ^ 53) : IsF64 (n * 2 ^ 1074) := ⟨n, 1074, h, by omega, rfl⟩

theorem toF64_range {n : Nat} (h : n < 2 ^ 64) : n * 2 ^ 1074 < 2 ^ 53 * (1 * 2 ^ 2044) := by
  have : (2 : Nat) ^ 64 * 2 ^ 1074 ≤ 2 ^ 53 * (1 * 2 ^ 2044) := by decide +kernel
  have h2 := Nat.mul_lt_mul_of_pos_right h (Nat.two_pow_pos 1074)
  omega

theorem toF64_spec {n : Nat} (h : n < 2 ^ 64) : RoundsTo (n * 2 ^ 1074) 1 (toF64 n) :=
  round64_spec (by omega) (toF64_range h)

/-- Whole numbers below 2^53 are converted without an error. -/
theorem toF64_exact {n : Nat} (h : n < 2 ^ 53) : toF64 n = n * 2 ^ 1074 := by
  have h1 := toF64_spec (n := n) (by omega)
  apply RoundsTo.exact (b := 1) (by omega) (isF64_of_lt h)
  rw [Nat.mul_one]; exact h1

theorem toF64_pos {n : Nat} (hn : 0 < n) (h : n < 2 ^ 64) : 2 ^ 1074 ≤ toF64 n := by
  have h1 := isF64_of_lt (n := 1) (by omega)
  rw [Nat.one_mul] at h1
  apply (toF64_spec h).ge (by omega) h1
  have := Nat.mul_le_mul_right (2 ^ 1074) hn
  omega

theorem toF64_le {n : Nat} (h : n < 2 ^ 64) : toF64 n ≤ 2 ^ 64 * 2 ^ 1074 := by
  have h1 : IsF64 (2 ^ 64 * 2 ^ 1074) := ⟨1, 1138, by omega, by omega, by decide +kernel⟩
  apply (toF64_spec h).le (by omega) h1
  have := Nat.mul_lt_mul_of_pos_right h (Nat.two_pow_pos 1074)
  omega

theorem toF64_error {n : Nat} (hn : 0 < n) (h : n < 2 ^ 64) : gap (n * 2 ^ 1074) (toF64 n) * 2 ^ 53 ≤ n * 2 ^ 1074 := by
  have h1 := RoundsTo.error (by omega) (toF64_spec h) (by
    have h2 := Nat.mul_le_mul_right (2 ^ 1074) hn
    have h3 : (2 : Nat) ^ 52 * 1 ≤ 1 * 2 ^ 1074 := by decide +kernel
    exact Nat.le_trans h3 h2) (toF64_range h)
  rwa [Nat.mul_one] at h1

theorem divF64_range {m n : Nat} (hm : m < 2 ^ 64) (hn : 0 < n) (h : n < 2 ^ 64) :
    toF64 m * 2 ^ 1074 < 2 ^ 53 * (toF64 n * 2 ^ 2044) := by
  have h1 := Nat.mul_le_mul_right (2 ^ 1074) (toF64_le hm)
  have h2 := Nat.mul_le_mul_right (2 ^ 2044) (toF64_pos hn h)
  have h3 : (2 : Nat) ^ 64 * 2 ^ 1074 * 2 ^ 1074 < 2 ^ 53 * (2 ^ 1074 * 2 ^ 2044) := by decide +kernel
  exact Nat.lt_of_le_of_lt h1 (Nat.lt_of_lt_of_le h3 (Nat.mul_le_mul_left _ h2))

theorem divF64_spec {m n : Nat} (hm : m < 2 ^ 64) (hn : 0 < n) (h : n < 2 ^ 64) :
    RoundsTo (toF64 m * 2 ^ 1074) (toF64 n) (divF64 (toF64 m) (toF64 n)) :=
  round64_spec (by have := toF64_pos hn h; have := Nat.two_pow_pos 1074; omega) (divF64_range hm hn h)

/-- `Dep` divides by zero never, and does not overflow. -/
theorem depGo_eq (len dep : BitVec 64) : depGo len dep = some (depF64 len dep) := by
  unfold depGo depF64
  by_cases hl : len = 0#64
  · rw [if_pos hl, if_pos hl]
  · have hpos : 0 < len.toNat := by
      rcases Nat.eq_zero_or_pos len.toNat with h | h
      · exact absurd (BitVec.eq_of_toNat_eq h) hl
      · exact h
    rw [if_neg hl, if_neg hl]
    have h1 := toF64_pos hpos len.isLt
    have h2 : divF64 (toF64 dep.toNat) (toF64 len.toNat) < 2 ^ 2098 := by
      obtain ⟨n, e, hn, he, h⟩ := (divF64_spec dep.isLt hpos len.isLt).float
      rw [h]
      calc n * 2 ^ e ≤ n * 2 ^ 2045 := Nat.mul_le_mul_left _ (Nat.pow_le_pow_right (by omega) he)
        _ < 2 ^ 53 * 2 ^ 2045 := Nat.mul_lt_mul_of_pos_right hn (Nat.two_pow_pos _)
        _ = 2 ^ 2098 := by rw [← Nat.pow_add]
    have h3 := Nat.two_pow_pos 1074
    unfold quoF64
    rw [if_neg (by omega), if_neg (Nat.not_le.2 h2)]

/-- The quotient of two whole numbers below 2^53 is the `float64` nearest to the quotient. -/
theorem depF64_rounds {len dep : BitVec 64} (hl : len ≠ 0#64) (h1 : len.toNat < 2 ^ 53) (h2 : dep.toNat < 2 ^ 53) :
    RoundsTo (dep.toNat * 2 ^ 1074) len.toNat (depF64 len dep) := by
  have hpos : 0 < len.toNat := by
    rcases Nat.eq_zero_or_pos len.toNat with h | h
    · exact absurd (BitVec.eq_of_toNat_eq h) hl
    · exact h
  rw [depF64, if_neg hl]
  have h := divF64_spec dep.isLt hpos len.isLt
  have hp := toF64_pos hpos len.isLt
  have := Nat.two_pow_pos 1074
  apply h.congr (by omega) hpos
  rw [toF64_exact h1, toF64_exact h2]
  simp only [Nat.mul_comm, Nat.mul_left_comm]

theorem bounds_of_error {D x : Nat} (h : gap D x * 2 ^ 53 ≤ D) : x * 2 ^ 53 ≤ D * (2 ^ 53 + 1) ∧ D * (2 ^ 53 - 1) ≤ x * 2 ^ 53 := by
  unfold gap at h
  omega

theorem error_trans {W Z T Q : Nat} (b1 : T * 2 ^ 53 ≤ W * (2 ^ 53 + 1) ∧ W * (2 ^ 53 - 1) ≤ T * 2 ^ 53)
    (b2 : Q * 2 ^ 53 ≤ Z * (2 ^ 53 + 1) ∧ Z * (2 ^ 53 - 1) ≤ Q * 2 ^ 53)
    (b3 : Q * 2 ^ 53 ≤ T * (2 ^ 53 + 1) ∧ T * (2 ^ 53 - 1) ≤ Q * 2 ^ 53) : gap W Z * 2 ^ 51 ≤ W := by
  unfold gap
  omega

/-- In any case the relative error is at most 2^-51. -/
theorem depF64_error {len dep : BitVec 64} (hl : len ≠ 0#64) :
    gap (dep.toNat * 2 ^ 1074) (depF64 len dep * len.toNat) * 2 ^ 51 ≤ dep.toNat * 2 ^ 1074 ∧ IsF64 (depF64 len dep) := by
  have hpos : 0 < len.toNat := by
    rcases Nat.eq_zero_or_pos len.toNat with h | h
    · exact absurd (BitVec.eq_of_toNat_eq h) hl
    · exact h
  rw [depF64, if_neg hl]
  have hd := divF64_spec dep.isLt hpos len.isLt
  have hp := toF64_pos hpos len.isLt
  have hU := Nat.two_pow_pos 1074
  refine ⟨?_, hd.float⟩
  rcases Nat.eq_zero_or_pos dep.toNat with h0 | hdp
  · have h1 : divF64 (toF64 dep.toNat) (toF64 len.toNat) = 0 := by
      have h2 : toF64 dep.toNat = 0 := by rw [h0, toF64_exact (by omega), Nat.zero_mul]
      rw [h2] at hd ⊢
      have h3 := hd.le (y := 0) (by omega) ⟨0, 0, by omega, by omega, rfl⟩ (by omega)
      omega
    rw [h1, h0, Nat.zero_mul, Nat.zero_mul]
    decide
  have e1 := toF64_error hdp dep.isLt
  have e2 := toF64_error hpos len.isLt
  have hp' := toF64_pos hdp dep.isLt
  have e3 := hd.error (by omega) (by
    have h2 := Nat.mul_le_mul_right (2 ^ 1074) hp'
    have h3 := Nat.mul_le_mul_left (2 ^ 52) (toF64_le len.isLt)
    have h4 : (2 : Nat) ^ 52 * (2 ^ 64 * 2 ^ 1074) ≤ 2 ^ 1074 * 2 ^ 1074 := by decide +kernel
    exact Nat.le_trans h3 (Nat.le_trans h4 h2)) (divF64_range dep.isLt hpos len.isLt)
  generalize divF64 (toF64 dep.toNat) (toF64 len.toNat) = r at *
  generalize toF64 dep.toNat = x at *
  generalize toF64 len.toNat = y at *
  generalize dep.toNat = d at *
  generalize len.toNat = l at *
  clear hd hp hp'
  generalize (2 : Nat) ^ 1074 = U at *
  -- all in units of `U * U`
  have a1 : x * 2 ^ 53 ≤ d * U * (2 ^ 53 + 1) ∧ d * U * (2 ^ 53 - 1) ≤ x * 2 ^ 53 := by
    exact bounds_of_error e1
  have a2 : y * 2 ^ 53 ≤ l * U * (2 ^ 53 + 1) ∧ l * U * (2 ^ 53 - 1) ≤ y * 2 ^ 53 := by
    exact bounds_of_error e2
  have b1 : x * U * 2 ^ 53 ≤ d * U * U * (2 ^ 53 + 1) ∧ d * U * U * (2 ^ 53 - 1) ≤ x * U * 2 ^ 53 := by
    refine ⟨?_, ?_⟩
    · have := Nat.mul_le_mul_right U a1.1
      rwa [Nat.mul_right_comm x, Nat.mul_right_comm (d * U)] at this
    · have := Nat.mul_le_mul_right U a1.2
      rwa [Nat.mul_right_comm x, Nat.mul_right_comm (d * U)] at this
  have b2 : r * y * 2 ^ 53 ≤ r * (l * U) * (2 ^ 53 + 1) ∧ r * (l * U) * (2 ^ 53 - 1) ≤ r * y * 2 ^ 53 := by
    refine ⟨?_, ?_⟩
    · have := Nat.mul_le_mul_left r a2.1
      rwa [← Nat.mul_assoc, ← Nat.mul_assoc r (l * U)] at this
    · have := Nat.mul_le_mul_left r a2.2
      rwa [← Nat.mul_assoc, ← Nat.mul_assoc r y] at this
  have goal : gap (d * U * U) (r * (l * U)) * 2 ^ 51 ≤ d * U * U := by
    exact error_trans b1 b2 (bounds_of_error e3)
  rw [← Nat.mul_assoc r l U, gap_scale, Nat.mul_right_comm] at goal
  exact Nat.le_of_mul_le_mul_right goal hU

/-- `Dep` is zero only if the depths sum up to zero. -/
theorem depF64_eq_zero {len dep : BitVec 64} : depF64 len dep = 0 ↔ len = 0#64 ∨ dep = 0#64 := by
  by_cases hl : len = 0#64
  · simp [depF64, hl]
  · have h := (depF64_error (dep := dep) hl).1
    have hU := Nat.two_pow_pos 1074
    constructor
    · intro h0
      right
      rw [h0, Nat.zero_mul] at h
      unfold gap at h
      have : dep.toNat * 2 ^ 1074 = 0 := by omega
      rcases Nat.mul_eq_zero.1 this with h1 | h1
      · exact BitVec.eq_of_toNat_eq h1
      · omega
    · rintro (h0 | h0)
      · exact absurd h0 hl
      · subst h0
        simp only [BitVec.toNat_ofNat, Nat.zero_mod, Nat.zero_mul] at h
        unfold gap at h
        have h1 : depF64 len 0#64 * len.toNat = 0 := by omega
        rcases Nat.mul_eq_zero.1 h1 with h2 | h2
        · exact h2
        · exact absurd (BitVec.eq_of_toNat_eq h2) hl

end Amt
