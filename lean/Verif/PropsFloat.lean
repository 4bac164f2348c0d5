/-
C68: `Dep` returns a `float64` (amt.go:87-92).
-/
import Verif.Float
import Verif.PropsSet

set_option linter.unusedVariables false
set_option exponentiation.threshold 5000

namespace Spec

/-- `x` (in units of 2^-1074) is the `float64` that the rational number `q`, not negative, is rounded to. -/
def RatRoundsTo (q : Rat) (x : Nat) : Prop := 0 ≤ q ∧ RoundsTo (q.num.toNat * 2 ^ 1074) q.den x

/-- `x` (in units of 2^-1074) is a `float64` and differs from `q` by at most `q / 2^51`. -/
def RatNear (q : Rat) (x : Nat) : Prop :=
  0 ≤ q ∧ IsF64 x ∧ gap (q.num.toNat * 2 ^ 1074) (x * q.den) * 2 ^ 51 ≤ q.num.toNat * 2 ^ 1074

end Spec

namespace Amt
open T Spec

/-- `Dep` with its result as in Go, a `float64` (string_map.go:68, amt.go:87-92), in units of 2^-1074; `none` is NaN or an infinity. -/
def MapImpl.DepF {K V : Type} (m : Handle) : M K V (Option Nat) :=
  match m with
  | none => pure (some 0)
  | some h => do
    let r ← getRoot h
    pure (depGo r.len r.dep)

/-- `Dep` of the sets (string_set.go:50). -/
def SetImpl.DepF {K : Type} (m : Handle) : M K Unit (Option Nat) := MapImpl.DepF m

theorem dep_zero {K V : Type} {h : Nat} {s : St K V} (hl : (s.roots h).len = 0#64) :
    MapImpl.Dep (some h) s = .ok (0, s) := by
  show (getRoot h >>= _ : M K V Rat) s = _
  rw [bind_ok (rfl : getRoot h s = .ok (s.roots h, s)), if_pos hl]; rfl

theorem dep_pos {K V : Type} {h : Nat} {s : St K V} (hl : (s.roots h).len ≠ 0#64) :
    MapImpl.Dep (some h) s = .ok (((s.roots h).dep.toNat : Rat) / ((s.roots h).len.toNat : Rat), s) := by
  show (getRoot h >>= _ : M K V Rat) s = _
  rw [bind_ok (rfl : getRoot h s = .ok (s.roots h, s)), if_neg hl]; rfl

theorem ratio_cross {d l : Nat} (hl : 0 < l) : 0 ≤ (d : Rat) / (l : Rat) ∧ d * ((d : Rat) / (l : Rat)).den = ((d : Rat) / (l : Rat)).num.toNat * l := by
  have hl' : (l : Rat) ≠ 0 := by
    intro h
    have : l = 0 := by exact_mod_cast h
    omega
  have h0 : 0 ≤ (d : Rat) / (l : Rat) := by
    rw [Rat.div_def]
    exact Rat.mul_nonneg (by exact_mod_cast Nat.zero_le d) (Rat.le_of_lt (Rat.inv_pos.2 (by exact_mod_cast hl)))
  refine ⟨h0, ?_⟩
  have hn : 0 ≤ ((d : Rat) / (l : Rat)).num := Rat.num_nonneg.2 h0
  generalize hq : (d : Rat) / (l : Rat) = q at *
  have h1 : q * l = d := by rw [← hq, Rat.div_mul_cancel hl']
  have h2 : (q.num : Rat) = q * q.den := by
    have hd : (q.den : Rat) ≠ 0 := by
      intro h
      have : q.den = 0 := by exact_mod_cast h
      exact q.den_nz this
    have h5 : (q.num : Rat) / (q.den : Rat) = q := by rw [← Rat.mkRat_eq_div, Rat.mkRat_self]
    rw [← Rat.div_mul_cancel (a := (q.num : Rat)) hd, h5]
  have h3 : ((d * q.den : Nat) : Rat) = ((q.num.toNat * l : Nat) : Rat) := by
    have h4 : ((q.num.toNat : Nat) : Rat) = (q.num : Rat) := by
      have : ((q.num.toNat : Int)) = q.num := Int.toNat_of_nonneg hn
      exact_mod_cast congrArg (fun z : Int => (z : Rat)) this
    rw [Rat.natCast_mul, Rat.natCast_mul, h4, h2, ← h1, Rat.mul_assoc, Rat.mul_assoc, Rat.mul_comm (l : Rat)]
  exact_mod_cast h3

theorem RatRoundsTo.of_ratio {d l x : Nat} (hl : 0 < l) (h : RoundsTo (d * 2 ^ 1074) l x) : RatRoundsTo ((d : Rat) / (l : Rat)) x := by
  obtain ⟨h0, h1⟩ := ratio_cross (d := d) hl
  refine ⟨h0, h.congr hl (Rat.den_pos _) ?_⟩
  rw [Nat.mul_right_comm, h1, Nat.mul_right_comm]

theorem RatNear.of_ratio {d l x : Nat} (hl : 0 < l) (hx : IsF64 x) (h : gap (d * 2 ^ 1074) (x * l) * 2 ^ 51 ≤ d * 2 ^ 1074) :
    RatNear ((d : Rat) / (l : Rat)) x := by
  obtain ⟨h0, h1⟩ := ratio_cross (d := d) hl
  refine ⟨h0, hx, ?_⟩
  generalize (d : Rat) / (l : Rat) = q at *
  have hd := Rat.den_pos q
  have h2 := Nat.mul_le_mul_right q.den h
  rw [Nat.mul_right_comm, ← gap_scale, Nat.mul_right_comm d, h1, Nat.mul_right_comm x, Nat.mul_right_comm _ l, gap_scale, Nat.mul_right_comm _ l] at h2
  exact Nat.le_of_mul_le_mul_right h2 hl

/-! ### Every state -/

/-- C68, on every history: whatever the state, `Dep` returns a finite `float64` (never NaN or an infinity) that differs from the quotient of
the two counters by at most 2^-51 of it, changes nothing, and is zero only if the quotient is. -/
theorem C68_near {K V : Type} (m : Handle) (s : St K V) :
    ∃ q x, MapImpl.Dep m s = .ok (q, s) ∧ MapImpl.DepF m s = .ok (some x, s) ∧ RatNear q x ∧ (x = 0 ↔ q = 0) := by
  cases m with
  | none => exact ⟨0, 0, rfl, rfl, ⟨by decide, ⟨0, 0, by omega, by omega, rfl⟩, by decide⟩, by simp⟩
  | some h =>
    have e2 : MapImpl.DepF (some h) s = .ok (some (depF64 (s.roots h).len (s.roots h).dep), s) :=
      congrArg (fun x => Except.ok (x, s)) (depGo_eq (s.roots h).len (s.roots h).dep)
    by_cases hl : (s.roots h).len = 0#64
    · refine ⟨0, 0, ?_, ?_, ⟨by decide, ⟨0, 0, by omega, by omega, rfl⟩, by decide⟩, by simp⟩
      · exact dep_zero hl
      · rw [e2, depF64, if_pos hl]
    · have e1 : MapImpl.Dep (some h) s = .ok (((s.roots h).dep.toNat : Rat) / ((s.roots h).len.toNat : Rat), s) := dep_pos hl
      have hpos : 0 < (s.roots h).len.toNat := by
        rcases Nat.eq_zero_or_pos (s.roots h).len.toNat with h | h
        · exact absurd (BitVec.eq_of_toNat_eq h) hl
        · exact h
      refine ⟨_, _, e1, e2, RatNear.of_ratio hpos (depF64_error hl).2 (depF64_error hl).1, ?_⟩
      rw [depF64_eq_zero]
      have h1 := (ratio_cross (d := (s.roots h).dep.toNat) hpos).2
      constructor
      · rintro (h0 | h0)
        · exact absurd h0 hl
        · rw [h0, Rat.div_def]; simp
      · intro h0
        right
        rw [h0] at h1
        apply BitVec.eq_of_toNat_eq
        simpa using h1

theorem C68_near_set {K : Type} (m : Handle) (s : St K Unit) :
    ∃ q x, SetImpl.Dep m s = .ok (q, s) ∧ SetImpl.DepF m s = .ok (some x, s) ∧ RatNear q x ∧ (x = 0 ↔ q = 0) := C68_near m s

/-! ### The covered histories -/

theorem depF_rounds {K V : Type} {m : Handle} {s : St K V} {n S : Nat} (hn : n < 2 ^ 45) (hS : S ≤ 256 * n)
    (h1 : MapImpl.Len m s = .ok (BitVec.ofNat 64 n, s))
    (h2 : MapImpl.Dep m s = .ok ((if n = 0 then 0 else (S : Rat) / (n : Rat)), s)) :
    ∃ x, MapImpl.DepF m s = .ok (some x, s) ∧ RatRoundsTo (if n = 0 then 0 else (S : Rat) / (n : Rat)) x := by
  have z : RatRoundsTo 0 0 := ⟨by decide, ⟨0, 0, by omega, by omega, rfl⟩, fun y _ => by simp [gap], fun y _ hne _ => ⟨0, 0, rfl, by omega, by omega, rfl, Or.inl rfl⟩⟩
  cases m with
  | none =>
    have h3 : BitVec.ofNat 64 n = 0#64 := by
      have : (Except.ok (0#64, s) : Except Fault _) = .ok (BitVec.ofNat 64 n, s) := h1
      exact (Prod.mk.inj (Except.ok.inj this)).1.symm
    have h4 : n = 0 := by
      have := congrArg BitVec.toNat h3
      simp only [BitVec.toNat_ofNat] at this
      omega
    rw [if_pos h4]
    exact ⟨0, rfl, z⟩
  | some h =>
    have h3 : (s.roots h).len = BitVec.ofNat 64 n := by
      have : Except.ok ((s.roots h).len, s) = (Except.ok (BitVec.ofNat 64 n, s) : Except Fault _) := h1
      exact (Prod.mk.inj (Except.ok.inj this)).1
    refine ⟨depF64 (s.roots h).len (s.roots h).dep, congrArg (fun x => Except.ok (x, s)) (depGo_eq (s.roots h).len (s.roots h).dep), ?_⟩
    have h4 : (s.roots h).len.toNat = n := by
      rw [h3]; simp only [BitVec.toNat_ofNat]; omega
    by_cases hl : n = 0
    · have hl' : (s.roots h).len = 0#64 := by rw [h3, hl]
      rw [if_pos hl, depF64, if_pos hl']
      exact z
    · have hl' : (s.roots h).len ≠ 0#64 := fun h5 => by rw [h5] at h4; exact hl h4.symm
      rw [if_neg hl] at h2 ⊢
      have h5 : ((s.roots h).dep.toNat : Rat) / ((s.roots h).len.toNat : Rat) = (S : Rat) / (n : Rat) := by
        have h6 : MapImpl.Dep (some h) s = .ok (((s.roots h).dep.toNat : Rat) / ((s.roots h).len.toNat : Rat), s) := dep_pos hl'
        rw [h6] at h2
        exact (Prod.mk.inj (Except.ok.inj h2)).1
      have h6 : (s.roots h).dep.toNat = S := by
        rw [h4] at h5
        have hn' : (n : Rat) ≠ 0 := by
          intro h
          apply hl
          exact_mod_cast h
        have h7 : ((s.roots h).dep.toNat : Rat) = (S : Rat) := by
          rw [← Rat.div_mul_cancel (a := ((s.roots h).dep.toNat : Rat)) hn', h5, Rat.div_mul_cancel hn']
        exact_mod_cast h7
      rw [← h4, ← h6]
      apply RatRoundsTo.of_ratio (by omega)
      exact depF64_rounds hl' (by omega) (by omega)

theorem meanDepth_len {K : Type} [DecidableEq K] (H : K → Nat → BitVec 64) (ks : List K) :
    meanDepth H ks = if ks.length = 0 then 0 else (depthSum H ks : Rat) / (ks.length : Rat) := by
  unfold meanDepth
  simp only [List.length_eq_zero_iff]

section
variable {K V : Type} [DecidableEq K] [Inhabited V] {I : MapImpl K V} {sd : Seed} {H : K → Nat → BitVec 64}
  {P : Bool → List K → K → Prop} {lossy : V → V} {ex : Prop} {fuel : Nat}

/-- C68.  After a covered history (of fewer than 2^45 calls), `Dep` returns the mean depth of the stored keys, correctly rounded to a `float64`. -/
theorem C68_map (hc : MapContainer I sd H P lossy ex) (hex : ex) {ops : List (MOp K V)} (h : EachNew P [] ops)
    (hlen : ops.length < 2 ^ 45) (hf : 256 ≤ fuel) (s : St K V) :
    ∃ m os s₁ x, I.session fuel sd ops s = .ok ((m, os), s₁) ∧ MapImpl.DepF m s₁ = .ok (some x, s₁) ∧
      RatRoundsTo (meanDepth H (keysAfter [] ops)) x := by
  obtain ⟨m, os, s₁, s₂, r1, r2⟩ := (C14_len hc h hf s).1
  obtain ⟨m', os', s₁', s₂', r1', r2'⟩ := C15_dep hc hex h (by omega) hf s
  rw [r1] at r1'
  cases r1'
  have hl : (keysAfter ([] : List K) ops).length < 2 ^ 45 :=
    Nat.lt_of_le_of_lt (length_keysAfter [] ops) (by simpa using hlen)
  obtain ⟨q, x, q1, -⟩ := C68_near m s₁
  have l1 : MapImpl.Len m s₁ = .ok (BitVec.ofNat 64 (keysAfter [] ops).length, s₁) := by
    obtain ⟨n, n1⟩ : ∃ n, MapImpl.Len m s₁ = .ok (n, s₁) := by cases m <;> exact ⟨_, rfl⟩
    have h3 : I.run fuel m [.len] s₁ = .ok ([.num n], s₁) := by
      simp only [MapImpl.run, MapImpl.exec]
      rw [bind_assoc_M, bind_ok n1]; rfl
    rw [h3] at r2
    have h4 := (Prod.mk.inj (Except.ok.inj r2)).1
    simp only [List.cons.injEq, MOut.num.injEq, and_true] at h4
    rw [n1, h4]
  have l2 : MapImpl.Dep m s₁ = .ok (meanDepth H (keysAfter [] ops), s₁) := by
    have h3 : I.run fuel m [.dep] s₁ = .ok ([.rat q], s₁) := by
      simp only [MapImpl.run, MapImpl.exec]
      rw [bind_assoc_M, bind_ok q1]; rfl
    rw [h3] at r2'
    have h4 := (Prod.mk.inj (Except.ok.inj r2')).1
    simp only [List.cons.injEq, MOut.rat.injEq, and_true] at h4
    rw [q1, h4]
  rw [meanDepth_len] at l2 ⊢
  obtain ⟨x, x1, x2⟩ := depF_rounds hl (depthSum_le H _) l1 l2
  exact ⟨m, os, s₁, x, r1, x1, x2⟩

/-- Three of the four keys share their first nibble: the mean depth is 3/4, a `float64`. -/
example := C68_map (MapContainer.string (V := Nat) toyHash 0#64) trivial exOps_str (by decide) (Nat.le_refl 256) St.init

end

section
variable {K : Type} [DecidableEq K] {I : SetImpl K} {sd : Seed} {H : K → Nat → BitVec 64}
  {P : List K → K → Prop} {inv : Bool} {ex : Prop} {fuel : Nat}

/-- C68.  After a covered history (of fewer than 2^45 calls), `Dep` returns the mean depth of the elements, correctly rounded to a `float64`. -/
theorem C68_set (hc : SetContainer I sd H P inv ex) (hex : ex) {ops : List (SOp K)} (h : SEachNew H inv P [] ops)
    (hlen : ops.length < 2 ^ 45) (hf : 256 ≤ fuel) (s : St K Unit) :
    ∃ m os s₁ x, I.session fuel sd ops s = .ok ((m, os), s₁) ∧ SetImpl.DepF m s₁ = .ok (some x, s₁) ∧
      RatRoundsTo (meanDepth H (elemsAfterX H inv [] ops)) x := by
  obtain ⟨m, os, s₁, s₂, r1, r2⟩ := (C14_set hc h hf s).1
  obtain ⟨m', os', s₁', s₂', r1', r2'⟩ := C15_set hc hex h (by omega) hf s
  rw [r1] at r1'
  cases r1'
  have hl : (elemsAfterX H inv [] ops).length < 2 ^ 45 :=
    Nat.lt_of_le_of_lt (length_elemsAfterX inv [] ops) (by simpa using hlen)
  obtain ⟨q, x, q1, -⟩ := C68_near_set m s₁
  have l1 : SetImpl.Len m s₁ = .ok (BitVec.ofNat 64 (elemsAfterX H inv [] ops).length, s₁) := by
    obtain ⟨n, n1⟩ : ∃ n, SetImpl.Len m s₁ = .ok (n, s₁) := by cases m <;> exact ⟨_, rfl⟩
    have h3 : I.run fuel m [.len] s₁ = .ok ([.num n], s₁) := by
      simp only [SetImpl.run, SetImpl.exec]
      rw [bind_assoc_M, bind_ok n1]; rfl
    rw [h3] at r2
    have h4 := (Prod.mk.inj (Except.ok.inj r2)).1
    simp only [List.cons.injEq, SOut.num.injEq, and_true] at h4
    rw [n1, h4]
  have l2 : SetImpl.Dep m s₁ = .ok (meanDepth H (elemsAfterX H inv [] ops), s₁) := by
    have h3 : I.run fuel m [.dep] s₁ = .ok ([.rat q], s₁) := by
      simp only [SetImpl.run, SetImpl.exec]
      rw [bind_assoc_M, bind_ok q1]; rfl
    rw [h3] at r2'
    have h4 := (Prod.mk.inj (Except.ok.inj r2')).1
    simp only [List.cons.injEq, SOut.rat.injEq, and_true] at h4
    rw [q1, h4]
  rw [meanDepth_len] at l2 ⊢
  obtain ⟨x, x1, x2⟩ := depF_rounds hl (depthSum_le H _) l1 l2
  exact ⟨m, os, s₁, x, r1, x1, x2⟩

example := C68_set (SetContainer.string toyHash 0#64) trivial exOpsS_str (by decide) (Nat.le_refl 256) St.init

end

/-! ### Examples -/

/-- The mean depth 3/4 of `exOps_str` is returned as it is. -/
example {x : Nat} (h : RatRoundsTo (3 / 4) x) : x = 3 * 2 ^ 1072 := by
  have h1 : RoundsTo (3 * 2 ^ 1072 * 4) 4 x := by
    have h2 := h.2
    rwa [show ((3 : Rat) / 4).num.toNat * 2 ^ 1074 = 3 * 2 ^ 1072 * 4 by decide +kernel, show ((3 : Rat) / 4).den = 4 by decide +kernel] at h2
  exact h1.exact (by omega) ⟨3, 1072, by omega, by omega, rfl⟩

/-- `Dep` is 0 for an empty map. -/
example : depGo 0#64 0#64 = some 0 := rfl

/-- The depths of three keys sum up to 1: the mean, 1/3, is rounded to 6004799503160661 · 2^-54. -/
example : depGo 3#64 1#64 = some (6004799503160661 * 2 ^ 1020) := by decide +kernel

/-- The mean 2/3 is rounded up. -/
example : depGo 3#64 2#64 = some (6004799503160661 * 2 ^ 1021) := by decide +kernel

/-- 2^53 + 1 is half way between two `float64`s; the conversion picks the even one. -/
example : toF64 (2 ^ 53 + 1) = 2 ^ 53 * 2 ^ 1074 ∧ toF64 (2 ^ 53 + 3) = (2 ^ 53 + 4) * 2 ^ 1074 := by decide +kernel

/-- With numbers from 2^53 on, the result need not be the `float64` nearest to the quotient. -/
example : ¬ RoundsTo ((2 ^ 53 + 1) * 2 ^ 1074) 3 (depF64 3#64 (BitVec.ofNat 64 (2 ^ 53 + 1))) := by
  intro h
  have h1 := h.unique (by omega) (round64_spec (by omega) (by decide +kernel))
  exact absurd h1 (by decide +kernel)

end Amt
