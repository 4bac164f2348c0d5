/-
C78: the tests of the package pass, whatever the hash function, and the same tests of the containers that are not tested fail.
-/
import Verif.Tests
import Verif.PropsWorld
import Verif.Many

set_option linter.unusedVariables false
set_option linter.unusedSectionVars false

namespace Amt
open T Spec

/-! ### Numbers -/

theorem itoa_ne_nil (n : Nat) : itoa n ≠ [] := by
  rw [itoa]; split <;> simp

theorem itoa_inj {a b : Nat} (h : itoa a = itoa b) : a = b := by
  have key : ∀ x y : Nat, x < 10 → y < 10 → UInt8.ofNat (48 + x) = UInt8.ofNat (48 + y) → x = y := by
    intro x y hx hy e
    have := congrArg UInt8.toNat e
    simp at this
    omega
  induction a using Nat.strongRecOn generalizing b with
  | _ a ih =>
    rw [itoa, itoa.eq_def b] at h
    split at h <;> split at h
    · exact key a b ‹_› ‹_› (List.cons.inj h).1
    · have := congrArg List.length h
      simp at this
      exact absurd this (itoa_ne_nil _)
    · have := congrArg List.length h
      simp at this
      exact absurd this (itoa_ne_nil _)
    · obtain ⟨h1, h2⟩ := List.append_inj' h rfl
      have h3 := ih (a / 10) (by omega) h1
      have h4 := key (a % 10) (b % 10) (by omega) (by omega) (List.cons.inj h2).1
      omega

example : itoa 1024 = [49, 48, 50, 52] := by decide +kernel

theorem ikey_inj {a b : Nat} (ha : a < 2 ^ 64) (hb : b < 2 ^ 64) (h : ikey a = ikey b) : a = b := by
  have := congrArg BitVec.toNat h
  simp only [ikey, BitVec.toNat_ofNat] at this
  rwa [Nat.mod_eq_of_lt ha, Nat.mod_eq_of_lt hb] at this

theorem flat_zero : isFlat 0 = true := by decide +kernel

/-- A quotient that is more than 1 is more than 1 as a `float64`, too, if the numbers are not too large. -/
theorem f64_deep {d l : Nat} (hl : l ≤ 2 ^ 52) (hd : l < d) (hd' : d ≤ 256 * l) : toF64 1 < f64 ((d : Rat) / (l : Rat)) := by
  have hl0 : 0 < l := by omega
  obtain ⟨h0, hc⟩ := ratio_cross (d := d) hl0
  have hpos : 0 < ((d : Rat) / (l : Rat)).den := Rat.den_pos _
  rw [f64, toF64_exact (by decide), Nat.one_mul]
  revert h0 hc hpos
  generalize ((d : Rat) / (l : Rat)).den = q
  generalize ((d : Rat) / (l : Rat)).num.toNat = p
  intro h0 hc hpos
  have hp : p ≤ 256 * q := by
    refine Nat.le_of_mul_le_mul_right (c := l) ?_ hl0
    rw [← hc, Nat.mul_right_comm]
    exact Nat.mul_le_mul_right _ hd'
  have hr : p * 2 ^ 1074 < 2 ^ 53 * (q * 2 ^ 2044) := by
    have e : (2 : Nat) ^ 2044 = 2 ^ 970 * 2 ^ 1074 := (Nat.pow_add 2 970 1074)
    rw [e, ← Nat.mul_assoc, ← Nat.mul_assoc]
    refine Nat.mul_lt_mul_of_pos_right ?_ (Nat.pow_pos (by decide))
    refine Nat.lt_of_lt_of_le (m := 2 ^ 53 * q) (by omega) (Nat.le_mul_of_pos_right _ (Nat.pow_pos (by decide)))
  have e : (2 : Nat) ^ 1074 = 2 ^ 52 * 2 ^ 1022 := Nat.pow_add 2 52 1022
  have h := (round64_spec hpos hr).ge hpos (y := (2 ^ 52 + 1) * 2 ^ 1022) ⟨2 ^ 52 + 1, 1022, by decide, by decide, rfl⟩
  revert h
  have hX : 0 < (2 : Nat) ^ 1022 := Nat.pow_pos (by decide)
  rw [e]
  revert hX
  generalize (2 : Nat) ^ 1022 = X
  intro hX h
  refine Nat.lt_of_lt_of_le ?_ (h ?_)
  · rw [Nat.add_mul]; omega
  · refine Nat.le_of_mul_le_mul_right (c := l) ?_ hl0
    rw [show p * (2 ^ 52 * X) * l = (p * l) * (2 ^ 52 * X) from Nat.mul_right_comm _ _ _, ← hc,
      show d * q * (2 ^ 52 * X) = (d * 2 ^ 52) * (q * X) by rw [Nat.mul_assoc, Nat.mul_left_comm q, ← Nat.mul_assoc],
      show (2 ^ 52 + 1) * X * q * l = ((2 ^ 52 + 1) * l) * (q * X) by rw [Nat.mul_right_comm, Nat.mul_right_comm _ X l, Nat.mul_assoc _ X q, Nat.mul_comm X q]]
    exact Nat.mul_le_mul_right _ (by omega)

section
variable {K : Type} [DecidableEq K] {H : K → Nat → BitVec 64} {ks : List K}

/-- More than 272 keys are more than 1 deep on average, whatever the hash function: at most 16 of them are 0 deep, and at most 256
less than 2. -/
theorem depthSum_deep (hn : ks.Nodup) (hN : 273 ≤ ks.length) : ks.length < depthSum H ks := by
  have h1 : ((List.range 2).map fun j => (ks.filter fun k => decide (j < depthIn H ks k)).length).sum ≤ depthSum H ks := by
    simp only [length_filter_eq]
    rw [sum_swap, depthSum]
    exact sum_le_sum fun k _ => depthIn_ge _ _
  have h2 : ∀ j, j < 256 → (ks.filter fun k => decide (j < depthIn H ks k)).length + 16 ^ (j + 1) ≥ ks.length := by
    intro j hj
    have h3 := shallow_le (H := H) hn (j := j + 1) (by omega)
    have h4 : (ks.filter fun k => decide (j < depthIn H ks k)).length + (ks.filter fun k => decide (depthIn H ks k < j + 1)).length = ks.length := by
      rw [← List.countP_eq_length_filter, ← List.countP_eq_length_filter, List.length_eq_countP_add_countP (fun k => decide (j < depthIn H ks k))]
      congr 1
      apply List.countP_congr
      intro x _
      simp
      omega
    omega
  have h3 := h2 0 (by decide)
  have h4 := h2 1 (by decide)
  simp [List.range_succ] at h1 h3 h4
  omega

theorem meanDepth64_deep (hn : ks.Nodup) (hN : 273 ≤ ks.length) (hN' : ks.length < 2 ^ 52) : isDeep (meanDepth64 H ks) = true := by
  rw [isDeep, decide_eq_true_eq]
  rw [meanDepth64_eq (by omega), meanDepth, if_neg (by intro e; rw [e] at hN; simp at hN)]
  exact f64_deep (by omega) (depthSum_deep hn hN) (depthSum_le H ks)

theorem meanDepth64_nil : meanDepth64 H ([] : List K) = 0 := by simp [meanDepth64]

end

attribute [local irreducible] isDeep isFlat

/-! ### Maps -/

section
variable {K : Type} [DecidableEq K] {key : Nat → K} {N : Nat}

/-- The map consists of the entries `key i ↦ i` for the `i < N` with `D`. -/
def IsMapOf (key : Nat → K) (N : Nat) (D : Nat → Prop) (m : FMap K Int) : Prop :=
  m.keys.Nodup ∧ ∀ e, e ∈ m ↔ ∃ i, i < N ∧ D i ∧ e = (key i, (i : Int))

/-- The first `N` keys are different. -/
def Distinct (key : Nat → K) (N : Nat) : Prop := ∀ i j, i < N → j < N → key i = key j → i = j

theorem IsMapOf.perm (hk : Distinct key N) {a b : Nat} {m : FMap K Int} (hb : b ≤ N) (h : IsMapOf key N (fun j => a ≤ j ∧ j < b) m) :
    m.Perm ((List.range' a (b - a)).map fun i => (key i, (i : Int))) := by
  refine perm_of_nodup (List.Pairwise.of_map (fun e => e.1) (fun a b h e => h (by rw [e])) h.1) ?_ fun e => ?_
  · refine List.Pairwise.map _ ?_ (List.nodup_range' (step := 1))
    intro i j hij he
    have := (Prod.mk.inj he).2
    omega
  · rw [h.2 e]
    simp only [List.mem_map, List.mem_range'_1]
    constructor
    · rintro ⟨i, h1, h2, rfl⟩
      exact ⟨i, by omega, rfl⟩
    · rintro ⟨i, h1, rfl⟩
      exact ⟨i, by omega, by omega, rfl⟩

theorem mapSound (hk : Distinct key N) (hN : 273 ≤ N) (hN' : N < 2 ^ 52) {H : K → Nat → BitVec 64} {ex : Prop} (hex : ex) :
    Sound (mapActs key) (MStepX H ex id) (IsMapOf key N) N where
  put := by
    intro D i s o s' hi hs ho
    have e : s' = s.set (key i) i := by
      obtain ⟨_, h | h⟩ := ho
      · exact h.2.2
      · exact h.2
    subst e
    refine ⟨FMap.nodup_set hs.1 _ _, fun e => ?_⟩
    rw [FMap.set, List.mem_cons, FMap.del, List.mem_filter, hs.2 e, decide_eq_true_eq]
    constructor
    · rintro (rfl | ⟨⟨j, h1, h2, rfl⟩, h3⟩)
      · exact ⟨i, hi, Or.inr rfl, rfl⟩
      · exact ⟨j, h1, Or.inl h2, rfl⟩
    · rintro ⟨j, h1, h2, rfl⟩
      by_cases hij : j = i
      · exact Or.inl (by rw [hij])
      · exact Or.inr ⟨⟨j, h1, h2.resolve_right hij, rfl⟩, fun e => hij (hk _ _ h1 hi e)⟩
  look := by
    intro D i s o s' hi hs ho
    obtain ⟨rfl, rfl⟩ := ho
    refine ⟨hs, fun h => ?_, fun h => ?_⟩
    · rw [(FMap.get_eq_some hs.1).2 ((hs.2 _).2 ⟨i, hi, h, rfl⟩)]
      simp [mapActs]
    · rw [FMap.get_eq_none.2]
      · rfl
      · intro hm
        obtain ⟨v, hm⟩ := FMap.mem_keys.1 hm
        obtain ⟨j, h1, h2, h3⟩ := (hs.2 _).1 hm
        exact h (hk _ _ hi h1 (Prod.mk.inj h3).1 ▸ h2)
  del := by
    intro D i s o s' hi hs ho
    obtain ⟨_, rfl⟩ := ho
    refine ⟨FMap.nodup_del hs.1 _, fun e => ?_⟩
    rw [FMap.del, List.mem_filter, hs.2 e, decide_eq_true_eq]
    constructor
    · rintro ⟨⟨j, h1, h2, rfl⟩, h3⟩
      exact ⟨j, h1, ⟨h2, fun e => h3 (by rw [e])⟩, rfl⟩
    · rintro ⟨j, h1, ⟨h2, h3⟩, rfl⟩
      exact ⟨⟨j, h1, h2, rfl⟩, fun e => h3 (hk _ _ h1 hi e)⟩
  len := by
    intro a b s o s' hb hs ho
    obtain ⟨rfl, rfl⟩ := ho
    refine ⟨rfl, ?_⟩
    have := (hs.perm hk hb).length_eq
    simp only [List.length_map, List.length_range'] at this
    simp [mapActs, this]
  all := by
    intro a b s o s' hb hs ho
    obtain ⟨order, ⟨hp, _⟩, rfl, rfl⟩ := ho
    have hl := (hs.perm hk hb).length_eq
    simp only [List.length_map, List.length_range'] at hl
    have hv : ∀ (es log : List (K × Int)), (visit (fun _ _ v => (v, true)) log es).2 = es := by
      intro es
      induction es with
      | nil => intro log; rfl
      | cons e es ih => intro log; simp [visit, ih]
    rw [hv]
    refine ⟨⟨(FMap.keys_perm hp).nodup_iff.2 hs.1, fun e => by rw [hp.mem_iff]; exact hs.2 e⟩, ?_⟩
    rw [visit_all (fun _ _ _ => rfl)]
    simp [mapActs, hp.length_eq, hl]
  deep := by
    intro s o s' hs ho
    obtain ⟨⟨q, rfl, hq⟩, e⟩ := ho
    subst e
    have hl := (hs.perm hk (Nat.le_refl N)).length_eq
    simp only [List.length_map, List.length_range'] at hl
    have hl' : (FMap.keys s').length = N := by rw [FMap.keys, List.length_map, hl]; omega
    have hd := meanDepth64_deep (H := H) hs.1 (by omega) (by omega)
    rw [← hq hex] at hd
    refine ⟨rfl, ?_⟩
    exact hd
  flat := by
    intro s o s' hs ho
    obtain ⟨⟨q, rfl, hq⟩, e⟩ := ho
    subst e
    have : s' = [] := by
      rw [List.eq_nil_iff_forall_not_mem]
      intro e he
      obtain ⟨j, _, h, _⟩ := (hs.2 e).1 he
      omega
    have hd := flat_zero
    rw [← meanDepth64_nil (H := H), ← show FMap.keys s' = [] by rw [this]; rfl, ← hq hex] at hd
    exact ⟨rfl, hd⟩

theorem isMapOf_nil (key : Nat → K) (N : Nat) : IsMapOf key N (fun j => 0 ≤ j ∧ j < 0) [] :=
  ⟨by simp [FMap.keys], fun e => by simp⟩

/-- The keys that the test may insert. -/
theorem rounds_stores {V : Type} {ts : Test (MOp K V) (MOut K V)} (h : ∀ c ∈ ts, ∀ k ∈ c.1.stores, ∃ i, i < N ∧ k = key i) {k : K}
    (hk : Stores (ts.map fun c => c.1) k) : ∃ i, i < N ∧ k = key i := by
  obtain ⟨op, h1, h2⟩ := hk
  obtain ⟨c, hc, rfl⟩ := List.mem_map.1 h1
  exact h c hc k h2

theorem map_stores : ∀ c ∈ rounds (mapActs key) N, ∀ k ∈ c.1.stores, ∃ i, i < N ∧ k = key i := by
  have up : ∀ {a b : Nat} {f : Nat → MOp K Int × (MOut K Int → Bool)}, b ≤ N → (∀ i, ∀ k ∈ (f i).1.stores, k = key i) →
      ∀ c ∈ upto a b f, ∀ k ∈ c.1.stores, ∃ i, i < N ∧ k = key i := by
    intro a b f hb hf c hc k hk
    obtain ⟨i, hi, rfl⟩ := List.mem_map.1 hc
    rw [List.mem_range'_1] at hi
    exact ⟨i, by omega, hf i k hk⟩
  have h2 := Nat.div_le_self N 2
  have one : ∀ c ∈ round (mapActs key) N, ∀ k ∈ c.1.stores, ∃ i, i < N ∧ k = key i := by
    intro c hc
    simp only [round, List.mem_append, List.mem_cons, List.not_mem_nil, or_false] at hc
    rcases hc with hc | hc | (rfl | rfl | rfl) | hc | hc | hc | rfl | hc | hc | rfl | hc | hc | rfl | rfl <;>
      first
      | exact up (Nat.le_refl N) (by intro i k; simp [mapActs, MOp.stores]) c hc
      | exact up h2 (by intro i k; simp [mapActs, MOp.stores]) c hc
      | (intro k hk; simp [mapActs, MOp.stores] at hk)
  intro c hc
  simp only [rounds, List.mem_append] at hc
  rcases hc with hc | hc | hc <;> exact one c hc

/-! ### Sets -/

/-- The set consists of the keys `key i` for the `i < N` with `D`. -/
def IsSetOf (key : Nat → K) (N : Nat) (D : Nat → Prop) (m : List K) : Prop :=
  m.Nodup ∧ ∀ k, k ∈ m ↔ ∃ i, i < N ∧ D i ∧ k = key i

theorem IsSetOf.perm (hk : Distinct key N) {a b : Nat} {m : List K} (hb : b ≤ N) (h : IsSetOf key N (fun j => a ≤ j ∧ j < b) m) :
    m.Perm ((List.range' a (b - a)).map key) := by
  refine perm_of_nodup h.1 ?_ fun e => ?_
  · refine List.Pairwise.map _ ?_ (List.Pairwise.and_mem.1 (List.nodup_range' (step := 1)))
    rintro i j ⟨hi, hj, hij⟩ he
    rw [List.mem_range'_1] at hi hj
    exact hij (hk i j (by omega) (by omega) he)
  · rw [h.2 e]
    simp only [List.mem_map, List.mem_range'_1]
    constructor
    · rintro ⟨i, h1, h2, rfl⟩
      exact ⟨i, by omega, rfl⟩
    · rintro ⟨i, h1, rfl⟩
      exact ⟨i, by omega, by omega, rfl⟩

theorem setFills (hk : Distinct key N) (hN : 273 ≤ N) (hN' : N < 2 ^ 52) {H : K → Nat → BitVec 64} {ex : Prop} (hex : ex) (inv : Bool) :
    Fills (setActs key) (SStepX H ex inv) (IsSetOf key N) N where
  put := by
    intro D i s o s' hi hs ho
    obtain ⟨_, rfl⟩ := ho
    refine ⟨?_, fun e => ?_⟩
    · split
      · exact hs.1
      · exact List.nodup_cons.2 ⟨‹_›, hs.1⟩
    · have : e ∈ (if key i ∈ s then s else key i :: s) ↔ e = key i ∨ e ∈ s := by
        split
        · constructor
          · exact Or.inr
          · rintro (rfl | h)
            · assumption
            · exact h
        · exact List.mem_cons
      rw [this, hs.2 e]
      constructor
      · rintro (rfl | ⟨j, h1, h2, rfl⟩)
        · exact ⟨i, hi, Or.inr rfl, rfl⟩
        · exact ⟨j, h1, Or.inl h2, rfl⟩
      · rintro ⟨j, h1, h2 | h2, rfl⟩
        · exact Or.inr ⟨j, h1, h2, rfl⟩
        · exact Or.inl (by rw [h2])
  look := by
    intro D i s o s' hi hs ho
    obtain ⟨rfl, rfl⟩ := ho
    refine ⟨hs, fun h => ?_, fun h => ?_⟩
    · exact decide_eq_true ((hs.2 _).2 ⟨i, hi, h, rfl⟩)
    · show (!decide (key i ∈ _)) = true
      rw [Bool.not_eq_true', decide_eq_false_iff_not]
      intro hm
      obtain ⟨j, h1, h2, h3⟩ := (hs.2 _).1 hm
      exact h (hk _ _ hi h1 h3 ▸ h2)
  len := by
    intro a b s o s' hb hs ho
    obtain ⟨rfl, rfl⟩ := ho
    refine ⟨rfl, ?_⟩
    have := (hs.perm hk hb).length_eq
    simp only [List.length_map, List.length_range'] at this
    simp [setActs, this]
  all := by
    intro a b s o s' hb hs ho
    obtain ⟨rfl, order, ⟨hp, _⟩, rfl⟩ := ho
    have hl := (hs.perm hk hb).length_eq
    simp only [List.length_map, List.length_range'] at hl
    refine ⟨hs, ?_⟩
    rw [visitS_all (fun _ _ => rfl)]
    simp [setActs, hp.length_eq, hl]
  deep := by
    intro s o s' hs ho
    obtain ⟨⟨q, rfl, hq⟩, e⟩ := ho
    subst e
    have hl := (hs.perm hk (Nat.le_refl N)).length_eq
    simp only [List.length_map, List.length_range'] at hl
    have hd := meanDepth64_deep (H := H) hs.1 (by omega) (by omega)
    rw [← hq hex] at hd
    refine ⟨rfl, ?_⟩
    exact hd
  flat := by
    intro s o s' hs ho
    obtain ⟨⟨q, rfl, hq⟩, e⟩ := ho
    subst e
    have : s' = [] := by
      rw [List.eq_nil_iff_forall_not_mem]
      intro e he
      obtain ⟨j, _, h, _⟩ := (hs.2 e).1 he
      omega
    have hd := flat_zero
    rw [← meanDepth64_nil (H := H), ← this, ← hq hex] at hd
    exact ⟨rfl, hd⟩

theorem setSound (hk : Distinct key N) (hN : 273 ≤ N) (hN' : N < 2 ^ 52) {H : K → Nat → BitVec 64} {ex : Prop} (hex : ex) :
    Sound (setActs key) (SStepX H ex false) (IsSetOf key N) N where
  toFills := setFills hk hN hN' hex false
  del := by
    intro D i s o s' hi hs ho
    obtain ⟨_, rfl⟩ := ho
    refine ⟨List.Pairwise.filter _ hs.1, fun e => ?_⟩
    rw [List.mem_filter, hs.2 e, decide_eq_true_eq]
    constructor
    · rintro ⟨⟨j, h1, h2, rfl⟩, h3⟩
      exact ⟨j, h1, ⟨h2, fun e => h3 (by rw [e])⟩, rfl⟩
    · rintro ⟨j, h1, ⟨h2, h3⟩, rfl⟩
      exact ⟨⟨j, h1, h2, rfl⟩, fun e => h3 (hk _ _ h1 hi e)⟩

theorem isSetOf_nil (key : Nat → K) (N : Nat) : IsSetOf key N (fun j => 0 ≤ j ∧ j < 0) [] :=
  ⟨by simp, fun e => by simp⟩

theorem rounds_storesS {ts : Test (SOp K) (SOut K)} (h : ∀ c ∈ ts, ∀ k ∈ c.1.stores, ∃ i, i < N ∧ k = key i) {k : K}
    (hk : SStores (ts.map fun c => c.1) k) : ∃ i, i < N ∧ k = key i := by
  obtain ⟨op, h1, h2⟩ := hk
  obtain ⟨c, hc, rfl⟩ := List.mem_map.1 h1
  exact h c hc k h2

theorem set_stores : ∀ c ∈ rounds (setActs key) N, ∀ k ∈ c.1.stores, ∃ i, i < N ∧ k = key i := by
  have up : ∀ {a b : Nat} {f : Nat → SOp K × (SOut K → Bool)}, b ≤ N → (∀ i, ∀ k ∈ (f i).1.stores, k = key i) →
      ∀ c ∈ upto a b f, ∀ k ∈ c.1.stores, ∃ i, i < N ∧ k = key i := by
    intro a b f hb hf c hc k hk
    obtain ⟨i, hi, rfl⟩ := List.mem_map.1 hc
    rw [List.mem_range'_1] at hi
    exact ⟨i, by omega, hf i k hk⟩
  have h2 := Nat.div_le_self N 2
  have one : ∀ c ∈ round (setActs key) N, ∀ k ∈ c.1.stores, ∃ i, i < N ∧ k = key i := by
    intro c hc
    simp only [round, List.mem_append, List.mem_cons, List.not_mem_nil, or_false] at hc
    rcases hc with hc | hc | (rfl | rfl | rfl) | hc | hc | hc | rfl | hc | hc | rfl | hc | hc | rfl | rfl <;>
      first
      | exact up (Nat.le_refl N) (by intro i k; simp [setActs, SOp.stores]) c hc
      | exact up h2 (by intro i k; simp [setActs, SOp.stores]) c hc
      | (intro k hk; simp [setActs, SOp.stores] at hk)
  intro c hc
  simp only [rounds, List.mem_append] at hc
  rcases hc with hc | hc | hc <;> exact one c hc

/-! ### From the histories of the containers to the tests -/

/-- The calls of a part of the test of a map are answered. -/
theorem map_runs {V : Type} [Inhabited V] {I : MapImpl K V} {sd : Seed} {H : K → Nat → BitVec 64} {P : Bool → List K → K → Prop} {lossy : V → V} {ex : Prop}
    (hc : MapContainer I sd H P lossy ex) {fuel : Nat} (hf : 256 ≤ fuel)
    (hP : ∀ m ks k, (∀ k' ∈ ks, ∃ i, i < N ∧ k' = key i) → (∃ i, i < N ∧ k = key i) → k ∉ ks → P m ks k)
    {ts : Test (MOp K V) (MOut K V)} (hts : ∀ c ∈ ts, ∀ k ∈ c.1.stores, ∃ i, i < N ∧ k = key i) (s : St K V) :
    ∃ h s₁ os s' m, MapImpl.New (V := V) (K := K) sd s = .ok (h, s₁) ∧ MapImpl.Nil h = false ∧
      runOps (I.exec fuel h) (ts.map fun c => c.1) s₁ = .ok (os, s') ∧ Runs (MStepX H ex lossy) [] (ts.map fun c => c.1) os m := by
  have hn : EachNew P [] (ts.map fun c => c.1) := EachNew.of_pairs hP (by simp) fun k => rounds_stores hts
  obtain ⟨os, s', t, F, m, e1, _, e3, _⟩ := hc.session hn hf s
  have e : I.session fuel sd (ts.map fun c => c.1) s =
    (MapImpl.New (V := V) (K := K) sd >>= fun m => I.run fuel m (ts.map fun c => c.1) >>= fun os => pure (m, os)) s := rfl
  obtain ⟨h₀, s₁, h1, h2⟩ := C31_new (V := V) (K := K) sd s
  rw [e, bind_ok h1] at e1
  obtain ⟨os', s₂, h3, h4⟩ := bind_ok_some e1
  obtain ⟨rfl, rfl⟩ : os = os' ∧ s' = s₂ := by cases h4; exact ⟨rfl, rfl⟩
  rw [MapImpl.run_ops] at h3
  exact ⟨h₀, s₁, os, s', m, h1, h2, h3, runs_iff.1 e3⟩

theorem set_runs {I : SetImpl K} {sd : Seed} {H : K → Nat → BitVec 64} {P : List K → K → Prop} {inv : Bool} {ex : Prop}
    (hc : SetContainer I sd H P inv ex) {fuel : Nat} (hf : 256 ≤ fuel)
    (hP : ∀ ks k, (∀ k' ∈ ks, ∃ i, i < N ∧ k' = key i) → (∃ i, i < N ∧ k = key i) → k ∉ ks → P ks k)
    {ts : Test (SOp K) (SOut K)} (hts : ∀ c ∈ ts, ∀ k ∈ c.1.stores, ∃ i, i < N ∧ k = key i) (s : St K Unit) :
    ∃ h s₁ os s' m, SetImpl.New (K := K) sd s = .ok (h, s₁) ∧ SetImpl.Nil h = false ∧
      runOps (I.exec fuel h) (ts.map fun c => c.1) s₁ = .ok (os, s') ∧ Runs (SStepX H ex inv) [] (ts.map fun c => c.1) os m := by
  have hn : SEachNew H inv P [] (ts.map fun c => c.1) := SEachNew.of_pairs hP (by simp) fun k => rounds_storesS hts
  obtain ⟨os, s', t, F, m, e1, _, e3, _⟩ := hc.session hn hf s
  have e : I.session fuel sd (ts.map fun c => c.1) s =
    (SetImpl.New (K := K) sd >>= fun m => I.run fuel m (ts.map fun c => c.1) >>= fun os => pure (m, os)) s := rfl
  obtain ⟨h₀, s₁, h1, h2⟩ := C31_new_set (K := K) sd s
  rw [e, bind_ok h1] at e1
  obtain ⟨os', s₂, h3, h4⟩ := bind_ok_some e1
  obtain ⟨rfl, rfl⟩ : os = os' ∧ s' = s₂ := by cases h4; exact ⟨rfl, rfl⟩
  rw [SetImpl.run_ops] at h3
  exact ⟨h₀, s₁, os, s', m, h1, h2, h3, runs_iffS.1 e3⟩

/-- The test of a map passes if the keys can be inserted. -/
theorem testMap_pass {I : MapImpl K Int} {sd : Seed} {H : K → Nat → BitVec 64} {P : Bool → List K → K → Prop} {ex : Prop}
    (hc : MapContainer I sd H P id ex) (hex : ex) {fuel : Nat} (hf : 256 ≤ fuel) (hk : Distinct key N) (he : N % 2 = 0) (hN : 273 ≤ N)
    (hN' : N < 2 ^ 52) (hP : ∀ m ks k, (∀ k' ∈ ks, ∃ i, i < N ∧ k' = key i) → (∃ i, i < N ∧ k = key i) → k ∉ ks → P m ks k)
    (s : St K Int) : ∃ s', testMap I fuel key N sd s = .ok (true, s') := by
  obtain ⟨h, s₁, os, s', m, h1, h2, h3, h4⟩ := map_runs hc hf hP map_stores s
  refine ⟨s', ?_⟩
  show (MapImpl.New (V := Int) (K := K) sd >>= _) s = _
  rw [bind_ok h1, h2]
  exact runTest_pass h3 ((mapSound hk hN hN' hex).rounds he [] os m (isMapOf_nil key N) h4).1

/-- The test of a set passes if the keys can be inserted. -/
theorem testSet_pass {I : SetImpl K} {sd : Seed} {H : K → Nat → BitVec 64} {P : List K → K → Prop} {ex : Prop}
    (hc : SetContainer I sd H P false ex) (hex : ex) {fuel : Nat} (hf : 256 ≤ fuel) (hk : Distinct key N) (he : N % 2 = 0) (hN : 273 ≤ N)
    (hN' : N < 2 ^ 52) (hP : ∀ ks k, (∀ k' ∈ ks, ∃ i, i < N ∧ k' = key i) → (∃ i, i < N ∧ k = key i) → k ∉ ks → P ks k)
    (s : St K Unit) : ∃ s', testSet I fuel key N sd s = .ok (true, s') := by
  obtain ⟨h, s₁, os, s', m, h1, h2, h3, h4⟩ := set_runs hc hf hP set_stores s
  refine ⟨s', ?_⟩
  show (SetImpl.New (K := K) sd >>= _) s = _
  rw [bind_ok h1, h2]
  exact runTest_pass h3 ((setSound hk hN hN' hex).rounds he [] os m (isSetOf_nil key N) h4).1

end

/-! ### Tests that fail -/

section
variable {S Op Out : Type}

/-- In states with `A`, the part `ts` of a test fails. -/
def Bad (step : S → Op → Out → S → Prop) (A : S → Prop) (ts : Test Op Out) : Prop :=
  ∀ s os s', A s → Runs step s (ts.map fun c => c.1) os s' → okAll ts os = false

/-- It does not matter whether an earlier part passes. -/
theorem Bad.after {step : S → Op → Out → S → Prop} {A B : S → Prop} {ts ts' : Test Op Out}
    (h : ∀ s os s', A s → Runs step s (ts.map fun c => c.1) os s' → B s') (h' : Bad step B ts') : Bad step A (ts ++ ts') := by
  intro s os s' ha hr
  rw [List.map_append] at hr
  obtain ⟨os₁, os₂, s₁, rfl, hl, r1, r2⟩ := hr.append
  rw [okAll_append (by simpa using hl), h' s₁ os₂ s' (h s os₁ s₁ ha r1) r2, Bool.and_false]

theorem Good.bad {step : S → Op → Out → S → Prop} {A B : S → Prop} {ts ts' : Test Op Out} (h : Good step A B ts) (h' : Bad step B ts') :
    Bad step A (ts ++ ts') := Bad.after (fun s os s' ha hr => (h s os s' ha hr).2) h'

theorem Bad.more {step : S → Op → Out → S → Prop} {A : S → Prop} {ts ts' : Test Op Out} (h : Bad step A ts) : Bad step A (ts ++ ts') := by
  intro s os s' ha hr
  rw [List.map_append] at hr
  obtain ⟨os₁, os₂, s₁, rfl, hl, r1, r2⟩ := hr.append
  rw [okAll_append (by simpa using hl), h s os₁ s₁ ha r1, Bool.false_and]

theorem Bad.one {step : S → Op → Out → S → Prop} {A : S → Prop} {c : Op × (Out → Bool)} (h : ∀ s o s', A s → step s c.1 o s' → c.2 o = false) :
    Bad step A [c] := by
  intro s os s' ha hr
  obtain ⟨o, os', s₁, rfl, h1, rfl, e⟩ := hr
  simp [okAll, h s o s₁ ha h1]

theorem upto_first {n : Nat} (f : Nat → Op × (Out → Bool)) (h : 0 < n) : upto 0 n f = [f 0] ++ upto 1 n f := by
  obtain ⟨n, rfl⟩ : ∃ m, n = m + 1 := ⟨n - 1, by omega⟩
  simp [upto, List.range'_succ]

theorem upto_at {n i : Nat} (f : Nat → Op × (Out → Bool)) (h : i < n) : upto 0 n f = upto 0 i f ++ ([f i] ++ upto (i + 1) n f) := by
  have : List.range' 0 n = List.range' 0 i ++ List.range' i (n - i) := by
    have := List.range'_append (s := 0) (m := i) (n := n - i) (step := 1)
    rw [show i + (n - i) = n by omega, show 0 + 1 * i = i by omega] at this
    exact this.symm
  rw [upto, upto, upto, Nat.sub_zero, Nat.sub_zero, this, show n - i = (n - (i + 1)) + 1 by omega, List.range'_succ]
  simp

end

section
variable {K : Type} [DecidableEq K] {key : Nat → K} {N : Nat}

/-- With an inverted test in `Del`, the test of a set fails at the first key that should have been deleted. -/
theorem set_inv_bad (hk : Distinct key N) (hN : 273 ≤ N) (hN' : N < 2 ^ 52) {H : K → Nat → BitVec 64} {ex : Prop} (hex : ex) :
    Bad (SStepX H ex true) (IsSetOf key N fun j => 0 ≤ j ∧ j < 0) (rounds (setActs key) N) := by
  have h := setFills hk hN hN' (H := H) hex true
  rw [rounds, round_eq, upto_first (fun i => ((setActs key).look i, (setActs key).missing)) (show 0 < N / 2 by omega)]
  simp only [List.append_assoc]
  refine h.filling.bad (Good.bad (B := IsSetOf key N fun j => 0 ≤ j ∧ j < N) ?_ (Bad.more (Bad.one ?_)))
  · refine Good.upto (fun _ => IsSetOf key N fun j => 0 ≤ j ∧ j < N) (Nat.zero_le _) fun i _ hi => Good.one ?_
    intro s o s' hs ho
    refine ⟨rfl, ?_⟩
    obtain ⟨_, ⟨rfl, _⟩ | ⟨h1, _⟩⟩ := ho
    · exact hs
    · exact absurd ((hs.2 _).2 ⟨i, by omega, by omega, rfl⟩) h1
  · intro s o s' hs ho
    obtain ⟨rfl, rfl⟩ := ho
    show (!decide (key 0 ∈ _)) = false
    rw [Bool.not_eq_false', decide_eq_true_eq]
    exact (hs.2 _).2 ⟨0, by omega, by omega, rfl⟩

/-- The first `n` keys, latest first. -/
def firsts (key : Nat → K) (n : Nat) : List K := ((List.range n).map key).reverse

theorem firsts_succ (key : Nat → K) (n : Nat) : firsts key (n + 1) = key n :: firsts key n := by
  simp [firsts, List.range_succ]

theorem mem_firsts {n : Nat} {k : K} : k ∈ firsts key n ↔ ∃ i, i < n ∧ key i = k := by
  simp [firsts]

/-- Among the first 17 keys, one collides with one before it. -/
theorem exists_collides (hk : Distinct key N) (hN : 17 ≤ N) (H : K → Nat → BitVec 64) :
    ∃ i, 0 < i ∧ i < N ∧ Collides H (firsts key i) (key i) := by
  have hp : ∃ i, i < 17 ∧ ∃ j, j < i ∧ nibble H (key i) 0 = nibble H (key j) 0 := by
    apply Classical.byContradiction
    intro hno
    have hnd : ((List.range 17).map fun i => nibble H (key i) 0).Nodup := by
      refine List.Pairwise.map _ ?_ (List.Pairwise.and_mem.1 (List.pairwise_lt_range (n := 17)))
      rintro a b ⟨ha, hb, hab⟩ he
      exact hno ⟨b, List.mem_range.1 hb, a, hab, he.symm⟩
    have := List.Nodup.length_le_of_subset hnd (l₂ := List.range 16) (by
      intro x hx
      obtain ⟨i, _, rfl⟩ := List.mem_map.1 hx
      exact List.mem_range.2 (Nat.mod_lt _ (by decide)))
    simp at this
  have least : ∀ n, (∃ i, i < n ∧ ∃ j, j < i ∧ nibble H (key i) 0 = nibble H (key j) 0) →
      ∃ i, i < n ∧ (∃ j, j < i ∧ nibble H (key i) 0 = nibble H (key j) 0) ∧
        ∀ a, a < i → ¬ ∃ j, j < a ∧ nibble H (key a) 0 = nibble H (key j) 0 := by
    intro n
    induction n with
    | zero => rintro ⟨i, h, _⟩; omega
    | succ n ih =>
      rintro ⟨i, h1, h2⟩
      by_cases hlt : ∃ i, i < n ∧ ∃ j, j < i ∧ nibble H (key i) 0 = nibble H (key j) 0
      · obtain ⟨i, h3, h4⟩ := ih hlt
        exact ⟨i, by omega, h4⟩
      · exact ⟨i, h1, h2, fun a ha h => hlt ⟨a, by omega, h⟩⟩
  obtain ⟨i, hi, ⟨j, hj, he⟩, hmin⟩ := least 17 hp
  refine ⟨i, by omega, by omega, key j, 1, Nat.le_refl _, mem_firsts.2 ⟨j, hj, rfl⟩, ?_, ?_⟩
  · intro a ha
    rw [show a = 0 by omega]
    exact he
  · intro k hk' ha
    obtain ⟨b, hb, rfl⟩ := mem_firsts.1 hk'
    have h1 := ha 0 (by decide)
    rw [he] at h1
    rcases Nat.lt_trichotomy b j with h | h | h
    · exact absurd ⟨b, h, h1⟩ (hmin j hj)
    · rw [h]
    · exact absurd ⟨j, h, h1.symm⟩ (hmin b hb)

/-- Calls of `Ptr` change nothing. -/
theorem looks_keep {a b : Nat} {H : K → Nat → BitVec 64} {ex : Prop} {lossy : Int → Int} {s s' : FMap K Int} {os : List (MOut K Int)}
    (h : Runs (MStepX H ex lossy) s ((upto a b fun i => ((mapActs key).look i, (mapActs key).found i)).map fun c => c.1) os s') : s' = s := by
  rw [upto, List.map_map] at h
  generalize List.range' a (b - a) = l at h
  induction l generalizing s os with
  | nil => exact h.2
  | cons i l ih =>
    obtain ⟨o, os', s₁, rfl, ⟨_, h1⟩, h2⟩ := h
    rw [ih h2, h1]

/-- If `Set` stores a zero in the case of a collision, the test of a map fails at the first value that is wrong. -/
theorem map_lossy_bad (hk : Distinct key N) (hN : 17 ≤ N) {H : K → Nat → BitVec 64} {ex : Prop} :
    Bad (MStepX H ex fun _ => default) (fun m => m = []) (rounds (mapActs key) N) := by
  obtain ⟨i, hi0, hi, hcol⟩ := exists_collides hk hN H
  rw [rounds, round, upto_at (fun i => ((mapActs key).look i, (mapActs key).found i)) hi]
  simp only [List.append_assoc]
  refine Good.bad (B := fun m => FMap.get m (key i) = some 0) ?_ (Bad.after (B := fun m => FMap.get m (key i) = some 0) ?_ (Bad.more (Bad.one ?_)))
  · have := Good.upto (step := MStepX H ex fun _ => (default : Int)) (f := fun i => ((mapActs key).put i, fun _ => true))
      (fun n m => FMap.keys m = firsts key n ∧ (i < n → FMap.get m (key i) = some 0)) (Nat.zero_le N) fun n _ hn => Good.one ?_
    · intro s os s' hs hr
      have h := this s os s' (by rw [hs]; exact ⟨rfl, fun h => by omega⟩) hr
      exact ⟨h.1, h.2.2 hi⟩
    · rintro s o s' ⟨hs, hg⟩ ho
      refine ⟨rfl, ?_⟩
      have hnew : key n ∉ FMap.keys s := by
        rw [hs, mem_firsts]
        rintro ⟨j, hj, he⟩
        have := hk j n (by omega) hn he
        omega
      have hdel : FMap.del s (key n) = s := FMap.del_absent hnew
      have hkeys : ∀ v, FMap.keys (FMap.set s (key n) v) = firsts key (n + 1) := by
        intro v
        rw [FMap.set, hdel, firsts_succ, ← hs]
        rfl
      obtain ⟨_, ho⟩ := ho
      by_cases hni : n = i
      · subst hni
        rcases ho with ⟨_, _, rfl⟩ | ⟨h1, _⟩
        · exact ⟨hkeys _, fun _ => FMap.get_set_same _ _ _⟩
        · exact absurd ⟨FMap.get_eq_none.2 hnew, by rw [hs]; exact hcol⟩ h1
      · have hne : key i ≠ key n := fun e => hni (hk i n hi hn e).symm
        rcases ho with ⟨_, _, rfl⟩ | ⟨_, rfl⟩ <;>
          exact ⟨hkeys _, fun h => by rw [FMap.get_set_other _ _ hne]; exact hg (by omega)⟩
  · intro s os s' hs hr
    rw [looks_keep hr]
    exact hs
  · intro s o s' hs ho
    obtain ⟨rfl, rfl⟩ := ho
    rw [hs]
    show ((0 : Int) == (i : Int)) = false
    rw [beq_eq_false_iff_ne]
    omega

end

/-! ### C78 -/

/-- The decimal numbers below `N`. -/
def Decimals (N : Nat) (k : ByteStr) : Prop := ∃ i, i < N ∧ k = itoa i

/-- The integers below `N`. -/
def Ints (N : Nat) (k : BitVec 64) : Prop := ∃ i, i < N ∧ k = ikey i

section
variable {fuel N : Nat}

theorem fits_of_separated {K : Type} {H : K → Nat → BitVec 64} {S : K → Prop} (h : Separated H S) (ks : List K) (k : K) (hks : ∀ k' ∈ ks, S k')
    (hk : S k) (hn : k ∉ ks) : ByteFits H ks k :=
  ByteFits.of_near fun k' hk' => h k k' hk (hks k' hk') fun e => hn (e ▸ hk')

theorem small_of_separated (hN : N ≤ 2 ^ 32) {H : BitVec 64 → Nat → BitVec 64} (h : Separated H (Ints N)) (ks : List (BitVec 64)) (k : BitVec 64)
    (hks : ∀ k' ∈ ks, Ints N k') (hk : Ints N k) (hn : k ∉ ks) : IntSmall H ks k := by
  refine ⟨?_, fits_of_separated h ks k hks hk hn⟩
  obtain ⟨i, hi, rfl⟩ := hk
  rw [ikey, BitVec.toNat_ofNat]
  exact Nat.lt_of_le_of_lt (Nat.mod_le _ _) (by omega)

/-- C78, TestStringMap: it passes for every hash function and every seed for which the decimal numbers below `N` do not agree, two
of them, in the first 241 nibbles.  (`N` is 1000000 there.) -/
theorem C78_StringMap (sum : Maphash) (sd : Seed) (he : N % 2 = 0) (hN : 273 ≤ N) (hN' : N < 2 ^ 52)
    (hs : Separated (byteStream sum sd id) (Decimals N)) (hf : 256 ≤ fuel) (s : St ByteStr Int) :
    ∃ s', testMap (StringMap sum) fuel itoa N sd s = .ok (true, s') :=
  testMap_pass (.string sum sd) trivial hf (fun _ _ _ _ h => itoa_inj h) he hN hN' (fun _ => fits_of_separated hs) s

/-- C78, TestStringSet. -/
theorem C78_StringSet (sum : Maphash) (sd : Seed) (he : N % 2 = 0) (hN : 273 ≤ N) (hN' : N < 2 ^ 52)
    (hs : Separated (byteStream sum sd id) (Decimals N)) (hf : 256 ≤ fuel) (s : St ByteStr Unit) :
    ∃ s', testSet (StringSet sum) fuel itoa N sd s = .ok (true, s') :=
  testSet_pass (.string sum sd) trivial hf (fun _ _ _ _ h => itoa_inj h) he hN hN' (fits_of_separated hs) s

/-- C78, TestIntMap. -/
theorem C78_IntMap (sum : Maphash) (sd : Seed) (he : N % 2 = 0) (hN : 273 ≤ N) (hN' : N ≤ 2 ^ 32)
    (hs : Separated (byteStream sum sd intbytes) (Ints N)) (hf : 256 ≤ fuel) (s : St IntKey Int) :
    ∃ s', testMap (IntMap sum) fuel ikey N sd s = .ok (true, s') :=
  testMap_pass (.int32 sum sd) trivial hf (fun _ _ hi hj h => ikey_inj (by omega) (by omega) h) he hN (by omega)
    (fun _ => small_of_separated hN' hs) s

/-- C78, TestIntSet. -/
theorem C78_IntSet (sum : Maphash) (sd : Seed) (he : N % 2 = 0) (hN : 273 ≤ N) (hN' : N ≤ 2 ^ 32)
    (hs : Separated (byteStream sum sd intbytes) (Ints N)) (hf : 256 ≤ fuel) (s : St IntKey Unit) :
    ∃ s', testSet (IntSet sum) fuel ikey N sd s = .ok (true, s') :=
  testSet_pass (.int32 sum sd) trivial hf (fun _ _ hi hj h => ikey_inj (by omega) (by omega) h) he hN (by omega)
    (small_of_separated hN' hs) s

/-- C78, the containers that have no tests of their own.  The same test of a `BytesSet` fails, whatever the hash function and the seed. -/
theorem C78_BytesSet_fails (sum : Maphash) (sd : Seed) (hN : 273 ≤ N) (hN' : N < 2 ^ 52)
    (hs : Separated (byteStream sum sd id) (Decimals N)) (hf : 256 ≤ fuel) (s : St ByteStr Unit) :
    ∃ s', testSet (BytesSet sum) fuel itoa N sd s = .ok (false, s') := by
  obtain ⟨h, s₁, os, s', m, h1, h2, h3, h4⟩ := set_runs (.bytes sum sd) hf (fits_of_separated hs) set_stores s
  obtain ⟨s₂, h5⟩ := runTest_fail (rest := []) h3 (set_inv_bad (fun _ _ _ _ h => itoa_inj h) hN hN' trivial [] os m (isSetOf_nil itoa N) h4)
  refine ⟨s₂, ?_⟩
  show (SetImpl.New (K := ByteStr) sd >>= _) s = _
  rw [bind_ok h1, h2]
  rwa [List.append_nil] at h5

/-- C78.  The same test of an `ArrMap` fails, whatever the type of the keys, the hash function and the seed, with 17 keys or more. -/
theorem C78_ArrMap_fails (sum : Maphash) (sd : Seed) {K : Type} [DecidableEq K] (kb : K → List UInt8) (key : Nat → K) (hk : Distinct key N)
    (hN : 17 ≤ N) (hs : Separated (byteStream sum sd kb) fun k => ∃ i, i < N ∧ k = key i) (hf : 256 ≤ fuel) (s : St K Int) :
    ∃ s', testMap (ArrMap sum kb) fuel key N sd s = .ok (false, s') := by
  obtain ⟨h, s₁, os, s', m, h1, h2, h3, h4⟩ := map_runs (.arr sum sd kb) hf (fun _ => fits_of_separated hs) map_stores s
  obtain ⟨s₂, h5⟩ := runTest_fail (rest := []) h3 (map_lossy_bad hk hN [] os m rfl h4)
  refine ⟨s₂, ?_⟩
  show (MapImpl.New (V := Int) (K := K) sd >>= _) s = _
  rw [bind_ok h1, h2]
  rwa [List.append_nil] at h5

/-- C78.  The same test of a `BytesMap` passes. -/
theorem C78_BytesMap (sum : Maphash) (sd : Seed) (he : N % 2 = 0) (hN : 273 ≤ N) (hN' : N < 2 ^ 52)
    (hs : Separated (byteStream sum sd id) (Decimals N)) (hf : 256 ≤ fuel) (s : St ByteStr Int) :
    ∃ s', testMap (BytesMap sum) fuel itoa N sd s = .ok (true, s') :=
  testMap_pass (.bytes sum sd) trivial hf (fun _ _ _ _ h => itoa_inj h) he hN hN' (fun _ => fits_of_separated hs) s

/-- C78.  The same test of an `ArrSet` passes. -/
theorem C78_ArrSet (sum : Maphash) (sd : Seed) {K : Type} [DecidableEq K] (kb : K → List UInt8) (key : Nat → K) (hk : Distinct key N)
    (he : N % 2 = 0) (hN : 273 ≤ N) (hN' : N < 2 ^ 52) (hs : Separated (byteStream sum sd kb) fun k => ∃ i, i < N ∧ k = key i) (hf : 256 ≤ fuel)
    (s : St K Unit) : ∃ s', testSet (ArrSet sum kb) fuel key N sd s = .ok (true, s') :=
  testSet_pass (.arr sum sd kb) trivial hf hk he hN hN' (fits_of_separated hs) s

end

end Amt
