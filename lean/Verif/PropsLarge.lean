/-
C99: for which share of the hash functions an integer container is right, in spite of the keys outside `[0, 2^32)` (C04, C09).
-/
import Verif.PropsSmall
import Verif.PropsMisc

set_option linter.unusedVariables false
set_option linter.unusedSectionVars false

namespace Spec

/-- One of the keys `big` shares its first `j` nibbles with another one of the keys `ks`. -/
def touch {K : Type} [DecidableEq K] (H : K → Nat → BitVec 64) (j : Nat) (big ks : List K) : Bool :=
  big.any fun a => ks.any fun b => decide (a ≠ b) && decide (∀ i, i < j → nibble H a i = nibble H b i)

end Spec

namespace Amt
open Spec T

section
variable {W K V : Type} [DecidableEq K] {Ω : List W} {c m j : Nat} {H : W → K → Nat → BitVec 64} {big ks : List K}

/-- The number of functions with which one of the keys `big` clashes, by the pairs of keys. -/
theorem touch_count (hs : Spread c m Ω H ks) (hb : ∀ k ∈ big, k ∈ ks) (hj : j ≤ m) :
    16 ^ j * (Ω.countP fun w => touch (H w) j big ks) ≤ big.length * ks.length * (c * Ω.length) := by
  rw [List.countP_eq_length_filter, length_filter_eq]
  refine Nat.le_trans (Nat.mul_le_mul_left _ (sum_le_sum fun w _ => any_toNat_le _ _)) ?_
  rw [sum_swap, ← sum_mul]
  refine Nat.le_trans (sum_le_sum (g := fun _ => ks.length * (c * Ω.length)) fun a ha => ?_)
    (by rw [sum_const, Nat.mul_comm, Nat.mul_assoc]; exact Nat.le_refl _)
  refine Nat.le_trans (Nat.mul_le_mul_left _ (sum_le_sum fun w _ => any_toNat_le _ _)) ?_
  rw [sum_swap, ← sum_mul]
  refine Nat.le_trans (sum_le_sum (g := fun _ => c * Ω.length) fun b hb' => ?_) (by rw [sum_const, Nat.mul_comm]; exact Nat.le_refl _)
  by_cases hab : a = b
  · have : (Ω.map fun w => (decide (a ≠ b) && decide (∀ i, i < j → nibble (H w) a i = nibble (H w) b i)).toNat).sum = 0 := by
      rw [← length_filter_eq, ← List.countP_eq_length_filter]
      exact List.countP_eq_zero.2 fun w _ => by simp [hab]
    rw [this]
    omega
  · refine Nat.le_trans (Nat.mul_le_mul_left _ (Nat.le_of_eq ?_)) (hs a (hb a ha) b hb' hab j hj)
    rw [meets, length_filter_eq]
    congr 1
    apply List.map_congr_left
    intro w _
    rw [decide_eq_true hab, Bool.true_and]

theorem touch_false {H : K → Nat → BitVec 64} (h : touch H j big ks = false) {a b : K} (ha : a ∈ big) (hb : b ∈ ks) (hab : a ≠ b) :
    ∃ i, i < j ∧ nibble H a i ≠ nibble H b i := by
  rw [touch, List.any_eq_false] at h
  have h1 := h a ha
  rw [Bool.not_eq_true, List.any_eq_false] at h1
  have h2 := h1 b hb
  rw [decide_eq_true hab, Bool.true_and, decide_eq_true_eq] at h2
  refine Classical.byContradiction fun h3 => h2 fun i hi => Classical.byContradiction fun h4 => h3 ⟨i, hi, h4⟩

/-- Only few functions of a family go wrong on the keys `ks`, the keys `big` being among them: those with which two keys share `m` nibbles, or one of `big`
shares two nibbles with another key. -/
def FewBig (Ω : List W) (c m : Nat) (big ks : List K) (bad : W → Bool) : Prop :=
  2 * (16 ^ m * Ω.countP bad) ≤ (ks.length * (ks.length - 1) + 2 * 16 ^ (m - 2) * (big.length * ks.length)) * (c * Ω.length)

theorem few_big (hs : Spread c m Ω H ks) (hb : ∀ k ∈ big, k ∈ ks) (hm : 2 ≤ m) : FewBig Ω c m big ks fun w => clash (H w) m ks || touch (H w) 2 big ks := by
  have h1 := clash_count hs (Nat.le_refl m)
  have h2 := touch_count hs hb hm
  have h3 : (Ω.countP fun w => clash (H w) m ks || touch (H w) 2 big ks) ≤ (Ω.countP fun w => clash (H w) m ks) + Ω.countP fun w => touch (H w) 2 big ks := by
    rw [List.countP_eq_length_filter, List.countP_eq_length_filter, List.countP_eq_length_filter, length_filter_eq, length_filter_eq, length_filter_eq, ← sum_add]
    apply sum_le_sum
    intro w _
    cases clash (H w) m ks <;> cases touch (H w) 2 big ks <;> decide
  have h4 := Nat.mul_le_mul_left (2 * 16 ^ (m - 2)) h2
  have h5 : 16 ^ m = 16 ^ (m - 2) * 16 ^ 2 := by rw [← Nat.pow_add]; congr 1; omega
  have h6 : 2 * 16 ^ (m - 2) * (16 ^ 2 * (Ω.countP fun w => touch (H w) 2 big ks)) = 2 * (16 ^ m * Ω.countP fun w => touch (H w) 2 big ks) := by
    rw [h5]; simp only [Nat.mul_assoc]
  have h7 := Nat.mul_le_mul_left (2 * 16 ^ m) h3
  rw [Nat.mul_add] at h7
  rw [h6] at h4
  rw [FewBig, Nat.add_mul, Nat.mul_assoc (2 * 16 ^ (m - 2))]
  simp only [Nat.mul_assoc] at h1 h4 h7 ⊢
  omega

/-- Where no large key shares two nibbles with another one, every key can be inserted next to every other one. -/
theorem intSafe_of {H : BitVec 64 → Nat → BitVec 64} {big U ks : List (BitVec 64)} {k : BitVec 64} (hm : m ≤ 241) (hcl : clash H m U = false)
    (ht : touch H 2 big U = false) (hbig : ∀ x ∈ U, x.toNat < 2 ^ 32 ∨ x ∈ big) (hks : ∀ x ∈ ks, x ∈ U) (hk : k ∈ U) (hn : k ∉ ks) : IntSafe H ks k := fun x hx => by
  have hne : k ≠ x := fun e => hn (e ▸ hx)
  refine ⟨near_of_clash hm hcl hk (hks x hx) hne, ?_⟩
  rcases hbig x (hks x hx) with h | h
  · exact SafePair_small H k x h
  · intro _ j hj ha
    obtain ⟨i, h1, h2⟩ := touch_false ht h hk (Ne.symm hne)
    exact absurd (ha i (by omega)).symm h2

end

section
variable {W V : Type} [Inhabited V] {Ω : List W} {c m : Nat} {sum : W → Maphash} {sd : W → Seed}

/-- C99.  A history of calls names the `n` keys `ks`, of which the `l` keys `big` may lie outside `[0, 2^32)`, and two keys share their first `j ≤ m` nibbles with
probability at most `c / 16^j` over the hash functions (or seeds) in `Ω`.  Then for all but a fraction `c (n (n - 1) / (2 · 16^m) + l n / 256)` of these every
call returns what it should. -/
theorem C99_IntMap {ops : List (MOp IntKey V)} {big ks : List IntKey} (hk : ∀ op ∈ ops, ∀ k ∈ op.names, k ∈ ks) (hb : ∀ k ∈ big, k ∈ ks)
    (hbig : ∀ k ∈ ks, k.toNat < 2 ^ 32 ∨ k ∈ big) (hs : Spread c m Ω (fun w => byteStream (sum w) (sd w) intbytes) ks) (h2 : 2 ≤ m) (hm : m ≤ 241) :
    ∃ bad, FewBig Ω c m big ks bad ∧ ∀ w ∈ Ω, bad w = false → ∀ fuel, 256 ≤ fuel → ∀ s : St IntKey V,
      ∃ os s' mp, (IntMap (sum w)).session fuel (sd w) ops s = .ok ((some s.next, os), s') ∧ MRun [] ops os mp :=
  ⟨_, few_big hs hb h2, fun w _ h fuel hf s => by
    rw [Bool.or_eq_false_iff] at h
    exact C04_IntMap_partial (sum w) (sd w) ops (EachNew.of_pairs (S := fun k => k ∈ ks) (fun _ ks' k h1 h2 h3 => intSafe_of hm h.1 h.2 hbig h1 h2 h3) (by simp)
      fun _ hk' => stored_named hk hk') hf s⟩

/-- C99 for sets. -/
theorem C99_IntSet {ops : List (SOp IntKey)} {big ks : List IntKey} (hk : ∀ op ∈ ops, ∀ k ∈ op.names, k ∈ ks) (hb : ∀ k ∈ big, k ∈ ks)
    (hbig : ∀ k ∈ ks, k.toNat < 2 ^ 32 ∨ k ∈ big) (hs : Spread c m Ω (fun w => byteStream (sum w) (sd w) intbytes) ks) (h2 : 2 ≤ m) (hm : m ≤ 241) :
    ∃ bad, FewBig Ω c m big ks bad ∧ ∀ w ∈ Ω, bad w = false → ∀ fuel, 256 ≤ fuel → ∀ s : St IntKey Unit,
      ∃ os s' mp, (IntSet (sum w)).session fuel (sd w) ops s = .ok ((some s.next, os), s') ∧ SRun [] ops os mp :=
  ⟨_, few_big hs hb h2, fun w _ h fuel hf s => by
    rw [Bool.or_eq_false_iff] at h
    exact C09_IntSet_partial (sum w) (sd w) ops (SEachNew.of_pairs (S := fun k => k ∈ ks) (fun ks' k h1 h2 h3 => intSafe_of hm h.1 h.2 hbig h1 h2 h3) (by simp)
      fun _ hk' => sstored_named hk hk') hf s⟩

/-- Where no two keys share two nibbles, every key can be inserted next to every other one. -/
theorem intSafe_of_clash {H : BitVec 64 → Nat → BitVec 64} {U ks : List (BitVec 64)} {k : BitVec 64} (h : clash H 2 U = false) (hks : ∀ x ∈ ks, x ∈ U) (hk : k ∈ U)
    (hn : k ∉ ks) : IntSafe H ks k := fun x hx => by
  have hne : k ≠ x := fun e => hn (e ▸ hx)
  refine ⟨near_of_clash (by decide) h hk (hks x hx) hne, fun _ j hj ha => ?_⟩
  obtain ⟨i, g1, g2⟩ := clash_false h hk (hks x hx) hne
  exact absurd (ha i (by omega)) g2

/-- C99 for a history all of whose keys may lie outside `[0, 2^32)`: a fraction `c n (n - 1) / 512`. -/
theorem C99_IntMap_all {ops : List (MOp IntKey V)} {ks : List IntKey} (hk : ∀ op ∈ ops, ∀ k ∈ op.names, k ∈ ks)
    (hs : Spread c m Ω (fun w => byteStream (sum w) (sd w) intbytes) ks) (h2 : 2 ≤ m) :
    ∃ bad, Few Ω c 2 ks bad ∧ ∀ w ∈ Ω, bad w = false → ∀ fuel, 256 ≤ fuel → ∀ s : St IntKey V,
      ∃ os s' mp, (IntMap (sum w)).session fuel (sd w) ops s = .ok ((some s.next, os), s') ∧ MRun [] ops os mp :=
  ⟨fun w => clash (byteStream (sum w) (sd w) intbytes) 2 ks, clash_count hs h2, fun w _ h fuel hf s =>
    C04_IntMap_partial (sum w) (sd w) ops (EachNew.of_pairs (S := fun k => k ∈ ks) (fun _ ks' k h1 h2 h3 => intSafe_of_clash h h1 h2 h3) (by simp)
      fun _ hk' => stored_named hk hk') hf s⟩

/-- The same for sets. -/
theorem C99_IntSet_all {ops : List (SOp IntKey)} {ks : List IntKey} (hk : ∀ op ∈ ops, ∀ k ∈ op.names, k ∈ ks)
    (hs : Spread c m Ω (fun w => byteStream (sum w) (sd w) intbytes) ks) (h2 : 2 ≤ m) :
    ∃ bad, Few Ω c 2 ks bad ∧ ∀ w ∈ Ω, bad w = false → ∀ fuel, 256 ≤ fuel → ∀ s : St IntKey Unit,
      ∃ os s' mp, (IntSet (sum w)).session fuel (sd w) ops s = .ok ((some s.next, os), s') ∧ SRun [] ops os mp :=
  ⟨fun w => clash (byteStream (sum w) (sd w) intbytes) 2 ks, clash_count hs h2, fun w _ h fuel hf s =>
    C09_IntSet_partial (sum w) (sd w) ops (SEachNew.of_pairs (S := fun k => k ∈ ks) (fun ks' k h1 h2 h3 => intSafe_of_clash h h1 h2 h3) (by simp)
      fun _ hk' => sstored_named hk hk') hf s⟩

end

section
variable {V : Type} [Inhabited V]

/-- All functions from the byte strings of integer keys to 64-bit digests spread the keys. -/
theorem spread_int (ks : List IntKey) (sd : Seed) :
    Spread 1 16 (allHashes (ks.map intbytes)) (fun v => byteStream (tableHash (ks.map intbytes) v) sd intbytes) ks := fun a ha b hb hab j hj =>
  spread_all (ks.map intbytes) sd (intbytes a) (List.mem_map_of_mem ha) (intbytes b) (List.mem_map_of_mem hb) (fun e => hab (C28_injective e)) j hj

/-- C99 for a random hash function: with twelve keys, of which one may be negative or large, all but one in 21 of the functions make every call return what it
should. -/
theorem C99_random (sd : Seed) {ops : List (MOp IntKey V)} {x : IntKey} {ks : List IntKey} (hk : ∀ op ∈ ops, ∀ k ∈ op.names, k ∈ ks) (hx : x ∈ ks)
    (hbig : ∀ k ∈ ks, k.toNat < 2 ^ 32 ∨ k = x) (hn : ks.length ≤ 12) :
    ∃ bad : List (BitVec 64) → Bool, 21 * (allHashes (ks.map intbytes)).countP bad ≤ (allHashes (ks.map intbytes)).length ∧
      ∀ v ∈ allHashes (ks.map intbytes), bad v = false → ∀ fuel, 256 ≤ fuel → ∀ s : St IntKey V,
        ∃ os s' mp, (IntMap (tableHash (ks.map intbytes) v)).session fuel sd ops s = .ok ((some s.next, os), s') ∧ MRun [] ops os mp := by
  obtain ⟨bad, h1, h2⟩ := C99_IntMap (big := [x]) (sum := fun v => tableHash (ks.map intbytes) v) (sd := fun _ => sd) hk (by simpa using hx)
    (fun k hk' => (hbig k hk').imp id List.mem_singleton.2) (spread_int ks sd) (by decide) (by decide)
  refine ⟨bad, ?_, h2⟩
  have h3 : ks.length * (ks.length - 1) + 2 * 16 ^ (16 - 2) * ([x].length * ks.length) ≤ 12 * 11 + 2 * 16 ^ 14 * (1 * 12) :=
    Nat.add_le_add (Nat.mul_le_mul hn (by omega)) (Nat.mul_le_mul_left _ (Nat.mul_le_mul_left _ hn))
  have h4 := Nat.le_trans h1 (Nat.mul_le_mul_right _ h3)
  generalize (allHashes (ks.map intbytes)).countP bad = p at h4 ⊢
  generalize (allHashes (ks.map intbytes)).length = q at h4 ⊢
  omega

end

/-! ### Instances -/

theorem two_big : ∀ k ∈ [0x01#64, -1#64], k.toNat < 2 ^ 32 ∨ k ∈ [-1#64] := by simp

example := C99_IntMap (sum := fun v => tableHash ([0x01#64, -1#64].map intbytes) v) (sd := fun _ => 0#64) (twoOps_names 0x01#64 (-1#64)) (big := [-1#64]) (by simp) two_big
  (spread_int [0x01#64, -1#64] 0#64) (by decide) (by decide)
example := C99_IntSet (sum := fun v => tableHash ([0x01#64, -1#64].map intbytes) v) (sd := fun _ => 0#64) (twoOpsS_names 0x01#64 (-1#64)) (big := [-1#64]) (by simp) two_big
  (spread_int [0x01#64, -1#64] 0#64) (by decide) (by decide)
example := C99_IntMap_all (sum := fun v => tableHash ([-2#64, -1#64].map intbytes) v) (sd := fun _ => 0#64) (twoOps_names (-2#64) (-1#64)) (spread_int [-2#64, -1#64] 0#64) (by decide)
example := C99_IntSet_all (sum := fun v => tableHash ([-2#64, -1#64].map intbytes) v) (sd := fun _ => 0#64) (twoOpsS_names (-2#64) (-1#64)) (spread_int [-2#64, -1#64] 0#64) (by decide)
example := C99_random 0#64 (x := -1#64) (twoOps_names 0x01#64 (-1#64)) (by simp) (by simp) (by decide)

/-- A hash function that `C99_random` excepts: the two keys share two nibbles. -/
def closeHash : Maphash := tableHash ([-1#64, 1#64].map intbytes) [0x211#64, 0x311#64]

/-- With it both keys are missing after they have been set. -/
theorem C99_lost : ∀ fuel, 256 ≤ fuel → ∃ m s',
    (IntMap closeHash).session fuel 0#64 [.set (-1#64) 7, .set 1#64 8, .get (-1#64), .get 1#64] (St.init (K := IntKey) (V := Nat)) =
      .ok ((m, [.unit, .unit, .pair 0 false, .pair 0 false]), s') := fun fuel hf =>
  MapImpl.outs_of (V := Nat) (IntMap_mono closeHash) (f := 256) (by decide +kernel) hf

end Amt
