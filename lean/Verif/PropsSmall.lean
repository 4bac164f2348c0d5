/-
C96: for which share of the hash functions a generic container is right, in spite of the wrong rehash (C05, C10).
-/
import Verif.PropsOnce

set_option linter.unusedVariables false
set_option linter.unusedSectionVars false

namespace Amt
open Spec T

section
variable {K V : Type} [DecidableEq K] [Inhabited V] {j : Nat}

theorem apartAll_of_clash {H : K → Nat → BitVec 64} {U ks : List K} {k : K} (hj : j ≤ 256) (hcl : clash H j U = false) (hks : ∀ x ∈ ks, x ∈ U) (hk : k ∈ U)
    (hn : k ∉ ks) : ApartAll H ks k := fun x hx => by
  obtain ⟨i, h1, h2⟩ := clash_false hcl hk (hks x hx) fun e => hn (e ▸ hx)
  exact ⟨i, by omega, h2⟩

/-- Where no two keys share `j` nibbles, collisions occur above depth `j - 1` only. -/
theorem collides_of_clash {H : K → Nat → BitVec 64} {U ks : List K} {k k' : K} {d : Nat} (hcl : clash H j U = false) (hks : ∀ x ∈ ks, x ∈ U) (hk : k ∈ U)
    (hn : k ∉ ks) (h : CollidesAt H ks k k' d) : d + 1 < j := by
  obtain ⟨i, h1, h2⟩ := clash_false hcl hk (hks k' h.1) fun e => hn (e ▸ h.1)
  refine Nat.lt_of_not_le fun hd => h2 (h.2.1 i (by omega))

/-- `Set` and `Add` hash the key in the way correctly at depth 0. -/
theorem genFits_two {H : K → Nat → BitVec 64} {U ks : List K} {k : K} (hcl : clash H 2 U = false) (hks : ∀ x ∈ ks, x ∈ U) (hk : k ∈ U) (hn : k ∉ ks) :
    GenFits H false ks k := by
  refine ⟨apartAll_of_clash (by decide) hcl hks hk hn, fun k' d h => ?_⟩
  have : d = 0 := by have := collides_of_clash hcl hks hk hn h; omega
  subst this
  exact rfl

/-- Without collisions nothing is hashed again. -/
theorem genFits_one {H : K → Nat → BitVec 64} {U ks : List K} {k : K} (isMod : Bool) (hcl : clash H 1 U = false) (hks : ∀ x ∈ ks, x ∈ U) (hk : k ∈ U) (hn : k ∉ ks) :
    GenFits H isMod ks k := by
  refine ⟨apartAll_of_clash (by decide) hcl hks hk hn, fun k' d h => ?_⟩
  have := collides_of_clash hcl hks hk hn h
  omega

theorem eachNew_noMod {S : K → Prop} {P : Bool → List K → K → Prop} {ops : List (MOp K V)}
    (h : ∀ ks k, (∀ k' ∈ ks, S k') → S k → k ∉ ks → P false ks k) {ks : List K} (hks : ∀ k ∈ ks, S k)
    (hm : ∀ op ∈ ops, op.isMod = false) (hops : ∀ k, Stores ops k → S k) : EachNew P ks ops := by
  have h1 : EachNew (fun b ks k => b = false → P b ks k) ks ops :=
    EachNew.of_pairs (S := S) (fun b ks k a1 a2 a3 e => by subst e; exact h ks k a1 a2 a3) hks hops
  clear hks hops
  induction ops generalizing ks with
  | nil => trivial
  | cons op ops ih => exact ⟨fun k hk hk' => h1.1 k hk hk' (hm op List.mem_cons_self), ih (fun o ho => hm o (List.mem_cons_of_mem _ ho)) h1.2⟩

end

section
variable {W K V : Type} [DecidableEq K] [Inhabited V] {Ω : List W} {c m : Nat} {I : W → KeyImpl K} {sd : W → Seed}

/-- C96.  A history of calls other than `Mod` names the `n` keys `ks`, and two of these share their first two nibbles with probability at most `c / 16^2` over
the hash functions (or seeds) in `Ω`.  Then for all but a fraction `c n (n - 1) / 512` of these every call returns what it should. -/
theorem C96_Map (heq : ∀ w a b, (I w).equal a b = true ↔ a = b) {ops : List (MOp K V)} {ks : List K} (hk : ∀ op ∈ ops, ∀ k ∈ op.names, k ∈ ks)
    (hmod : ∀ op ∈ ops, op.isMod = false) (hs : Spread c m Ω (fun w k i => (I w).hash k (sd w) i) ks) (hm : 2 ≤ m) :
    ∃ bad, Few Ω c 2 ks bad ∧ ∀ w ∈ Ω, bad w = false → ∀ fuel, 256 ≤ fuel → ∀ s : St K V,
      ∃ os s' mp, (GenericMap (I w)).session fuel (sd w) ops s = .ok ((some s.next, os), s') ∧ MRun [] ops os mp :=
  ⟨fun w => clash (fun k i => (I w).hash k (sd w) i) 2 ks, clash_count hs hm, fun w _ hb fuel hf s =>
    C05_Map_partial (sd w) (I w) (heq w) ops (eachNew_noMod (S := fun k => k ∈ ks) (fun ks' k h1 h2 h3 => genFits_two hb h1 h2 h3) (by simp) hmod
      fun _ hk' => stored_named hk hk') hf s⟩

/-- C96 with `Mod`: two keys must not share their first nibble, so the fraction is `c n (n - 1) / 32`. -/
theorem C96_Map_mod (heq : ∀ w a b, (I w).equal a b = true ↔ a = b) {ops : List (MOp K V)} {ks : List K} (hk : ∀ op ∈ ops, ∀ k ∈ op.names, k ∈ ks)
    (hs : Spread c m Ω (fun w k i => (I w).hash k (sd w) i) ks) (hm : 1 ≤ m) :
    ∃ bad, Few Ω c 1 ks bad ∧ ∀ w ∈ Ω, bad w = false → ∀ fuel, 256 ≤ fuel → ∀ s : St K V,
      ∃ os s' mp, (GenericMap (I w)).session fuel (sd w) ops s = .ok ((some s.next, os), s') ∧ MRun [] ops os mp :=
  ⟨fun w => clash (fun k i => (I w).hash k (sd w) i) 1 ks, clash_count hs hm, fun w _ hb fuel hf s =>
    C05_Map_partial (sd w) (I w) (heq w) ops (EachNew.of_pairs (S := fun k => k ∈ ks) (fun b ks' k h1 h2 h3 => genFits_one b hb h1 h2 h3) (by simp)
      fun _ hk' => stored_named hk hk') hf s⟩

/-- C96 for sets. -/
theorem C96_Set (heq : ∀ w a b, (I w).equal a b = true ↔ a = b) {ops : List (SOp K)} {ks : List K} (hk : ∀ op ∈ ops, ∀ k ∈ op.names, k ∈ ks)
    (hs : Spread c m Ω (fun w k i => (I w).hash k (sd w) i) ks) (hm : 2 ≤ m) :
    ∃ bad, Few Ω c 2 ks bad ∧ ∀ w ∈ Ω, bad w = false → ∀ fuel, 256 ≤ fuel → ∀ s : St K Unit,
      ∃ os s' mp, (GenericSet (I w)).session fuel (sd w) ops s = .ok ((some s.next, os), s') ∧ SRun [] ops os mp :=
  ⟨fun w => clash (fun k i => (I w).hash k (sd w) i) 2 ks, clash_count hs hm, fun w _ hb fuel hf s =>
    C10_Set_partial (sd w) (I w) (heq w) ops (SEachNew.of_pairs (S := fun k => k ∈ ks) (fun ks' k h1 h2 h3 => genFits_two hb h1 h2 h3) (by simp)
      fun _ hk' => sstored_named hk hk') hf s⟩

end

section
variable {V : Type} [Inhabited V]

/-- Strings as keys of a generic container, with the digests `v` of the strings `ks` in iteration 0, and any digests in the others. -/
def tableKey (ks : List ByteStr) (later : ByteStr → Seed → Nat → BitVec 64) (v : List (BitVec 64)) : KeyImpl ByteStr where
  equal a b := decide (a = b)
  hash k sd i := if i = 0 then tableHash ks v sd k else later k sd i

theorem spread_table (ks : List ByteStr) (later : ByteStr → Seed → Nat → BitVec 64) (sd : Seed) :
    Spread 1 16 (allHashes ks) (fun v k i => (tableKey ks later v).hash k sd i) ks := by
  intro a ha b hb hab j hj
  have := spread_all ks sd a ha b hb hab j hj
  have e : ∀ (v : List (BitVec 64)) (k : ByteStr) (i : Nat), i < j →
      nibble (fun k i => (tableKey ks later v).hash k sd i) k i = nibble (byteStream (tableHash ks v) sd id) k i := fun v k i hi => by
    have : i / 16 = 0 := by omega
    simp only [nibble, this, tableKey, if_true, byteStream, id, Nat.zero_add, List.replicate_one, List.flatten_cons, List.flatten_nil, List.append_nil]
  refine Nat.le_trans (Nat.mul_le_mul_left _ (Nat.le_of_eq ?_)) this
  rw [meets, meets]
  congr 1
  apply List.filter_congr
  intro v _
  rw [decide_eq_decide]
  exact forall_congr' fun i => forall_congr' fun hi => by rw [e v a i hi, e v b i hi]

/-- C96 for a random hash function, whatever it returns in later iterations: with five keys, all but one in 25 of the functions make every call of a history
without `Mod` return what it should. -/
theorem C96_random (later : ByteStr → Seed → Nat → BitVec 64) (sd : Seed) {ops : List (MOp ByteStr V)} {ks : List ByteStr} (hk : ∀ op ∈ ops, ∀ k ∈ op.names, k ∈ ks)
    (hmod : ∀ op ∈ ops, op.isMod = false) (hn : ks.length ≤ 5) :
    ∃ bad : List (BitVec 64) → Bool, 25 * (allHashes ks).countP bad ≤ (allHashes ks).length ∧ ∀ v ∈ allHashes ks, bad v = false → ∀ fuel, 256 ≤ fuel → ∀ s : St ByteStr V,
      ∃ os s' mp, (GenericMap (tableKey ks later v)).session fuel sd ops s = .ok ((some s.next, os), s') ∧ MRun [] ops os mp := by
  obtain ⟨bad, h1, h2⟩ := C96_Map (I := fun v => tableKey ks later v) (sd := fun _ => sd) (fun w a b => decide_eq_true_iff) hk hmod (spread_table ks later sd) (by decide)
  refine ⟨bad, ?_, h2⟩
  have h3 : 2 * (16 ^ 2 * (allHashes ks).countP bad) ≤ ks.length * (ks.length - 1) * (1 * (allHashes ks).length) := h1
  have h4 : ks.length * (ks.length - 1) ≤ 5 * 4 := Nat.mul_le_mul hn (by omega)
  have h5 := Nat.le_trans h3 (Nat.mul_le_mul_right _ h4)
  omega

end

/-! ### Instances -/

/-- A generic key with the digest of `affineHash` in iteration 0. -/
def affineKey : KeyImpl ByteStr where
  equal a b := decide (a = b)
  hash k sd i := if i = 0 then affineHash sd k else 0#64

theorem two_spread_gen : Spread 1 1 exSeeds (fun sd k i => affineKey.hash k sd i) [strKey 0x01, strKey 0x12] := by decide +kernel

example := C96_Map_mod (c := 1) (Ω := exSeeds) (I := fun _ => affineKey) (sd := fun sd => sd) (fun _ _ _ => decide_eq_true_iff) (twoOps_names (strKey 0x01) (strKey 0x12))
  two_spread_gen (by decide)

example (later : ByteStr → Seed → Nat → BitVec 64) := C96_Set (I := fun v => tableKey [strKey 0x01, strKey 0x12] later v) (sd := fun _ => 0#64) (fun _ _ _ => decide_eq_true_iff)
  (twoOpsS_names (strKey 0x01) (strKey 0x12)) (spread_table [strKey 0x01, strKey 0x12] later 0#64) (by decide)

example (later : ByteStr → Seed → Nat → BitVec 64) := C96_random (V := Nat) later 0#64 (ops := [.set (strKey 0x01) 1, .set (strKey 0x12) 2, .get (strKey 0x01), .del (strKey 0x12)])
  (ks := [strKey 0x01, strKey 0x12]) (by decide) (by decide) (by decide)

/-- The keys and one of the functions that `C96_random` excepts: they share the first nibble, and two of them the second as well. -/
def lostKey : KeyImpl ByteStr := tableKey [strKey 0x01, strKey 0x02, strKey 0x03] (fun _ _ _ => 0#64) [0x211#64, 0x001#64, 0x311#64]

/-- With it the first key is lost. -/
theorem C96_lost : ∀ fuel, 256 ≤ fuel → ∃ m s',
    (GenericMap lostKey).session fuel 0#64 [.set (strKey 0x01) 1, .set (strKey 0x02) 2, .set (strKey 0x03) 3, .get (strKey 0x01)] (St.init (K := ByteStr) (V := Nat)) =
      .ok ((m, [.unit, .unit, .unit, .pair 0 false]), s') := fun fuel hf =>
  MapImpl.outs_of (V := Nat) (GenericMap_mono lostKey) (f := 256) (by decide +kernel) hf

end Amt
