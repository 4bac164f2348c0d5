/-
Concrete histories for `Verif/PropsLoose.lean`: keys that are lost, found again, and counted twice.
-/
import Verif.PropsLooseMore
import Verif.Bugs

namespace Amt
open Spec

/-- A key type whose digests for different `iter` differ in every nibble. -/
def xorKey : KeyImpl Nat where
  equal a b := decide (a = b)
  hash k _ i := BitVec.ofNat 64 k ^^^ BitVec.ofNat 64 (i % 16 * 0x1111111111111111)

theorem xorKey_eq : ∀ a b, xorKey.equal a b = true ↔ a = b := by simp [xorKey]

theorem xorKey_apart {S : Nat → Prop} (h : ∀ a, S a → a < 2 ^ 64) (sd : Seed) : TwiceApart (fun k n => xorKey.hash k sd n) S 1 := by
  intro a b ha hb hab
  have hne : ∀ i, xorKey.hash a sd i ≠ xorKey.hash b sd i := by
    intro i he
    have h2 := (BitVec.xor_right_inj _).1 ((BitVec.xor_comm ..).trans (he.trans (BitVec.xor_comm ..)))
    have h3 := congrArg BitVec.toNat h2
    rw [BitVec.toNat_ofNat, BitVec.toNat_ofNat, Nat.mod_eq_of_lt (h a ha), Nat.mod_eq_of_lt (h b hb)] at h3
    exact hab h3
  exact ⟨⟨0, by omega, hne _⟩, 1, by omega, by omega, hne _⟩

/-! The keys 0x321 and 0x421 share two nibbles, and 0x051 shares one with them.  Storing them in the order 0x321, 0x051,
0x421 loses the first. -/

theorem stores_apart {ops : List (MOp Nat Nat)} (h : ∀ op ∈ ops, ∀ k ∈ op.stores, k < 2 ^ 64) (sd : Seed) :
    TwiceApart (fun k n => xorKey.hash k sd n) (Stores ops) 1 :=
  xorKey_apart (fun a ⟨op, h1, h2⟩ => h op h1 a h2) sd

/-- C13 is false for `Map`: after `Del(k)`, `Get(k)` finds `k`, with a value that had been overwritten. -/
theorem C13_Map_refuted :
    ∃ (I : KeyImpl Nat) (sd : Seed) (ops : List (MOp Nat Nat)) (k : Nat), (∀ a b, I.equal a b = true ↔ a = b) ∧
      TwiceApart (fun k n => I.hash k sd n) (Stores ops) 1 ∧ (∀ k f, .mod k f ∉ ops) ∧
      ∀ fuel, 256 ≤ fuel → ∃ os m s', (GenericMap I).session fuel sd (ops ++ [.get k, .del k, .get k]) St.init
        = .ok ((m, os ++ [.pair 4 true, .unit, .pair 1 true]), s') := by
  refine ⟨xorKey, 0#64, [.set 0x321 1, .set 0x051 2, .set 0x421 3, .set 0x321 4, .del 0x421], 0x321, xorKey_eq,
    stores_apart (by decide) _, by simp, fun fuel hf => ?_⟩
  obtain ⟨m, s', e⟩ := MapImpl.outs_of (V := Nat) (GenericMap_mono xorKey) (f := 256) (sd := 0#64)
    (ops := [.set 0x321 1, .set 0x051 2, .set 0x421 3, .set 0x321 4, .del 0x421] ++ [.get 0x321, .del 0x321, .get 0x321])
    (s := St.init) (os := [.unit, .unit, .unit, .unit, .unit] ++ [.pair 4 true, .unit, .pair 1 true]) (by decide +kernel) hf
  exact ⟨_, m, s', e⟩

/-- C16 is false for `Map`: three keys are stored, `Len` is 4, and `All` visits one of them twice, with two values. -/
theorem C16_Map_refuted_twice :
    ∃ (I : KeyImpl Nat) (sd : Seed) (ops : List (MOp Nat Nat)), (∀ a b, I.equal a b = true ↔ a = b) ∧
      TwiceApart (fun k n => I.hash k sd n) (Stores ops) 1 ∧ (∀ k f, .mod k f ∉ ops) ∧ (∀ k, Stores ops k → k ∈ [0x321, 0x051, 0x421]) ∧
      ∀ fuel, 256 ≤ fuel → ∃ os m s', (GenericMap I).session fuel sd (ops ++ [.len, .all fun _ _ v => (v, true)]) St.init
        = .ok ((m, os ++ [.num 4#64, .log [(0x321, 1), (0x321, 4), (0x421, 3), (0x051, 2)]]), s') := by
  refine ⟨xorKey, 0#64, [.set 0x321 1, .set 0x051 2, .set 0x421 3, .set 0x321 4], xorKey_eq,
    stores_apart (by decide) _, by simp, ?_, fun fuel hf => ?_⟩
  · rintro k ⟨op, h1, h2⟩
    simp only [List.mem_cons, List.not_mem_nil, or_false] at h1
    rcases h1 with rfl | rfl | rfl | rfl <;> simp [MOp.stores] at h2 <;> simp [h2]
  obtain ⟨m, s', e⟩ := MapImpl.outs_of (V := Nat) (GenericMap_mono xorKey) (f := 256) (sd := 0#64)
    (ops := [.set 0x321 1, .set 0x051 2, .set 0x421 3, .set 0x321 4] ++ [.len, .all fun _ _ v => (v, true)])
    (s := St.init) (os := [.unit, .unit, .unit, .unit] ++ [.num 4#64, .log [(0x321, 1), (0x321, 4), (0x421, 3), (0x051, 2)]])
    (by decide +kernel) hf
  exact ⟨_, m, s', e⟩

/-- C13 is false for `Set`: an element is in the set right after it was deleted. -/
theorem C13_Set_refuted :
    ∃ (I : KeyImpl Nat) (sd : Seed) (ops : List (SOp Nat)) (k : Nat), (∀ a b, I.equal a b = true ↔ a = b) ∧
      TwiceApart (fun k n => I.hash k sd n) (SStores ops) 1 ∧
      ∀ fuel, 256 ≤ fuel → ∃ os m s', (GenericSet I).session fuel sd (ops ++ [.has k, .del k, .has k]) St.init
        = .ok ((m, os ++ [.bool true, .unit, .bool true]), s') := by
  refine ⟨xorKey, 0#64, [.add 0x321, .add 0x051, .add 0x421, .add 0x321, .del 0x421], 0x321, xorKey_eq,
    xorKey_apart ?_ _, fun fuel hf => ?_⟩
  · rintro a ⟨op, h1, h2⟩
    simp only [List.mem_cons, List.not_mem_nil, or_false] at h1
    rcases h1 with rfl | rfl | rfl | rfl | rfl <;> simp [SOp.stores] at h2 <;> omega
  obtain ⟨m, s', e⟩ := SetImpl.outs_of (GenericSet_mono xorKey) (f := 256) (sd := 0#64)
    (ops := [.add 0x321, .add 0x051, .add 0x421, .add 0x321, .del 0x421] ++ [.has 0x321, .del 0x321, .has 0x321])
    (s := St.init) (os := [.unit, .unit, .unit, .unit, .unit] ++ [.bool true, .unit, .bool true]) (by decide +kernel) hf
  exact ⟨_, m, s', e⟩

/-! ### The hypotheses hold in non-trivial cases -/

/-- C48 on a history in which a key is lost, stored again, deleted and found again. -/
example := C48_Map (V := Nat) xorKey xorKey_eq 0#64 (m := 1) (by decide)
  (ops := [.set 0x321 1, .set 0x051 2, .set 0x421 3, .set 0x321 4, .del 0x421, .del 0x321, .get 0x321])
  (stores_apart (by decide) _) St.init

/-- C49 on such a history. -/
example := C49_Set xorKey xorKey_eq 0#64 (m := 1) (by decide)
  (ops := [.add 0x321, .add 0x051, .add 0x421, .has 0x321, .len])
  (xorKey_apart (fun a ⟨op, h1, h2⟩ => by
    simp only [List.mem_cons, List.not_mem_nil, or_false] at h1
    rcases h1 with rfl | rfl | rfl | rfl | rfl <;> simp [SOp.stores] at h2 <;> omega) _) St.init

/-- C50 for a key that was lost. -/
example := C50_Map_set (V := Nat) xorKey xorKey_eq 0#64 (m := 1) (by decide) (ops := [.set 0x321 1, .set 0x051 2, .set 0x421 3])
  St.init (k := 0x321) (v := 4) (stores_apart (by decide) _)

/-- C52: no value greater than 4 is found. -/
example := C52_Map (V := Nat) xorKey xorKey_eq 0#64 (m := 1) (by decide)
  (ops := [.set 0x321 1, .set 0x051 2, .set 0x421 3, .set 0x321 4, .get 0x321]) St.init (stores_apart (by decide) _)
  (fun _ v => v ≤ 4) (fun op hop => by
    simp only [List.mem_cons, List.not_mem_nil, or_false] at hop
    rcases hop with rfl | rfl | rfl | rfl | rfl <;> simp [MOp.Writes])

/-- The key that C51 allows to change does change. -/
example : ∀ fuel, 256 ≤ fuel → ∃ m s',
    (GenericMap xorKey).session fuel 0#64 ([.set 0x321 1, .set 0x051 2] ++ [.get 0x321, .get 0x051, .set 0x421 3, .get 0x321, .get 0x051])
      St.init = .ok ((m, [.unit, .unit, getOut (some 1), getOut (some 2), .unit, getOut none, getOut (some 2)]), s') :=
  fun fuel hf => MapImpl.outs_of (V := Nat) (GenericMap_mono xorKey) (f := 256) (by decide +kernel) hf

end Amt
