/-
Finding 19: `Del` below a depth of 256.

`Del` keeps the branches it has passed in `path` and goes back by `d--; l = path[d].link` (string_map.go:381-388).  `d` is a `uint8` and has wrapped around below
256 branches, while `path` has an entry for each of them; so `path[d]` is a branch close to the root instead of the parent.
-/
import Verif.BugsMore
import Verif.BugsGo

set_option linter.unusedVariables false
set_option linter.unusedSectionVars false

namespace Amt
open Spec

/-- A hash of one-byte keys that tells them apart by their nibble 257. -/
def deeperHash : Maphash := fun _ bs => if bs.length < 17 then 0#64 else BitVec.ofNat 64 ((bs.headD 0).toNat * 16)

/-- Four calls on two keys. -/
def deeperOps : List (MOp ByteStr Nat) := [.set [1] 1, .set [2] 2, .del [2], .get [1]]

theorem deeper_apart : ∀ a b, Stores deeperOps a → Stores deeperOps b → a ≠ b →
    ∃ j, nibble (byteStream deeperHash 0#64 id) a j ≠ nibble (byteStream deeperHash 0#64 id) b j := by
  have h : ∀ a, Stores deeperOps a → a ∈ ([[1], [2]] : List ByteStr) := by
    rintro a ⟨op, h1, h2⟩
    simp only [deeperOps, List.mem_cons, List.not_mem_nil, or_false] at h1
    rcases h1 with rfl | rfl | rfl | rfl <;> simp [MOp.stores] at h2 <;> simp [h2]
  have h2 : ∀ a ∈ ([[1], [2]] : List ByteStr), ∀ b ∈ ([[1], [2]] : List ByteStr), a ≠ b →
      nibble (byteStream deeperHash 0#64 id) a 257 ≠ nibble (byteStream deeperHash 0#64 id) b 257 := by decide +kernel
  exact fun a b ha hb hab => ⟨257, h2 a (h a ha) b (h b hb) hab⟩

/-- C24 is false for `StringMap` if keys agree on 257 nibbles and differ later: `Del` of one of two keys marks the branch in the root as an entry, and `Get` of the
other key takes an array of links for a key-value cell. -/
theorem C24_deep_refuted_del : ∃ (sum : Maphash) (sd : Seed) (ops : List (MOp ByteStr Nat)) (k : ByteStr),
    (∀ a b, Stores (ops ++ [.get k]) a → Stores (ops ++ [.get k]) b → a ≠ b → ∃ j, nibble (byteStream sum sd id) a j ≠ nibble (byteStream sum sd id) b j) ∧
    ∀ fuel, 600 ≤ fuel → (∃ r, (StringMap sum).session fuel sd ops St.init = .ok r) ∧ (StringMap sum).session fuel sd (ops ++ [.get k]) St.init = .error .wrongType := by
  refine ⟨deeperHash, 0#64, [.set [1] 1, .set [2] 2, .del [2]], [1], deeper_apart, fun fuel hf => ⟨?_, ?_⟩⟩
  · obtain ⟨m, s', e⟩ := MapImpl.outs_of (V := Nat) (StringMap_mono deeperHash) (f := 600) (sd := 0#64) (ops := [.set [1] 1, .set [2] 2, .del [2]]) (s := St.init)
      (os := [.unit, .unit, .unit]) (by decide +kernel) hf
    exact ⟨_, e⟩
  · exact MapImpl.fault_of (V := Nat) (StringMap_mono deeperHash) (f := 600) (by decide) (by decide +kernel) hf

/-- The same in the translation of string_map.go. -/
theorem Go.C24_code_refuted_del : ∃ (sum : Maphash) (sd : Seed) (ops : List (MOp ByteStr Nat)),
    (∀ a b, Stores ops a → Stores ops b → a ≠ b → ∃ j, nibble (byteStream sum sd id) a j ≠ nibble (byteStream sum sd id) b j) ∧
    ∀ n, 600 ≤ n → answers ((Go.stringMap (V := Nat) sum).session n sd ops St.init) = .error .wrongType := by
  obtain ⟨sum, sd, ops, k, hs, h⟩ := C24_deep_refuted_del
  exact ⟨sum, sd, ops ++ [.get k], hs, fun n hn => (Go.MapCodeOf.string sum).faults (by decide) (h n hn).2⟩

/-- The same for `StringSet`: `Has` takes an array of links for a key. -/
theorem C24_deep_refuted_delS : ∃ (sum : Maphash) (sd : Seed) (ops : List (SOp ByteStr)),
    (∀ a b, SStores ops a → SStores ops b → a ≠ b → ∃ j, nibble (byteStream sum sd id) a j ≠ nibble (byteStream sum sd id) b j) ∧
    ∀ fuel, 600 ≤ fuel → (StringSet sum).session fuel sd ops St.init = .error .wrongType := by
  refine ⟨deeperHash, 0#64, [.add [1], .add [2], .del [2], .has [1]], ?_, fun fuel hf => ?_⟩
  · have h : ∀ a, SStores [.add [1], .add [2], .del [2], .has [1]] a → a ∈ ([[1], [2]] : List ByteStr) := by
      rintro a ⟨op, h1, h2⟩
      simp only [List.mem_cons, List.not_mem_nil, or_false] at h1
      rcases h1 with rfl | rfl | rfl | rfl <;> simp [SOp.stores] at h2 <;> simp [h2]
    have h2 : ∀ a ∈ ([[1], [2]] : List ByteStr), ∀ b ∈ ([[1], [2]] : List ByteStr), a ≠ b →
        nibble (byteStream deeperHash 0#64 id) a 257 ≠ nibble (byteStream deeperHash 0#64 id) b 257 := by decide +kernel
    exact fun a b ha hb hab => ⟨257, h2 a (h a ha) b (h b hb) hab⟩
  · have hx : (StringSet deeperHash).session 600 0#64 [.add [1], .add [2], .del [2], .has [1]] St.init = .error .wrongType := by
      have h : outs ((StringSet deeperHash).session 600 0#64 [.add [1], .add [2], .del [2], .has [1]] St.init) = .error .wrongType := by decide +kernel
      cases hs : (StringSet deeperHash).session 600 0#64 [.add [1], .add [2], .del [2], .has [1]] St.init with
      | ok r => rw [hs] at h; cases h
      | error e => rw [hs] at h; simp only [outs, Except.error.injEq] at h; rw [h]
    rcases SetImpl.session_ext (StringSet_mono deeperHash) hf 0#64 [.add [1], .add [2], .del [2], .has [1]] St.init with g | g
    · rw [hx] at g; cases g
    · rw [g, hx]

end Amt
