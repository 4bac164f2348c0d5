/-
More places where a property of `Verif/PropsMap.lean`, `Verif/PropsSet.lean` or `Verif/PropsHang.lean` fails for a
container or for keys that those theorems leave out: concrete runs, computed by the kernel.
-/
import Verif.Bugs
import Verif.PropsHang

set_option linter.unusedVariables false
set_option linter.unusedSectionVars false

namespace Amt
open Spec

/-- The answers to `ops'` after the calls `ops`, or the fault that ended the run. -/
def MapImpl.afterOuts {K V : Type} [DecidableEq K] [Inhabited V] (I : MapImpl K V) (fuel : Nat) (sd : Seed) (s : St K V)
    (ops ops' : List (MOp K V)) : Except Fault (List (MOut K V)) :=
  match I.session fuel sd ops s with
  | .error e => .error e
  | .ok r => match I.run fuel r.1.1 ops' r.2 with
    | .error e => .error e
    | .ok r' => .ok r'.1

/-- Answers computed with one budget are the answers for every larger one. -/
theorem MapImpl.after_of {K V : Type} [DecidableEq K] [Inhabited V] {I : MapImpl K V} (hI : I.Mono) {f : Nat} {sd : Seed}
    {ops ops' : List (MOp K V)} {s : St K V} {os : List (MOut K V)} (h : I.afterOuts f sd s ops ops' = .ok os) {fuel : Nat}
    (hf : f ≤ fuel) : I.After fuel sd s ops ops' os := by
  unfold MapImpl.afterOuts at h
  cases h1 : I.session f sd ops s with
  | error e => rw [h1] at h; cases h
  | ok r =>
    rw [h1] at h
    simp only at h
    cases h2 : I.run f r.1.1 ops' r.2 with
    | error e => rw [h2] at h; cases h
    | ok r' =>
      rw [h2] at h
      simp only [Except.ok.injEq] at h
      subst h
      exact ⟨_, _, _, _, (MapImpl.session_ext hI hf sd ops).ok h1, (MapImpl.run_ext hI hf _ ops').ok h2⟩

/-- As `MapImpl.afterOuts`, for sets. -/
def SetImpl.afterOuts {K : Type} [DecidableEq K] (I : SetImpl K) (fuel : Nat) (sd : Seed) (s : St K Unit)
    (ops ops' : List (SOp K)) : Except Fault (List (SOut K)) :=
  match I.session fuel sd ops s with
  | .error e => .error e
  | .ok r => match I.run fuel r.1.1 ops' r.2 with
    | .error e => .error e
    | .ok r' => .ok r'.1

theorem SetImpl.after_of {K : Type} [DecidableEq K] {I : SetImpl K} (hI : I.Mono) {f : Nat} {sd : Seed}
    {ops ops' : List (SOp K)} {s : St K Unit} {os : List (SOut K)} (h : I.afterOuts f sd s ops ops' = .ok os) {fuel : Nat}
    (hf : f ≤ fuel) : I.After fuel sd s ops ops' os := by
  unfold SetImpl.afterOuts at h
  cases h1 : I.session f sd ops s with
  | error e => rw [h1] at h; cases h
  | ok r =>
    rw [h1] at h
    simp only at h
    cases h2 : I.run f r.1.1 ops' r.2 with
    | error e => rw [h2] at h; cases h
    | ok r' =>
      rw [h2] at h
      simp only [Except.ok.injEq] at h
      subst h
      exact ⟨_, _, _, _, (SetImpl.session_ext hI hf sd ops).ok h1, (SetImpl.run_ext hI hf _ ops').ok h2⟩

/-! ### Reading back, locality -/

/-- C11 is false for `ArrMap`: `Set(0x11, 8)` next to 0x01, then `Get(0x11)` returns `(0, true)`. -/
theorem C11_ArrMap_refuted : ∃ (sum : Maphash) (sd : Seed) (kb : UInt8 → List UInt8) (ops : List (MOp UInt8 Nat)) (k : UInt8),
    Separated (byteStream sum sd kb) (Stores (ops ++ [.set k 8])) ∧
    ∀ fuel, 256 ≤ fuel → (ArrMap sum kb).After fuel sd St.init ops [.set k 8, .get k] [.unit, .pair 0 true] := by
  refine ⟨toyHash, 0#64, fun b => [b], [.set 0x01 7], 0x11, ?_, fun fuel hf =>
    MapImpl.after_of (ArrMap_mono toyHash fun b : UInt8 => [b]) (f := 256) (by decide +kernel) hf⟩
  intro a b ha hb hab
  simp [Stores, MOp.stores] at ha hb
  rcases ha with rfl | rfl <;> rcases hb with rfl | rfl <;> first | exact absurd rfl hab | exact ⟨1, by decide, by decide⟩

/-- C11 and C12 are false for `IntMap` with keys outside `[0, 2^32)`: `Set(255, 8)` next to -1 loses both keys. -/
theorem C12_IntMap_refuted : ∃ (sum : Maphash) (sd : Seed) (ops : List (MOp IntKey Nat)) (k k' : IntKey),
    Separated (byteStream sum sd intbytes) (Stores (ops ++ [.set k 8])) ∧ k' ≠ k ∧
    ∀ fuel, 256 ≤ fuel → (IntMap sum).After fuel sd St.init ops [.get k', .set k 8, .get k', .get k]
      [.pair 7 true, .unit, .pair 0 false, .pair 0 false] := by
  refine ⟨toyHash, 0#64, [.set (-1#64) 7], 255#64, -1#64, ?_, by decide, fun fuel hf =>
    MapImpl.after_of (IntMap_mono toyHash) (f := 256) (by decide +kernel) hf⟩
  intro a b ha hb hab
  simp [Stores, MOp.stores] at ha hb
  rcases ha with rfl | rfl <;> rcases hb with rfl | rfl <;>
    first | exact absurd rfl hab | exact ⟨2, by decide, by decide +kernel⟩

/-- C12 is false for the generic map, even without `Mod`. -/
theorem C12_Map_refuted : ∃ (J : KeyImpl Nat) (sd : Seed) (ops : List (MOp Nat Nat)) (k k' : Nat),
    (∀ a b, J.equal a b = true ↔ a = b) ∧ Separated (fun k n => J.hash k sd n) (Stores (ops ++ [.set k 3])) ∧ k' ≠ k ∧
    ∀ fuel, 256 ≤ fuel → (GenericMap J).After fuel sd St.init ops [.get k', .set k 3, .get k'] [.pair 1 true, .unit, .pair 0 false] := by
  refine ⟨onceKey, 0#64, [.set 0x211 1, .set 0x001 2], 0x311, 0x211, by simp [onceKey], ?_, by decide, fun fuel hf =>
    MapImpl.after_of (GenericMap_mono onceKey) (f := 256) (by decide +kernel) hf⟩
  intro a b ha hb hab
  simp [Stores, MOp.stores] at ha hb
  rcases ha with rfl | rfl | rfl <;> rcases hb with rfl | rfl | rfl <;>
    first | exact absurd rfl hab | exact ⟨1, by decide, by decide⟩ | exact ⟨2, by decide, by decide⟩

/-- C12 is false for `Del` of `BytesSet`: `Del(0x11)` removes 0x01. -/
theorem C12_BytesSet_refuted : ∃ (sum : Maphash) (sd : Seed) (ops : List (SOp ByteStr)) (k k' : ByteStr),
    Separated (byteStream sum sd id) (SStores ops) ∧ k' ≠ k ∧
    ∀ fuel, 256 ≤ fuel → (BytesSet sum).After fuel sd St.init ops [.has k', .del k, .has k'] [.bool true, .unit, .bool false] := by
  refine ⟨toyHash, 0#64, [.add [1]], [0x11], [1], ?_, by decide, fun fuel hf =>
    SetImpl.after_of (BytesSet_mono toyHash) (f := 256) (by decide +kernel) hf⟩
  intro a b ha hb hab
  simp [SStores, SOp.stores] at ha hb
  subst ha; subst hb; exact absurd rfl hab

/-- C13 is false for `BytesSet`: `Del(k)` leaves `k` in the set. -/
theorem C13_BytesSet_refuted : ∃ (sum : Maphash) (sd : Seed) (ops : List (SOp ByteStr)) (k : ByteStr),
    Separated (byteStream sum sd id) (SStores ops) ∧
    ∀ fuel, 256 ≤ fuel → (BytesSet sum).After fuel sd St.init ops [.del k, .has k, .len] [.unit, .bool true, .num 1#64] := by
  refine ⟨toyHash, 0#64, [.add [1]], [1], ?_, fun fuel hf =>
    SetImpl.after_of (BytesSet_mono toyHash) (f := 256) (by decide +kernel) hf⟩
  intro a b ha hb hab
  simp [SStores, SOp.stores] at ha hb
  subst ha; subst hb; exact absurd rfl hab

/-! ### Length, iteration, depth -/

/-- C14 and C16 are false for `IntSet` with keys outside `[0, 2^32)`: after adding -1 and 255, `Len` is 2, neither key
is in the set, and `All` visits a single key, which was never added. -/
theorem C16_IntSet_refuted : ∃ (sum : Maphash) (sd : Seed) (ops : List (SOp IntKey)) (a b c : IntKey),
    Separated (byteStream sum sd intbytes) (SStores ops) ∧ ops = [.add a, .add b] ∧ c ≠ a ∧ c ≠ b ∧
    ∀ fuel, 256 ≤ fuel → (IntSet sum).After fuel sd St.init ops [.len, .has a, .has b, .all fun _ _ => true]
      [.num 2#64, .bool false, .bool false, .log [c]] := by
  refine ⟨toyHash, 0#64, [.add (-1#64), .add 255#64], -1#64, 255#64, 0x0000800100008001#64, ?_, rfl, by decide, by decide,
    fun fuel hf => SetImpl.after_of (IntSet_mono toyHash) (f := 256) (by decide +kernel) hf⟩
  intro a b ha hb hab
  simp [SStores, SOp.stores] at ha hb
  rcases ha with rfl | rfl <;> rcases hb with rfl | rfl <;>
    first | exact absurd rfl hab | exact ⟨2, by decide, by decide +kernel⟩

/-- C14 is false for the generic map: `Len` is 3, but only two keys are found and the third is missing. -/
theorem C14_Map_refuted : ∃ (J : KeyImpl Nat) (sd : Seed) (ops : List (MOp Nat Nat)),
    (∀ a b, J.equal a b = true ↔ a = b) ∧ Separated (fun k n => J.hash k sd n) (Stores ops) ∧
    keysAfter [] ops = [0x311, 0x001, 0x211] ∧
    ∀ fuel, 256 ≤ fuel → (GenericMap J).After fuel sd St.init ops [.len, .get 0x311, .get 0x001, .get 0x211]
      [.num 3#64, .pair 3 true, .pair 2 true, .pair 0 false] := by
  refine ⟨onceKey, 0#64, [.set 0x211 1, .set 0x001 2, .set 0x311 3], by simp [onceKey], ?_, by decide, fun fuel hf =>
    MapImpl.after_of (GenericMap_mono onceKey) (f := 256) (by decide +kernel) hf⟩
  intro a b ha hb hab
  simp [Stores, MOp.stores] at ha hb
  rcases ha with rfl | rfl | rfl <;> rcases hb with rfl | rfl | rfl <;>
    first | exact absurd rfl hab | exact ⟨1, by decide, by decide⟩ | exact ⟨2, by decide, by decide⟩

/-- C15 and C19 are false for `IntMap`, even for covered histories, if keys are outside `[0, 2^32)`: the same single
key has mean depth 0 when it is set alone, and 1 when another key was set and deleted in between. -/
theorem C19_IntMap_refuted : ∃ (sum : Maphash) (sd : Seed) (ops₁ ops₂ : List (MOp IntKey Nat)),
    EachNew (fun _ => IntSafe (byteStream sum sd intbytes)) [] ops₁ ∧
    EachNew (fun _ => IntSafe (byteStream sum sd intbytes)) [] ops₂ ∧ keysAfter [] ops₁ = keysAfter [] ops₂ ∧
    ∀ fuel, 256 ≤ fuel → (IntMap sum).After fuel sd St.init ops₁ [.len, .dep] [.num 1#64, .rat 0] ∧
      (IntMap sum).After fuel sd St.init ops₂ [.len, .dep] [.num 1#64, .rat 1] := by
  refine ⟨toyHash, 0#64, [.set 0x1000000111#64 1], [.set 0x1000000111#64 1, .set 0x1000000211#64 2, .del 0x1000000211#64],
    by decide +kernel, by decide +kernel, by decide +kernel, fun fuel hf =>
    ⟨MapImpl.after_of (IntMap_mono toyHash) (f := 256) (by decide +kernel) hf,
      MapImpl.after_of (IntMap_mono toyHash) (f := 256) (by decide +kernel) hf⟩⟩

/-- The same for `IntSet`. -/
theorem C19_IntSet_refuted : ∃ (sum : Maphash) (sd : Seed) (ops₁ ops₂ : List (SOp IntKey)),
    SEachNew (byteStream sum sd intbytes) false (IntSafe (byteStream sum sd intbytes)) [] ops₁ ∧
    SEachNew (byteStream sum sd intbytes) false (IntSafe (byteStream sum sd intbytes)) [] ops₂ ∧
    elemsAfter [] ops₁ = elemsAfter [] ops₂ ∧
    ∀ fuel, 256 ≤ fuel → (IntSet sum).After fuel sd St.init ops₁ [.len, .dep] [.num 1#64, .rat 0] ∧
      (IntSet sum).After fuel sd St.init ops₂ [.len, .dep] [.num 1#64, .rat 1] := by
  refine ⟨toyHash, 0#64, [.add 0x1000000111#64], [.add 0x1000000111#64, .add 0x1000000211#64, .del 0x1000000211#64],
    SEachNew'.toX _ (by decide +kernel), SEachNew'.toX _ (by decide +kernel), by decide +kernel, fun fuel hf =>
    ⟨SetImpl.after_of (IntSet_mono toyHash) (f := 256) (by decide +kernel) hf,
      SetImpl.after_of (IntSet_mono toyHash) (f := 256) (by decide +kernel) hf⟩⟩

/-! ### Memory safety -/

/-- A hash of one-byte keys that is zero until the seventeenth digest. -/
def deepHash : Maphash := fun _ bs => if bs.length < 17 then 0#64 else BitVec.ofNat 64 (bs.headD 0).toNat

/-- C24 is false for `StringMap` if keys agree on 256 nibbles and differ later: the depth counter has wrapped to 0
when they are told apart, their branch is taken for the root, whose array need not grow, and the fifth key is
written behind the end of an array of four links. -/
theorem C24_deep_refuted : ∃ (sum : Maphash) (sd : Seed) (ops : List (MOp ByteStr Nat)), ops.length = 5 ∧
    (∀ a b, Stores ops a → Stores ops b → a ≠ b → ∃ j, nibble (byteStream sum sd id) a j ≠ nibble (byteStream sum sd id) b j) ∧
    ∀ fuel, 600 ≤ fuel → (StringMap sum).session fuel sd ops St.init = .error .outOfBounds := by
  refine ⟨deepHash, 0#64, [.set [1] 1, .set [2] 2, .set [3] 3, .set [4] 4, .set [5] 5], rfl, ?_, fun fuel hf =>
    MapImpl.fault_of (V := Nat) (StringMap_mono deepHash) (f := 600) (by decide) (by decide +kernel) hf⟩
  have h : ∀ a, Stores (V := Nat) [.set [1] 1, .set [2] 2, .set [3] 3, .set [4] 4, .set [5] 5] a →
      a ∈ ([[1], [2], [3], [4], [5]] : List ByteStr) := by
    rintro a ⟨op, h1, h2⟩
    simp only [List.mem_cons, List.not_mem_nil, or_false] at h1
    rcases h1 with rfl | rfl | rfl | rfl | rfl <;> simp [MOp.stores] at h2 <;> simp [h2]
  have h2 : ∀ a ∈ ([[1], [2], [3], [4], [5]] : List ByteStr), ∀ b ∈ ([[1], [2], [3], [4], [5]] : List ByteStr), a ≠ b →
      nibble (byteStream deepHash 0#64 id) a 256 ≠ nibble (byteStream deepHash 0#64 id) b 256 := by decide +kernel
  exact fun a b ha hb hab => ⟨256, h2 a (h a ha) b (h b hb) hab⟩

end Amt
