/-
The findings in the translated code: each history that shows one in the model shows it in the translation of the Go file, by C69.
Also the integer containers on every history (C60, C61), in the translation.
-/
import Verif.PropsGo
import Verif.Bugs
import Verif.PropsPhantom
import Verif.PropsPhantomMap
import Verif.PropsAny

set_option linter.unusedVariables false
set_option linter.unusedSectionVars false

namespace Amt.Go
open Amt Spec

section
variable {K V : Type} [Inhabited V]

/-- A set history that the model answers is answered in the same way by the translation, and conversely. -/
theorem C69_set_ok {G : SetCode K} {I : SetImpl K} (h : SetCodeOf G I) (sd : Seed) (ops : List (SOp K)) (s : St K Unit) (os : List (SOut K)) :
    (∃ n, answers (G.session n sd ops St.init) = .ok os) ↔ ∃ n, answers (I.session n sd ops s) = .ok os := by
  constructor
  · rintro ⟨n, hn⟩
    rcases (C69_set h n sd ops s).2 with h1 | h1
    · rw [h1] at hn; cases hn
    · exact ⟨n + 301, h1.trans hn⟩
  · rintro ⟨n, hn⟩
    rcases (C69_set h n sd ops s).1 with h1 | h1
    · rw [h1] at hn; cases hn
    · exact ⟨n, h1.trans hn⟩

/-- A set history never ends in the translation exactly if it never ends in the model. -/
theorem C69_set_loops {G : SetCode K} {I : SetImpl K} (h : SetCodeOf G I) (sd : Seed) (ops : List (SOp K)) (s : St K Unit) :
    (∀ n, answers (G.session n sd ops St.init) = .error .diverge) ↔ ∀ n, answers (I.session n sd ops s) = .error .diverge := by
  constructor
  · intro hd n
    rcases (C69_set h n sd ops s).1 with h1 | h1
    · exact h1
    · exact h1.symm.trans (hd n)
  · intro hd n
    rcases (C69_set h n sd ops s).2 with h1 | h1
    · exact h1
    · exact h1.symm.trans (hd _)

/-- A fault of the model is a fault of the translation. -/
theorem MapCodeOf.faults {G : MapCode K V} {I : MapImpl K V} (h : MapCodeOf G I) {n : Nat} {sd : Seed} {ops : List (MOp K V)} {s : St K V} {e : Fault}
    (hne : e ≠ .diverge) (hm : I.session n sd ops s = .error e) : answers (G.session n sd ops St.init) = .error e := by
  rcases (C69_map h n sd ops s).1 with h1 | h1
  · rw [hm] at h1; exact absurd (Except.error.inj h1) hne
  · exact h1.trans (by rw [hm]; rfl)

/-! ### The findings -/

/-- arr_map.go forgets the value of a new key that collides. -/
theorem C03_code_refuted :
    ∃ (sum : Maphash) (sd : Seed) (kb : UInt8 → List UInt8) (ops : List (MOp UInt8 Nat)), Separated (byteStream sum sd kb) (Stores ops) ∧
      ∀ n, 256 ≤ n → ∃ os, answers ((arrMap sum kb).session n sd ops St.init) = .ok os ∧ ∀ m', ¬ MRun [] ops os m' := by
  obtain ⟨sum, sd, kb, ops, hs, h⟩ := C03_ArrMap_refuted
  refine ⟨sum, sd, kb, ops, hs, fun n hn => ?_⟩
  obtain ⟨os, m, s', e, h1⟩ := h n hn
  exact ⟨os, (MapCodeOf.arr sum kb).transfer (answers_ok e), h1⟩

/-- int_map.go loses keys outside `[0, 2^32)`. -/
theorem C04_code_refuted :
    ∃ (sum : Maphash) (sd : Seed) (ops : List (MOp IntKey Nat)), Separated (byteStream sum sd intbytes) (Stores ops) ∧
      ∀ n, 256 ≤ n → ∃ os, answers ((intMap sum).session n sd ops St.init) = .ok os ∧ ∀ m', ¬ MRun [] ops os m' := by
  obtain ⟨sum, sd, ops, hs, h⟩ := C04_IntMap_refuted
  refine ⟨sum, sd, ops, hs, fun n hn => ?_⟩
  obtain ⟨os, m, s', e, h1⟩ := h n hn
  exact ⟨os, (MapCodeOf.int sum).transfer (answers_ok e), h1⟩

/-- int_map.go takes an array of links for a value. -/
theorem C24_code_refuted :
    ∃ (sum : Maphash) (sd : Seed) (ops : List (MOp IntKey Nat)), Separated (byteStream sum sd intbytes) (Stores ops) ∧
      ∀ n, 256 ≤ n → answers ((intMap sum).session n sd ops St.init) = .error .wrongType := by
  obtain ⟨sum, sd, ops, hs, h⟩ := C24_IntMap_refuted
  exact ⟨sum, sd, ops, hs, fun n hn => (MapCodeOf.int sum).faults (by decide) (h n hn)⟩

/-- generic_map.go: `Set` loses a key. -/
theorem C05_code_refuted_set :
    ∃ (I : KeyImpl Nat) (sd : Seed) (ops : List (MOp Nat Nat)), (∀ a b, I.equal a b = true ↔ a = b) ∧
      Separated (fun k n => I.hash k sd n) (Stores ops) ∧ (∀ k f, .mod k f ∉ ops) ∧
      ∀ n, 256 ≤ n → ∃ os, answers ((map I).session n sd ops St.init) = .ok os ∧ ∀ m', ¬ MRun [] ops os m' := by
  obtain ⟨I, sd, ops, he, hs, hm, h⟩ := C05_Map_refuted_set
  refine ⟨I, sd, ops, he, hs, hm, fun n hn => ?_⟩
  obtain ⟨os, m, s', e, h1⟩ := h n hn
  exact ⟨os, (MapCodeOf.generic I).transfer (answers_ok e), h1⟩

/-- generic_map.go: `Mod` loses a key, even if the hash does not depend on the level. -/
theorem C05_code_refuted_mod :
    ∃ (I : KeyImpl Nat) (sd : Seed) (ops : List (MOp Nat Nat)), (∀ a b, I.equal a b = true ↔ a = b) ∧
      (∀ k i, I.hash k sd i = I.hash k sd 0) ∧ Separated (fun k n => I.hash k sd n) (Stores ops) ∧
      ∀ n, 256 ≤ n → ∃ os, answers ((map I).session n sd ops St.init) = .ok os ∧ ∀ m', ¬ MRun [] ops os m' := by
  obtain ⟨I, sd, ops, he, hc, hs, h⟩ := C05_Map_refuted_mod
  refine ⟨I, sd, ops, he, hc, hs, fun n hn => ?_⟩
  obtain ⟨os, m, s', e, h1⟩ := h n hn
  exact ⟨os, (MapCodeOf.generic I).transfer (answers_ok e), h1⟩

/-- bytes_set.go: `Del` removes other keys, and not the given one. -/
theorem C08_code_refuted :
    ∃ (sum : Maphash) (sd : Seed) (ops : List (SOp ByteStr)), Separated (byteStream sum sd id) (SStores ops) ∧
      ∀ n, 256 ≤ n → ∃ os, answers ((bytesSet sum).session n sd ops St.init) = .ok os ∧ ∀ m', ¬ SRun [] ops os m' := by
  obtain ⟨sum, sd, ops, hs, h⟩ := C08_BytesSet_refuted
  refine ⟨sum, sd, ops, hs, fun n hn => ?_⟩
  obtain ⟨os, m, s', e, h1⟩ := h n hn
  exact ⟨os, (SetCodeOf.bytes sum).transfer (answers_ok e), h1⟩

/-- int_set.go loses keys outside `[0, 2^32)`. -/
theorem C09_code_refuted :
    ∃ (sum : Maphash) (sd : Seed) (ops : List (SOp IntKey)), Separated (byteStream sum sd intbytes) (SStores ops) ∧
      ∀ n, 256 ≤ n → ∃ os, answers ((intSet sum).session n sd ops St.init) = .ok os ∧ ∀ m', ¬ SRun [] ops os m' := by
  obtain ⟨sum, sd, ops, hs, h⟩ := C09_IntSet_refuted
  refine ⟨sum, sd, ops, hs, fun n hn => ?_⟩
  obtain ⟨os, m, s', e, h1⟩ := h n hn
  exact ⟨os, (SetCodeOf.int sum).transfer (answers_ok e), h1⟩

/-- generic_set.go: `Add` loses a key. -/
theorem C10_code_refuted :
    ∃ (I : KeyImpl Nat) (sd : Seed) (ops : List (SOp Nat)), (∀ a b, I.equal a b = true ↔ a = b) ∧
      Separated (fun k n => I.hash k sd n) (SStores ops) ∧
      ∀ n, 256 ≤ n → ∃ os, answers ((set I).session n sd ops St.init) = .ok os ∧ ∀ m', ¬ SRun [] ops os m' := by
  obtain ⟨I, sd, ops, he, hs, h⟩ := C10_Set_refuted
  refine ⟨I, sd, ops, he, hs, fun n hn => ?_⟩
  obtain ⟨os, m, s', e, h1⟩ := h n hn
  exact ⟨os, (SetCodeOf.generic I).transfer (answers_ok e), h1⟩

/-! ### The integer containers on every history -/

/-- What the translation does, with enough repetitions of its loops, where the specification says `r`. -/
def Shows {α : Type} (x : Nat → Except Fault (List α)) : Res α → Prop
  | .returns os => ∀ n, 256 ≤ n → x n = .ok os
  | .hangs => ∀ n, 256 ≤ n → x n = .error .diverge
  | .confuses => ∀ n, 256 ≤ n → x n = .error .wrongType


theorem shows_of {K V : Type} {α : Type} {g : Nat → Except Fault (List α)} {x : Nat → Except Fault ((Handle × List α) × St K V)} {r : Res α}
    (h1 : ∀ n, answers (x n) = .error .diverge ∨ g n = answers (x n)) (h2 : ∀ n, g n = .error .diverge ∨ answers (x (n + 301)) = g n)
    (h : Becomes (fun n => (x n).map fun x => (x.1.2, x.2)) r) : Shows g r := by
  have key : ∀ n, answers (x n) = ((x n).map fun x => (x.1.2, x.2)).map Prod.fst := fun n => by cases x n <;> rfl
  cases r with
  | returns os =>
    obtain ⟨s', h⟩ := h
    intro n hn
    have e : answers (x n) = .ok os := by rw [key, show (x n).map (fun x => (x.1.2, x.2)) = _ from h n hn]; rfl
    rcases h1 n with h3 | h3
    · rw [e] at h3; cases h3
    · exact h3.trans e
  | hangs =>
    intro n hn
    have e : answers (x (n + 301)) = .error .diverge := by
      rw [key, show (x (n + 301)).map (fun x => (x.1.2, x.2)) = _ from h (n + 301) (by omega)]; rfl
    rcases h2 n with h3 | h3
    · exact h3
    · exact h3.symm.trans e
  | confuses =>
    intro n hn
    have e : answers (x n) = .error .wrongType := by rw [key, show (x n).map (fun x => (x.1.2, x.2)) = _ from h n hn]; rfl
    rcases h1 n with h3 | h3
    · rw [e] at h3; cases h3
    · exact h3.trans e

/-- C60 of the translation of int_set.go: any keys whose last nibble streams differ. -/
theorem C60_code (sum : Maphash) (sd : Seed) {ops : List (SOp IntKey)}
    (hS : LastApart (byteStream sum sd intbytes) (fun k => SStores ops k ∨ Phantom k)) :
    ∃ r, SPRun (byteStream sum sd intbytes) ([], 0) ops r ∧ Shows (fun n => answers ((intSet sum).session n sd ops St.init)) r := by
  obtain ⟨r, h1, h2⟩ := C60_IntSet sum sd hS St.init
  exact ⟨r, h1, shows_of (fun n => (C69_set (SetCodeOf.int sum) n sd ops St.init).1) (fun n => (C69_set (SetCodeOf.int sum) n sd ops St.init).2) h2⟩

example := C60_code toyHash 0#64 (ops := [.add (-1#64), .add 255#64, .len, .all fun _ _ => true])
  (fun a b _ _ hab => by rw [toyHash_int, toyHash_int]; exact hab)

/-- C61 of the translation of int_map.go. -/
theorem C61_code (sum : Maphash) (sd : Seed) {ops : List (MOp IntKey V)}
    (hS : LastApart (byteStream sum sd intbytes) (fun k => Stores ops k ∨ Phantom k)) :
    ∃ r, MPRun (byteStream sum sd intbytes) ([], 0) ops r ∧ Shows (fun n => answers ((intMap (V := V) sum).session n sd ops St.init)) r := by
  obtain ⟨r, h1, h2⟩ := C61_IntMap sum sd hS St.init
  exact ⟨r, h1, shows_of (fun n => (C69_map (MapCodeOf.int sum) n sd ops St.init).1) (fun n => (C69_map (MapCodeOf.int sum) n sd ops St.init).2) h2⟩

example := C61_code (V := Nat) toyHash 0#64 (ops := [.set (-1#64) 7, .set 255#64 8, .all fun _ _ v => (v, true)])
  (fun a b _ _ hab => by rw [toyHash_int, toyHash_int]; exact hab)

end

end Amt.Go
