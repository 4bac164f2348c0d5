/-
Where the code does not do what it should: concrete runs of the model, computed by the kernel.

Each theorem gives a hash function, keys that it separates, and a history of calls whose answers no
finite map (or set) gives, or which ends in a memory fault, with every sufficient loop budget.
-/
import Verif.PropsFuel
import Verif.PropsRefine

set_option linter.unusedVariables false
set_option linter.unusedSectionVars false

namespace Amt
open Spec

section
variable {K V : Type}

/-- The answers of a session, or the fault that ended it. -/
def outs {α R : Type} : Except Fault ((Handle × R) × α) → Except Fault R
  | .error e => .error e
  | .ok r => .ok r.1.2

theorem outs_ok {α R : Type} {x : Except Fault ((Handle × R) × α)} {os : R} (h : outs x = .ok os) :
    ∃ m s', x = .ok ((m, os), s') := by
  cases x with
  | error e => cases h
  | ok r =>
    obtain ⟨⟨m, os'⟩, s'⟩ := r
    simp only [outs, Except.ok.injEq] at h
    exact ⟨m, s', by rw [h]⟩

/-- Answers computed with one budget are the answers for every larger one. -/
theorem MapImpl.outs_of [Inhabited V] {I : MapImpl K V} (hI : I.Mono) {f : Nat} {sd : Seed} {ops : List (MOp K V)}
    {s : St K V} {os : List (MOut K V)} (h : outs (I.session f sd ops s) = .ok os) {fuel : Nat} (hf : f ≤ fuel) :
    ∃ m s', I.session fuel sd ops s = .ok ((m, os), s') := by
  obtain ⟨m, s', e⟩ := outs_ok h
  exact ⟨m, s', (MapImpl.session_ext hI hf sd ops).ok e⟩

theorem MapImpl.fault_of [Inhabited V] {I : MapImpl K V} (hI : I.Mono) {f : Nat} {sd : Seed} {ops : List (MOp K V)}
    {s : St K V} {e : Fault} (hne : e ≠ .diverge) (h : outs (I.session f sd ops s) = .error e) {fuel : Nat}
    (hf : f ≤ fuel) : I.session fuel sd ops s = .error e := by
  have hx : I.session f sd ops s = .error e := by
    cases hs : I.session f sd ops s with
    | ok r => rw [hs] at h; cases h
    | error e' => rw [hs] at h; simp only [outs, Except.error.injEq] at h; rw [h]
  rcases MapImpl.session_ext hI hf sd ops s with g | g
  · rw [hx] at g; exact absurd (Except.error.inj g) hne
  · rw [g, hx]

theorem SetImpl.outs_of {I : SetImpl K} (hI : I.Mono) {f : Nat} {sd : Seed} {ops : List (SOp K)}
    {s : St K Unit} {os : List (SOut K)} (h : outs (I.session f sd ops s) = .ok os) {fuel : Nat} (hf : f ≤ fuel) :
    ∃ m s', I.session fuel sd ops s = .ok ((m, os), s') := by
  obtain ⟨m, s', e⟩ := outs_ok h
  exact ⟨m, s', (SetImpl.session_ext hI hf sd ops).ok e⟩

end

/-! ### The answers of the specification, computed -/

section
variable {K V : Type} [DecidableEq K] [Inhabited V]

/-- The answers of the abstract map to calls other than `All` and `Dep`. -/
def specOuts : FMap K V → List (MOp K V) → Option (List (MOut K V))
  | _, [] => some []
  | m, .get k :: ops => (specOuts m ops).map (.pair ((m.get k).getD default) (m.get k).isSome :: ·)
  | m, .val k :: ops => (specOuts m ops).map (.one ((m.get k).getD default) :: ·)
  | m, .ptr k :: ops => (specOuts m ops).map (.opt (m.get k) :: ·)
  | m, .set k v :: ops => (specOuts (m.set k v) ops).map (.unit :: ·)
  | m, .mod k f :: ops =>
    match m.get k with
    | some v => (specOuts (m.set k (f v true)) ops).map (.calls [(v, true)] :: ·)
    | none => (specOuts (m.set k (f default false)) ops).map (.calls [(default, false)] :: ·)
  | m, .del k :: ops => (specOuts (FMap.del m k) ops).map (.unit :: ·)
  | m, .len :: ops => (specOuts m ops).map (.num (BitVec.ofNat 64 m.length) :: ·)
  | m, .write k v :: ops => (specOuts (if (m.get k).isSome then m.set k v else m) ops).map (.unit :: ·)
  | _, .dep :: _ => none
  | _, .all _ :: _ => none

theorem specOuts_unique {ops : List (MOp K V)} {m m' : FMap K V} {os os' : List (MOut K V)} (h : MRun m ops os m')
    (e : specOuts m ops = some os') : os = os' := by
  induction ops generalizing m os os' with
  | nil =>
    simp only [specOuts, Option.some.injEq] at e
    rw [h.1, e]
  | cons op ops ih =>
    obtain ⟨o, os1, m1, rfl, h1, h2⟩ := h
    cases op <;> simp only [specOuts, MStep] at e h1
    case mod k f =>
      split at e <;> rename_i hg <;> rw [hg] at h1 <;> obtain ⟨rfl, rfl⟩ := h1 <;>
        obtain ⟨x, hx, rfl⟩ := Option.map_eq_some_iff.1 e <;> rw [ih h2 hx]
    case all => cases e
    case dep => cases e
    all_goals
      obtain ⟨rfl, rfl⟩ := h1
      obtain ⟨x, hx, rfl⟩ := Option.map_eq_some_iff.1 e
      rw [ih h2 hx]

/-- The answers of the abstract set to calls other than `All` and `Dep`. -/
def specOutsS : List K → List (SOp K) → Option (List (SOut K))
  | _, [] => some []
  | m, .has k :: ops => (specOutsS m ops).map (.bool (decide (k ∈ m)) :: ·)
  | m, .add k :: ops => (specOutsS (if k ∈ m then m else k :: m) ops).map (.unit :: ·)
  | m, .del k :: ops => (specOutsS (m.filter (fun x => decide (x ≠ k))) ops).map (.unit :: ·)
  | m, .len :: ops => (specOutsS m ops).map (.num (BitVec.ofNat 64 m.length) :: ·)
  | _, .dep :: _ => none
  | _, .all _ :: _ => none

theorem specOutsS_unique {ops : List (SOp K)} {m m' : List K} {os os' : List (SOut K)} (h : SRun m ops os m')
    (e : specOutsS m ops = some os') : os = os' := by
  induction ops generalizing m os os' with
  | nil =>
    simp only [specOutsS, Option.some.injEq] at e
    rw [h.1, e]
  | cons op ops ih =>
    obtain ⟨o, os1, m1, rfl, h1, h2⟩ := h
    cases op <;> simp only [specOutsS, SStep] at e h1
    case all => cases e
    case dep => cases e
    all_goals
      obtain ⟨rfl, rfl⟩ := h1
      obtain ⟨x, hx, rfl⟩ := Option.map_eq_some_iff.1 e
      rw [ih h2 hx]

end

/-! ### Counterexamples -/

/-- C03 is false: after `Set(0x01, 7)` and `Set(0x11, 8)`, `Get(0x11)` returns `(0, true)`. -/
theorem C03_ArrMap_refuted :
    ∃ (sum : Maphash) (sd : Seed) (kb : UInt8 → List UInt8) (ops : List (MOp UInt8 Nat)),
      Separated (byteStream sum sd kb) (Stores ops) ∧
      ∀ fuel, 256 ≤ fuel → ∃ os m s', (ArrMap sum kb).session fuel sd ops St.init = .ok ((m, os), s') ∧
        ∀ m', ¬ MRun [] ops os m' := by
  refine ⟨toyHash, 0#64, fun b => [b], [.set 0x01 7, .set 0x11 8, .get 0x11], ?_, fun fuel hf => ?_⟩
  · intro a b ha hb hab
    simp [Stores, MOp.stores] at ha hb
    rcases ha with rfl | rfl <;> rcases hb with rfl | rfl <;>
      first | exact absurd rfl hab | exact ⟨1, by decide, by decide⟩
  · obtain ⟨m, s', e⟩ := MapImpl.outs_of (V := Nat) (ArrMap_mono toyHash fun b => [b]) (f := 256) (sd := 0#64)
      (ops := [.set 0x01 7, .set 0x11 8, .get 0x11]) (s := St.init) (os := [.unit, .unit, .pair 0 true])
      (by decide +kernel) hf
    exact ⟨_, m, s', e, fun m' h => absurd (specOuts_unique h rfl) (by decide)⟩

/-- C04 is false: the keys -1 and 255 share two nibbles; after `Set(-1, 7)` and `Set(255, 8)`, both are
missing. -/
theorem C04_IntMap_refuted :
    ∃ (sum : Maphash) (sd : Seed) (ops : List (MOp IntKey Nat)),
      Separated (byteStream sum sd intbytes) (Stores ops) ∧
      ∀ fuel, 256 ≤ fuel → ∃ os m s', (IntMap sum).session fuel sd ops St.init = .ok ((m, os), s') ∧
        ∀ m', ¬ MRun [] ops os m' := by
  refine ⟨toyHash, 0#64, [.set (-1#64) 7, .set 255#64 8, .get (-1#64), .get 255#64], ?_, fun fuel hf => ?_⟩
  · intro a b ha hb hab
    simp [Stores, MOp.stores] at ha hb
    rcases ha with rfl | rfl <;> rcases hb with rfl | rfl <;>
      first | exact absurd rfl hab | exact ⟨2, by decide, by decide +kernel⟩
  · obtain ⟨m, s', e⟩ := MapImpl.outs_of (V := Nat) (IntMap_mono toyHash) (f := 256) (sd := 0#64)
      (ops := [.set (-1#64) 7, .set 255#64 8, .get (-1#64), .get 255#64]) (s := St.init)
      (os := [.unit, .unit, .pair 0 false, .pair 0 false]) (by decide +kernel) hf
    exact ⟨_, m, s', e, fun m' h => absurd (specOuts_unique h rfl) (by decide)⟩

/-- C24 is false for `IntMap`: after the same two calls, `All` hands its callback a pointer to a link array as
a pointer to a value. -/
theorem C24_IntMap_refuted :
    ∃ (sum : Maphash) (sd : Seed) (ops : List (MOp IntKey Nat)),
      Separated (byteStream sum sd intbytes) (Stores ops) ∧
      ∀ fuel, 256 ≤ fuel → (IntMap sum).session fuel sd ops St.init = .error .wrongType := by
  refine ⟨toyHash, 0#64, [.set (-1#64) 7, .set 255#64 8, .all fun _ _ v => (v, true)], ?_, fun fuel hf => ?_⟩
  · intro a b ha hb hab
    simp [Stores, MOp.stores] at ha hb
    rcases ha with rfl | rfl <;> rcases hb with rfl | rfl <;>
      first | exact absurd rfl hab | exact ⟨2, by decide, by decide +kernel⟩
  · exact MapImpl.fault_of (V := Nat) (IntMap_mono toyHash) (f := 256) (by decide) (by decide +kernel) hf

/-- C05 is false for `Set`: the keys are separated by their first three nibbles, but after `Set` of 0x211,
0x001 and 0x311 the first is missing. -/
theorem C05_Map_refuted_set :
    ∃ (I : KeyImpl Nat) (sd : Seed) (ops : List (MOp Nat Nat)), (∀ a b, I.equal a b = true ↔ a = b) ∧
      Separated (fun k n => I.hash k sd n) (Stores ops) ∧ (∀ k f, .mod k f ∉ ops) ∧
      ∀ fuel, 256 ≤ fuel → ∃ os m s', (GenericMap I).session fuel sd ops St.init = .ok ((m, os), s') ∧
        ∀ m', ¬ MRun [] ops os m' := by
  refine ⟨onceKey, 0#64, [.set 0x211 1, .set 0x001 2, .set 0x311 3, .get 0x211], by simp [onceKey], ?_, by simp,
    fun fuel hf => ?_⟩
  · intro a b ha hb hab
    simp [Stores, MOp.stores] at ha hb
    rcases ha with rfl | rfl | rfl <;> rcases hb with rfl | rfl | rfl <;>
      first | exact absurd rfl hab | exact ⟨1, by decide, by decide⟩ | exact ⟨2, by decide, by decide⟩
  · obtain ⟨m, s', e⟩ := MapImpl.outs_of (V := Nat) (GenericMap_mono onceKey) (f := 256) (sd := 0#64)
      (ops := [.set 0x211 1, .set 0x001 2, .set 0x311 3, .get 0x211]) (s := St.init)
      (os := [.unit, .unit, .unit, .pair 0 false]) (by decide +kernel) hf
    exact ⟨_, m, s', e, fun m' h => absurd (specOuts_unique h rfl) (by decide)⟩

/-- C05 is false for `Mod`, even when the hash does not depend on `iter`: after `Set(0x01, 1)` and
`Mod(0x11, ...)`, the key 0x01 is missing. -/
theorem C05_Map_refuted_mod :
    ∃ (I : KeyImpl Nat) (sd : Seed) (ops : List (MOp Nat Nat)), (∀ a b, I.equal a b = true ↔ a = b) ∧
      (∀ k i, I.hash k sd i = I.hash k sd 0) ∧ Separated (fun k n => I.hash k sd n) (Stores ops) ∧
      ∀ fuel, 256 ≤ fuel → ∃ os m s', (GenericMap I).session fuel sd ops St.init = .ok ((m, os), s') ∧
        ∀ m', ¬ MRun [] ops os m' := by
  refine ⟨constKey, 0#64, [.set 0x01 1, .mod 0x11 (fun _ _ => 2), .get 0x01], by simp [constKey], fun _ _ => rfl, ?_,
    fun fuel hf => ?_⟩
  · intro a b ha hb hab
    simp [Stores, MOp.stores] at ha hb
    rcases ha with rfl | rfl <;> rcases hb with rfl | rfl <;>
      first | exact absurd rfl hab | exact ⟨1, by decide, by decide⟩
  · obtain ⟨m, s', e⟩ := MapImpl.outs_of (V := Nat) (GenericMap_mono constKey) (f := 256) (sd := 0#64)
      (ops := [.set 0x01 1, .mod 0x11 (fun _ _ => 2), .get 0x01]) (s := St.init)
      (os := [.unit, .calls [(0, false)], .pair 0 false]) (by decide +kernel) hf
    exact ⟨_, m, s', e, fun m' h => absurd (specOuts_unique h rfl) (by decide)⟩

/-- C08 is false: after `Add(k)` and `Del(k)`, `Has(k)` is true. -/
theorem C08_BytesSet_refuted :
    ∃ (sum : Maphash) (sd : Seed) (ops : List (SOp ByteStr)), Separated (byteStream sum sd id) (SStores ops) ∧
      ∀ fuel, 256 ≤ fuel → ∃ os m s', (BytesSet sum).session fuel sd ops St.init = .ok ((m, os), s') ∧
        ∀ m', ¬ SRun [] ops os m' := by
  refine ⟨toyHash, 0#64, [.add [1], .del [1], .has [1]], ?_, fun fuel hf => ?_⟩
  · intro a b ha hb hab
    simp [SStores, SOp.stores] at ha hb
    subst ha; subst hb; exact absurd rfl hab
  · obtain ⟨m, s', e⟩ := SetImpl.outs_of (BytesSet_mono toyHash) (f := 256) (sd := 0#64)
      (ops := [.add [1], .del [1], .has [1]]) (s := St.init) (os := [.unit, .unit, .bool true]) (by decide +kernel) hf
    exact ⟨_, m, s', e, fun m' h => absurd (specOutsS_unique h rfl) (by decide)⟩

/-- C08 is false also for histories that never delete a stored key: `Del(0x11)` removes the key 0x01. -/
theorem C08_BytesSet_refuted_other :
    ∃ (sum : Maphash) (sd : Seed) (ops : List (SOp ByteStr)), Separated (byteStream sum sd id) (SStores ops) ∧
      (∀ k, SStores ops k → .del k ∉ ops) ∧
      ∀ fuel, 256 ≤ fuel → ∃ os m s', (BytesSet sum).session fuel sd ops St.init = .ok ((m, os), s') ∧
        ∀ m', ¬ SRun [] ops os m' := by
  refine ⟨toyHash, 0#64, [.add [1], .del [0x11], .has [1]], ?_, ?_, fun fuel hf => ?_⟩
  · intro a b ha hb hab
    simp [SStores, SOp.stores] at ha hb
    subst ha; subst hb; exact absurd rfl hab
  · intro k hk
    simp [SStores, SOp.stores] at hk
    subst hk; simp
  · obtain ⟨m, s', e⟩ := SetImpl.outs_of (BytesSet_mono toyHash) (f := 256) (sd := 0#64)
      (ops := [.add [1], .del [0x11], .has [1]]) (s := St.init) (os := [.unit, .unit, .bool false]) (by decide +kernel) hf
    exact ⟨_, m, s', e, fun m' h => absurd (specOutsS_unique h rfl) (by decide)⟩

/-- C09 is false: after `Add(-1)` and `Add(255)`, both are missing. -/
theorem C09_IntSet_refuted :
    ∃ (sum : Maphash) (sd : Seed) (ops : List (SOp IntKey)), Separated (byteStream sum sd intbytes) (SStores ops) ∧
      ∀ fuel, 256 ≤ fuel → ∃ os m s', (IntSet sum).session fuel sd ops St.init = .ok ((m, os), s') ∧
        ∀ m', ¬ SRun [] ops os m' := by
  refine ⟨toyHash, 0#64, [.add (-1#64), .add 255#64, .has (-1#64), .has 255#64], ?_, fun fuel hf => ?_⟩
  · intro a b ha hb hab
    simp [SStores, SOp.stores] at ha hb
    rcases ha with rfl | rfl <;> rcases hb with rfl | rfl <;>
      first | exact absurd rfl hab | exact ⟨2, by decide, by decide +kernel⟩
  · obtain ⟨m, s', e⟩ := SetImpl.outs_of (IntSet_mono toyHash) (f := 256) (sd := 0#64)
      (ops := [.add (-1#64), .add 255#64, .has (-1#64), .has 255#64]) (s := St.init)
      (os := [.unit, .unit, .bool false, .bool false]) (by decide +kernel) hf
    exact ⟨_, m, s', e, fun m' h => absurd (specOutsS_unique h rfl) (by decide)⟩

/-- C10 is false: as `C05_Map_refuted_set`. -/
theorem C10_Set_refuted :
    ∃ (I : KeyImpl Nat) (sd : Seed) (ops : List (SOp Nat)), (∀ a b, I.equal a b = true ↔ a = b) ∧
      Separated (fun k n => I.hash k sd n) (SStores ops) ∧
      ∀ fuel, 256 ≤ fuel → ∃ os m s', (GenericSet I).session fuel sd ops St.init = .ok ((m, os), s') ∧
        ∀ m', ¬ SRun [] ops os m' := by
  refine ⟨onceKey, 0#64, [.add 0x211, .add 0x001, .add 0x311, .has 0x211], by simp [onceKey], ?_, fun fuel hf => ?_⟩
  · intro a b ha hb hab
    simp [SStores, SOp.stores] at ha hb
    rcases ha with rfl | rfl | rfl <;> rcases hb with rfl | rfl | rfl <;>
      first | exact absurd rfl hab | exact ⟨1, by decide, by decide⟩ | exact ⟨2, by decide, by decide⟩
  · obtain ⟨m, s', e⟩ := SetImpl.outs_of (GenericSet_mono onceKey) (f := 256) (sd := 0#64)
      (ops := [.add 0x211, .add 0x001, .add 0x311, .has 0x211]) (s := St.init)
      (os := [.unit, .unit, .unit, .bool false]) (by decide +kernel) hf
    exact ⟨_, m, s', e, fun m' h => absurd (specOutsS_unique h rfl) (by decide)⟩

end Amt
