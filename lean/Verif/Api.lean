/-
The ten containers once more, each with the histories that the theorems cover, so that a property of "every
container" can be stated once.
-/
import Verif.PropsRefine
import Verif.PropsFuel

set_option linter.unusedVariables false
set_option linter.unusedSectionVars false

namespace Amt
open T Spec

/-- `MapContainer I sd H P lossy ex`: `I` is one of the five maps, `H` its hash stream under the seed `sd`,
`P` says which insertions are covered (the covered histories `ops` are those with `EachNew P [] ops`), `lossy v`
is what `Set(k, v)` stores for a new colliding key `k`, and `ex` says whether the depth statistics are covered.
Each container is as in its theorem C01-C05; `IntMap` on keys in `[0, 2^32)` is listed separately because its
depth statistics are right there. -/
inductive MapContainer {V : Type} [Inhabited V] : {K : Type} → [DecidableEq K] → MapImpl K V → Seed →
    (K → Nat → BitVec 64) → (Bool → List K → K → Prop) → (V → V) → Prop → Prop where
  | string (sum : Maphash) (sd : Seed) : MapContainer (StringMap sum) sd (byteStream sum sd id)
      (fun _ => ByteFits (byteStream sum sd id)) id True
  | bytes (sum : Maphash) (sd : Seed) : MapContainer (BytesMap sum) sd (byteStream sum sd id)
      (fun _ => ByteFits (byteStream sum sd id)) id True
  | arr (sum : Maphash) (sd : Seed) {K : Type} [DecidableEq K] (kb : K → List UInt8) :
      MapContainer (ArrMap sum kb) sd (byteStream sum sd kb)
        (fun _ => ByteFits (byteStream sum sd kb)) (fun _ => default) True
  | int (sum : Maphash) (sd : Seed) : MapContainer (IntMap sum) sd (byteStream sum sd intbytes)
      (fun _ => IntSafe (byteStream sum sd intbytes)) id False
  | int32 (sum : Maphash) (sd : Seed) : MapContainer (IntMap sum) sd (byteStream sum sd intbytes)
      (fun _ => IntSmall (byteStream sum sd intbytes)) id True
  | generic (sd : Seed) {K : Type} [DecidableEq K] (J : KeyImpl K) (heq : ∀ a b, J.equal a b = true ↔ a = b) :
      MapContainer (GenericMap J) sd (fun k n => J.hash k sd n) (GenFits fun k n => J.hash k sd n) id True

/-- As `MapContainer`, for the five sets; `inv` says that the test in `Del` is inverted, and the covered
histories are those with `SEachNew H inv P [] ops`. -/
inductive SetContainer : {K : Type} → [DecidableEq K] → SetImpl K → Seed →
    (K → Nat → BitVec 64) → (List K → K → Prop) → Bool → Prop → Prop where
  | string (sum : Maphash) (sd : Seed) : SetContainer (StringSet sum) sd (byteStream sum sd id)
      (ByteFits (byteStream sum sd id)) false True
  | bytes (sum : Maphash) (sd : Seed) : SetContainer (BytesSet sum) sd (byteStream sum sd id)
      (ByteFits (byteStream sum sd id)) true True
  | arr (sum : Maphash) (sd : Seed) {K : Type} [DecidableEq K] (kb : K → List UInt8) :
      SetContainer (ArrSet sum kb) sd (byteStream sum sd kb) (ByteFits (byteStream sum sd kb)) false True
  | int (sum : Maphash) (sd : Seed) : SetContainer (IntSet sum) sd (byteStream sum sd intbytes)
      (IntSafe (byteStream sum sd intbytes)) false False
  | int32 (sum : Maphash) (sd : Seed) : SetContainer (IntSet sum) sd (byteStream sum sd intbytes)
      (IntSmall (byteStream sum sd intbytes)) false True
  | generic (sd : Seed) {K : Type} [DecidableEq K] (J : KeyImpl K) (heq : ∀ a b, J.equal a b = true ↔ a = b) :
      SetContainer (GenericSet J) sd (fun k n => J.hash k sd n) (GenFits (fun k n => J.hash k sd n) false) false True

/-! ### Histories -/

instance {K V : Type} : LawfulMonad (M K V) := LawfulMonad.mk' _
  (id_map := fun x => by
    funext s
    show M.bind x (fun a => M.pure a) s = x s
    unfold M.bind M.pure
    cases x s <;> rfl)
  (pure_bind := fun _ _ => rfl)
  (bind_assoc := fun x f g => by
    funext s
    show M.bind (M.bind x f) g s = M.bind x (fun a => M.bind (f a) g) s
    unfold M.bind
    cases x s <;> rfl)

section
variable {K V : Type}

variable [DecidableEq K]

theorem MapImpl.run_append [Inhabited V] (I : MapImpl K V) (fuel : Nat) (m : Handle) (ops ops' : List (MOp K V)) :
    I.run fuel m (ops ++ ops') = (I.run fuel m ops >>= fun os => I.run fuel m ops' >>= fun os' => Pure.pure (os ++ os')) := by
  induction ops with
  | nil => simp [MapImpl.run]
  | cons op ops ih => simp [MapImpl.run, ih]

theorem SetImpl.run_append (I : SetImpl K) (fuel : Nat) (m : Handle) (ops ops' : List (SOp K)) :
    I.run fuel m (ops ++ ops') = (I.run fuel m ops >>= fun os => I.run fuel m ops' >>= fun os' => Pure.pure (os ++ os')) := by
  induction ops with
  | nil => simp [SetImpl.run]
  | cons op ops ih => simp [SetImpl.run, ih]

/-- After the calls `ops` on a new map, the calls `ops'` return `os'`. -/
def MapImpl.After [Inhabited V] (I : MapImpl K V) (fuel : Nat) (sd : Seed) (s : St K V) (ops ops' : List (MOp K V))
    (os' : List (MOut K V)) : Prop :=
  ∃ m os s₁ s₂, I.session fuel sd ops s = .ok ((m, os), s₁) ∧ I.run fuel m ops' s₁ = .ok (os', s₂)

/-- After the calls `ops` on a new set, the calls `ops'` return `os'`. -/
def SetImpl.After (I : SetImpl K) (fuel : Nat) (sd : Seed) (s : St K Unit) (ops ops' : List (SOp K))
    (os' : List (SOut K)) : Prop :=
  ∃ m os s₁ s₂, I.session fuel sd ops s = .ok ((m, os), s₁) ∧ I.run fuel m ops' s₁ = .ok (os', s₂)

/-- A longer history continues the shorter one. -/
theorem MapImpl.session_append [Inhabited V] (I : MapImpl K V) (fuel : Nat) (sd : Seed) (ops ops' : List (MOp K V)) :
    I.session fuel sd (ops ++ ops') = (I.session fuel sd ops >>= fun r => I.run fuel r.1 ops' >>= fun os' =>
      Pure.pure (r.1, r.2 ++ os')) := by
  simp [MapImpl.session, MapImpl.run_append]

theorem SetImpl.session_append (I : SetImpl K) (fuel : Nat) (sd : Seed) (ops ops' : List (SOp K)) :
    I.session fuel sd (ops ++ ops') = (I.session fuel sd ops >>= fun r => I.run fuel r.1 ops' >>= fun os' =>
      Pure.pure (r.1, r.2 ++ os')) := by
  simp [SetImpl.session, SetImpl.run_append]

end

/-! ### What every container does -/

section
variable {K V : Type} [DecidableEq K] [Inhabited V] {I : MapImpl K V} {sd : Seed} {H : K → Nat → BitVec 64}
  {P : Bool → List K → K → Prop} {lossy : V → V} {ex : Prop} {fuel : Nat}

theorem MapContainer.ok (hc : MapContainer I sd H P lossy ex) : ∃ okS okM, MapOk I sd H P ex lossy okS okM := by
  cases hc with
  | string sum sd => exact ⟨_, _, StringMap_ok sum sd⟩
  | bytes sum sd => exact ⟨_, _, BytesMap_ok sum sd⟩
  | arr sum sd kb => exact ⟨_, _, ArrMap_ok sum sd kb⟩
  | int sum sd => exact ⟨_, _, IntMap_ok sum sd⟩
  | int32 sum sd => exact ⟨_, _, IntMap_ok32 sum sd⟩
  | generic sd J heq => exact ⟨_, _, GenericMap_ok sd J heq⟩

theorem MapContainer.mono (hc : MapContainer I sd H P lossy ex) : I.Mono := by
  cases hc with
  | string sum sd => exact StringMap_mono sum
  | bytes sum sd => exact BytesMap_mono sum
  | arr sum sd kb => exact ArrMap_mono sum kb
  | int sum sd => exact IntMap_mono sum
  | int32 sum sd => exact IntMap_mono sum
  | generic sd J heq => exact GenericMap_mono J

/-- Every covered history runs to completion and is answered as specified. -/
theorem MapContainer.session (hc : MapContainer I sd H P lossy ex) {ops : List (MOp K V)} (h : EachNew P [] ops)
    (hf : 256 ≤ fuel) (s : St K V) :
    ∃ os s' t F m, I.session fuel sd ops s = .ok ((some s.next, os), s') ∧ Inv I.cfg sd H ex s' s.next t F ∧
      RunBy (MStepX H ex lossy) [] ops os m ∧ m.Perm (absT t) := by
  obtain ⟨okS, okM, h1⟩ := hc.ok
  obtain ⟨os, s', t, F, e1, e2, m, e3, e4⟩ := map_session h1 hf ops s h
  exact ⟨os, s', t, F, m, e1, e2, e3, e4⟩

/-- What a map does after the history `ops`. -/
theorem MapContainer.reach (hc : MapContainer I sd H P lossy ex) {ops : List (MOp K V)} (h : EachNew P [] ops)
    (hf : 256 ≤ fuel) (s : St K V) :
    ∃ os m, RunBy (MStepX H ex lossy) [] ops os m ∧ m.keys.Nodup ∧ (∀ x, x ∈ m.keys ↔ x ∈ keysAfter [] ops) ∧
      ∀ ops', EachNew P (keysAfter [] ops) ops' → ∃ os' m', I.After fuel sd s ops ops' os' ∧
        RunBy (MStepX H ex lossy) m ops' os' m' := by
  obtain ⟨os, s', t, F, m, e1, i1, e3, e4⟩ := hc.session h hf s
  obtain ⟨okS, okM, h1⟩ := hc.ok
  refine ⟨os, m, e3, e3.nodup (by simp [FMap.keys]), e3.keysAfter, fun ops' h' => ?_⟩
  obtain ⟨os', s₂, t', F', e5, _, _, ⟨m', e6, e7⟩, _⟩ := map_run h1 hf ops' (ks := keysAfter [] ops) i1
    (fun x => by rw [← (FMap.keys_perm e4).mem_iff]; exact (e3.keysAfter x).symm) h'
  obtain ⟨m'', e8, _⟩ := e6.perm e4.symm (nodup_absT i1.wf)
  exact ⟨os', m'', ⟨_, _, _, _, e1, e5⟩, e8⟩

/-- The same, for a history in two parts. -/
theorem MapContainer.session₂ (hc : MapContainer I sd H P lossy ex) {ops ops' : List (MOp K V)} (h : EachNew P [] (ops ++ ops'))
    (hf : 256 ≤ fuel) (s : St K V) :
    ∃ os os' s' m m', I.session fuel sd (ops ++ ops') s = .ok ((some s.next, os ++ os'), s') ∧
      RunBy (MStepX H ex lossy) [] ops os m ∧ RunBy (MStepX H ex lossy) m ops' os' m' ∧ m.keys.Nodup ∧
      (∀ x, x ∈ m.keys ↔ x ∈ keysAfter [] ops) := by
  obtain ⟨os, s', t, F, m', e1, _, e3, _⟩ := hc.session h hf s
  obtain ⟨os₁, os₂, m, rfl, h1, h2⟩ := e3.split
  exact ⟨os₁, os₂, s', m, m', e1, h1, h2, h1.nodup (by simp [FMap.keys]), h1.keysAfter⟩

end

section
variable {K : Type} [DecidableEq K] {I : SetImpl K} {sd : Seed} {H : K → Nat → BitVec 64}
  {P : List K → K → Prop} {inv : Bool} {ex : Prop} {fuel : Nat}

theorem SetContainer.ok (hc : SetContainer I sd H P inv ex) : ∃ okA, SetOk I sd H P ex inv okA := by
  cases hc with
  | string sum sd => exact ⟨_, StringSet_ok sum sd⟩
  | bytes sum sd => exact ⟨_, BytesSet_ok sum sd⟩
  | arr sum sd kb => exact ⟨_, ArrSet_ok sum sd kb⟩
  | int sum sd => exact ⟨_, IntSet_ok sum sd⟩
  | int32 sum sd => exact ⟨_, IntSet_ok32 sum sd⟩
  | generic sd J heq => exact ⟨_, GenericSet_ok sd J heq⟩

theorem SetContainer.mono (hc : SetContainer I sd H P inv ex) : I.Mono := by
  cases hc with
  | string sum sd => exact StringSet_mono sum
  | bytes sum sd => exact BytesSet_mono sum
  | arr sum sd kb => exact ArrSet_mono sum kb
  | int sum sd => exact IntSet_mono sum
  | int32 sum sd => exact IntSet_mono sum
  | generic sd J heq => exact GenericSet_mono J

theorem SetContainer.session (hc : SetContainer I sd H P inv ex) {ops : List (SOp K)} (h : SEachNew H inv P [] ops)
    (hf : 256 ≤ fuel) (s : St K Unit) :
    ∃ os s' t F m, I.session fuel sd ops s = .ok ((some s.next, os), s') ∧ Inv I.cfg sd H ex s' s.next t F ∧
      SRunBy (SStepX H ex inv) [] ops os m ∧ m.Perm (absS t) := by
  obtain ⟨okA, h1⟩ := hc.ok
  obtain ⟨os, s', t, F, e1, e2, m, e3, e4⟩ := set_session h1 hf ops s h
  exact ⟨os, s', t, F, m, e1, e2, e3, e4⟩

/-- What a set does after the history `ops`. -/
theorem SetContainer.reach (hc : SetContainer I sd H P inv ex) {ops : List (SOp K)} (h : SEachNew H inv P [] ops)
    (hf : 256 ≤ fuel) (s : St K Unit) :
    ∃ os m, SRunBy (SStepX H ex inv) [] ops os m ∧ m.Nodup ∧ (∀ x, x ∈ m ↔ x ∈ elemsAfterX H inv [] ops) ∧
      ∀ ops', SEachNew H inv P (elemsAfterX H inv [] ops) ops' → ∃ os' m', I.After fuel sd s ops ops' os' ∧
        SRunBy (SStepX H ex inv) m ops' os' m' := by
  obtain ⟨os, s', t, F, m, e1, i1, e3, e4⟩ := hc.session h hf s
  obtain ⟨okA, h1⟩ := hc.ok
  refine ⟨os, m, e3, e3.nodup (by simp), e3.elemsAfterX, fun ops' h' => ?_⟩
  obtain ⟨os', s₂, t', F', e5, _, _, ⟨m', e6, e7⟩⟩ := set_run h1 hf ops' (ks := elemsAfterX H inv [] ops) i1
    (fun x => by rw [← e4.mem_iff]; exact (e3.elemsAfterX x).symm) h'
  obtain ⟨m'', e8, _⟩ := e6.perm e4.symm
  exact ⟨os', m'', ⟨_, _, _, _, e1, e5⟩, e8⟩

theorem SetContainer.session₂ (hc : SetContainer I sd H P inv ex) {ops ops' : List (SOp K)} (h : SEachNew H inv P [] (ops ++ ops'))
    (hf : 256 ≤ fuel) (s : St K Unit) :
    ∃ os os' s' m m', I.session fuel sd (ops ++ ops') s = .ok ((some s.next, os ++ os'), s') ∧
      SRunBy (SStepX H ex inv) [] ops os m ∧ SRunBy (SStepX H ex inv) m ops' os' m' ∧ m.Nodup ∧
      (∀ x, x ∈ m ↔ x ∈ elemsAfterX H inv [] ops) := by
  obtain ⟨os, s', t, F, m', e1, _, e3, _⟩ := hc.session h hf s
  obtain ⟨os₁, os₂, m, rfl, h1, h2⟩ := e3.split
  exact ⟨os₁, os₂, s', m, m', e1, h1, h2, h1.nodup (by simp), h1.elemsAfterX⟩

end

end Amt
