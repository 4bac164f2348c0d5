/-
C98: `Del` of the key that pushed another one down undoes the damage (C97) completely.
-/
import Verif.PropsLost

set_option linter.unusedVariables false
set_option linter.unusedSectionVars false

namespace Amt
open Spec T

section
variable {K V : Type} [DecidableEq K] [Inhabited V] {c : Cfg K} {sd : Seed} {H : K → Nat → BitVec 64} {s : St K V} {h : Nat} {t : T K Ptr V} {F : Nat → Prop} {fuel : Nat}

/-- An insertion with a wrong digest, and a deletion: the container is again what it was. -/
theorem Inv.upsert_del {R : Type} {ins : Ins K V R} {key x : K} {d : Nat} {f : V → V} {vSlot vSplit : V} {gHit : V → R} {rNew : R}
    {D : K → Nat → BitVec 64} (L : Laws c sd H) (hi : Inv c sd H True s h t F)
    (hins : InsOk c sd H { ins with chash := idealChash H } key f vSlot vSplit gHit rNew)
    (hC : ∀ ckey d fuel, key ≠ ckey → ins.chash sd key ckey d fuel = .ok (D ckey d >>> (4 * (d % 16)), d / 16 + 1))
    (hg : ins.guard = false) (hz : ∀ k, c.encT k = 0#32) (hf : 256 ≤ fuel) {skip : Bool → Bool} (hsk : ∀ b, skip b = !b) (hk : key ∉ (absT t).keys)
    (hco : CollidesAt H (absT t).keys key x d) (hp : Parts H (D x d) key x d) :
    ∃ s₁ s₂ F', Amt.upsert c h fuel key ins s = .ok (rNew, s₁) ∧ Amt.delete c h fuel skip key s₁ = .ok ((), s₂) ∧ Inv c sd H True s₂ h t F' := by
  obtain ⟨p, s₁, t', F₁, e1, e2, e3, _, _, _, e7⟩ := hi.upsert_alt L hins hC hg hz hf hk hco hp
  have hd := e2.delete (fuel := fuel) L (by omega) hsk key hf
  rw [e3] at hd
  obtain ⟨s₂, F₂, g1, g2, _⟩ := hd
  rw [e7] at g2
  exact ⟨s₁, s₂, F₂, e1, g1, ⟨g2.rep, g2.seed, g2.node, hi.wf, g2.ht, fun _ => g2.canon, fun _ e _ => hz e.1, g2.len, g2.dep⟩⟩

end

section
variable {K V : Type} [DecidableEq K] [Inhabited V] {fuel : Nat}

/-- C98.  After every history on which a generic map was right so far (C05), `Set` of a new key `k` that collides with a stored one, followed by `Del` of `k`: what
`Set` may have done to the key in its way is undone, and all further calls answer as if neither call had been made. -/
theorem C98_Map_set (I : KeyImpl K) (heq : ∀ a b, I.equal a b = true ↔ a = b) (sd : Seed) {ops ops' : List (MOp K V)}
    (h : EachNew (GenFits fun k n => I.hash k sd n) [] ops) (h' : EachNew (GenFits fun k n => I.hash k sd n) (keysAfter [] ops) ops')
    {k x : K} {d : Nat} (hk : k ∉ keysAfter [] ops) (hco : CollidesAt (fun k n => I.hash k sd n) (keysAfter [] ops) k x d)
    (hp : Parts (fun k n => I.hash k sd n) (I.hash x sd (d % 16)) k x d) (v : V) (hf : 256 ≤ fuel) (s : St K V) :
    ∃ os os' s' m m', (GenericMap I).session fuel sd (ops ++ ([.set k v, .del k] ++ ops')) s = .ok ((some s.next, os ++ ([.unit, .unit] ++ os')), s') ∧
      MRun [] ops os m ∧ MRun m ops' os' m' := by
  obtain ⟨os, s₁, t, F, m, e1, hi, e3, e4⟩ := (MapContainer.generic (V := V) sd I heq).session h hf s
  have ok := GenericMap_ok (V := V) sd I heq
  have hks : ∀ y, y ∈ keysAfter [] ops ↔ y ∈ (absT t).keys := fun y => by
    rw [← (FMap.keys_perm e4).mem_iff]; exact (e3.keysAfter y).symm
  obtain ⟨s₂, s₃, F', g1, g2, g3⟩ := hi.upsert_del (D := fun x d => I.hash x sd (d % 16)) (ins := (GenericMap (V := V) I).setI k v) (skip := (GenericMap (V := V) I).delSkip)
    ok.laws (ok.set k v) (fun _ _ _ _ => rfl) rfl (fun _ => rfl) hf (fun _ => rfl) (by rw [← hks]; exact hk) (hco.congr hks) hp
  obtain ⟨os', s₄, t', F'', q1, _, _, ⟨m', q2, _⟩, _⟩ := map_run ok hf ops' g3 hks h'
  obtain ⟨m₂, q3, _⟩ := q2.perm e4.symm ((FMap.keys_perm e4).nodup_iff.1 (e3.nodup (by simp [FMap.keys])))
  refine ⟨os, os', s₄, m, m₂, ?_, e3.mono (fun _ _ _ _ => MStepX.toStep (fun _ => rfl)), q3.mono (fun _ _ _ _ => MStepX.toStep (fun _ => rfl))⟩
  have g1' : (GenericMap (V := V) I).exec fuel (some s.next) (.set k v) s₁ = .ok (.unit, s₂) := by
    have : (GenericMap (V := V) I).Set fuel (some s.next) k v s₁ = .ok ((), s₂) := by rw [MapImpl.Set, deref, pure_bind_M, g1]
    rw [MapImpl.exec, bind_ok this]; rfl
  have g2' : (GenericMap (V := V) I).exec fuel (some s.next) (.del k) s₂ = .ok (.unit, s₃) := by
    have : (GenericMap (V := V) I).Del fuel (some s.next) k s₂ = .ok ((), s₃) := by rw [MapImpl.Del, deref, pure_bind_M, g2]
    rw [MapImpl.exec, bind_ok this]; rfl
  rw [MapImpl.session_append, bind_ok e1]
  simp only [List.cons_append, List.nil_append, MapImpl.run]
  rw [bind_assoc_M, bind_ok g1', bind_assoc_M, bind_assoc_M, bind_ok g2', bind_assoc_M, bind_ok q1]
  rfl

/-- C98 for `Mod`. -/
theorem C98_Map_mod (I : KeyImpl K) (heq : ∀ a b, I.equal a b = true ↔ a = b) (sd : Seed) {ops ops' : List (MOp K V)}
    (h : EachNew (GenFits fun k n => I.hash k sd n) [] ops) (h' : EachNew (GenFits fun k n => I.hash k sd n) (keysAfter [] ops) ops')
    {k x : K} {d : Nat} (hk : k ∉ keysAfter [] ops) (hco : CollidesAt (fun k n => I.hash k sd n) (keysAfter [] ops) k x d)
    (hp : Parts (fun k n => I.hash k sd n) (I.hash k sd (d % 16)) k x d) (f : V → Bool → V) (hf : 256 ≤ fuel) (s : St K V) :
    ∃ os os' s' m m', (GenericMap I).session fuel sd (ops ++ ([.mod k f, .del k] ++ ops')) s
        = .ok ((some s.next, os ++ ([.calls [(default, false)], .unit] ++ os')), s') ∧
      MRun [] ops os m ∧ MRun m ops' os' m' := by
  obtain ⟨os, s₁, t, F, m, e1, hi, e3, e4⟩ := (MapContainer.generic (V := V) sd I heq).session h hf s
  have ok := GenericMap_ok (V := V) sd I heq
  have hks : ∀ y, y ∈ keysAfter [] ops ↔ y ∈ (absT t).keys := fun y => by
    rw [← (FMap.keys_perm e4).mem_iff]; exact (e3.keysAfter y).symm
  obtain ⟨s₂, s₃, F', g1, g2, g3⟩ := hi.upsert_del (D := fun _ d => I.hash k sd (d % 16)) (ins := (GenericMap (V := V) I).modI k f) (skip := (GenericMap (V := V) I).delSkip)
    ok.laws (ok.mod k f) (fun _ _ _ _ => rfl) rfl (fun _ => rfl) hf (fun _ => rfl) (by rw [← hks]; exact hk) (hco.congr hks) hp
  obtain ⟨os', s₄, t', F'', q1, _, _, ⟨m', q2, _⟩, _⟩ := map_run ok hf ops' g3 hks h'
  obtain ⟨m₂, q3, _⟩ := q2.perm e4.symm ((FMap.keys_perm e4).nodup_iff.1 (e3.nodup (by simp [FMap.keys])))
  refine ⟨os, os', s₄, m, m₂, ?_, e3.mono (fun _ _ _ _ => MStepX.toStep (fun _ => rfl)), q3.mono (fun _ _ _ _ => MStepX.toStep (fun _ => rfl))⟩
  have g1' : (GenericMap (V := V) I).exec fuel (some s.next) (.mod k f) s₁ = .ok (.calls [(default, false)], s₂) := by
    have := (show (GenericMap (V := V) I).Mod fuel (some s.next) k f s₁
      = upsert (GenericMap (V := V) I).cfg s.next fuel k ((GenericMap (V := V) I).modI k f) s₁ from rfl).trans g1
    rw [MapImpl.exec, bind_ok this]; rfl
  have g2' : (GenericMap (V := V) I).exec fuel (some s.next) (.del k) s₂ = .ok (.unit, s₃) := by
    have : (GenericMap (V := V) I).Del fuel (some s.next) k s₂ = .ok ((), s₃) := by rw [MapImpl.Del, deref, pure_bind_M, g2]
    rw [MapImpl.exec, bind_ok this]; rfl
  rw [MapImpl.session_append, bind_ok e1]
  simp only [List.cons_append, List.nil_append, MapImpl.run]
  rw [bind_assoc_M, bind_ok g1', bind_assoc_M, bind_assoc_M, bind_ok g2', bind_assoc_M, bind_ok q1]
  rfl

end

section
variable {K : Type} [DecidableEq K] {fuel : Nat}

/-- C98 for sets. -/
theorem C98_Set (I : KeyImpl K) (heq : ∀ a b, I.equal a b = true ↔ a = b) (sd : Seed) {ops ops' : List (SOp K)}
    (h : SEachNew (fun k n => I.hash k sd n) false (GenFits (fun k n => I.hash k sd n) false) [] ops)
    (h' : SEachNew (fun k n => I.hash k sd n) false (GenFits (fun k n => I.hash k sd n) false) (elemsAfterX (fun k n => I.hash k sd n) false [] ops) ops')
    {k x : K} {d : Nat} (hk : k ∉ elemsAfterX (fun k n => I.hash k sd n) false [] ops)
    (hco : CollidesAt (fun k n => I.hash k sd n) (elemsAfterX (fun k n => I.hash k sd n) false [] ops) k x d)
    (hp : Parts (fun k n => I.hash k sd n) (I.hash x sd (d % 16)) k x d) (hf : 256 ≤ fuel) (s : St K Unit) :
    ∃ os os' s' m m', (GenericSet I).session fuel sd (ops ++ ([.add k, .del k] ++ ops')) s = .ok ((some s.next, os ++ ([.unit, .unit] ++ os')), s') ∧
      SRun [] ops os m ∧ SRun m ops' os' m' := by
  obtain ⟨os, s₁, t, F, m, e1, hi, e3, e4⟩ := (SetContainer.generic sd I heq).session h hf s
  have ok := GenericSet_ok sd I heq
  have hks : ∀ y, y ∈ elemsAfterX (fun k n => I.hash k sd n) false [] ops ↔ y ∈ absS t := fun y => by
    rw [← e4.mem_iff]; exact (e3.elemsAfterX y).symm
  have hks' : ∀ y, y ∈ elemsAfterX (fun k n => I.hash k sd n) false [] ops ↔ y ∈ (absT t).keys := fun y => by rw [hks, absS_eq]
  obtain ⟨s₂, s₃, F', g1, g2, g3⟩ := hi.upsert_del (D := fun x d => I.hash x sd (d % 16)) (ins := (GenericSet I).addI k) (skip := (GenericSet I).delSkip)
    ok.laws (ok.add k) (fun _ _ _ _ => rfl) rfl (fun _ => rfl) hf (fun _ => rfl) (by rw [← hks']; exact hk) (hco.congr hks') hp
  obtain ⟨os', s₄, t', F'', q1, _, _, ⟨m', q2, _⟩⟩ := set_run ok hf ops' g3 hks h'
  obtain ⟨m₂, q3, _⟩ := q2.perm e4.symm
  refine ⟨os, os', s₄, m, m₂, ?_, e3.mono (fun _ _ _ _ => SStepX.toStep), q3.mono (fun _ _ _ _ => SStepX.toStep)⟩
  have g1' : (GenericSet I).exec fuel (some s.next) (.add k) s₁ = .ok (.unit, s₂) := by
    have : (GenericSet I).Add fuel (some s.next) k s₁ = .ok ((), s₂) := by rw [SetImpl.Add, deref, pure_bind_M, g1]
    rw [SetImpl.exec, bind_ok this]; rfl
  have g2' : (GenericSet I).exec fuel (some s.next) (.del k) s₂ = .ok (.unit, s₃) := by
    have : (GenericSet I).Del fuel (some s.next) k s₂ = .ok ((), s₃) := by rw [SetImpl.Del, deref, pure_bind_M, g2]
    rw [SetImpl.exec, bind_ok this]; rfl
  rw [SetImpl.session_append, bind_ok e1]
  simp only [List.cons_append, List.nil_append, SetImpl.run]
  rw [bind_assoc_M, bind_ok g1', bind_assoc_M, bind_assoc_M, bind_ok g2', bind_assoc_M, bind_ok q1]
  rfl

end

/-! ### Instances -/

/-- The key 0x321 is lost (`lost_astray`), and found again. -/
example := C98_Map_set (ops' := [.get 0x321, .set 0x051 7, .len]) xorKey xorKey_eq 0#64 lostOps_covered
  ⟨fun k hk => by simp [MOp.stores] at hk, fun k hk h => absurd (by simp [MOp.stores] at hk; subst hk; decide +kernel) h, fun k hk => by simp [MOp.stores] at hk, trivial⟩
  (by decide +kernel) lost_collides lost_parts 3 (Nat.le_refl 256) St.init

example := C98_Map_mod (d := 0) (k := 0x051) (x := 0x321) (ops' := [.get 0x321]) xorKey xorKey_eq 0#64 oneOp_covered ⟨fun k hk => by simp [MOp.stores] at hk, trivial⟩
  (by decide +kernel) (by unfold CollidesAt Agree; decide +kernel) ⟨17, by decide, by decide, by decide +kernel⟩ (fun v _ => v + 1) (Nat.le_refl 256) St.init

example := C98_Set (ops' := [.has 0x321, .len]) xorKey xorKey_eq 0#64 lostOpsS_covered
  ⟨fun k hk => by simp [SOp.stores] at hk, fun k hk => by simp [SOp.stores] at hk, trivial⟩
  (by rw [lostOpsS_elems]; decide +kernel) (by rw [lostOpsS_elems]; exact lost_collides) lost_parts (Nat.le_refl 256) St.init

end Amt
