/-
C01-C10: each container against the abstract finite map or set, over every history of calls.

`session fuel seed ops s` creates a container in the heap `s` and performs the calls `ops` on it.  The
heap `s` is arbitrary: it may hold any number of other objects.  `fuel` is the loop budget; it only has to
be at least 256 (see `Verif/PropsFuel.lean`: any larger budget gives the same result).

The hypothesis `EachNew P [] ops` speaks about the insertions of new keys in the history: each satisfies `P`
together with the keys stored at that moment.  `ByteFits` is what termination needs: the new key can be told
apart from the stored ones by their first 256 nibbles, and does not collide with one at a depth of 240 or more
(`Separated.eachNew`: it is enough that any two keys of the history differ in one of the first 241 nibbles).
-/
import Verif.Refine
import Verif.Examples

set_option linter.unusedVariables false
set_option linter.unusedSectionVars false

namespace Amt
open Spec

section
variable {K V : Type} [DecidableEq K] [Inhabited V]

/-- The common form of the map theorems. -/
theorem session_X {I : MapImpl K V} {sd : Seed} {H : K → Nat → BitVec 64} {P : Bool → List K → K → Prop} {cl : Prop}
    {lossy : V → V} {okS okM : K → K → Nat → Prop} (ok : MapOk I sd H P cl lossy okS okM) (ops : List (MOp K V))
    (hn : EachNew P [] ops) {fuel : Nat} (hf : 256 ≤ fuel) (s : St K V) :
    ∃ os s' m, I.session fuel sd ops s = .ok ((some s.next, os), s') ∧ RunBy (MStepX H cl lossy) [] ops os m := by
  obtain ⟨os, s', t, F, e1, _, ⟨m, h1, _⟩⟩ := map_session ok hf ops s hn
  exact ⟨os, s', m, e1, h1⟩

theorem session_MRun {I : MapImpl K V} {sd : Seed} {H : K → Nat → BitVec 64} {P : Bool → List K → K → Prop} {cl : Prop}
    {okS okM : K → K → Nat → Prop} (ok : MapOk I sd H P cl id okS okM) (ops : List (MOp K V))
    (hn : EachNew P [] ops) {fuel : Nat} (hf : 256 ≤ fuel) (s : St K V) :
    ∃ os s' m, I.session fuel sd ops s = .ok ((some s.next, os), s') ∧ MRun [] ops os m := by
  obtain ⟨os, s', m, e1, h1⟩ := session_X ok ops hn hf s
  exact ⟨os, s', m, e1, h1.mono (fun _ _ _ _ => MStepX.toStep (fun _ => rfl))⟩

/-- The common form of the set theorems. -/
theorem session_SX {I : SetImpl K} {sd : Seed} {H : K → Nat → BitVec 64} {P : List K → K → Prop} {cl : Prop} {inv : Bool}
    {okA : K → K → Nat → Prop} (ok : SetOk I sd H P cl inv okA) (ops : List (SOp K))
    (hn : SEachNew H inv P [] ops) {fuel : Nat} (hf : 256 ≤ fuel) (s : St K Unit) :
    ∃ os s' m, I.session fuel sd ops s = .ok ((some s.next, os), s') ∧ SRunBy (SStepX H cl inv) [] ops os m := by
  obtain ⟨os, s', t, F, e1, _, ⟨m, h1, _⟩⟩ := set_session ok hf ops s hn
  exact ⟨os, s', m, e1, h1⟩

theorem session_SRun {I : SetImpl K} {sd : Seed} {H : K → Nat → BitVec 64} {P : List K → K → Prop} {cl : Prop}
    {okA : K → K → Nat → Prop} (ok : SetOk I sd H P cl false okA) (ops : List (SOp K))
    (hn : SEachNew H false P [] ops) {fuel : Nat} (hf : 256 ≤ fuel) (s : St K Unit) :
    ∃ os s' m, I.session fuel sd ops s = .ok ((some s.next, os), s') ∧ SRun [] ops os m := by
  obtain ⟨os, s', m, e1, h1⟩ := session_SX ok ops hn hf s
  exact ⟨os, s', m, e1, h1.mono (fun _ _ _ _ => SStepX.toStep)⟩

end

section
variable {V : Type} [Inhabited V] (sum : Maphash) (sd : Seed) {fuel : Nat}

/-- C01. -/
theorem C01_StringMap (ops : List (MOp ByteStr V)) (hn : EachNew (fun _ => ByteFits (byteStream sum sd id)) [] ops)
    (hf : 256 ≤ fuel) (s : St ByteStr V) :
    ∃ os s' m, (StringMap sum).session fuel sd ops s = .ok ((some s.next, os), s') ∧ MRun [] ops os m :=
  session_MRun (StringMap_ok sum sd) ops hn hf s

example := C01_StringMap toyHash 0#64 (exOps strKey) exOps_str (Nat.le_refl 256) St.init

/-- C02. -/
theorem C02_BytesMap (ops : List (MOp ByteStr V)) (hn : EachNew (fun _ => ByteFits (byteStream sum sd id)) [] ops)
    (hf : 256 ≤ fuel) (s : St ByteStr V) :
    ∃ os s' m, (BytesMap sum).session fuel sd ops s = .ok ((some s.next, os), s') ∧ MRun [] ops os m :=
  session_MRun (BytesMap_ok sum sd) ops hn hf s

example := C02_BytesMap toyHash 0#64 (exOps strKey) exOps_str (Nat.le_refl 256) St.init

/-- C03, what `ArrMap` really does: it is a finite map except that `Set` of a new key that collides with a
stored key stores the zero value.  (That it is not a finite map: `C03_ArrMap_refuted`.) -/
theorem C03_ArrMap_exact {K : Type} [DecidableEq K] (kb : K → List UInt8) (ops : List (MOp K V))
    (hn : EachNew (fun _ => ByteFits (byteStream sum sd kb)) [] ops) (hf : 256 ≤ fuel) (s : St K V) :
    ∃ os s' m, (ArrMap sum kb).session fuel sd ops s = .ok ((some s.next, os), s') ∧
      RunBy (MStepX (byteStream sum sd kb) True (fun _ => default)) [] ops os m :=
  session_X (ArrMap_ok sum sd kb) ops hn hf s

example := C03_ArrMap_exact toyHash 0#64 (fun b : UInt8 => [b]) (exOps id) exOps_arr (Nat.le_refl 256) St.init

/-- Without colliding insertions by `Set`, nothing is lost. -/
theorem RunBy.of_not_collides {K : Type} [DecidableEq K] {H : K → Nat → BitVec 64} {ex : Prop} {lossy : V → V}
    {ops : List (MOp K V)} :
    ∀ {ks : List K} {m m' : FMap K V} {os : List (MOut K V)}, (∀ x, x ∈ ks ↔ x ∈ m.keys) →
    EachNew (fun isMod ks k => isMod = false → ¬ Collides H ks k) ks ops →
    RunBy (MStepX H ex lossy) m ops os m' → MRun m ops os m' := by
  induction ops with
  | nil => intro _ _ _ _ _ _ h; exact h
  | cons op ops ih =>
    intro ks m m' os hks hg ⟨o, os', m₁, h1, h2, h3⟩
    refine ⟨o, os', m₁, h1, ?_, ih (ks := op.after ks) (fun x => ?_) hg.2 h3⟩
    · rcases h2.exStep with h4 | ⟨k, v, rfl, h4⟩
      · exact h4
      · obtain ⟨g1, ⟨g2, ⟨k', d, hd1, hd2, hd3, hd4⟩, g3⟩ | ⟨g2, g3⟩⟩ := h2
        · exact absurd ⟨k', d, hd1, (hks k').2 hd2, hd3, fun k'' hk'' => hd4 k'' ((hks k'').1 hk'')⟩
            (hg.1 k (by simp [MOp.stores]) (fun hk => FMap.get_eq_none.1 g2 ((hks k).1 hk)) rfl)
        · exact ⟨g1, g3⟩
    · rw [h2.after_keys, mem_after hks]

/-- C03 for histories in which `Set` never inserts a colliding key (`Mod` may).  Missing: the other histories,
for which it is false (`C03_ArrMap_refuted`). -/
theorem C03_ArrMap_partial {K : Type} [DecidableEq K] (kb : K → List UInt8) (ops : List (MOp K V))
    (hn : EachNew (fun isMod ks k => ByteFits (byteStream sum sd kb) ks k ∧
      (isMod = false → ¬ Collides (byteStream sum sd kb) ks k)) [] ops)
    (hf : 256 ≤ fuel) (s : St K V) :
    ∃ os s' m, (ArrMap sum kb).session fuel sd ops s = .ok ((some s.next, os), s') ∧ MRun [] ops os m := by
  obtain ⟨os, s', m, h1, h2⟩ := C03_ArrMap_exact sum sd kb ops (hn.mono fun _ _ _ h => h.1) hf s
  exact ⟨os, s', m, h1, RunBy.of_not_collides (ks := []) (by simp [FMap.keys]) (hn.mono fun _ _ _ h => h.2) h2⟩

/-- `Mod` may insert colliding keys. -/
example := C03_ArrMap_partial toyHash 0#64 (fun b : UInt8 => [b])
  [.set 0x01 1, .mod 0x11 (fun _ _ => 2), .set 0x01 3, .set 0x02 4, .del 0x01, .get 0x11]
  (by
    refine ⟨?_, ?_, ?_, ?_, ?_, ?_, trivial⟩ <;> intro k hk hk'
    · exact ⟨ByteFits.of_near (by simp), fun _ => by simp [Collides, CollidesWith]⟩
    · simp [MOp.stores] at hk
      subst hk
      exact ⟨by decide +kernel, fun h => absurd h (by decide)⟩
    · simp [MOp.stores] at hk
      subst hk
      exact absurd hk' (by decide)
    · simp [MOp.stores] at hk
      subst hk
      refine ⟨by decide +kernel, fun _ => ?_⟩
      rintro ⟨k', d, h1, h2, h3, _⟩
      have := h3 0 h1
      revert this
      have h2 : k' = 0x11 ∨ k' = 0x01 := by simpa [MOp.after] using h2
      rcases h2 with rfl | rfl <;> decide +kernel
    · simp [MOp.stores] at hk
    · simp [MOp.stores] at hk) (Nat.le_refl 256) St.init

/-- C04 for histories in which every new key can be inserted next to the stored ones (`IntSafe`; e.g. all keys
in `[0, 2^32)`, see `SafePair_small`).  Missing: the other histories, for which it is false: see
`C04_IntMap_refuted`. -/
theorem C04_IntMap_partial (ops : List (MOp IntKey V))
    (hn : EachNew (fun _ => IntSafe (byteStream sum sd intbytes)) [] ops) (hf : 256 ≤ fuel) (s : St IntKey V) :
    ∃ os s' m, (IntMap sum).session fuel sd ops s = .ok ((some s.next, os), s') ∧ MRun [] ops os m :=
  session_MRun (IntMap_ok sum sd) ops hn hf s

example := C04_IntMap_partial toyHash 0#64 (exOps highKey) exOps_int (Nat.le_refl 256) St.init

/-- Keys in `[0, 2^32)` are safe. -/
theorem SafePair_small (H : IntKey → Nat → BitVec 64) (a b : IntKey) (hk : b.toNat < 2 ^ 32) : SafePair H upper a b :=
  SafePair.zero (by rw [← int_upper .bare (fun _ _ => 0#64)]; exact int_encT _ _ hk)

/-- C04 for keys in `[0, 2^32)`. -/
theorem C04_IntMap_small (ops : List (MOp IntKey V)) (hn : EachNew (fun _ => IntSmall (byteStream sum sd intbytes)) [] ops)
    (hf : 256 ≤ fuel) (s : St IntKey V) :
    ∃ os s' m, (IntMap sum).session fuel sd ops s = .ok ((some s.next, os), s') ∧ MRun [] ops os m :=
  session_MRun (IntMap_ok32 sum sd) ops hn hf s

example := C04_IntMap_small toyHash 0#64 (exOps intKey) exOps_int32 (Nat.le_refl 256) St.init

/-- C05 for histories in which the wrong rehash is harmless: whenever `Set` (`Mod`) inserts a colliding key, the
digest it computes for the key pushed down happens to agree with the right one, see `GenOk` (`GenModOk`).
Missing: the other histories, for which it is false (`C05_Map_refuted_set`, `C05_Map_refuted_mod`). -/
theorem C05_Map_partial {K : Type} [DecidableEq K] (I : KeyImpl K) (heq : ∀ a b, I.equal a b = true ↔ a = b)
    (ops : List (MOp K V)) (hn : EachNew (GenFits fun k n => I.hash k sd n) [] ops)
    (hf : 256 ≤ fuel) (s : St K V) :
    ∃ os s' m, (GenericMap I).session fuel sd ops s = .ok ((some s.next, os), s') ∧ MRun [] ops os m :=
  session_MRun (GenericMap_ok sd I heq) ops hn hf s

example := C05_Map_partial 0#64 onceKey (by simp [onceKey]) (exOps UInt8.toNat) exOps_gen (Nat.le_refl 256) St.init

/-- A hash that ignores `iter` is harmless for `Set`. -/
theorem GenOk_const {K : Type} {hash : K → Nat → BitVec 64} (hit : ∀ k i, hash k i = hash k 0) (k k' : K) (d : Nat) :
    GenOk hash k k' d := by
  rw [GenOk, hit k' (d % 16), hit k' (d / 16)]

/-- C06. -/
theorem C06_StringSet (ops : List (SOp ByteStr))
    (hn : SEachNew (byteStream sum sd id) false (ByteFits (byteStream sum sd id)) [] ops)
    (hf : 256 ≤ fuel) (s : St ByteStr Unit) :
    ∃ os s' m, (StringSet sum).session fuel sd ops s = .ok ((some s.next, os), s') ∧ SRun [] ops os m :=
  session_SRun (StringSet_ok sum sd) ops hn hf s

example := C06_StringSet toyHash 0#64 (exOpsS strKey) exOpsS_str (Nat.le_refl 256) St.init

/-- C07. -/
theorem C07_ArrSet {K : Type} [DecidableEq K] (kb : K → List UInt8) (ops : List (SOp K))
    (hn : SEachNew (byteStream sum sd kb) false (ByteFits (byteStream sum sd kb)) [] ops)
    (hf : 256 ≤ fuel) (s : St K Unit) :
    ∃ os s' m, (ArrSet sum kb).session fuel sd ops s = .ok ((some s.next, os), s') ∧ SRun [] ops os m :=
  session_SRun (ArrSet_ok sum sd kb) ops hn hf s

example := C07_ArrSet toyHash 0#64 (fun b : UInt8 => [b]) (exOpsS id) exOpsS_arr (Nat.le_refl 256) St.init

/-- C08, what `BytesSet` really does: `Del` of a present key is a no-op, `Del` of an absent key removes the
key it collides with.  (That it is not a finite set: `C08_BytesSet_refuted`.) -/
theorem C08_BytesSet_exact (ops : List (SOp ByteStr))
    (hn : SEachNew (byteStream sum sd id) true (ByteFits (byteStream sum sd id)) [] ops)
    (hf : 256 ≤ fuel) (s : St ByteStr Unit) :
    ∃ os s' m, (BytesSet sum).session fuel sd ops s = .ok ((some s.next, os), s') ∧
      SRunBy (SStepX (byteStream sum sd id) True true) [] ops os m :=
  session_SX (BytesSet_ok sum sd) ops hn hf s

example := C08_BytesSet_exact toyHash 0#64 (exOpsS strKey) exOpsS_bytes (Nat.le_refl 256) St.init

/-- C08 for histories without `Del`.  Missing: `Del`, for which it is false (`C08_BytesSet_refuted`). -/
theorem C08_BytesSet_partial (ops : List (SOp ByteStr))
    (hn : SEachNew (byteStream sum sd id) true (ByteFits (byteStream sum sd id)) [] ops)
    (hnd : ∀ k, .del k ∉ ops) (hf : 256 ≤ fuel) (s : St ByteStr Unit) :
    ∃ os s' m, (BytesSet sum).session fuel sd ops s = .ok ((some s.next, os), s') ∧ SRun [] ops os m := by
  obtain ⟨os, s', m, h1, h2⟩ := C08_BytesSet_exact sum sd ops hn hf s
  refine ⟨os, s', m, h1, ?_⟩
  clear h1 hn
  generalize ([] : List ByteStr) = m0 at h2 ⊢
  induction ops generalizing m0 os with
  | nil => exact h2
  | cons op ops ih =>
    obtain ⟨o, os', m₁, h3, h4, h5⟩ := h2
    refine ⟨o, os', m₁, h3, SStepX.toStep (H := byteStream sum sd id) (ex := True) ?_, ih (fun k hk => hnd k (by simp [hk])) _ _ h5⟩
    cases op with
    | del k => exact absurd (by simp) (hnd k)
    | _ => exact h4

example := C08_BytesSet_partial toyHash 0#64 [.add (strKey 0x01), .add (strKey 0x11), .has (strKey 0x01), .len]
  (SEachNew'.toX_of_no_del _ (by decide +kernel) (by simp)) (by simp) (Nat.le_refl 256) St.init

/-- C09 for histories in which every new key can be inserted next to the stored ones.  Missing: as for
`C04_IntMap_partial`, see `C09_IntSet_refuted`. -/
theorem C09_IntSet_partial (ops : List (SOp IntKey))
    (hn : SEachNew (byteStream sum sd intbytes) false (IntSafe (byteStream sum sd intbytes)) [] ops)
    (hf : 256 ≤ fuel) (s : St IntKey Unit) :
    ∃ os s' m, (IntSet sum).session fuel sd ops s = .ok ((some s.next, os), s') ∧ SRun [] ops os m :=
  session_SRun (IntSet_ok sum sd) ops hn hf s

example := C09_IntSet_partial toyHash 0#64 (exOpsS highKey) exOpsS_int (Nat.le_refl 256) St.init

/-- C09 for keys in `[0, 2^32)`. -/
theorem C09_IntSet_small (ops : List (SOp IntKey))
    (hn : SEachNew (byteStream sum sd intbytes) false (IntSmall (byteStream sum sd intbytes)) [] ops)
    (hf : 256 ≤ fuel) (s : St IntKey Unit) :
    ∃ os s' m, (IntSet sum).session fuel sd ops s = .ok ((some s.next, os), s') ∧ SRun [] ops os m :=
  session_SRun (IntSet_ok32 sum sd) ops hn hf s

example := C09_IntSet_small toyHash 0#64 (exOpsS intKey) exOpsS_int32 (Nat.le_refl 256) St.init

/-- C10 for histories in which the wrong rehash is harmless.  Missing: the other histories, for which it is false
(`C10_Set_refuted`). -/
theorem C10_Set_partial {K : Type} [DecidableEq K] (I : KeyImpl K) (heq : ∀ a b, I.equal a b = true ↔ a = b)
    (ops : List (SOp K)) (hn : SEachNew (fun k n => I.hash k sd n) false (GenFits (fun k n => I.hash k sd n) false) [] ops)
    (hf : 256 ≤ fuel) (s : St K Unit) :
    ∃ os s' m, (GenericSet I).session fuel sd ops s = .ok ((some s.next, os), s') ∧ SRun [] ops os m :=
  session_SRun (GenericSet_ok sd I heq) ops hn hf s

example := C10_Set_partial 0#64 onceKey (by simp [onceKey]) (exOpsS UInt8.toNat) exOpsS_gen (Nat.le_refl 256) St.init

end

end Amt
