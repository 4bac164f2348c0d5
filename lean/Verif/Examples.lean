/-
Concrete hash functions, keys and histories, with which the theorems are instantiated (in the `example`s that
follow them) and the counterexamples are computed.
-/
import Verif.Containers
import Verif.SpecLemmas

set_option linter.unusedVariables false
set_option linter.unusedSectionVars false

namespace Spec

/-! ### The hypotheses of the theorems can be computed -/

section
variable {K V : Type} [DecidableEq K] (H : K → Nat → BitVec 64)

theorem apart_iff (a b : K) : Apart H a b ↔ (List.range 256).any (fun j => decide (nibble H a j ≠ nibble H b j)) = true := by
  simp only [Apart, List.any_eq_true, List.mem_range, decide_eq_true_eq, Nat.lt_succ_iff]

instance (a b : K) : Decidable (Apart H a b) := decidable_of_iff _ (apart_iff H a b).symm
instance (ks : List K) (k : K) : Decidable (ApartAll H ks k) := inferInstanceAs (Decidable (∀ k' ∈ ks, Apart H k k'))
instance (a b : K) (d : Nat) : Decidable (Agree H a b d) := inferInstanceAs (Decidable (∀ j, j < d → _))
instance (ks : List K) (a b : K) (d : Nat) : Decidable (CollidesAt H ks a b d) := inferInstanceAs (Decidable (_ ∧ _))
instance (a b : K) (d : Nat) : Decidable (GenOk H a b d) := inferInstanceAs (Decidable (_ = _))
instance (a b : K) (d : Nat) : Decidable (GenModOk H a b d) := inferInstanceAs (Decidable (_ = _))

theorem CollidesAt.lt {H : K → Nat → BitVec 64} {ks : List K} {k k' : K} {d : Nat} (h : CollidesAt H ks k k' d)
    (ha : ApartAll H ks k) : d < 255 := by
  obtain ⟨j, hj, hne⟩ := ha k' h.1
  refine Nat.lt_of_not_le fun hd => hne (h.2.1 j (by omega))

theorem near_iff (a b : K) : Near H a b ↔ (List.range 241).any (fun j => decide (nibble H a j ≠ nibble H b j)) = true := by
  simp only [Near, List.any_eq_true, List.mem_range, decide_eq_true_eq, Nat.lt_succ_iff]

instance (a b : K) : Decidable (Near H a b) := decidable_of_iff _ (near_iff H a b).symm

theorem byteFits_iff (ks : List K) (k : K) : ByteFits H ks k ↔ ApartAll H ks k ∧
    ∀ k' ∈ ks, ∀ d ∈ List.range (sharedLen H k k'), CollidesAt H ks k k' d → d < 240 := by
  refine ⟨fun h => ⟨h.1, fun k' _ d _ hc => h.2 k' d hc⟩, fun h => ⟨h.1, fun k' d hc => h.2 k' hc.1 d ?_ hc⟩⟩
  exact List.mem_range.2 (Nat.lt_of_succ_le (le_sharedLen.2 ⟨by have := hc.lt h.1; omega, hc.2.1⟩))

instance (ks : List K) (k : K) : Decidable (ByteFits H ks k) := decidable_of_iff _ (byteFits_iff H ks k).symm

theorem genFits_iff (isMod : Bool) (ks : List K) (k : K) : GenFits H isMod ks k ↔ ApartAll H ks k ∧
    ∀ k' ∈ ks, ∀ d ∈ List.range (sharedLen H k k'), CollidesAt H ks k k' d →
      if isMod then GenModOk H k k' d else GenOk H k k' d := by
  refine ⟨fun h => ⟨h.1, fun k' _ d _ hc => h.2 k' d hc⟩, fun h => ⟨h.1, fun k' d hc => h.2 k' hc.1 d ?_ hc⟩⟩
  exact List.mem_range.2 (Nat.lt_of_succ_le (le_sharedLen.2 ⟨by have := hc.lt h.1; omega, hc.2.1⟩))

instance (isMod : Bool) (ks : List K) (k : K) : Decidable (GenFits H isMod ks k) :=
  decidable_of_iff _ (genFits_iff H isMod ks k).symm

theorem intSafe_iff (H : BitVec 64 → Nat → BitVec 64) (ks : List (BitVec 64)) (k : BitVec 64) : IntSafe H ks k ↔
    ∀ k' ∈ ks, Near H k k' ∧ (List.range (sharedLen H k k')).all
      (fun j => decide (j = 0) || !(upper k').getLsbD (nibble H k j)) = true := by
  simp only [List.all_eq_true, List.mem_range, Bool.or_eq_true, decide_eq_true_eq, Bool.not_eq_true']
  constructor
  · intro h k' hk'
    refine ⟨(h k' hk').1, fun j hj => ?_⟩
    by_cases h0 : j = 0
    · exact Or.inl h0
    · refine Or.inr ((h k' hk').2 ?_ j (by omega) (le_sharedLen.1 (Nat.succ_le_of_lt hj)).2)
      rintro rfl
      obtain ⟨i, hi, hne⟩ := (h k hk').1
      exact hne rfl
  · intro h k' hk'
    refine ⟨(h k' hk').1, fun _ j h1 h2 => ?_⟩
    refine ((h k' hk').2 j (Nat.lt_of_succ_le (le_sharedLen.2 ⟨?_, h2⟩))).resolve_left (by omega)
    obtain ⟨i, hi, hne⟩ := (h k' hk').1
    exact Nat.le_of_not_lt fun hd => hne (h2 i (by omega))

instance (H : BitVec 64 → Nat → BitVec 64) (ks : List (BitVec 64)) (k : BitVec 64) : Decidable (IntSafe H ks k) :=
  @decidable_of_iff _ _ (intSafe_iff H ks k).symm (List.decidableBAll _ _)

instance (H : BitVec 64 → Nat → BitVec 64) (ks : List (BitVec 64)) (k : BitVec 64) : Decidable (IntSmall H ks k) :=
  inferInstanceAs (Decidable (_ ∧ _))

instance decEachNew (P : Bool → List K → K → Prop) [∀ b ks k, Decidable (P b ks k)] :
    (ks : List K) → (ops : List (MOp K V)) → Decidable (EachNew P ks ops)
  | _, [] => isTrue trivial
  | ks, op :: ops =>
    have := decEachNew P (op.after ks) ops
    inferInstanceAs (Decidable ((∀ k ∈ op.stores, k ∉ ks → P op.isMod ks k) ∧ EachNew P (op.after ks) ops))

/-- The condition on the insertions of a set history, computed with the plain elements. -/
def SEachNew' (P : List K → K → Prop) : List K → List (SOp K) → Prop
  | _, [] => True
  | ks, op :: ops => (∀ k ∈ op.stores, k ∉ ks → P ks k) ∧ SEachNew' P (op.after ks) ops

instance decSEachNew (P : List K → K → Prop) [∀ ks k, Decidable (P ks k)] :
    (ks : List K) → (ops : List (SOp K)) → Decidable (SEachNew' P ks ops)
  | _, [] => isTrue trivial
  | ks, op :: ops =>
    have := decSEachNew P (op.after ks) ops
    inferInstanceAs (Decidable ((∀ k ∈ op.stores, k ∉ ks → P ks k) ∧ SEachNew' P (op.after ks) ops))

theorem SEachNew'.toX {P : List K → K → Prop} {ks : List K} {ops : List (SOp K)} (h : SEachNew' P ks ops) :
    SEachNew H false P ks ops := by
  induction ops generalizing ks with
  | nil => trivial
  | cons op ops ih =>
    refine ⟨h.1, ?_⟩
    have : op.afterX H false ks = op.after ks := by cases op <;> rfl
    rw [this]; exact ih h.2

theorem SEachNew'.toX_of_no_del {P : List K → K → Prop} {ks : List K} {ops : List (SOp K)} (h : SEachNew' P ks ops)
    (hd : ∀ k, .del k ∉ ops) : SEachNew H true P ks ops := by
  induction ops generalizing ks with
  | nil => trivial
  | cons op ops ih =>
    refine ⟨h.1, ?_⟩
    have : op.afterX H true ks = op.after ks := by
      cases op with
      | del k => exact absurd (by simp) (hd k)
      | _ => rfl
    rw [this]; exact ih h.2 fun k hk => hd k (by simp [hk])

end

end Spec

namespace Amt
open Spec

deriving instance DecidableEq for Spec.MOut
deriving instance DecidableEq for Spec.SOut
deriving instance DecidableEq for Except

/-- A toy hash for the examples: the first eight bytes written, little-endian.  The nibbles of a key are then
those of its bytes, low nibble first. -/
def toyHash : Maphash := fun _ bs => BitVec.ofNat 64 ((bs.take 8).foldr (fun b n => b.toNat + 256 * n) 0)

/-- A key type for the generic containers: numbers whose digest is the number itself for `iter = 0` and
zero for every later `iter`. -/
def onceKey : KeyImpl Nat where
  equal a b := decide (a = b)
  hash k _ i := if i = 0 then BitVec.ofNat 64 k else 0#64

/-- A key type whose digest does not depend on `iter`. -/
def constKey : KeyImpl Nat where
  equal a b := decide (a = b)
  hash k _ _ := BitVec.ofNat 64 k

/-! ### Histories -/

/-- Keys that share one or two nibbles: inserted, modified, deleted, inserted again. -/
def exOps {K : Type} (key : UInt8 → K) : List (MOp K Nat) :=
  [.set (key 0x01) 1, .set (key 0x11) 2, .set (key 0x02) 3, .mod (key 0x21) (fun v b => if b then v + 1 else 10),
   .mod (key 0x01) (fun v b => if b then v + 1 else 10), .del (key 0x11), .del (key 0x41), .write (key 0x02) 30,
   .all fun log _ v => (v + 100, decide (log.length < 1)), .set (key 0x11) 4, .dep, .len]

def exOpsS {K : Type} (key : UInt8 → K) : List (SOp K) :=
  [.add (key 0x01), .add (key 0x11), .add (key 0x02), .del (key 0x11), .del (key 0x41), .add (key 0x21),
   .all fun log _ => decide (log.length < 1), .add (key 0x11), .dep, .len]

/-- As byte strings. -/
def strKey (b : UInt8) : ByteStr := [b]

/-- As integers in `[0, 2^32)`. -/
def intKey (b : UInt8) : IntKey := BitVec.ofNat 64 b.toNat

/-- As integers with bits set above the low 32 (but none that spoils the histories above). -/
def highKey (b : UInt8) : IntKey := BitVec.ofNat 64 (b.toNat + 2 ^ 36)

theorem exOps_str : EachNew (fun _ => ByteFits (byteStream toyHash 0#64 id)) [] (exOps strKey) := by decide +kernel

theorem exOps_arr : EachNew (fun _ => ByteFits (byteStream toyHash 0#64 fun b : UInt8 => [b])) [] (exOps id) := by
  decide +kernel

theorem exOps_int : EachNew (fun _ => IntSafe (byteStream toyHash 0#64 intbytes)) [] (exOps highKey) := by decide +kernel

theorem exOps_int32 : EachNew (fun _ => IntSmall (byteStream toyHash 0#64 intbytes)) [] (exOps intKey) := by decide +kernel

theorem exOps_gen : EachNew (GenFits fun k n => onceKey.hash k 0#64 n) [] (exOps UInt8.toNat) := by decide +kernel

theorem exOpsS_str : SEachNew (byteStream toyHash 0#64 id) false (ByteFits (byteStream toyHash 0#64 id)) [] (exOpsS strKey) :=
  SEachNew'.toX _ (by decide +kernel)

theorem exOpsS_bytes : SEachNew (byteStream toyHash 0#64 id) true (ByteFits (byteStream toyHash 0#64 id)) [] (exOpsS strKey) :=
  Separated.seachNew fun a b ha hb hab => by
    have h : ∀ a ∈ [strKey 0x01, strKey 0x11, strKey 0x02, strKey 0x21], ∀ b ∈ [strKey 0x01, strKey 0x11, strKey 0x02, strKey 0x21],
      a ≠ b → Near (byteStream toyHash 0#64 id) a b := by decide +kernel
    refine h a ?_ b ?_ hab
    · obtain ⟨op, h1, h2⟩ := ha
      simp only [exOpsS, List.mem_cons, List.not_mem_nil, or_false] at h1
      rcases h1 with rfl | rfl | rfl | rfl | rfl | rfl | rfl | rfl | rfl | rfl <;> simp [SOp.stores] at h2 <;> simp [h2]
    · obtain ⟨op, h1, h2⟩ := hb
      simp only [exOpsS, List.mem_cons, List.not_mem_nil, or_false] at h1
      rcases h1 with rfl | rfl | rfl | rfl | rfl | rfl | rfl | rfl | rfl | rfl <;> simp [SOp.stores] at h2 <;> simp [h2]

theorem exOpsS_arr : SEachNew (byteStream toyHash 0#64 fun b : UInt8 => [b]) false
    (ByteFits (byteStream toyHash 0#64 fun b : UInt8 => [b])) [] (exOpsS id) := SEachNew'.toX _ (by decide +kernel)

theorem exOpsS_int : SEachNew (byteStream toyHash 0#64 intbytes) false (IntSafe (byteStream toyHash 0#64 intbytes)) []
    (exOpsS highKey) := SEachNew'.toX _ (by decide +kernel)

theorem exOpsS_int32 : SEachNew (byteStream toyHash 0#64 intbytes) false (IntSmall (byteStream toyHash 0#64 intbytes)) []
    (exOpsS intKey) := SEachNew'.toX _ (by decide +kernel)

theorem exOpsS_gen : SEachNew (fun k n => onceKey.hash k 0#64 n) false (GenFits (fun k n => onceKey.hash k 0#64 n) false) []
    (exOpsS UInt8.toNat) := SEachNew'.toX _ (by decide +kernel)

end Amt
