/-
The allocations of `Del`: at most one.
-/
import Verif.CostDel

set_option linter.unusedVariables false
set_option linter.unusedSectionVars false

namespace Amt.Par
open Amt

/-- Pay with the credit of one allocation until it is spent. -/
macro "pay_one" : tactic => `(tactic| (
  repeat' pay_step
  all_goals try first | exact Nat.zero_le _ | (dsimp only [Price.alloc]; omega)
  refine Pays.forIn _ _ (fun _ _ => 1) (fun _ => 0) (by dsimp only [Price.alloc]; omega) (fun _ _ => ?_) (fun _ => ?_)
  · repeat' (first
      | pay_step
      | (rw [andM_bind])
      | (refine Pays.forIn _ _ (fun _ _ => 1) (fun _ => 1) (by dsimp only [Price.alloc]; omega) (fun _ _ => ?_) (fun _ => ?_))
      | (refine Pays.forIn _ _ (fun _ _ => 0) (fun _ => 0) (Nat.zero_le _) (fun _ _ => ?_) (fun _ => ?_)))
    all_goals first | exact Nat.zero_le _ | omega | (dsimp only [Price.alloc]; omega)
  · split <;> exact Nat.zero_le _))

section
variable {K V : Type}

/-- A program that writes nothing allocates nothing. -/
theorem T.RO.allocs {α : Type} {t : T K V α} (h : t.RO) : t.Pays Price.alloc 0 fun _ => 0 := by
  induction t with
  | ret a => exact Nat.le_refl 0
  | fail e => trivial
  | load r k ih => exact ⟨Nat.le_refl 0, fun x => ih x (h x)⟩
  | loadKv r k ih => exact ⟨Nat.le_refl 0, fun x => ih x (h x)⟩
  | getRoot r k ih => exact ⟨Nat.le_refl 0, fun x => ih x (h x)⟩
  | store => exact h.elim
  | put => exact h.elim
  | alloc => exact h.elim
  | storeVal => exact h.elim
  | modRoot => exact h.elim

theorem ArrMap.Del_allocs [DecidableEq K] [Inhabited V] (sum : Maphash) (kb : K → List UInt8) (n h : Nat) (key : K) (scratch : List PathLink) : (ArrMap.Del (V := V) sum kb n (some h) key scratch).Pays Price.alloc 1 fun _ => 0 := by
  unfold ArrMap.Del
  dsimp only
  pay_one

theorem StringMap.Del_allocs [Inhabited V] (sum : Maphash) (n h : Nat) (key : ByteStr) (scratch : List PathLink) : (StringMap.Del (V := V) sum n (some h) key scratch).Pays Price.alloc 1 fun _ => 0 := by
  unfold StringMap.Del
  dsimp only
  pay_one

theorem BytesMap.Del_allocs [Inhabited V] (sum : Maphash) (n h : Nat) (key : ByteStr) (scratch : List PathLink) : (BytesMap.Del (V := V) sum n (some h) key scratch).Pays Price.alloc 1 fun _ => 0 := by
  unfold BytesMap.Del
  dsimp only
  pay_one

theorem IntMap.Del_allocs [Inhabited V] (sum : Maphash) (n h : Nat) (key : IntKey) (scratch : List PathLink) : (IntMap.Del (V := V) sum n (some h) key scratch).Pays Price.alloc 1 fun _ => 0 := by
  unfold IntMap.Del
  dsimp only
  pay_one

theorem Map.Del_allocs [Inhabited V] (I : KeyImpl K) (n h : Nat) (key : K) (scratch : List PathLink) : (Map.Del (V := V) I n (some h) key scratch).Pays Price.alloc 1 fun _ => 0 := by
  unfold Map.Del
  dsimp only
  pay_one

theorem ArrSet.Del_allocs [DecidableEq K] (sum : Maphash) (kb : K → List UInt8) (n h : Nat) (key : K) (scratch : List PathLink) : (ArrSet.Del sum kb n (some h) key scratch).Pays Price.alloc 1 fun _ => 0 := by
  unfold ArrSet.Del
  dsimp only
  pay_one

theorem StringSet.Del_allocs (sum : Maphash) (n h : Nat) (key : ByteStr) (scratch : List PathLink) : (StringSet.Del sum n (some h) key scratch).Pays Price.alloc 1 fun _ => 0 := by
  unfold StringSet.Del
  dsimp only
  pay_one

theorem BytesSet.Del_allocs (sum : Maphash) (n h : Nat) (key : ByteStr) (scratch : List PathLink) : (BytesSet.Del sum n (some h) key scratch).Pays Price.alloc 1 fun _ => 0 := by
  unfold BytesSet.Del
  dsimp only
  pay_one

theorem IntSet.Del_allocs (sum : Maphash) (n h : Nat) (key : IntKey) (scratch : List PathLink) : (IntSet.Del sum n (some h) key scratch).Pays Price.alloc 1 fun _ => 0 := by
  unfold IntSet.Del
  dsimp only
  pay_one

theorem Set.Del_allocs (I : KeyImpl K) (n h : Nat) (key : K) (scratch : List PathLink) : (Set.Del I n (some h) key scratch).Pays Price.alloc 1 fun _ => 0 := by
  unfold Set.Del
  dsimp only
  pay_one

end

end Amt.Par
