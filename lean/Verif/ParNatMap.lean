/-
Addresses do not matter to the methods of StringMap and BytesMap.
-/
import Verif.ParNat

set_option linter.unusedVariables false
set_option linter.unusedSectionVars false

namespace Amt.Par
open Amt
open Rn (mp)

theorem StringMap.Ptr_nat {V : Type} [Inhabited V] (f : Nat → Nat) (sum : Maphash) (fuel : Nat) (m : Handle) (key : ByteStr) : Nrel f (StringMap.Ptr sum fuel m key : T ByteStr V Amt.Ptr) (StringMap.Ptr sum fuel (mp f m) key) := by
  unfold StringMap.Ptr
  dsimp only
  repeat' nat_step

theorem StringMap.Get_nat {V : Type} [Inhabited V] (f : Nat → Nat) (sum : Maphash) (fuel : Nat) (m : Handle) (key : ByteStr) : Nrel f (StringMap.Get sum fuel m key : T ByteStr V (V × Bool)) (StringMap.Get sum fuel (mp f m) key) := by
  unfold StringMap.Get
  dsimp only
  repeat' (first | exact StringMap.Ptr_nat f _ _ _ _ | nat_step)

theorem StringMap.Val_nat {V : Type} [Inhabited V] (f : Nat → Nat) (sum : Maphash) (fuel : Nat) (m : Handle) (key : ByteStr) : Nrel f (StringMap.Val sum fuel m key : T ByteStr V V) (StringMap.Val sum fuel (mp f m) key) := by
  unfold StringMap.Val
  dsimp only
  mp_simp
  repeat' (first | exact StringMap.Ptr_nat f _ _ _ _ | nat_step)

theorem StringMap.Set_nat {V : Type} [Inhabited V] (f : Nat → Nat) (sum : Maphash) (fuel : Nat) (m : Handle) (key : ByteStr) (value : V) : Nrel f (StringMap.Set sum fuel m key value : T ByteStr V Unit) (StringMap.Set sum fuel (mp f m) key value) := by
  unfold StringMap.Set
  dsimp only
  repeat' nat_step

theorem StringMap.Mod_nat {V : Type} [Inhabited V] {U : Type} [Rn U] (f : Nat → Nat) (sum : Maphash) (fuel : Nat) (m : Handle) (key : ByteStr) {cb cb' : U → Amt.Ptr → Bool → T ByteStr V U} (hcb : ∀ a b c, Nrel f (cb a b c) (cb' (mp f a) (mp f b) c)) (u₀ : U) : Nrel f (StringMap.Mod sum fuel m key cb u₀ : T ByteStr V U) (StringMap.Mod sum fuel (mp f m) key cb' (mp f u₀)) := by
  unfold StringMap.Mod
  dsimp only
  repeat' (first | exact hcb _ _ _ | nat_step)

theorem StringMap.Del_nat {V : Type} [Inhabited V] (f : Nat → Nat) (sum : Maphash) (fuel : Nat) (m : Handle) (key : ByteStr) (scratch : List PathLink) : Nrel f (StringMap.Del sum fuel m key scratch : T ByteStr V (List PathLink)) (StringMap.Del sum fuel (mp f m) key (mp f scratch)) := by
  unfold StringMap.Del
  dsimp only
  repeat' nat_step

theorem StringMap.stringScan_nat {V U : Type} [Inhabited V] [Rn U] (f : Nat → Nat) {cb cb' : U → ByteStr → Amt.Ptr → T ByteStr V (U × Bool)} (hcb : ∀ a b c, Nrel f (cb a b c) (cb' (mp f a) b (mp f c))) :
    ∀ n u l, Nrel f (StringMap.stringScan cb n u l) (StringMap.stringScan cb' n (mp f u) (mp f l))
  | 0, _, _ => .fail _
  | n + 1, u, l => by
    have ih := StringMap.stringScan_nat f hcb n
    unfold StringMap.stringScan
    dsimp only
    repeat' (first | exact ih _ _ | exact hcb _ _ _ | nat_step)

theorem StringMap.All_nat {V : Type} [Inhabited V] {U : Type} [Rn U] (f : Nat → Nat) (fuel : Nat) (m : Handle) {cb cb' : U → ByteStr → Amt.Ptr → T ByteStr V (U × Bool)} (hcb : ∀ a b c, Nrel f (cb a b c) (cb' (mp f a) b (mp f c))) (u : U) : Nrel f (StringMap.All fuel m cb u : T ByteStr V U) (StringMap.All fuel (mp f m) cb' (mp f u)) := by
  unfold StringMap.All
  repeat' (first | exact StringMap.stringScan_nat f hcb _ _ _ | nat_step)

theorem BytesMap.Ptr_nat {V : Type} [Inhabited V] (f : Nat → Nat) (sum : Maphash) (fuel : Nat) (m : Handle) (key : ByteStr) : Nrel f (BytesMap.Ptr sum fuel m key : T ByteStr V Amt.Ptr) (BytesMap.Ptr sum fuel (mp f m) key) := by
  unfold BytesMap.Ptr
  dsimp only
  repeat' nat_step

theorem BytesMap.Get_nat {V : Type} [Inhabited V] (f : Nat → Nat) (sum : Maphash) (fuel : Nat) (m : Handle) (key : ByteStr) : Nrel f (BytesMap.Get sum fuel m key : T ByteStr V (V × Bool)) (BytesMap.Get sum fuel (mp f m) key) := by
  unfold BytesMap.Get
  dsimp only
  repeat' (first | exact BytesMap.Ptr_nat f _ _ _ _ | nat_step)

theorem BytesMap.Val_nat {V : Type} [Inhabited V] (f : Nat → Nat) (sum : Maphash) (fuel : Nat) (m : Handle) (key : ByteStr) : Nrel f (BytesMap.Val sum fuel m key : T ByteStr V V) (BytesMap.Val sum fuel (mp f m) key) := by
  unfold BytesMap.Val
  dsimp only
  mp_simp
  repeat' (first | exact BytesMap.Ptr_nat f _ _ _ _ | nat_step)

theorem BytesMap.Set_nat {V : Type} [Inhabited V] (f : Nat → Nat) (sum : Maphash) (fuel : Nat) (m : Handle) (key : ByteStr) (value : V) : Nrel f (BytesMap.Set sum fuel m key value : T ByteStr V Unit) (BytesMap.Set sum fuel (mp f m) key value) := by
  unfold BytesMap.Set
  dsimp only
  repeat' nat_step

theorem BytesMap.Mod_nat {V : Type} [Inhabited V] {U : Type} [Rn U] (f : Nat → Nat) (sum : Maphash) (fuel : Nat) (m : Handle) (key : ByteStr) {cb cb' : U → Amt.Ptr → Bool → T ByteStr V U} (hcb : ∀ a b c, Nrel f (cb a b c) (cb' (mp f a) (mp f b) c)) (u₀ : U) : Nrel f (BytesMap.Mod sum fuel m key cb u₀ : T ByteStr V U) (BytesMap.Mod sum fuel (mp f m) key cb' (mp f u₀)) := by
  unfold BytesMap.Mod
  dsimp only
  repeat' (first | exact hcb _ _ _ | nat_step)

theorem BytesMap.Del_nat {V : Type} [Inhabited V] (f : Nat → Nat) (sum : Maphash) (fuel : Nat) (m : Handle) (key : ByteStr) (scratch : List PathLink) : Nrel f (BytesMap.Del sum fuel m key scratch : T ByteStr V (List PathLink)) (BytesMap.Del sum fuel (mp f m) key (mp f scratch)) := by
  unfold BytesMap.Del
  dsimp only
  repeat' nat_step

theorem BytesMap.bytesScan_nat {V U : Type} [Inhabited V] [Rn U] (f : Nat → Nat) {cb cb' : U → ByteStr → Amt.Ptr → T ByteStr V (U × Bool)} (hcb : ∀ a b c, Nrel f (cb a b c) (cb' (mp f a) b (mp f c))) :
    ∀ n u l, Nrel f (BytesMap.bytesScan cb n u l) (BytesMap.bytesScan cb' n (mp f u) (mp f l))
  | 0, _, _ => .fail _
  | n + 1, u, l => by
    have ih := BytesMap.bytesScan_nat f hcb n
    unfold BytesMap.bytesScan
    dsimp only
    repeat' (first | exact ih _ _ | exact hcb _ _ _ | nat_step)

theorem BytesMap.All_nat {V : Type} [Inhabited V] {U : Type} [Rn U] (f : Nat → Nat) (fuel : Nat) (m : Handle) {cb cb' : U → ByteStr → Amt.Ptr → T ByteStr V (U × Bool)} (hcb : ∀ a b c, Nrel f (cb a b c) (cb' (mp f a) b (mp f c))) (u : U) : Nrel f (BytesMap.All fuel m cb u : T ByteStr V U) (BytesMap.All fuel (mp f m) cb' (mp f u)) := by
  unfold BytesMap.All
  repeat' (first | exact BytesMap.bytesScan_nat f hcb _ _ _ | nat_step)

end Amt.Par
