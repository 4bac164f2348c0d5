/-
Addresses do not matter to the methods of ArrMap, IntMap and Map.
-/
import Verif.ParNat

set_option linter.unusedVariables false
set_option linter.unusedSectionVars false

namespace Amt.Par
open Amt
open Rn (mp)

theorem ArrMap.Ptr_nat {K V : Type} [DecidableEq K] [Inhabited V] (f : Nat → Nat) (sum : Maphash) (keyBytes : K → List UInt8) (fuel : Nat) (m : Handle) (key : K) : Nrel f (ArrMap.Ptr sum keyBytes fuel m key : T K V Amt.Ptr) (ArrMap.Ptr sum keyBytes fuel (mp f m) key) := by
  unfold ArrMap.Ptr
  dsimp only
  repeat' nat_step

theorem ArrMap.Get_nat {K V : Type} [DecidableEq K] [Inhabited V] (f : Nat → Nat) (sum : Maphash) (keyBytes : K → List UInt8) (fuel : Nat) (m : Handle) (key : K) : Nrel f (ArrMap.Get sum keyBytes fuel m key : T K V (V × Bool)) (ArrMap.Get sum keyBytes fuel (mp f m) key) := by
  unfold ArrMap.Get
  dsimp only
  repeat' (first | exact ArrMap.Ptr_nat f _ _ _ _ _ | nat_step)

theorem ArrMap.Val_nat {K V : Type} [DecidableEq K] [Inhabited V] (f : Nat → Nat) (sum : Maphash) (keyBytes : K → List UInt8) (fuel : Nat) (m : Handle) (key : K) : Nrel f (ArrMap.Val sum keyBytes fuel m key : T K V V) (ArrMap.Val sum keyBytes fuel (mp f m) key) := by
  unfold ArrMap.Val
  dsimp only
  mp_simp
  repeat' (first | exact ArrMap.Ptr_nat f _ _ _ _ _ | nat_step)

theorem ArrMap.Set_nat {K V : Type} [DecidableEq K] [Inhabited V] (f : Nat → Nat) (sum : Maphash) (keyBytes : K → List UInt8) (fuel : Nat) (m : Handle) (key : K) (value : V) : Nrel f (ArrMap.Set sum keyBytes fuel m key value : T K V Unit) (ArrMap.Set sum keyBytes fuel (mp f m) key value) := by
  unfold ArrMap.Set
  dsimp only
  repeat' nat_step

theorem ArrMap.Mod_nat {K V : Type} [DecidableEq K] [Inhabited V] {U : Type} [Rn U] (f : Nat → Nat) (sum : Maphash) (keyBytes : K → List UInt8) (fuel : Nat) (m : Handle) (key : K) {cb cb' : U → Amt.Ptr → Bool → T K V U} (hcb : ∀ a b c, Nrel f (cb a b c) (cb' (mp f a) (mp f b) c)) (u₀ : U) : Nrel f (ArrMap.Mod sum keyBytes fuel m key cb u₀ : T K V U) (ArrMap.Mod sum keyBytes fuel (mp f m) key cb' (mp f u₀)) := by
  unfold ArrMap.Mod
  dsimp only
  repeat' (first | exact hcb _ _ _ | nat_step)

theorem ArrMap.Del_nat {K V : Type} [DecidableEq K] [Inhabited V] (f : Nat → Nat) (sum : Maphash) (keyBytes : K → List UInt8) (fuel : Nat) (m : Handle) (key : K) (scratch : List PathLink) : Nrel f (ArrMap.Del sum keyBytes fuel m key scratch : T K V (List PathLink)) (ArrMap.Del sum keyBytes fuel (mp f m) key (mp f scratch)) := by
  unfold ArrMap.Del
  dsimp only
  repeat' nat_step

theorem ArrMap.arrScan_nat {K V U : Type} [Inhabited V] [Rn U] (f : Nat → Nat) {cb cb' : U → K → Amt.Ptr → T K V (U × Bool)} (hcb : ∀ a b c, Nrel f (cb a b c) (cb' (mp f a) b (mp f c))) :
    ∀ n u l, Nrel f (ArrMap.arrScan cb n u l) (ArrMap.arrScan cb' n (mp f u) (mp f l))
  | 0, _, _ => .fail _
  | n + 1, u, l => by
    have ih := ArrMap.arrScan_nat f hcb n
    unfold ArrMap.arrScan
    dsimp only
    repeat' (first | exact ih _ _ | exact hcb _ _ _ | nat_step)

theorem ArrMap.All_nat {K V : Type} [DecidableEq K] [Inhabited V] {U : Type} [Rn U] (f : Nat → Nat) (fuel : Nat) (m : Handle) {cb cb' : U → K → Amt.Ptr → T K V (U × Bool)} (hcb : ∀ a b c, Nrel f (cb a b c) (cb' (mp f a) b (mp f c))) (u : U) : Nrel f (ArrMap.All fuel m cb u : T K V U) (ArrMap.All fuel (mp f m) cb' (mp f u)) := by
  unfold ArrMap.All
  repeat' (first | exact ArrMap.arrScan_nat f hcb _ _ _ | nat_step)

theorem IntMap.Ptr_nat {V : Type} [Inhabited V] (f : Nat → Nat) (sum : Maphash) (fuel : Nat) (m : Handle) (key : IntKey) : Nrel f (IntMap.Ptr sum fuel m key : T IntKey V Amt.Ptr) (IntMap.Ptr sum fuel (mp f m) key) := by
  unfold IntMap.Ptr
  dsimp only
  repeat' nat_step

theorem IntMap.Get_nat {V : Type} [Inhabited V] (f : Nat → Nat) (sum : Maphash) (fuel : Nat) (m : Handle) (key : IntKey) : Nrel f (IntMap.Get sum fuel m key : T IntKey V (V × Bool)) (IntMap.Get sum fuel (mp f m) key) := by
  unfold IntMap.Get
  dsimp only
  repeat' (first | exact IntMap.Ptr_nat f _ _ _ _ | nat_step)

theorem IntMap.Val_nat {V : Type} [Inhabited V] (f : Nat → Nat) (sum : Maphash) (fuel : Nat) (m : Handle) (key : IntKey) : Nrel f (IntMap.Val sum fuel m key : T IntKey V V) (IntMap.Val sum fuel (mp f m) key) := by
  unfold IntMap.Val
  dsimp only
  mp_simp
  repeat' (first | exact IntMap.Ptr_nat f _ _ _ _ | nat_step)

theorem IntMap.Set_nat {V : Type} [Inhabited V] (f : Nat → Nat) (sum : Maphash) (fuel : Nat) (m : Handle) (key : IntKey) (value : V) : Nrel f (IntMap.Set sum fuel m key value : T IntKey V Unit) (IntMap.Set sum fuel (mp f m) key value) := by
  unfold IntMap.Set
  dsimp only
  repeat' nat_step

theorem IntMap.Mod_nat {V : Type} [Inhabited V] {U : Type} [Rn U] (f : Nat → Nat) (sum : Maphash) (fuel : Nat) (m : Handle) (key : IntKey) {cb cb' : U → Amt.Ptr → Bool → T IntKey V U} (hcb : ∀ a b c, Nrel f (cb a b c) (cb' (mp f a) (mp f b) c)) (u₀ : U) : Nrel f (IntMap.Mod sum fuel m key cb u₀ : T IntKey V U) (IntMap.Mod sum fuel (mp f m) key cb' (mp f u₀)) := by
  unfold IntMap.Mod
  dsimp only
  repeat' (first | exact hcb _ _ _ | nat_step)

theorem IntMap.Del_nat {V : Type} [Inhabited V] (f : Nat → Nat) (sum : Maphash) (fuel : Nat) (m : Handle) (key : IntKey) (scratch : List PathLink) : Nrel f (IntMap.Del sum fuel m key scratch : T IntKey V (List PathLink)) (IntMap.Del sum fuel (mp f m) key (mp f scratch)) := by
  unfold IntMap.Del
  dsimp only
  repeat' nat_step

theorem IntMap.intScan_nat {V U : Type} [Inhabited V] [Rn U] (f : Nat → Nat) {cb cb' : U → IntKey → Amt.Ptr → T IntKey V (U × Bool)} (hcb : ∀ a b c, Nrel f (cb a b c) (cb' (mp f a) b (mp f c))) :
    ∀ n u l, Nrel f (IntMap.intScan cb n u l) (IntMap.intScan cb' n (mp f u) (mp f l))
  | 0, _, _ => .fail _
  | n + 1, u, l => by
    have ih := IntMap.intScan_nat f hcb n
    unfold IntMap.intScan
    dsimp only
    repeat' (first | exact ih _ _ | exact hcb _ _ _ | nat_step)

theorem IntMap.All_nat {V : Type} [Inhabited V] {U : Type} [Rn U] (f : Nat → Nat) (fuel : Nat) (m : Handle) {cb cb' : U → IntKey → Amt.Ptr → T IntKey V (U × Bool)} (hcb : ∀ a b c, Nrel f (cb a b c) (cb' (mp f a) b (mp f c))) (u : U) : Nrel f (IntMap.All fuel m cb u : T IntKey V U) (IntMap.All fuel (mp f m) cb' (mp f u)) := by
  unfold IntMap.All
  repeat' (first | exact IntMap.intScan_nat f hcb _ _ _ | nat_step)

theorem Map.Ptr_nat {K V : Type} [Inhabited V] (f : Nat → Nat) (I : KeyImpl K) (fuel : Nat) (m : Handle) (key : K) : Nrel f (Map.Ptr I fuel m key : T K V Amt.Ptr) (Map.Ptr I fuel (mp f m) key) := by
  unfold Map.Ptr
  dsimp only
  repeat' nat_step

theorem Map.Get_nat {K V : Type} [Inhabited V] (f : Nat → Nat) (I : KeyImpl K) (fuel : Nat) (m : Handle) (key : K) : Nrel f (Map.Get I fuel m key : T K V (V × Bool)) (Map.Get I fuel (mp f m) key) := by
  unfold Map.Get
  dsimp only
  repeat' (first | exact Map.Ptr_nat f _ _ _ _ | nat_step)

theorem Map.Val_nat {K V : Type} [Inhabited V] (f : Nat → Nat) (I : KeyImpl K) (fuel : Nat) (m : Handle) (key : K) : Nrel f (Map.Val I fuel m key : T K V V) (Map.Val I fuel (mp f m) key) := by
  unfold Map.Val
  dsimp only
  mp_simp
  repeat' (first | exact Map.Ptr_nat f _ _ _ _ | nat_step)

theorem Map.Set_nat {K V : Type} [Inhabited V] (f : Nat → Nat) (I : KeyImpl K) (fuel : Nat) (m : Handle) (key : K) (value : V) : Nrel f (Map.Set I fuel m key value : T K V Unit) (Map.Set I fuel (mp f m) key value) := by
  unfold Map.Set
  dsimp only
  repeat' nat_step

theorem Map.Mod_nat {K V : Type} [Inhabited V] {U : Type} [Rn U] (f : Nat → Nat) (I : KeyImpl K) (fuel : Nat) (m : Handle) (key : K) {cb cb' : U → Amt.Ptr → Bool → T K V U} (hcb : ∀ a b c, Nrel f (cb a b c) (cb' (mp f a) (mp f b) c)) (u₀ : U) : Nrel f (Map.Mod I fuel m key cb u₀ : T K V U) (Map.Mod I fuel (mp f m) key cb' (mp f u₀)) := by
  unfold Map.Mod
  dsimp only
  repeat' (first | exact hcb _ _ _ | nat_step)

theorem Map.Del_nat {K V : Type} [Inhabited V] (f : Nat → Nat) (I : KeyImpl K) (fuel : Nat) (m : Handle) (key : K) (scratch : List PathLink) : Nrel f (Map.Del I fuel m key scratch : T K V (List PathLink)) (Map.Del I fuel (mp f m) key (mp f scratch)) := by
  unfold Map.Del
  dsimp only
  repeat' nat_step

theorem Map.mapScan_nat {K V U : Type} [Inhabited V] [Rn U] (f : Nat → Nat) {cb cb' : U → K → Amt.Ptr → T K V (U × Bool)} (hcb : ∀ a b c, Nrel f (cb a b c) (cb' (mp f a) b (mp f c))) :
    ∀ n u l, Nrel f (Map.mapScan cb n u l) (Map.mapScan cb' n (mp f u) (mp f l))
  | 0, _, _ => .fail _
  | n + 1, u, l => by
    have ih := Map.mapScan_nat f hcb n
    unfold Map.mapScan
    dsimp only
    repeat' (first | exact ih _ _ | exact hcb _ _ _ | nat_step)

theorem Map.All_nat {K V : Type} [Inhabited V] {U : Type} [Rn U] (f : Nat → Nat) (fuel : Nat) (m : Handle) {cb cb' : U → K → Amt.Ptr → T K V (U × Bool)} (hcb : ∀ a b c, Nrel f (cb a b c) (cb' (mp f a) b (mp f c))) (u : U) : Nrel f (Map.All fuel m cb u : T K V U) (Map.All fuel (mp f m) cb' (mp f u)) := by
  unfold Map.All
  repeat' (first | exact Map.mapScan_nat f hcb _ _ _ | nat_step)

end Amt.Par
