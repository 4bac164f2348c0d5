/-
Addresses do not matter to the methods of the sets.
-/
import Verif.ParNat

set_option linter.unusedVariables false
set_option linter.unusedSectionVars false

namespace Amt.Par
open Amt
open Rn (mp)

theorem StringSet.Has_nat (f : Nat → Nat) (sum : Maphash) (fuel : Nat) (s : Handle) (key : ByteStr) : Nrel f (StringSet.Has sum fuel s key : T ByteStr Unit Bool) (StringSet.Has sum fuel (mp f s) key) := by
  unfold StringSet.Has
  dsimp only
  repeat' nat_step

theorem StringSet.Add_nat (f : Nat → Nat) (sum : Maphash) (fuel : Nat) (s : Handle) (key : ByteStr) : Nrel f (StringSet.Add sum fuel s key : T ByteStr Unit Unit) (StringSet.Add sum fuel (mp f s) key) := by
  unfold StringSet.Add
  dsimp only
  repeat' nat_step

theorem StringSet.Del_nat (f : Nat → Nat) (sum : Maphash) (fuel : Nat) (s : Handle) (key : ByteStr) (scratch : List PathLink) : Nrel f (StringSet.Del sum fuel s key scratch : T ByteStr Unit (List PathLink)) (StringSet.Del sum fuel (mp f s) key (mp f scratch)) := by
  unfold StringSet.Del
  dsimp only
  repeat' nat_step

theorem StringSet.stringSetScan_nat {U : Type} [Rn U] (f : Nat → Nat) {cb cb' : U → ByteStr → T ByteStr Unit (U × Bool)} (hcb : ∀ a b, Nrel f (cb a b) (cb' (mp f a) b)) :
    ∀ n u l, Nrel f (StringSet.stringSetScan cb n u l) (StringSet.stringSetScan cb' n (mp f u) (mp f l))
  | 0, _, _ => .fail _
  | n + 1, u, l => by
    have ih := StringSet.stringSetScan_nat f hcb n
    unfold StringSet.stringSetScan
    dsimp only
    repeat' (first | exact ih _ _ | exact hcb _ _ | nat_step)

theorem StringSet.All_nat {U : Type} [Rn U] (f : Nat → Nat) (fuel : Nat) (s : Handle) {cb cb' : U → ByteStr → T ByteStr Unit (U × Bool)} (hcb : ∀ a b, Nrel f (cb a b) (cb' (mp f a) b)) (u : U) : Nrel f (StringSet.All fuel s cb u : T ByteStr Unit U) (StringSet.All fuel (mp f s) cb' (mp f u)) := by
  unfold StringSet.All
  repeat' (first | exact StringSet.stringSetScan_nat f hcb _ _ _ | nat_step)

theorem BytesSet.Has_nat (f : Nat → Nat) (sum : Maphash) (fuel : Nat) (s : Handle) (key : ByteStr) : Nrel f (BytesSet.Has sum fuel s key : T ByteStr Unit Bool) (BytesSet.Has sum fuel (mp f s) key) := by
  unfold BytesSet.Has
  dsimp only
  repeat' nat_step

theorem BytesSet.Add_nat (f : Nat → Nat) (sum : Maphash) (fuel : Nat) (s : Handle) (key : ByteStr) : Nrel f (BytesSet.Add sum fuel s key : T ByteStr Unit Unit) (BytesSet.Add sum fuel (mp f s) key) := by
  unfold BytesSet.Add
  dsimp only
  repeat' nat_step

theorem BytesSet.Del_nat (f : Nat → Nat) (sum : Maphash) (fuel : Nat) (s : Handle) (key : ByteStr) (scratch : List PathLink) : Nrel f (BytesSet.Del sum fuel s key scratch : T ByteStr Unit (List PathLink)) (BytesSet.Del sum fuel (mp f s) key (mp f scratch)) := by
  unfold BytesSet.Del
  dsimp only
  repeat' nat_step

theorem BytesSet.bytesSetScan_nat {U : Type} [Rn U] (f : Nat → Nat) {cb cb' : U → ByteStr → T ByteStr Unit (U × Bool)} (hcb : ∀ a b, Nrel f (cb a b) (cb' (mp f a) b)) :
    ∀ n u l, Nrel f (BytesSet.bytesSetScan cb n u l) (BytesSet.bytesSetScan cb' n (mp f u) (mp f l))
  | 0, _, _ => .fail _
  | n + 1, u, l => by
    have ih := BytesSet.bytesSetScan_nat f hcb n
    unfold BytesSet.bytesSetScan
    dsimp only
    repeat' (first | exact ih _ _ | exact hcb _ _ | nat_step)

theorem BytesSet.All_nat {U : Type} [Rn U] (f : Nat → Nat) (fuel : Nat) (s : Handle) {cb cb' : U → ByteStr → T ByteStr Unit (U × Bool)} (hcb : ∀ a b, Nrel f (cb a b) (cb' (mp f a) b)) (u : U) : Nrel f (BytesSet.All fuel s cb u : T ByteStr Unit U) (BytesSet.All fuel (mp f s) cb' (mp f u)) := by
  unfold BytesSet.All
  repeat' (first | exact BytesSet.bytesSetScan_nat f hcb _ _ _ | nat_step)

theorem ArrSet.Has_nat {K : Type} [DecidableEq K] (f : Nat → Nat) (sum : Maphash) (keyBytes : K → List UInt8) (fuel : Nat) (s : Handle) (key : K) : Nrel f (ArrSet.Has sum keyBytes fuel s key : T K Unit Bool) (ArrSet.Has sum keyBytes fuel (mp f s) key) := by
  unfold ArrSet.Has
  dsimp only
  repeat' nat_step

theorem ArrSet.Add_nat {K : Type} [DecidableEq K] (f : Nat → Nat) (sum : Maphash) (keyBytes : K → List UInt8) (fuel : Nat) (s : Handle) (key : K) : Nrel f (ArrSet.Add sum keyBytes fuel s key : T K Unit Unit) (ArrSet.Add sum keyBytes fuel (mp f s) key) := by
  unfold ArrSet.Add
  dsimp only
  repeat' nat_step

theorem ArrSet.Del_nat {K : Type} [DecidableEq K] (f : Nat → Nat) (sum : Maphash) (keyBytes : K → List UInt8) (fuel : Nat) (s : Handle) (key : K) (scratch : List PathLink) : Nrel f (ArrSet.Del sum keyBytes fuel s key scratch : T K Unit (List PathLink)) (ArrSet.Del sum keyBytes fuel (mp f s) key (mp f scratch)) := by
  unfold ArrSet.Del
  dsimp only
  repeat' nat_step

theorem ArrSet.arrSetScan_nat {K U : Type} [Rn U] (f : Nat → Nat) {cb cb' : U → K → T K Unit (U × Bool)} (hcb : ∀ a b, Nrel f (cb a b) (cb' (mp f a) b)) :
    ∀ n u l, Nrel f (ArrSet.arrSetScan cb n u l) (ArrSet.arrSetScan cb' n (mp f u) (mp f l))
  | 0, _, _ => .fail _
  | n + 1, u, l => by
    have ih := ArrSet.arrSetScan_nat f hcb n
    unfold ArrSet.arrSetScan
    dsimp only
    repeat' (first | exact ih _ _ | exact hcb _ _ | nat_step)

theorem ArrSet.All_nat {K : Type} [DecidableEq K] {U : Type} [Rn U] (f : Nat → Nat) (fuel : Nat) (s : Handle) {cb cb' : U → K → T K Unit (U × Bool)} (hcb : ∀ a b, Nrel f (cb a b) (cb' (mp f a) b)) (u : U) : Nrel f (ArrSet.All fuel s cb u : T K Unit U) (ArrSet.All fuel (mp f s) cb' (mp f u)) := by
  unfold ArrSet.All
  repeat' (first | exact ArrSet.arrSetScan_nat f hcb _ _ _ | nat_step)

theorem IntSet.Has_nat (f : Nat → Nat) (sum : Maphash) (fuel : Nat) (s : Handle) (key : IntKey) : Nrel f (IntSet.Has sum fuel s key : T IntKey Unit Bool) (IntSet.Has sum fuel (mp f s) key) := by
  unfold IntSet.Has
  dsimp only
  repeat' nat_step

theorem IntSet.Add_nat (f : Nat → Nat) (sum : Maphash) (fuel : Nat) (s : Handle) (key : IntKey) : Nrel f (IntSet.Add sum fuel s key : T IntKey Unit Unit) (IntSet.Add sum fuel (mp f s) key) := by
  unfold IntSet.Add
  dsimp only
  repeat' nat_step

theorem IntSet.Del_nat (f : Nat → Nat) (sum : Maphash) (fuel : Nat) (s : Handle) (key : IntKey) (scratch : List PathLink) : Nrel f (IntSet.Del sum fuel s key scratch : T IntKey Unit (List PathLink)) (IntSet.Del sum fuel (mp f s) key (mp f scratch)) := by
  unfold IntSet.Del
  dsimp only
  repeat' nat_step

theorem IntSet.intSetScan_nat {U : Type} [Rn U] (f : Nat → Nat) {cb cb' : U → IntKey → T IntKey Unit (U × Bool)} (hcb : ∀ a b, Nrel f (cb a b) (cb' (mp f a) b)) :
    ∀ n u l, Nrel f (IntSet.intSetScan cb n u l) (IntSet.intSetScan cb' n (mp f u) (mp f l))
  | 0, _, _ => .fail _
  | n + 1, u, l => by
    have ih := IntSet.intSetScan_nat f hcb n
    unfold IntSet.intSetScan
    dsimp only
    repeat' (first | exact ih _ _ | exact hcb _ _ | nat_step)

theorem IntSet.All_nat {U : Type} [Rn U] (f : Nat → Nat) (fuel : Nat) (s : Handle) {cb cb' : U → IntKey → T IntKey Unit (U × Bool)} (hcb : ∀ a b, Nrel f (cb a b) (cb' (mp f a) b)) (u : U) : Nrel f (IntSet.All fuel s cb u : T IntKey Unit U) (IntSet.All fuel (mp f s) cb' (mp f u)) := by
  unfold IntSet.All
  repeat' (first | exact IntSet.intSetScan_nat f hcb _ _ _ | nat_step)

theorem Set.Has_nat {K : Type} (f : Nat → Nat) (I : KeyImpl K) (fuel : Nat) (s : Handle) (key : K) : Nrel f (Set.Has I fuel s key : T K Unit Bool) (Set.Has I fuel (mp f s) key) := by
  unfold Set.Has
  dsimp only
  repeat' nat_step

theorem Set.Add_nat {K : Type} (f : Nat → Nat) (I : KeyImpl K) (fuel : Nat) (s : Handle) (key : K) : Nrel f (Set.Add I fuel s key : T K Unit Unit) (Set.Add I fuel (mp f s) key) := by
  unfold Set.Add
  dsimp only
  repeat' nat_step

theorem Set.Del_nat {K : Type} (f : Nat → Nat) (I : KeyImpl K) (fuel : Nat) (s : Handle) (key : K) (scratch : List PathLink) : Nrel f (Set.Del I fuel s key scratch : T K Unit (List PathLink)) (Set.Del I fuel (mp f s) key (mp f scratch)) := by
  unfold Set.Del
  dsimp only
  repeat' nat_step

theorem Set.setScan_nat {K U : Type} [Rn U] (f : Nat → Nat) {cb cb' : U → K → T K Unit (U × Bool)} (hcb : ∀ a b, Nrel f (cb a b) (cb' (mp f a) b)) :
    ∀ n u l, Nrel f (Set.setScan cb n u l) (Set.setScan cb' n (mp f u) (mp f l))
  | 0, _, _ => .fail _
  | n + 1, u, l => by
    have ih := Set.setScan_nat f hcb n
    unfold Set.setScan
    dsimp only
    repeat' (first | exact ih _ _ | exact hcb _ _ | nat_step)

theorem Set.All_nat {K : Type} {U : Type} [Rn U] (f : Nat → Nat) (fuel : Nat) (s : Handle) {cb cb' : U → K → T K Unit (U × Bool)} (hcb : ∀ a b, Nrel f (cb a b) (cb' (mp f a) b)) (u : U) : Nrel f (Set.All fuel s cb u : T K Unit U) (Set.All fuel (mp f s) cb' (mp f u)) := by
  unfold Set.All
  repeat' (first | exact Set.setScan_nat f hcb _ _ _ | nat_step)

end Amt.Par
