/-
Programs that only read, and the methods that do.
-/
import Verif.ParDen

set_option linter.unusedVariables false

namespace Amt.Par
open Amt

section
variable {K V α β : Type}

/-- No access is a write or an allocation, whatever is read. -/
def T.RO : T K V α → Prop
  | .ret _ => True
  | .fail _ => True
  | .load _ k => ∀ x, (k x).RO
  | .loadKv _ k => ∀ x, (k x).RO
  | .getRoot _ k => ∀ x, (k x).RO
  | .store .. => False
  | .put .. => False
  | .alloc .. => False
  | .storeVal .. => False
  | .modRoot .. => False

namespace RO

theorem bind {t : T K V α} {f : α → T K V β} (h : t.RO) (hf : ∀ a, (f a).RO) : (t >>= f).RO := by
  show (T.bind t f).RO
  induction t with
  | ret a => exact hf a
  | fail e => trivial
  | load r k ih => exact fun x => ih x (h x)
  | loadKv r k ih => exact fun x => ih x (h x)
  | getRoot r k ih => exact fun x => ih x (h x)
  | store => exact h.elim
  | put => exact h.elim
  | alloc => exact h.elim
  | storeVal => exact h.elim
  | modRoot => exact h.elim

theorem pure (a : α) : T.RO (K := K) (V := V) (Pure.pure a) := trivial
theorem fail (e : Fault) : T.RO (K := K) (V := V) (α := α) (T.fail e) := trivial
theorem load (r : Ref) : T.RO (K := K) (V := V) (Par.load r) := fun _ _ _ => trivial
theorem loadKv (p : Ptr) : T.RO (K := K) (V := V) (Par.loadKv p) := fun _ => trivial
theorem getRoot (h : Nat) : T.RO (K := K) (V := V) (Par.getRoot h) := fun _ => trivial
theorem deref (m : Handle) : T.RO (K := K) (V := V) (Par.deref m) := by cases m <;> trivial

theorem ite {c : Prop} [Decidable c] {t t' : T K V α} (h : t.RO) (h' : t'.RO) : T.RO (if c then t else t') := by
  split <;> assumption

theorem loop {σ : Type} {f : σ → T K V (ForInStep σ)} (h : ∀ s, (f s).RO) : ∀ n s, (Par.loop f n s).RO
  | 0, _ => trivial
  | n + 1, s => bind (h s) fun r => by
    cases r with
    | done s => exact pure s
    | yield s => exact loop h n s

theorem forIn {σ : Type} {f : Unit → σ → T K V (ForInStep σ)} (h : ∀ u s, (f u s).RO) (b : Go.Budget) (s : σ) : T.RO (ForIn.forIn b s f) :=
  loop (h ()) b.n s

theorem kvKey (p : Ptr) : T.RO (K := K) (V := V) (Par.kvKey p) := bind (loadKv p) fun r => by
  cases r.1 <;> trivial

theorem kvVal (p : Ptr) : T.RO (K := K) (V := V) (Par.kvVal p) := bind (loadKv p) fun r => pure _

theorem fieldAddr (p : Ptr) : T.RO (K := K) (V := V) (Par.fieldAddr p) := by cases p <;> trivial

theorem andM {x y : T K V Bool} (h : x.RO) (h' : y.RO) : T.RO (Par.andM x y) := bind h fun _ => ite h' (pure _)

end RO
end

/-- Go through the program. -/
macro "ro_step" : tactic => `(tactic| first
  | with_reducible exact RO.pure _ | with_reducible exact RO.fail _ | with_reducible exact RO.load _ | with_reducible exact RO.getRoot _
  | with_reducible exact RO.deref _ | with_reducible exact RO.kvKey _ | with_reducible exact RO.kvVal _ | with_reducible exact RO.fieldAddr _
  | assumption
  | with_reducible refine RO.bind ?_ fun _ => ?_
  | with_reducible refine RO.ite ?_ ?_
  | with_reducible refine RO.forIn (fun _ _ => ?_) _ _
  | with_reducible refine RO.andM ?_ ?_
  | split)

/-! ### The ten files -/

theorem StringMap.Ptr_ro {V : Type} [Inhabited V] (sum : Maphash) (fuel : Nat) (m : Handle) (key : ByteStr) : T.RO (StringMap.Ptr sum fuel m key : T ByteStr V Amt.Ptr) := by
  unfold StringMap.Ptr
  dsimp only
  repeat' ro_step

theorem StringMap.Get_ro {V : Type} [Inhabited V] (sum : Maphash) (fuel : Nat) (m : Handle) (key : ByteStr) : T.RO (StringMap.Get sum fuel m key : T ByteStr V (V × Bool)) := by
  unfold StringMap.Get
  dsimp only
  repeat' (first | exact StringMap.Ptr_ro _ _ _ _ | ro_step)

theorem StringMap.Val_ro {V : Type} [Inhabited V] (sum : Maphash) (fuel : Nat) (m : Handle) (key : ByteStr) : T.RO (StringMap.Val sum fuel m key : T ByteStr V V) := by
  unfold StringMap.Val
  dsimp only
  repeat' (first | exact StringMap.Ptr_ro _ _ _ _ | ro_step)

theorem StringMap.stringScan_ro {V U : Type} [Inhabited V] {cb : U → ByteStr → Amt.Ptr → T ByteStr V (U × Bool)} (hcb : ∀ a b c, (cb a b c).RO) :
    ∀ n u l, (StringMap.stringScan cb n u l).RO
  | 0, _, _ => trivial
  | n + 1, u, l => by
    have ih := StringMap.stringScan_ro hcb n
    unfold StringMap.stringScan
    dsimp only
    repeat' (first | exact ih _ _ | exact hcb _ _ _ | ro_step)

theorem StringMap.All_ro {V : Type} [Inhabited V] {U : Type} (fuel : Nat) (m : Handle) {cb : U → ByteStr → Amt.Ptr → T ByteStr V (U × Bool)} (hcb : ∀ a b c, (cb a b c).RO) (u : U) : T.RO (StringMap.All fuel m cb u : T ByteStr V U) := by
  unfold StringMap.All
  repeat' (first | exact StringMap.stringScan_ro hcb _ _ _ | ro_step)

theorem BytesMap.Ptr_ro {V : Type} [Inhabited V] (sum : Maphash) (fuel : Nat) (m : Handle) (key : ByteStr) : T.RO (BytesMap.Ptr sum fuel m key : T ByteStr V Amt.Ptr) := by
  unfold BytesMap.Ptr
  dsimp only
  repeat' ro_step

theorem BytesMap.Get_ro {V : Type} [Inhabited V] (sum : Maphash) (fuel : Nat) (m : Handle) (key : ByteStr) : T.RO (BytesMap.Get sum fuel m key : T ByteStr V (V × Bool)) := by
  unfold BytesMap.Get
  dsimp only
  repeat' (first | exact BytesMap.Ptr_ro _ _ _ _ | ro_step)

theorem BytesMap.Val_ro {V : Type} [Inhabited V] (sum : Maphash) (fuel : Nat) (m : Handle) (key : ByteStr) : T.RO (BytesMap.Val sum fuel m key : T ByteStr V V) := by
  unfold BytesMap.Val
  dsimp only
  repeat' (first | exact BytesMap.Ptr_ro _ _ _ _ | ro_step)

theorem BytesMap.bytesScan_ro {V U : Type} [Inhabited V] {cb : U → ByteStr → Amt.Ptr → T ByteStr V (U × Bool)} (hcb : ∀ a b c, (cb a b c).RO) :
    ∀ n u l, (BytesMap.bytesScan cb n u l).RO
  | 0, _, _ => trivial
  | n + 1, u, l => by
    have ih := BytesMap.bytesScan_ro hcb n
    unfold BytesMap.bytesScan
    dsimp only
    repeat' (first | exact ih _ _ | exact hcb _ _ _ | ro_step)

theorem BytesMap.All_ro {V : Type} [Inhabited V] {U : Type} (fuel : Nat) (m : Handle) {cb : U → ByteStr → Amt.Ptr → T ByteStr V (U × Bool)} (hcb : ∀ a b c, (cb a b c).RO) (u : U) : T.RO (BytesMap.All fuel m cb u : T ByteStr V U) := by
  unfold BytesMap.All
  repeat' (first | exact BytesMap.bytesScan_ro hcb _ _ _ | ro_step)

theorem ArrMap.Ptr_ro {K V : Type} [DecidableEq K] [Inhabited V] (sum : Maphash) (keyBytes : K → List UInt8) (fuel : Nat) (m : Handle) (key : K) : T.RO (ArrMap.Ptr sum keyBytes fuel m key : T K V Amt.Ptr) := by
  unfold ArrMap.Ptr
  dsimp only
  repeat' ro_step

theorem ArrMap.Get_ro {K V : Type} [DecidableEq K] [Inhabited V] (sum : Maphash) (keyBytes : K → List UInt8) (fuel : Nat) (m : Handle) (key : K) : T.RO (ArrMap.Get sum keyBytes fuel m key : T K V (V × Bool)) := by
  unfold ArrMap.Get
  dsimp only
  repeat' (first | exact ArrMap.Ptr_ro _ _ _ _ _ | ro_step)

theorem ArrMap.Val_ro {K V : Type} [DecidableEq K] [Inhabited V] (sum : Maphash) (keyBytes : K → List UInt8) (fuel : Nat) (m : Handle) (key : K) : T.RO (ArrMap.Val sum keyBytes fuel m key : T K V V) := by
  unfold ArrMap.Val
  dsimp only
  repeat' (first | exact ArrMap.Ptr_ro _ _ _ _ _ | ro_step)

theorem ArrMap.arrScan_ro {K V U : Type} [Inhabited V] {cb : U → K → Amt.Ptr → T K V (U × Bool)} (hcb : ∀ a b c, (cb a b c).RO) :
    ∀ n u l, (ArrMap.arrScan cb n u l).RO
  | 0, _, _ => trivial
  | n + 1, u, l => by
    have ih := ArrMap.arrScan_ro hcb n
    unfold ArrMap.arrScan
    dsimp only
    repeat' (first | exact ih _ _ | exact hcb _ _ _ | ro_step)

theorem ArrMap.All_ro {K V : Type} [DecidableEq K] [Inhabited V] {U : Type} (fuel : Nat) (m : Handle) {cb : U → K → Amt.Ptr → T K V (U × Bool)} (hcb : ∀ a b c, (cb a b c).RO) (u : U) : T.RO (ArrMap.All fuel m cb u : T K V U) := by
  unfold ArrMap.All
  repeat' (first | exact ArrMap.arrScan_ro hcb _ _ _ | ro_step)

theorem IntMap.Ptr_ro {V : Type} [Inhabited V] (sum : Maphash) (fuel : Nat) (m : Handle) (key : IntKey) : T.RO (IntMap.Ptr sum fuel m key : T IntKey V Amt.Ptr) := by
  unfold IntMap.Ptr
  dsimp only
  repeat' ro_step

theorem IntMap.Get_ro {V : Type} [Inhabited V] (sum : Maphash) (fuel : Nat) (m : Handle) (key : IntKey) : T.RO (IntMap.Get sum fuel m key : T IntKey V (V × Bool)) := by
  unfold IntMap.Get
  dsimp only
  repeat' (first | exact IntMap.Ptr_ro _ _ _ _ | ro_step)

theorem IntMap.Val_ro {V : Type} [Inhabited V] (sum : Maphash) (fuel : Nat) (m : Handle) (key : IntKey) : T.RO (IntMap.Val sum fuel m key : T IntKey V V) := by
  unfold IntMap.Val
  dsimp only
  repeat' (first | exact IntMap.Ptr_ro _ _ _ _ | ro_step)

theorem IntMap.intScan_ro {V U : Type} [Inhabited V] {cb : U → IntKey → Amt.Ptr → T IntKey V (U × Bool)} (hcb : ∀ a b c, (cb a b c).RO) :
    ∀ n u l, (IntMap.intScan cb n u l).RO
  | 0, _, _ => trivial
  | n + 1, u, l => by
    have ih := IntMap.intScan_ro hcb n
    unfold IntMap.intScan
    dsimp only
    repeat' (first | exact ih _ _ | exact hcb _ _ _ | ro_step)

theorem IntMap.All_ro {V : Type} [Inhabited V] {U : Type} (fuel : Nat) (m : Handle) {cb : U → IntKey → Amt.Ptr → T IntKey V (U × Bool)} (hcb : ∀ a b c, (cb a b c).RO) (u : U) : T.RO (IntMap.All fuel m cb u : T IntKey V U) := by
  unfold IntMap.All
  repeat' (first | exact IntMap.intScan_ro hcb _ _ _ | ro_step)

theorem Map.Ptr_ro {K V : Type} [Inhabited V] (I : KeyImpl K) (fuel : Nat) (m : Handle) (key : K) : T.RO (Map.Ptr I fuel m key : T K V Amt.Ptr) := by
  unfold Map.Ptr
  dsimp only
  repeat' ro_step

theorem Map.Get_ro {K V : Type} [Inhabited V] (I : KeyImpl K) (fuel : Nat) (m : Handle) (key : K) : T.RO (Map.Get I fuel m key : T K V (V × Bool)) := by
  unfold Map.Get
  dsimp only
  repeat' (first | exact Map.Ptr_ro _ _ _ _ | ro_step)

theorem Map.Val_ro {K V : Type} [Inhabited V] (I : KeyImpl K) (fuel : Nat) (m : Handle) (key : K) : T.RO (Map.Val I fuel m key : T K V V) := by
  unfold Map.Val
  dsimp only
  repeat' (first | exact Map.Ptr_ro _ _ _ _ | ro_step)

theorem Map.mapScan_ro {K V U : Type} [Inhabited V] {cb : U → K → Amt.Ptr → T K V (U × Bool)} (hcb : ∀ a b c, (cb a b c).RO) :
    ∀ n u l, (Map.mapScan cb n u l).RO
  | 0, _, _ => trivial
  | n + 1, u, l => by
    have ih := Map.mapScan_ro hcb n
    unfold Map.mapScan
    dsimp only
    repeat' (first | exact ih _ _ | exact hcb _ _ _ | ro_step)

theorem Map.All_ro {K V : Type} [Inhabited V] {U : Type} (fuel : Nat) (m : Handle) {cb : U → K → Amt.Ptr → T K V (U × Bool)} (hcb : ∀ a b c, (cb a b c).RO) (u : U) : T.RO (Map.All fuel m cb u : T K V U) := by
  unfold Map.All
  repeat' (first | exact Map.mapScan_ro hcb _ _ _ | ro_step)

theorem StringSet.Has_ro (sum : Maphash) (fuel : Nat) (s : Handle) (key : ByteStr) : T.RO (StringSet.Has sum fuel s key : T ByteStr Unit Bool) := by
  unfold StringSet.Has
  dsimp only
  repeat' ro_step

theorem StringSet.stringSetScan_ro {U : Type} {cb : U → ByteStr → T ByteStr Unit (U × Bool)} (hcb : ∀ a b, (cb a b).RO) :
    ∀ n u l, (StringSet.stringSetScan cb n u l).RO
  | 0, _, _ => trivial
  | n + 1, u, l => by
    have ih := StringSet.stringSetScan_ro hcb n
    unfold StringSet.stringSetScan
    dsimp only
    repeat' (first | exact ih _ _ | exact hcb _ _ | ro_step)

theorem StringSet.All_ro {U : Type} (fuel : Nat) (s : Handle) {cb : U → ByteStr → T ByteStr Unit (U × Bool)} (hcb : ∀ a b, (cb a b).RO) (u : U) : T.RO (StringSet.All fuel s cb u : T ByteStr Unit U) := by
  unfold StringSet.All
  repeat' (first | exact StringSet.stringSetScan_ro hcb _ _ _ | ro_step)

theorem BytesSet.Has_ro (sum : Maphash) (fuel : Nat) (s : Handle) (key : ByteStr) : T.RO (BytesSet.Has sum fuel s key : T ByteStr Unit Bool) := by
  unfold BytesSet.Has
  dsimp only
  repeat' ro_step

theorem BytesSet.bytesSetScan_ro {U : Type} {cb : U → ByteStr → T ByteStr Unit (U × Bool)} (hcb : ∀ a b, (cb a b).RO) :
    ∀ n u l, (BytesSet.bytesSetScan cb n u l).RO
  | 0, _, _ => trivial
  | n + 1, u, l => by
    have ih := BytesSet.bytesSetScan_ro hcb n
    unfold BytesSet.bytesSetScan
    dsimp only
    repeat' (first | exact ih _ _ | exact hcb _ _ | ro_step)

theorem BytesSet.All_ro {U : Type} (fuel : Nat) (s : Handle) {cb : U → ByteStr → T ByteStr Unit (U × Bool)} (hcb : ∀ a b, (cb a b).RO) (u : U) : T.RO (BytesSet.All fuel s cb u : T ByteStr Unit U) := by
  unfold BytesSet.All
  repeat' (first | exact BytesSet.bytesSetScan_ro hcb _ _ _ | ro_step)

theorem ArrSet.Has_ro {K : Type} [DecidableEq K] (sum : Maphash) (keyBytes : K → List UInt8) (fuel : Nat) (s : Handle) (key : K) : T.RO (ArrSet.Has sum keyBytes fuel s key : T K Unit Bool) := by
  unfold ArrSet.Has
  dsimp only
  repeat' ro_step

theorem ArrSet.arrSetScan_ro {K U : Type} {cb : U → K → T K Unit (U × Bool)} (hcb : ∀ a b, (cb a b).RO) :
    ∀ n u l, (ArrSet.arrSetScan cb n u l).RO
  | 0, _, _ => trivial
  | n + 1, u, l => by
    have ih := ArrSet.arrSetScan_ro hcb n
    unfold ArrSet.arrSetScan
    dsimp only
    repeat' (first | exact ih _ _ | exact hcb _ _ | ro_step)

theorem ArrSet.All_ro {K : Type} [DecidableEq K] {U : Type} (fuel : Nat) (s : Handle) {cb : U → K → T K Unit (U × Bool)} (hcb : ∀ a b, (cb a b).RO) (u : U) : T.RO (ArrSet.All fuel s cb u : T K Unit U) := by
  unfold ArrSet.All
  repeat' (first | exact ArrSet.arrSetScan_ro hcb _ _ _ | ro_step)

theorem IntSet.Has_ro (sum : Maphash) (fuel : Nat) (s : Handle) (key : IntKey) : T.RO (IntSet.Has sum fuel s key : T IntKey Unit Bool) := by
  unfold IntSet.Has
  dsimp only
  repeat' ro_step

theorem IntSet.intSetScan_ro {U : Type} {cb : U → IntKey → T IntKey Unit (U × Bool)} (hcb : ∀ a b, (cb a b).RO) :
    ∀ n u l, (IntSet.intSetScan cb n u l).RO
  | 0, _, _ => trivial
  | n + 1, u, l => by
    have ih := IntSet.intSetScan_ro hcb n
    unfold IntSet.intSetScan
    dsimp only
    repeat' (first | exact ih _ _ | exact hcb _ _ | ro_step)

theorem IntSet.All_ro {U : Type} (fuel : Nat) (s : Handle) {cb : U → IntKey → T IntKey Unit (U × Bool)} (hcb : ∀ a b, (cb a b).RO) (u : U) : T.RO (IntSet.All fuel s cb u : T IntKey Unit U) := by
  unfold IntSet.All
  repeat' (first | exact IntSet.intSetScan_ro hcb _ _ _ | ro_step)

theorem Set.Has_ro {K : Type} (I : KeyImpl K) (fuel : Nat) (s : Handle) (key : K) : T.RO (Set.Has I fuel s key : T K Unit Bool) := by
  unfold Set.Has
  dsimp only
  repeat' ro_step

theorem Set.setScan_ro {K U : Type} {cb : U → K → T K Unit (U × Bool)} (hcb : ∀ a b, (cb a b).RO) :
    ∀ n u l, (Set.setScan cb n u l).RO
  | 0, _, _ => trivial
  | n + 1, u, l => by
    have ih := Set.setScan_ro hcb n
    unfold Set.setScan
    dsimp only
    repeat' (first | exact ih _ _ | exact hcb _ _ | ro_step)

theorem Set.All_ro {K : Type} {U : Type} (fuel : Nat) (s : Handle) {cb : U → K → T K Unit (U × Bool)} (hcb : ∀ a b, (cb a b).RO) (u : U) : T.RO (Set.All fuel s cb u : T K Unit U) := by
  unfold Set.All
  repeat' (first | exact Set.setScan_ro hcb _ _ _ | ro_step)


end Amt.Par
