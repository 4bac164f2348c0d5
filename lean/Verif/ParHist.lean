/-
The methods of the ten containers as trees of memory accesses, and calls of them.
-/
import Verif.ParLock
import Verif.PropsGo

set_option linter.unusedVariables false

namespace Amt.Par
open Amt Spec

/-- The methods of a map, as `Go.MapCode`. -/
structure MapTree (K V : Type) where
  Ptr : Nat → Handle → K → T K V Amt.Ptr
  Get : Nat → Handle → K → T K V (V × Bool)
  Val : Nat → Handle → K → T K V V
  Set : Nat → Handle → K → V → T K V Unit
  Mod : Nat → Handle → K → (List (V × Bool) → Amt.Ptr → Bool → T K V (List (V × Bool))) → List (V × Bool) → T K V (List (V × Bool))
  Del : Nat → Handle → K → List PathLink → T K V (List PathLink)
  All : Nat → Handle → (List (K × V) → K → Amt.Ptr → T K V (List (K × V) × Bool)) → List (K × V) → T K V (List (K × V))

/-- The methods of a set, as `Go.SetCode`. -/
structure SetTree (K : Type) where
  Has : Nat → Handle → K → T K Unit Bool
  Add : Nat → Handle → K → T K Unit Unit
  Del : Nat → Handle → K → List PathLink → T K Unit (List PathLink)
  All : Nat → Handle → (List K → K → T K Unit (List K × Bool)) → List K → T K Unit (List K)

section
variable {K V : Type}

/-- `Len` (amt.go:79-84). -/
def Len (m : Handle) : T K V (BitVec 64) :=
  match m with
  | none => pure 0#64
  | some h => do let r ← getRoot h; pure r.len

/-- `Dep` (amt.go:87-92). -/
def Dep (m : Handle) : T K V Rat :=
  match m with
  | none => pure 0
  | some h => do
    let r ← getRoot h
    if r.len = 0#64 then pure 0 else pure ((r.dep.toNat : Rat) / (r.len.toNat : Rat))

theorem Len_den (m : Handle) : Den (K := K) (V := V) (Len m) (MapImpl.Len m) := by
  cases m with
  | none => exact Den.pure _
  | some h => exact Den.bind (Den.getRoot h) fun _ => Den.pure _

theorem Dep_den (m : Handle) : Den (K := K) (V := V) (Dep m) (MapImpl.Dep m) := by
  cases m with
  | none => exact Den.pure _
  | some h => exact Den.bind (Den.getRoot h) fun _ => Den.ite (Den.pure _) (Den.pure _)

theorem Len_ro (m : Handle) : T.RO (K := K) (V := V) (Len m) := by
  cases m with
  | none => exact RO.pure _
  | some h => exact RO.bind (RO.getRoot h) fun _ => RO.pure _

theorem Dep_ro (m : Handle) : T.RO (K := K) (V := V) (Dep m) := by
  cases m with
  | none => exact RO.pure _
  | some h => exact RO.bind (RO.getRoot h) fun _ => RO.ite (RO.pure _) (RO.pure _)

/-- As `Go.modCb`. -/
def modCb (f : V → Bool → V) (log : List (V × Bool)) (p : Ptr) (found : Bool) : T K V (List (V × Bool)) := do
  let v ← kvVal p
  storeVal p (f v found)
  pure (log ++ [(v, found)])

/-- As `Go.allCb`. -/
def allCb (f : List (K × V) → K → V → V × Bool) (log : List (K × V)) (k : K) (p : Ptr) : T K V (List (K × V) × Bool) := do
  let v ← kvVal p
  let r := f log k v
  storeVal p r.1
  pure (log ++ [(k, v)], r.2)

/-- As `Go.allCbS`. -/
def allCbS (f : List K → K → Bool) (log : List K) (k : K) : T K Unit (List K × Bool) := pure (log ++ [k], f log k)

/-- One call, as `Go.MapCode.exec`. -/
def MapTree.exec (G : MapTree K V) (n : Nat) (m : Handle) (path : List PathLink) : MOp K V → T K V (MOut K V × List PathLink)
  | .get k => do let r ← G.Get n m k; pure (.pair r.1 r.2, path)
  | .val k => do let v ← G.Val n m k; pure (.one v, path)
  | .ptr k => do
    let p ← G.Ptr n m k
    if p = .nil then pure (.opt none, path) else do let v ← kvVal p; pure (.opt (some v), path)
  | .set k v => do G.Set n m k v; pure (.unit, path)
  | .mod k f => do let l ← G.Mod n m k (modCb f) []; pure (.calls l, path)
  | .del k => do let path ← G.Del n m k path; pure (.unit, path)
  | .len => do let l ← Len m; pure (.num l, path)
  | .dep => do let q ← Dep m; pure (.rat q, path)
  | .write k v => do
    let p ← G.Ptr n m k
    if p = .nil then pure (.unit, path) else do storeVal p v; pure (.unit, path)
  | .all f => do let l ← G.All n m (allCb f) []; pure (.log l, path)

/-- One call, as `Go.SetCode.exec`. -/
def SetTree.exec (G : SetTree K) (n : Nat) (m : Handle) (path : List PathLink) : SOp K → T K Unit (SOut K × List PathLink)
  | .has k => do let b ← G.Has n m k; pure (.bool b, path)
  | .add k => do G.Add n m k; pure (.unit, path)
  | .del k => do let path ← G.Del n m k path; pure (.unit, path)
  | .len => do let l ← Len m; pure (.num l, path)
  | .dep => do let q ← Dep m; pure (.rat q, path)
  | .all f => do let l ← G.All n m (allCbS f) []; pure (.log l, path)

/-- The trees are those of the translated methods, and the methods that should only read do. -/
structure MapTree.Of (G : MapTree K V) (C : Go.MapCode K V) : Prop where
  ptr : ∀ n m k, Den (G.Ptr n m k) (C.Ptr n m k)
  get : ∀ n m k, Den (G.Get n m k) (C.Get n m k)
  val : ∀ n m k, Den (G.Val n m k) (C.Val n m k)
  set : ∀ n m k v, Den (G.Set n m k v) (C.Set n m k v)
  mod : ∀ n m k cb cb' u, (∀ a b c, Den (cb a b c) (cb' a b c)) → Den (G.Mod n m k cb u) (C.Mod n m k cb' u)
  del : ∀ n m k p, Den (G.Del n m k p) (C.Del n m k p)
  all : ∀ n m cb cb' u, (∀ a b c, Den (cb a b c) (cb' a b c)) → Den (G.All n m cb u) (C.All n m cb' u)
  ptr_ro : ∀ n m k, (G.Ptr n m k).RO
  get_ro : ∀ n m k, (G.Get n m k).RO
  val_ro : ∀ n m k, (G.Val n m k).RO
  all_ro : ∀ n m cb u, (∀ a b c, (cb a b c).RO) → (G.All n m cb u).RO

structure SetTree.Of (G : SetTree K) (C : Go.SetCode K) : Prop where
  has : ∀ n m k, Den (G.Has n m k) (C.Has n m k)
  add : ∀ n m k, Den (G.Add n m k) (C.Add n m k)
  del : ∀ n m k p, Den (G.Del n m k p) (C.Del n m k p)
  all : ∀ n m cb cb' u, (∀ a b, Den (cb a b) (cb' a b)) → Den (G.All n m cb u) (C.All n m cb' u)
  has_ro : ∀ n m k, (G.Has n m k).RO
  all_ro : ∀ n m cb u, (∀ a b, (cb a b).RO) → (G.All n m cb u).RO

theorem modCb_den (f : V → Bool → V) (a : List (V × Bool)) (b : Ptr) (c : Bool) : Den (K := K) (modCb f a b c) (Go.modCb f a b c) :=
  Den.bind (Den.kvVal _) fun _ => Den.bind (Den.storeVal _ _) fun _ => Den.pure _

theorem allCb_den (f : List (K × V) → K → V → V × Bool) (a : List (K × V)) (b : K) (c : Ptr) : Den (allCb f a b c) (Go.allCb f a b c) :=
  Den.bind (Den.kvVal _) fun _ => Den.bind (Den.storeVal _ _) fun _ => Den.pure _

theorem MapTree.Of.exec [Inhabited V] {G : MapTree K V} {C : Go.MapCode K V} (h : G.Of C) (n : Nat) (m : Handle) (path : List PathLink) (op : MOp K V) :
    Den (G.exec n m path op) (C.exec n m path op) := by
  cases op with
  | get k => exact Den.bind (h.get n m k) fun _ => Den.pure _
  | val k => exact Den.bind (h.val n m k) fun _ => Den.pure _
  | ptr k => exact Den.bind (h.ptr n m k) fun _ => Den.ite (Den.pure _) (Den.bind (Den.kvVal _) fun _ => Den.pure _)
  | set k v => exact Den.bind (h.set n m k v) fun _ => Den.pure _
  | mod k f => exact Den.bind (h.mod n m k _ _ _ fun a b c => modCb_den f a b c) fun _ => Den.pure _
  | del k => exact Den.bind (h.del n m k _) fun _ => Den.pure _
  | len => exact Den.bind (Len_den m) fun _ => Den.pure _
  | dep => exact Den.bind (Dep_den m) fun _ => Den.pure _
  | write k v => exact Den.bind (h.ptr n m k) fun _ => Den.ite (Den.pure _) (Den.bind (Den.storeVal _ _) fun _ => Den.pure _)
  | all f => exact Den.bind (h.all n m _ _ _ fun a b c => allCb_den f a b c) fun _ => Den.pure _

theorem SetTree.Of.exec {G : SetTree K} {C : Go.SetCode K} (h : G.Of C) (n : Nat) (m : Handle) (path : List PathLink) (op : SOp K) :
    Den (G.exec n m path op) (C.exec n m path op) := by
  cases op with
  | has k => exact Den.bind (h.has n m k) fun _ => Den.pure _
  | add k => exact Den.bind (h.add n m k) fun _ => Den.pure _
  | del k => exact Den.bind (h.del n m k _) fun _ => Den.pure _
  | len => exact Den.bind (Len_den m) fun _ => Den.pure _
  | dep => exact Den.bind (Dep_den m) fun _ => Den.pure _
  | all f => exact Den.bind (h.all n m _ _ _ fun a b => Den.pure _) fun _ => Den.pure _

end

/-! ### The ten containers -/

section
variable {K V : Type} [Inhabited V]

/-- StringMap as trees. -/
def stringMap (sum : Maphash) : MapTree ByteStr V where
  Ptr := StringMap.Ptr sum
  Get := StringMap.Get sum
  Val := StringMap.Val sum
  Set := StringMap.Set sum
  Mod := StringMap.Mod sum
  Del := StringMap.Del sum
  All := StringMap.All

theorem stringMap_of (sum : Maphash) : (stringMap (V := V) sum).Of (Go.stringMap sum) where
  ptr n m k := StringMap.Ptr_den sum n m k
  get n m k := StringMap.Get_den sum n m k
  val n m k := StringMap.Val_den sum n m k
  set n m k v := StringMap.Set_den sum n m k v
  mod n m k cb cb' u h := StringMap.Mod_den sum n m k h u
  del n m k p := StringMap.Del_den sum n m k p
  all n m cb cb' u h := StringMap.All_den n m h u
  ptr_ro n m k := StringMap.Ptr_ro sum n m k
  get_ro n m k := StringMap.Get_ro sum n m k
  val_ro n m k := StringMap.Val_ro sum n m k
  all_ro n m cb u h := StringMap.All_ro n m h u

/-- BytesMap as trees. -/
def bytesMap (sum : Maphash) : MapTree ByteStr V where
  Ptr := BytesMap.Ptr sum
  Get := BytesMap.Get sum
  Val := BytesMap.Val sum
  Set := BytesMap.Set sum
  Mod := BytesMap.Mod sum
  Del := BytesMap.Del sum
  All := BytesMap.All

theorem bytesMap_of (sum : Maphash) : (bytesMap (V := V) sum).Of (Go.bytesMap sum) where
  ptr n m k := BytesMap.Ptr_den sum n m k
  get n m k := BytesMap.Get_den sum n m k
  val n m k := BytesMap.Val_den sum n m k
  set n m k v := BytesMap.Set_den sum n m k v
  mod n m k cb cb' u h := BytesMap.Mod_den sum n m k h u
  del n m k p := BytesMap.Del_den sum n m k p
  all n m cb cb' u h := BytesMap.All_den n m h u
  ptr_ro n m k := BytesMap.Ptr_ro sum n m k
  get_ro n m k := BytesMap.Get_ro sum n m k
  val_ro n m k := BytesMap.Val_ro sum n m k
  all_ro n m cb u h := BytesMap.All_ro n m h u

/-- ArrMap as trees. -/
def arrMap [DecidableEq K] (sum : Maphash) (kb : K → List UInt8) : MapTree K V where
  Ptr := ArrMap.Ptr sum kb
  Get := ArrMap.Get sum kb
  Val := ArrMap.Val sum kb
  Set := ArrMap.Set sum kb
  Mod := ArrMap.Mod sum kb
  Del := ArrMap.Del sum kb
  All := ArrMap.All

theorem arrMap_of [DecidableEq K] (sum : Maphash) (kb : K → List UInt8) : (arrMap (V := V) sum kb).Of (Go.arrMap sum kb) where
  ptr n m k := ArrMap.Ptr_den sum kb n m k
  get n m k := ArrMap.Get_den sum kb n m k
  val n m k := ArrMap.Val_den sum kb n m k
  set n m k v := ArrMap.Set_den sum kb n m k v
  mod n m k cb cb' u h := ArrMap.Mod_den sum kb n m k h u
  del n m k p := ArrMap.Del_den sum kb n m k p
  all n m cb cb' u h := ArrMap.All_den n m h u
  ptr_ro n m k := ArrMap.Ptr_ro sum kb n m k
  get_ro n m k := ArrMap.Get_ro sum kb n m k
  val_ro n m k := ArrMap.Val_ro sum kb n m k
  all_ro n m cb u h := ArrMap.All_ro n m h u

/-- IntMap as trees. -/
def intMap (sum : Maphash) : MapTree IntKey V where
  Ptr := IntMap.Ptr sum
  Get := IntMap.Get sum
  Val := IntMap.Val sum
  Set := IntMap.Set sum
  Mod := IntMap.Mod sum
  Del := IntMap.Del sum
  All := IntMap.All

theorem intMap_of (sum : Maphash) : (intMap (V := V) sum).Of (Go.intMap sum) where
  ptr n m k := IntMap.Ptr_den sum n m k
  get n m k := IntMap.Get_den sum n m k
  val n m k := IntMap.Val_den sum n m k
  set n m k v := IntMap.Set_den sum n m k v
  mod n m k cb cb' u h := IntMap.Mod_den sum n m k h u
  del n m k p := IntMap.Del_den sum n m k p
  all n m cb cb' u h := IntMap.All_den n m h u
  ptr_ro n m k := IntMap.Ptr_ro sum n m k
  get_ro n m k := IntMap.Get_ro sum n m k
  val_ro n m k := IntMap.Val_ro sum n m k
  all_ro n m cb u h := IntMap.All_ro n m h u

/-- Map as trees. -/
def map (I : KeyImpl K) : MapTree K V where
  Ptr := Map.Ptr I
  Get := Map.Get I
  Val := Map.Val I
  Set := Map.Set I
  Mod := Map.Mod I
  Del := Map.Del I
  All := Map.All

theorem map_of (I : KeyImpl K) : (map (V := V) I).Of (Go.map I) where
  ptr n m k := Map.Ptr_den I n m k
  get n m k := Map.Get_den I n m k
  val n m k := Map.Val_den I n m k
  set n m k v := Map.Set_den I n m k v
  mod n m k cb cb' u h := Map.Mod_den I n m k h u
  del n m k p := Map.Del_den I n m k p
  all n m cb cb' u h := Map.All_den n m h u
  ptr_ro n m k := Map.Ptr_ro I n m k
  get_ro n m k := Map.Get_ro I n m k
  val_ro n m k := Map.Val_ro I n m k
  all_ro n m cb u h := Map.All_ro n m h u

/-- StringSet as trees. -/
def stringSet (sum : Maphash) : SetTree ByteStr where
  Has := StringSet.Has sum
  Add := StringSet.Add sum
  Del := StringSet.Del sum
  All := StringSet.All

theorem stringSet_of (sum : Maphash) : (stringSet sum).Of (Go.stringSet sum) where
  has n m k := StringSet.Has_den sum n m k
  add n m k := StringSet.Add_den sum n m k
  del n m k p := StringSet.Del_den sum n m k p
  all n m cb cb' u h := StringSet.All_den n m h u
  has_ro n m k := StringSet.Has_ro sum n m k
  all_ro n m cb u h := StringSet.All_ro n m h u

/-- BytesSet as trees. -/
def bytesSet (sum : Maphash) : SetTree ByteStr where
  Has := BytesSet.Has sum
  Add := BytesSet.Add sum
  Del := BytesSet.Del sum
  All := BytesSet.All

theorem bytesSet_of (sum : Maphash) : (bytesSet sum).Of (Go.bytesSet sum) where
  has n m k := BytesSet.Has_den sum n m k
  add n m k := BytesSet.Add_den sum n m k
  del n m k p := BytesSet.Del_den sum n m k p
  all n m cb cb' u h := BytesSet.All_den n m h u
  has_ro n m k := BytesSet.Has_ro sum n m k
  all_ro n m cb u h := BytesSet.All_ro n m h u

/-- ArrSet as trees. -/
def arrSet [DecidableEq K] (sum : Maphash) (kb : K → List UInt8) : SetTree K where
  Has := ArrSet.Has sum kb
  Add := ArrSet.Add sum kb
  Del := ArrSet.Del sum kb
  All := ArrSet.All

theorem arrSet_of [DecidableEq K] (sum : Maphash) (kb : K → List UInt8) : (arrSet sum kb).Of (Go.arrSet sum kb) where
  has n m k := ArrSet.Has_den sum kb n m k
  add n m k := ArrSet.Add_den sum kb n m k
  del n m k p := ArrSet.Del_den sum kb n m k p
  all n m cb cb' u h := ArrSet.All_den n m h u
  has_ro n m k := ArrSet.Has_ro sum kb n m k
  all_ro n m cb u h := ArrSet.All_ro n m h u

/-- IntSet as trees. -/
def intSet (sum : Maphash) : SetTree IntKey where
  Has := IntSet.Has sum
  Add := IntSet.Add sum
  Del := IntSet.Del sum
  All := IntSet.All

theorem intSet_of (sum : Maphash) : (intSet sum).Of (Go.intSet sum) where
  has n m k := IntSet.Has_den sum n m k
  add n m k := IntSet.Add_den sum n m k
  del n m k p := IntSet.Del_den sum n m k p
  all n m cb cb' u h := IntSet.All_den n m h u
  has_ro n m k := IntSet.Has_ro sum n m k
  all_ro n m cb u h := IntSet.All_ro n m h u

/-- Set as trees. -/
def set (I : KeyImpl K) : SetTree K where
  Has := Set.Has I
  Add := Set.Add I
  Del := Set.Del I
  All := Set.All

theorem set_of (I : KeyImpl K) : (set I).Of (Go.set I) where
  has n m k := Set.Has_den I n m k
  add n m k := Set.Add_den I n m k
  del n m k p := Set.Del_den I n m k p
  all n m cb cb' u h := Set.All_den n m h u
  has_ro n m k := Set.Has_ro I n m k
  all_ro n m cb u h := Set.All_ro n m h u

/-- The five maps: trees, translation and model. -/
inductive MapTreeOf {V : Type} [Inhabited V] : {K : Type} → MapTree K V → Go.MapCode K V → Prop where
  | string (sum : Maphash) : MapTreeOf (stringMap sum) (Go.stringMap sum)
  | bytes (sum : Maphash) : MapTreeOf (bytesMap sum) (Go.bytesMap sum)
  | arr (sum : Maphash) {K : Type} [DecidableEq K] (kb : K → List UInt8) : MapTreeOf (arrMap sum kb) (Go.arrMap sum kb)
  | int (sum : Maphash) : MapTreeOf (intMap sum) (Go.intMap sum)
  | generic {K : Type} (I : KeyImpl K) : MapTreeOf (map I) (Go.map I)

/-- The five sets. -/
inductive SetTreeOf : {K : Type} → SetTree K → Go.SetCode K → Prop where
  | string (sum : Maphash) : SetTreeOf (stringSet sum) (Go.stringSet sum)
  | bytes (sum : Maphash) : SetTreeOf (bytesSet sum) (Go.bytesSet sum)
  | arr (sum : Maphash) {K : Type} [DecidableEq K] (kb : K → List UInt8) : SetTreeOf (arrSet sum kb) (Go.arrSet sum kb)
  | int (sum : Maphash) : SetTreeOf (intSet sum) (Go.intSet sum)
  | generic {K : Type} (I : KeyImpl K) : SetTreeOf (set I) (Go.set I)

theorem MapTreeOf.of {G : MapTree K V} {C : Go.MapCode K V} (h : MapTreeOf G C) : G.Of C := by
  cases h with
  | string sum => exact stringMap_of sum
  | bytes sum => exact bytesMap_of sum
  | arr sum kb => exact arrMap_of sum kb
  | int sum => exact intMap_of sum
  | generic I => exact map_of I

theorem SetTreeOf.of {G : SetTree K} {C : Go.SetCode K} (h : SetTreeOf G C) : G.Of C := by
  cases h with
  | string sum => exact stringSet_of sum
  | bytes sum => exact bytesSet_of sum
  | arr sum kb => exact arrSet_of sum kb
  | int sum => exact intSet_of sum
  | generic I => exact set_of I

end

end Amt.Par
