/-
What a call does with keys (C93): which it hashes, how often, and which it compares.

The operations of the model are repeated with a log, written at every place where the Go code hashes a key or compares two.
`execQ_bare` says that they are the operations of the model otherwise.
-/
import Verif.KeyPanic
import Verif.PropsCostIns

set_option linter.unusedVariables false
set_option linter.unusedSectionVars false

namespace Amt
open Spec

/-- What is done with a key. -/
inductive Use (K : Type) where
  /-- one `Write` of the key, or of its bytes, to a hash state, or one call of `Hash` of the key. -/
  | hash (k : K)
  /-- `key == k`, `bytes.Equal(key, k)`, `key.Equal(k)`. -/
  | equal (key k : K)
  deriving DecidableEq

/-- A comparison. -/
def Use.isEqual {K : Type} : Use K → Bool
  | .equal _ _ => true
  | .hash _ => false

/-- A computation with a log of what is done with keys.  The log is kept if the computation faults. -/
def Q (K V α : Type) := St K V → List (Use K) × Except Fault (α × St K V)

namespace Q
variable {K V α β : Type}

@[inline] protected def pure (a : α) : Q K V α := fun s => ([], .ok (a, s))

@[inline] protected def bind (x : Q K V α) (f : α → Q K V β) : Q K V β := fun s =>
  match x s with
  | (l, .ok (a, t)) => (l ++ (f a t).1, (f a t).2)
  | (l, .error e) => (l, .error e)

instance : Monad (Q K V) where
  pure := Q.pure
  bind := Q.bind

/-- A computation that does nothing with keys but to copy them. -/
def lift (x : M K V α) : Q K V α := fun s => ([], x s)

/-- Write to the log. -/
def use (l : List (Use K)) : Q K V Unit := fun s => (l, .ok ((), s))

end Q
open Q

/-- What the first digest of the conflicting key takes, in `Set` and `Add` and in `Mod`: the key, the conflicting key, the number of
writes to the hash state. -/
structure Hashing (K : Type) where
  set : K → K → Nat → List (Use K)
  mod : K → K → Nat → List (Use K)

/-- `for cd := uint8(0); cd <= d; cd += (64 / 4) { chw.WriteString(ckey) }` (string_map.go:152-154, 252-254 and the other byte-hashed
containers). -/
def byteHashing {K : Type} : Hashing K where
  set _ ckey cw := List.replicate cw (.hash ckey)
  mod _ ckey cw := List.replicate cw (.hash ckey)

/-- `ckey.Hash(...)` in `Set` and `Add` (generic_map.go:149, generic_set.go:100), `key.Hash(...)` in `Mod` (generic_map.go:238). -/
def genericHashing {K : Type} : Hashing K where
  set _ ckey _ := [.hash ckey]
  mod key _ _ := [.hash key]

section Ops
variable {K V : Type} (c : Cfg K)

/-- `search` (string_map.go:97-111); the key is hashed again at depths that are multiples of 16. -/
def searchQ (s : Seed) (key : K) : (fuel : Nat) → Cur → Q K V (Cur × Bool)
  | 0, _ => lift (M.fail .diverge)
  | fuel + 1, cur => do
    let lk ← lift (load cur.l)
    let radix := radixOf cur.hd
    if lk.pmap &&& bitOf radix ≠ 0#32 then
      let cur := { cur with path := cur.path ++ [(radix, some cur.l)] }
      let item : Ref := ⟨lk.ptr, rankOf lk.pmap radix⟩
      if lk.tmap &&& bitOf radix = 0#32 then
        use (if (cur.d + 1) % 256 % 16 ≠ 0 then [] else [.hash key])
        searchQ s key fuel (descend c s key cur item)
      else pure (cur, true)
    else pure (cur, false)

/-- `lookup` (string_map.go:90-118). -/
def lookupQ (h fuel : Nat) (key : K) : Q K V (Option Ptr) := do
  let r ← lift (getRoot h)
  use [.hash key]
  let (cur, hit) ← searchQ c r.seed key fuel (start c r.seed key h)
  if hit then
    let item ← lift (itemRef cur)
    let x ← lift (load item)
    let k ← lift (readKey c x)
    use [.equal key k]
    if c.eq key k then pure (some x.ptr) else pure none
  else pure none

/-- `split` (string_map.go:159-186). -/
def splitQ {R : Type} (s : Seed) (h : Nat) (key ckey : K) (cptr : Ptr) (ins : Ins K V R) :
    (fuel : Nat) → (item : Ref) → (d : Nat) → (hd chd : BitVec 64) → (w cw : Nat) → Q K V R
  | 0, _, _, _, _, _, _ => lift (M.fail .diverge)
  | fuel + 1, item, d₀, hd₀, chd₀, w₀, cw₀ => do
    let d := (d₀ + 1) % 256
    use (if d % 16 ≠ 0 then [] else [.hash key, .hash ckey])
    let hd := if d % 16 ≠ 0 then hd₀ >>> 4 else c.digest s key (w₀ + 1) d
    let chd := if d % 16 ≠ 0 then chd₀ >>> 4 else c.digest s ckey (cw₀ + 1) d
    let w := if d % 16 ≠ 0 then w₀ else w₀ + 1
    let cw := if d % 16 ≠ 0 then cw₀ else cw₀ + 1
    let kbit := bitOf (radixOf hd)
    let cbit := bitOf (radixOf chd)
    lift (modLink item fun x => { x with pmap := kbit ||| cbit })
    if kbit ≠ cbit then lift (do
      modLink item fun x => { x with tmap := x.pmap }
      let arr ← newLinkArray 2
      modLink item fun x => { x with ptr := arr }
      let (kvp, res) ← ins.newSplit
      let y ← load item
      if kbit < cbit then
        modLink ⟨y.ptr, 0⟩ (putLink c key kvp)
        modLink ⟨y.ptr, 1⟩ (putLink c ckey cptr)
      else
        modLink ⟨y.ptr, 0⟩ (putLink c ckey cptr)
        modLink ⟨y.ptr, 1⟩ (putLink c key kvp)
      modRoot h fun m => { m with len := m.len + 1, dep := m.dep + BitVec.ofNat 64 d * 2 }
      pure res)
    else
      let arr ← lift (newLinkArray 1)
      lift (modLink item fun x => { x with ptr := arr })
      splitQ s h key ckey cptr ins fuel ⟨arr, 0⟩ d hd chd w cw

/-- `conflict` (string_map.go:143-187); `ch` is what the first digest of the conflicting key takes.  It is logged when it is done. -/
def conflictQ {R : Type} (ch : K → K → Nat → List (Use K)) (s : Seed) (h fuel : Nat) (key : K) (ins : Ins K V R) (cur : Cur) : Q K V R := do
  let item ← lift (itemRef cur)
  let x ← lift (load item)
  let ckey ← lift (readKey c x)
  use [.equal key ckey]
  if c.eq key ckey then lift (ins.hit x.ptr)
  else
    let (chd, cw) ← lift (liftE (ins.chash s key ckey cur.d fuel))
    use (ch key ckey cw)
    if ins.guard = true ∧ radixOf chd ≠ radixOf cur.hd then lift (do
      let (kvp, res) ← ins.newSlot
      modLink item fun y => { y with ptr := kvp }
      pure res)
    else
      lift (modLink cur.l fun y => { y with tmap := y.tmap &&& ~~~bitOf (radixOf cur.hd) })
      lift (modRoot h fun m => { m with dep := m.dep - BitVec.ofNat 64 cur.d })
      splitQ c s h key ckey (c.kept x.ptr) ins fuel item cur.d cur.hd chd cur.w cw

/-- `upsert` (string_map.go:121-217, 221-320). -/
def upsertQ {R : Type} (ch : K → K → Nat → List (Use K)) (h fuel : Nat) (key : K) (ins : Ins K V R) : Q K V R := do
  let r ← lift (getRoot h)
  use [.hash key]
  let (cur, hit) ← searchQ c r.seed key fuel (start c r.seed key h)
  if hit then conflictQ c ch r.seed h fuel key ins cur
  else lift (insertSlot c h key ins cur)

/-- `delete` (string_map.go:323-396). -/
def deleteQ (h fuel : Nat) (skip : Bool → Bool) (key : K) : Q K V Unit := do
  let r ← lift (getRoot h)
  use [.hash key]
  let (cur, hit) ← searchQ c r.seed key fuel (start c r.seed key h)
  if hit then
    let item ← lift (itemRef cur)
    let x ← lift (load item)
    let k ← lift (readKey c x)
    use [.equal key k]
    if skip (c.eq key k) then pure ()
    else lift (do
      let lk ← load cur.l
      let radix := radixOf cur.hd
      modLink cur.l fun y => { y with pmap := y.pmap &&& ~~~bitOf radix, tmap := y.tmap &&& ~~~bitOf radix }
      modRoot h fun m => { m with len := m.len - 1, dep := m.dep - BitVec.ofNat 64 cur.d }
      let lk' ← load cur.l
      unlink h cur.d (pathClear cur.path cur.d) cur.l (rankOf lk.pmap radix) (popcount lk'.pmap))
  else pure ()

end Ops

section Api
variable {K V : Type} [Inhabited V]

/-- `MapImpl.Ptr`. -/
def MapImpl.PtrQ (I : MapImpl K V) (fuel : Nat) (m : Handle) (key : K) : Q K V (Option Amt.Ptr) := do
  let h ← lift (deref m)
  lookupQ I.cfg h fuel key

/-- `MapImpl.exec` with a log.  `Len`, `Dep` and `All` hash and compare nothing. -/
def MapImpl.execQ (I : MapImpl K V) (U : Hashing K) (fuel : Nat) (m : Handle) : MOp K V → Q K V (MOut K V)
  | .get k => do
    let p ← I.PtrQ fuel m k
    lift (match p with
    | none => pure (.pair default false)
    | some p => do let kv ← loadKv p; pure (.pair kv.2 true))
  | .val k =>
    match m with
    | none => pure (.one default)
    | some _ => do
      let p ← I.PtrQ fuel m k
      lift (match p with
      | none => pure (.one default)
      | some p => do let kv ← loadKv p; pure (.one kv.2))
  | .ptr k => do
    let p ← I.PtrQ fuel m k
    lift (match p with
    | none => pure (.opt none)
    | some p => do let kv ← loadKv p; pure (.opt (some kv.2)))
  | .set k v => do
    let h ← lift (deref m)
    upsertQ I.cfg U.set h fuel k (I.setI k v)
    pure .unit
  | .mod k f => do
    let h ← lift (deref m)
    let l ← upsertQ I.cfg U.mod h fuel k (I.modI k f)
    pure (.calls l)
  | .del k => do
    let h ← lift (deref m)
    deleteQ I.cfg h fuel I.delSkip k
    pure .unit
  | .len => lift (I.exec fuel m .len)
  | .dep => lift (I.exec fuel m .dep)
  | .write k v => do
    let p ← I.PtrQ fuel m k
    lift (match p with
    | none => pure .unit
    | some p => do storeVal p v; pure .unit)
  | .all f => lift (I.exec fuel m (.all f))

/-- `SetImpl.exec` with a log. -/
def SetImpl.execQ (I : SetImpl K) (U : Hashing K) (fuel : Nat) (m : Handle) : SOp K → Q K Unit (SOut K)
  | .has k => do
    let h ← lift (deref m)
    let p ← lookupQ I.cfg h fuel k
    pure (.bool p.isSome)
  | .add k => do
    let h ← lift (deref m)
    upsertQ I.cfg U.set h fuel k (I.addI k)
    pure .unit
  | .del k => do
    let h ← lift (deref m)
    deleteQ I.cfg h fuel I.delSkip k
    pure .unit
  | .len => lift (I.exec fuel m .len)
  | .dep => lift (I.exec fuel m .dep)
  | .all f => lift (I.exec fuel m (.all f))

end Api

/-! ### But for the log, the operations are those of the model -/

section Erase
variable {K V α β : Type}

def Bare (x : Q K V α) (y : M K V α) : Prop := ∀ s, (x s).2 = y s

theorem Q.bind_run (x : Q K V α) (f : α → Q K V β) (s : St K V) : (x >>= f) s =
    match x s with
    | (l, .ok (a, t)) => (l ++ (f a t).1, (f a t).2)
    | (l, .error e) => (l, .error e) := rfl

theorem Bare.lift (y : M K V α) : Bare (Q.lift y) y := fun _ => rfl

theorem Bare.pure (a : α) : Bare (Pure.pure a : Q K V α) (Pure.pure a) := fun _ => rfl

theorem Bare.bind {x : Q K V α} {y : M K V α} {f : α → Q K V β} {g : α → M K V β} (h1 : Bare x y) (h2 : ∀ a, Bare (f a) (g a)) :
    Bare (x >>= f) (y >>= g) := by
  intro s
  rw [Q.bind_run, M.bind_run, ← h1 s]
  rcases x s with ⟨l, _ | ⟨a, t⟩⟩
  · rfl
  · exact h2 a t

theorem Bare.use {l : List (Use K)} {x : Q K V α} {y : M K V α} (h : Bare x y) : Bare (Q.use l >>= fun _ => x) y := h

theorem Bare.ite {p : Prop} [Decidable p] {x x' : Q K V α} {y y' : M K V α} (h : Bare x y) (h' : Bare x' y') :
    Bare (if p then x else x') (if p then y else y') := by
  split
  · exact h
  · exact h'

variable (c : Cfg K)

theorem searchQ_bare (sd : Seed) (key : K) : ∀ n cur, Bare (V := V) (searchQ c sd key n cur) (search c sd key n cur) := by
  intro n
  induction n with
  | zero => intro cur; exact Bare.lift _
  | succ n ih =>
    intro cur
    rw [searchQ, search]
    refine Bare.bind (Bare.lift _) fun lk => ?_
    exact Bare.ite (Bare.ite (Bare.use (ih _)) (Bare.pure _)) (Bare.pure _)

theorem lookupQ_bare (h n : Nat) (key : K) : Bare (V := V) (lookupQ c h n key) (lookup c h n key) := by
  unfold lookupQ lookup
  refine Bare.bind (Bare.lift _) fun r => Bare.use ?_
  refine Bare.bind (searchQ_bare c _ _ _ _) fun a => Bare.ite ?_ (Bare.pure _)
  refine Bare.bind (Bare.lift _) fun item => Bare.bind (Bare.lift _) fun x => Bare.bind (Bare.lift _) fun k => Bare.use ?_
  exact Bare.ite (Bare.pure _) (Bare.pure _)

theorem deleteQ_bare (h n : Nat) (skip : Bool → Bool) (key : K) : Bare (V := V) (deleteQ c h n skip key) (delete c h n skip key) := by
  unfold deleteQ delete
  refine Bare.bind (Bare.lift _) fun r => Bare.use ?_
  refine Bare.bind (searchQ_bare c _ _ _ _) fun a => Bare.ite ?_ (Bare.pure _)
  unfold remove
  refine Bare.bind (Bare.lift _) fun item => Bare.bind (Bare.lift _) fun x => Bare.bind (Bare.lift _) fun k => Bare.use ?_
  exact Bare.ite (Bare.pure _) (Bare.lift _)

theorem splitQ_bare {R : Type} (sd : Seed) (h : Nat) (key ckey : K) (cptr : Ptr) (ins : Ins K V R) : ∀ n item d hd chd w cw,
    Bare (splitQ c sd h key ckey cptr ins n item d hd chd w cw) (split c sd h key ckey cptr ins n item d hd chd w cw) := by
  intro n
  induction n with
  | zero => intros; exact Bare.lift _
  | succ n ih =>
    intro item d hd chd w cw
    rw [splitQ, split]
    refine Bare.use (Bare.bind (Bare.lift _) fun _ => Bare.ite (Bare.lift _) ?_)
    exact Bare.bind (Bare.lift _) fun _ => Bare.bind (Bare.lift _) fun _ => ih _ _ _ _ _ _

theorem upsertQ_bare {R : Type} (ch : K → K → Nat → List (Use K)) (h n : Nat) (key : K) (ins : Ins K V R) :
    Bare (upsertQ c ch h n key ins) (upsert c h n key ins) := by
  unfold upsertQ upsert
  refine Bare.bind (Bare.lift _) fun r => Bare.use ?_
  refine Bare.bind (searchQ_bare c _ _ _ _) fun a => Bare.ite ?_ (Bare.lift _)
  unfold conflictQ conflict
  refine Bare.bind (Bare.lift _) fun item => Bare.bind (Bare.lift _) fun x => Bare.bind (Bare.lift _) fun k => Bare.use ?_
  refine Bare.ite (Bare.lift _) (Bare.bind (Bare.lift _) fun y => Bare.use (Bare.ite (Bare.lift _) ?_))
  exact Bare.bind (Bare.lift _) fun _ => Bare.bind (Bare.lift _) fun _ => splitQ_bare c _ _ _ _ _ _ _ _ _ _ _ _ _

variable [Inhabited V]

theorem MapImpl.execQ_bare (I : MapImpl K V) (U : Hashing K) (n : Nat) (m : Handle) (op : MOp K V) :
    Bare (I.execQ U n m op) (I.exec n m op) := by
  have hp : ∀ k, Bare (I.PtrQ n m k) (I.Ptr n m k) := fun k => Bare.bind (Bare.lift _) fun h => lookupQ_bare _ _ _ _
  cases op with
  | get k =>
    rw [MapImpl.execQ, MapImpl.exec, MapImpl.Get, bind_assoc_M]
    refine Bare.bind (hp k) fun p => ?_
    cases p with
    | none => exact Bare.lift _
    | some p => rw [bind_assoc_M]; exact Bare.lift _
  | val k =>
    cases m with
    | none => exact Bare.pure _
    | some a =>
      rw [MapImpl.execQ, MapImpl.exec, MapImpl.Val, bind_assoc_M]
      refine Bare.bind (hp k) fun p => ?_
      cases p with
      | none => exact Bare.lift _
      | some p => rw [bind_assoc_M]; exact Bare.lift _
  | ptr k =>
    rw [MapImpl.execQ, MapImpl.exec]
    refine Bare.bind (hp k) fun p => ?_
    cases p <;> exact Bare.lift _
  | write k v =>
    rw [MapImpl.execQ, MapImpl.exec]
    refine Bare.bind (hp k) fun p => ?_
    cases p <;> exact Bare.lift _
  | set k v =>
    rw [MapImpl.execQ, MapImpl.exec, MapImpl.Set, bind_assoc_M]
    exact Bare.bind (Bare.lift _) fun h => Bare.bind (upsertQ_bare _ _ _ _ _ _) fun _ => Bare.pure _
  | mod k f =>
    rw [MapImpl.execQ, MapImpl.exec, MapImpl.Mod, bind_assoc_M]
    exact Bare.bind (Bare.lift _) fun h => Bare.bind (upsertQ_bare _ _ _ _ _ _) fun _ => Bare.pure _
  | del k =>
    rw [MapImpl.execQ, MapImpl.exec, MapImpl.Del, bind_assoc_M]
    exact Bare.bind (Bare.lift _) fun h => Bare.bind (deleteQ_bare _ _ _ _ _) fun _ => Bare.pure _
  | len => exact Bare.lift _
  | dep => exact Bare.lift _
  | all f => exact Bare.lift _

theorem SetImpl.execQ_bare (I : SetImpl K) (U : Hashing K) (n : Nat) (m : Handle) (op : SOp K) :
    Bare (I.execQ U n m op) (I.exec n m op) := by
  cases op with
  | has k =>
    rw [SetImpl.execQ, SetImpl.exec, SetImpl.Has, bind_assoc_M]
    exact Bare.bind (Bare.lift _) fun h => by
      rw [bind_assoc_M]
      exact Bare.bind (lookupQ_bare _ _ _ _) fun _ => Bare.pure _
  | add k =>
    rw [SetImpl.execQ, SetImpl.exec, SetImpl.Add, bind_assoc_M]
    exact Bare.bind (Bare.lift _) fun h => Bare.bind (upsertQ_bare _ _ _ _ _ _) fun _ => Bare.pure _
  | del k =>
    rw [SetImpl.execQ, SetImpl.exec, SetImpl.Del, bind_assoc_M]
    exact Bare.bind (Bare.lift _) fun h => Bare.bind (deleteQ_bare _ _ _ _ _) fun _ => Bare.pure _
  | len => exact Bare.lift _
  | dep => exact Bare.lift _
  | all f => exact Bare.lift _

end Erase

end Amt
