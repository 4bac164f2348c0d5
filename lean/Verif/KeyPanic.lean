/-
Methods of keys that panic (C72).

The model in `Model.lean` takes `Equal`, `Hash`, `KeyBytes` and `==` as total functions.  Here they may panic, the caller may
recover, and the program goes on with the memory as the interrupted call left it.  A method that may panic is a total function
(its results where it returns) together with a predicate (where it panics); the operations of the model are repeated with a
test of the predicate at every place where the Go code calls the method.
-/
import Verif.GoKeep
namespace Amt
open Spec
open Go (Reads)

/-- How a call ends: it returns, a method of a key panics (the memory is then what the call has made of it so far), or it
faults in the container itself. -/
inductive Ends (K V α : Type) where
  | ret (a : α) (s : St K V)
  | panic (s : St K V)
  | fault (e : Fault)

/-- A computation in which methods of keys may panic. -/
def P (K V α : Type) := St K V → Ends K V α

namespace P
variable {K V α β : Type}

@[inline] protected def pure (a : α) : P K V α := fun s => .ret a s

@[inline] protected def bind (x : P K V α) (f : α → P K V β) : P K V β := fun s =>
  match x s with
  | .ret a t => f a t
  | .panic t => .panic t
  | .fault e => .fault e

instance : Monad (P K V) where
  pure := P.pure
  bind := P.bind

/-- A computation that calls no method of a key. -/
def lift (x : M K V α) : P K V α := fun s =>
  match x s with
  | .ok (a, t) => .ret a t
  | .error e => .fault e

/-- A call of a method of a key, which panics if `b`. -/
def check (b : Bool) : P K V Unit := fun s => if b then .panic s else .ret () s

/-- `func() (r *T) { defer func() { recover() }(); x := ...; return &x }()`: the result, or `none` after a panic of a method
of a key.  (A fault of the container itself is not recovered from.) -/
def attempt (x : P K V α) : M K V (Option α) := fun s =>
  match x s with
  | .ret a t => .ok (some a, t)
  | .panic t => .ok (none, t)
  | .fault e => .error e

end P
open P

/-- Where the methods of the keys panic, by the places where a container calls them. -/
structure Panics (K : Type) where
  /-- `key.Hash(m.seed, 0)` or `key.KeyBytes()` at the start of every call. -/
  start : Seed → K → Bool
  /-- `key.Hash(m.seed, uint(d>>4))`, at a depth that is a multiple of 16. -/
  rehash : Seed → K → (d : Nat) → Bool
  /-- the digest of the conflicting key, in `Set` and `Add`: the key, the conflicting key, the depth. -/
  chashSet : Seed → K → K → Nat → Bool
  /-- the same in `Mod`. -/
  chashMod : Seed → K → K → Nat → Bool
  /-- `key.Equal(k)`, `key == k`. -/
  eq : K → K → Bool

/-- Where `Equal` and `Hash` of the keys of a generic container panic. -/
structure KeyPanics (K : Type) where
  equal : K → K → Bool
  hash : K → Seed → (iter : Nat) → Bool

/-- generic_map.go:98, 125, 214, 306 (start), 109, 136, 159, 225, 248, 318 (rehash), 149 (Set), 238 (Mod), 115, 144, 233, 324
(Equal); generic_set.go:53, 77, 165, 64, 88, 110, 177, 100, 70, 96, 183. -/
def genericPanics {K : Type} (p : KeyPanics K) : Panics K where
  start s k := p.hash k s 0
  rehash s k d := p.hash k s (d / 16)
  chashSet s _ ckey d := p.hash ckey s (d % 16)
  chashMod s key _ d := p.hash key s (d % 16)
  eq a b := p.equal a b

/-- Where `KeyBytes` and `==` panic (`==` does if the keys are interfaces, or contain some, whose dynamic types are not
comparable).  `kb := key.KeyBytes()` at the start of a call, whose result is used for all rehashing (arr_map.go:84, 116, 218, 323,
arr_set.go:54, 83, 184), and `ckb := ckey.KeyBytes()` before the conflicting key is hashed (arr_map.go:145, 247, arr_set.go:111);
`==`: arr_map.go:106, 140, 242, 346, arr_set.go:76, 107, 207. -/
def arrPanics {K : Type} (bytes : K → Bool) (eq : K → K → Bool) : Panics K where
  start _ k := bytes k
  rehash _ _ _ := false
  chashSet _ _ ckey _ := bytes ckey
  chashMod _ _ ckey _ := bytes ckey
  eq := eq

section Ops
variable {K V : Type} (c : Cfg K) (R : Panics K)

/-- `search`; the digest is computed again before the next branch is looked at (generic_map.go:106-110). -/
def searchP (s : Seed) (key : K) : (fuel : Nat) → Cur → P K V (Cur × Bool)
  | 0, _ => lift (M.fail .diverge)
  | fuel + 1, cur => do
    let lk ← lift (load cur.l)
    let radix := radixOf cur.hd
    if lk.pmap &&& bitOf radix ≠ 0#32 then
      let cur := { cur with path := cur.path ++ [(radix, some cur.l)] }
      let item : Ref := ⟨lk.ptr, rankOf lk.pmap radix⟩
      if lk.tmap &&& bitOf radix = 0#32 then
        let d := (cur.d + 1) % 256
        check (d % 16 == 0 && R.rehash s key d)
        searchP s key fuel (descend c s key cur item)
      else pure (cur, true)
    else pure (cur, false)

/-- `lookup` (generic_map.go:97-121). -/
def lookupP (h fuel : Nat) (key : K) : P K V (Option Ptr) := do
  let r ← lift (getRoot h)
  check (R.start r.seed key)
  let (cur, hit) ← searchP c R r.seed key fuel (start c r.seed key h)
  if hit then
    let item ← lift (itemRef cur)
    let x ← lift (load item)
    let k ← lift (readKey c x)
    check (R.eq key k)
    if c.eq key k then pure (some x.ptr) else pure none
  else pure none

/-- `split` (generic_map.go:153-183): the digests of both keys are computed again in the middle of the loop, when the link of
the conflicting key has been overwritten already. -/
def splitP {β : Type} (s : Seed) (h : Nat) (key ckey : K) (cptr : Ptr) (ins : Ins K V β) :
    (fuel : Nat) → (item : Ref) → (d : Nat) → (hd chd : BitVec 64) → (w cw : Nat) → P K V β
  | 0, _, _, _, _, _, _ => lift (M.fail .diverge)
  | fuel + 1, item, d₀, hd₀, chd₀, w₀, cw₀ => do
    let d := (d₀ + 1) % 256
    check (d % 16 == 0 && R.rehash s key d)
    check (d % 16 == 0 && R.rehash s ckey d)
    let hd := if d % 16 ≠ 0 then hd₀ >>> 4 else c.digest s key (w₀ + 1) d
    let chd := if d % 16 ≠ 0 then chd₀ >>> 4 else c.digest s ckey (cw₀ + 1) d
    let w := if d % 16 ≠ 0 then w₀ else w₀ + 1
    let cw := if d % 16 ≠ 0 then cw₀ else cw₀ + 1
    let kbit := bitOf (radixOf hd)
    let cbit := bitOf (radixOf chd)
    lift (modLink item fun x => { x with pmap := kbit ||| cbit })
    if kbit ≠ cbit then
      lift (modLink item fun x => { x with tmap := x.pmap })
      let arr ← lift (newLinkArray 2)
      lift (modLink item fun x => { x with ptr := arr })
      let (kvp, res) ← lift ins.newSplit
      let y ← lift (load item)
      if kbit < cbit then
        lift (modLink ⟨y.ptr, 0⟩ (putLink c key kvp))
        lift (modLink ⟨y.ptr, 1⟩ (putLink c ckey cptr))
      else
        lift (modLink ⟨y.ptr, 0⟩ (putLink c ckey cptr))
        lift (modLink ⟨y.ptr, 1⟩ (putLink c key kvp))
      lift (modRoot h fun m => { m with len := m.len + 1, dep := m.dep + BitVec.ofNat 64 d * 2 })
      pure res
    else
      let arr ← lift (newLinkArray 1)
      lift (modLink item fun x => { x with ptr := arr })
      splitP s h key ckey cptr ins fuel ⟨arr, 0⟩ d hd chd w cw

/-- `conflict` (generic_map.go:142-181); `chp` tells whether the first digest of the conflicting key panics. -/
def conflictP {β : Type} (chp : Seed → K → K → Nat → Bool) (s : Seed) (h fuel : Nat) (key : K) (ins : Ins K V β) (cur : Cur) :
    P K V β := do
  let item ← lift (itemRef cur)
  let x ← lift (load item)
  let ckey ← lift (readKey c x)
  check (R.eq key ckey)
  if c.eq key ckey then lift (ins.hit x.ptr)
  else
    check (chp s key ckey cur.d)
    let (chd, cw) ← lift (liftE (ins.chash s key ckey cur.d fuel))
    if ins.guard = true ∧ radixOf chd ≠ radixOf cur.hd then
      let (kvp, res) ← lift ins.newSlot
      lift (modLink item fun y => { y with ptr := kvp })
      pure res
    else
      lift (modLink cur.l fun y => { y with tmap := y.tmap &&& ~~~bitOf (radixOf cur.hd) })
      lift (modRoot h fun m => { m with dep := m.dep - BitVec.ofNat 64 cur.d })
      splitP c R s h key ckey (c.kept x.ptr) ins fuel item cur.d cur.hd chd cur.w cw

/-- `upsert` (generic_map.go:124-209, 213-302, generic_set.go:76-161). -/
def upsertP {β : Type} (chp : Seed → K → K → Nat → Bool) (h fuel : Nat) (key : K) (ins : Ins K V β) : P K V β := do
  let r ← lift (getRoot h)
  check (R.start r.seed key)
  let (cur, hit) ← searchP c R r.seed key fuel (start c r.seed key h)
  if hit then conflictP c R chp r.seed h fuel key ins cur
  else lift (insertSlot c h key ins cur)

/-- `remove` (generic_map.go:324-372): `Equal` is called first, then the key is not used any more. -/
def removeP (h : Nat) (skip : Bool → Bool) (key : K) (cur : Cur) : P K V Unit := do
  let item ← lift (itemRef cur)
  let x ← lift (load item)
  let k ← lift (readKey c x)
  check (R.eq key k)
  if skip (c.eq key k) then pure ()
  else lift (do
    let lk ← load cur.l
    let radix := radixOf cur.hd
    modLink cur.l fun y => { y with pmap := y.pmap &&& ~~~bitOf radix, tmap := y.tmap &&& ~~~bitOf radix }
    modRoot h fun m => { m with len := m.len - 1, dep := m.dep - BitVec.ofNat 64 cur.d }
    let lk' ← load cur.l
    unlink h cur.d (pathClear cur.path cur.d) cur.l (rankOf lk.pmap radix) (popcount lk'.pmap))

/-- `delete` (generic_map.go:305-373). -/
def deleteP (h fuel : Nat) (skip : Bool → Bool) (key : K) : P K V Unit := do
  let r ← lift (getRoot h)
  check (R.start r.seed key)
  let (cur, hit) ← searchP c R r.seed key fuel (start c r.seed key h)
  if hit then removeP c R h skip key cur else pure ()

end Ops

/-! ### Client calls and histories -/

section Api
variable {K V : Type} [Inhabited V]

/-- `MapImpl.Ptr`. -/
def MapImpl.PtrP (I : MapImpl K V) (R : Panics K) (fuel : Nat) (m : Handle) (key : K) : P K V (Option Amt.Ptr) := do
  let h ← lift (deref m)
  lookupP I.cfg R h fuel key

/-- `MapImpl.exec`, with keys whose methods may panic.  `Len`, `Dep` and `All` call no method of a key. -/
def MapImpl.execP (I : MapImpl K V) (R : Panics K) (fuel : Nat) (m : Handle) : MOp K V → P K V (MOut K V)
  | .get k => do
    let p ← I.PtrP R fuel m k
    lift (match p with
    | none => pure (.pair default false)
    | some p => do let kv ← loadKv p; pure (.pair kv.2 true))
  | .val k =>
    match m with
    | none => pure (.one default)
    | some _ => do
      let p ← I.PtrP R fuel m k
      lift (match p with
      | none => pure (.one default)
      | some p => do let kv ← loadKv p; pure (.one kv.2))
  | .ptr k => do
    let p ← I.PtrP R fuel m k
    lift (match p with
    | none => pure (.opt none)
    | some p => do let kv ← loadKv p; pure (.opt (some kv.2)))
  | .set k v => do
    let h ← lift (deref m)
    upsertP I.cfg R R.chashSet h fuel k (I.setI k v)
    pure .unit
  | .mod k f => do
    let h ← lift (deref m)
    let l ← upsertP I.cfg R R.chashMod h fuel k (I.modI k f)
    pure (.calls l)
  | .del k => do
    let h ← lift (deref m)
    deleteP I.cfg R h fuel I.delSkip k
    pure .unit
  | .len => lift (I.exec fuel m .len)
  | .dep => lift (I.exec fuel m .dep)
  | .write k v => do
    let p ← I.PtrP R fuel m k
    lift (match p with
    | none => pure .unit
    | some p => do storeVal p v; pure .unit)
  | .all f => lift (I.exec fuel m (.all f))

/-- Client calls one after the other, each of them with `recover`: what it returned, or `none` if it panicked. -/
def MapImpl.runP (I : MapImpl K V) (R : Panics K) (fuel : Nat) (m : Handle) : List (MOp K V) → M K V (List (Option (MOut K V)))
  | [] => pure []
  | op :: ops => do
    let o ← attempt (I.execP R fuel m op)
    let os ← MapImpl.runP I R fuel m ops
    pure (o :: os)

/-- A new map and such calls of it. -/
def MapImpl.sessionP (I : MapImpl K V) (R : Panics K) (fuel : Nat) (seed : Seed) (ops : List (MOp K V)) :
    M K V (Handle × List (Option (MOut K V))) := do
  let m ← MapImpl.New seed
  let os ← I.runP R fuel m ops
  pure (m, os)

/-- `SetImpl.exec`, with keys whose methods may panic. -/
def SetImpl.execP (I : SetImpl K) (R : Panics K) (fuel : Nat) (m : Handle) : SOp K → P K Unit (SOut K)
  | .has k => do
    let h ← lift (deref m)
    let p ← lookupP I.cfg R h fuel k
    pure (.bool p.isSome)
  | .add k => do
    let h ← lift (deref m)
    upsertP I.cfg R R.chashSet h fuel k (I.addI k)
    pure .unit
  | .del k => do
    let h ← lift (deref m)
    deleteP I.cfg R h fuel I.delSkip k
    pure .unit
  | .len => lift (I.exec fuel m .len)
  | .dep => lift (I.exec fuel m .dep)
  | .all f => lift (I.exec fuel m (.all f))

def SetImpl.runP (I : SetImpl K) (R : Panics K) (fuel : Nat) (m : Handle) : List (SOp K) → M K Unit (List (Option (SOut K)))
  | [] => pure []
  | op :: ops => do
    let o ← attempt (I.execP R fuel m op)
    let os ← SetImpl.runP I R fuel m ops
    pure (o :: os)

/-- A new set and such calls of it. -/
def SetImpl.sessionP (I : SetImpl K) (R : Panics K) (fuel : Nat) (seed : Seed) (ops : List (SOp K)) :
    M K Unit (Handle × List (Option (SOut K))) := do
  let m ← SetImpl.New seed
  let os ← I.runP R fuel m ops
  pure (m, os)

end Api

/-! ### A call either panics and leaves the memory alone, or is as in the model -/

section Either
variable {K V α β : Type}

/-- From `s`, `x` panics with the memory unchanged, or does what `y` does. -/
def EitherAt (s : St K V) (x : P K V α) (y : M K V α) : Prop := x s = .panic s ∨ x s = lift y s

theorem P.bind_run (x : P K V α) (f : α → P K V β) (s : St K V) : (x >>= f) s =
    match x s with
    | .ret a t => f a t
    | .panic t => .panic t
    | .fault e => .fault e := rfl

theorem M.bind_run (x : M K V α) (f : α → M K V β) (s : St K V) : (x >>= f) s =
    match x s with
    | .error e => .error e
    | .ok (a, t) => f a t := rfl

theorem EitherAt.lift (s : St K V) (y : M K V α) : EitherAt s (P.lift y) y := Or.inr rfl

theorem EitherAt.pure (s : St K V) (a : α) : EitherAt s (Pure.pure a : P K V α) (Pure.pure a) := Or.inr rfl

theorem EitherAt.bind {s : St K V} {x : P K V α} {y : M K V α} {f : α → P K V β} {g : α → M K V β} (hx : EitherAt s x y)
    (hy : Reads y) (hf : ∀ a, y s = .ok (a, s) → EitherAt s (f a) (g a)) : EitherAt s (x >>= f) (y >>= g) := by
  rcases hx with hx | hx
  · left; rw [P.bind_run, hx]
  · cases e : y s with
    | error e' => right; rw [P.bind_run, hx]; simp only [P.lift, M.bind_run, e]
    | ok r =>
      obtain ⟨a, t⟩ := r
      obtain rfl : t = s := hy s a t e
      rcases hf a e with h | h
      · left; rw [P.bind_run, hx]; simp only [P.lift, e]; exact h
      · right; rw [P.bind_run, hx]; simp only [P.lift, M.bind_run, e]; exact h

/-- The last step may change the memory. -/
theorem EitherAt.map {s : St K V} {x : P K V α} {y : M K V α} (hx : EitherAt s x y) (f : α → β) :
    EitherAt s (x >>= fun a => Pure.pure (f a)) (y >>= fun a => Pure.pure (f a)) := by
  rcases hx with hx | hx
  · left; rw [P.bind_run, hx]
  · right
    rw [P.bind_run, hx]
    simp only [P.lift, M.bind_run]
    cases e : y s with
    | error e' => rfl
    | ok r => rfl

theorem EitherAt.then {s : St K V} {x : P K V α} {y : M K V α} (hx : EitherAt s x y) (f : α → M K V β) :
    EitherAt s (x >>= fun a => P.lift (f a)) (y >>= f) := by
  rcases hx with hx | hx
  · left; rw [P.bind_run, hx]
  · right
    rw [P.bind_run, hx]
    simp only [P.lift, M.bind_run]
    cases e : y s with
    | error e' => rfl
    | ok r => rfl

theorem EitherAt.check {s : St K V} {b : Bool} {x : P K V α} {y : M K V α} (h : b = false → EitherAt s x y) :
    EitherAt s (check b >>= fun _ => x) y := by
  cases b with
  | true => exact Or.inl rfl
  | false => exact h rfl

theorem EitherAt.ite {s : St K V} {p : Prop} [Decidable p] {x x' : P K V α} {y y' : M K V α} (h : EitherAt s x y)
    (h' : EitherAt s x' y') : EitherAt s (if p then x else x') (if p then y else y') := by
  split
  · exact h
  · exact h'

theorem EitherAt.of_eq {s : St K V} {x : P K V α} {y : M K V α} (h : x = P.lift y) : EitherAt s x y := Or.inr (by rw [h])

theorem lift_bind (x : M K V α) (f : α → M K V β) : P.lift (x >>= f) = (P.lift x >>= fun a => P.lift (f a)) := by
  funext s
  rw [P.bind_run]
  simp only [P.lift, M.bind_run]
  cases e : x s with
  | error e' => rfl
  | ok r => rfl

theorem lift_pure (a : α) : P.lift (Pure.pure a : M K V α) = Pure.pure a := rfl

theorem lift_ite {p : Prop} [Decidable p] (x y : M K V α) : P.lift (if p then x else y) = if p then P.lift x else P.lift y := by
  split <;> rfl

theorem check_false (x : P K V α) : (check false >>= fun _ => x) = x := rfl

theorem lift_match (b : Bool) (p q : M K V α) : (if b then P.lift p else P.lift q) = P.lift (if b then p else q) := by
  cases b <;> rfl

variable (c : Cfg K) (R : Panics K)

theorem reads_search (s : Seed) (key : K) : ∀ n cur, Reads (Amt.search c s key n cur : M K V (Cur × Bool)) := by
  intro n
  induction n with
  | zero => intro cur; exact Reads.fail _
  | succ n ih =>
    intro cur
    rw [Amt.search]
    refine Reads.bind (Reads.load _) fun lk => ?_
    refine Reads.ite ?_ (Reads.pure _)
    exact Reads.ite (ih _) (Reads.pure _)

theorem searchP_either (sd : Seed) (key : K) (s : St K V) : ∀ n cur,
    EitherAt s (searchP c R sd key n cur) (search c sd key n cur) := by
  intro n
  induction n with
  | zero => intro cur; exact EitherAt.lift _ _
  | succ n ih =>
    intro cur
    rw [searchP, search]
    refine EitherAt.bind (EitherAt.lift _ _) (Reads.load _) fun lk _ => ?_
    refine EitherAt.ite ?_ (EitherAt.pure _ _)
    refine EitherAt.ite ?_ (EitherAt.pure _ _)
    exact EitherAt.check fun _ => ih _

theorem lookupP_either (h n : Nat) (key : K) (s : St K V) : EitherAt s (lookupP c R h n key) (lookup c h n key) := by
  unfold lookupP lookup
  refine EitherAt.bind (EitherAt.lift _ _) (Reads.getRoot _) fun r _ => ?_
  refine EitherAt.check fun _ => ?_
  refine EitherAt.bind (searchP_either c R _ _ _ _ _) (reads_search c _ _ _ _) fun a _ => ?_
  refine EitherAt.ite ?_ (EitherAt.pure _ _)
  refine EitherAt.bind (EitherAt.lift _ _) (Reads.itemRef _) fun item _ => ?_
  refine EitherAt.bind (EitherAt.lift _ _) (Reads.load _) fun x _ => ?_
  refine EitherAt.bind (EitherAt.lift _ _) (Reads.readKey _ _) fun k _ => ?_
  refine EitherAt.check fun _ => ?_
  exact EitherAt.ite (EitherAt.pure _ _) (EitherAt.pure _ _)

theorem deleteP_either (h n : Nat) (skip : Bool → Bool) (key : K) (s : St K V) :
    EitherAt s (deleteP c R h n skip key) (delete c h n skip key) := by
  unfold deleteP delete
  refine EitherAt.bind (EitherAt.lift _ _) (Reads.getRoot _) fun r _ => ?_
  refine EitherAt.check fun _ => ?_
  refine EitherAt.bind (searchP_either c R _ _ _ _ _) (reads_search c _ _ _ _) fun a _ => ?_
  refine EitherAt.ite ?_ (EitherAt.pure _ _)
  unfold removeP remove
  refine EitherAt.bind (EitherAt.lift _ _) (Reads.itemRef _) fun item _ => ?_
  refine EitherAt.bind (EitherAt.lift _ _) (Reads.load _) fun x _ => ?_
  refine EitherAt.bind (EitherAt.lift _ _) (Reads.readKey _ _) fun k _ => ?_
  refine EitherAt.check fun _ => ?_
  exact EitherAt.ite (EitherAt.pure _ _) (EitherAt.lift _ _)

/-- If the digests computed in the middle of the loop do not panic, the loop is that of the model. -/
theorem splitP_eq (sd : Seed) (h : Nat) (key ckey : K) (cptr : Ptr) (ins : Ins K V β) (hk : ∀ d, R.rehash sd key d = false)
    (hc : ∀ d, R.rehash sd ckey d = false) : ∀ n item d hd chd w cw,
    splitP c R sd h key ckey cptr ins n item d hd chd w cw = P.lift (split c sd h key ckey cptr ins n item d hd chd w cw) := by
  intro n
  induction n with
  | zero => intros; rfl
  | succ n ih =>
    intro item d hd chd w cw
    rw [splitP, split]
    simp only [hk, hc, Bool.and_false, check_false, lift_bind, lift_ite, lift_pure, ih]

theorem conflictP_either (chp : Seed → K → K → Nat → Bool) (sd : Seed) (h n : Nat) (key : K) (ins : Ins K V β) (cur : Cur) (s : St K V)
    (hk : ∀ d, R.rehash sd key d = false)
    (hc : ∀ x k, readKey c x s = .ok (k, s) → chp sd key k cur.d = false → ∀ d, R.rehash sd k d = false) :
    EitherAt s (conflictP c R chp sd h n key ins cur) (conflict c sd h n key ins cur) := by
  unfold conflictP conflict
  refine EitherAt.bind (EitherAt.lift _ _) (Reads.itemRef _) fun item _ => ?_
  refine EitherAt.bind (EitherAt.lift _ _) (Reads.load _) fun x _ => ?_
  refine EitherAt.bind (EitherAt.lift _ _) (Reads.readKey _ _) fun ckey hck => ?_
  refine EitherAt.check fun _ => ?_
  refine EitherAt.ite (EitherAt.lift _ _) ?_
  refine EitherAt.check fun hchp => ?_
  refine EitherAt.of_eq ?_
  simp only [lift_bind, lift_ite, lift_pure]
  congr 1
  funext a
  congr 1
  congr 1
  funext _
  congr 1
  funext _
  exact splitP_eq c R sd h key ckey _ ins hk (hc x ckey hck hchp) _ _ _ _ _ _ _

/-- `Set`, `Mod`, `Add`: a panic leaves the memory as it was, unless it happens in the middle of a split. -/
theorem upsertP_either (chp : Seed → K → K → Nat → Bool) (h n : Nat) (key : K) (ins : Ins K V β) (s : St K V)
    (hk : R.start (s.roots h).seed key = false → ∀ d, R.rehash (s.roots h).seed key d = false)
    (hc : ∀ x k d, readKey c x s = .ok (k, s) → chp (s.roots h).seed key k d = false → ∀ d', R.rehash (s.roots h).seed k d' = false) :
    EitherAt s (upsertP c R chp h n key ins) (upsert c h n key ins) := by
  unfold upsertP upsert
  refine EitherAt.bind (EitherAt.lift _ _) (Reads.getRoot _) fun r hr => ?_
  obtain rfl : s.roots h = r := by
    have := hr
    simp only [getRoot, Except.ok.injEq, Prod.mk.injEq, and_true] at this
    exact this
  refine EitherAt.check fun hst => ?_
  refine EitherAt.bind (searchP_either c R _ _ _ _ _) (reads_search c _ _ _ _) fun a _ => ?_
  refine EitherAt.ite ?_ (EitherAt.lift _ _)
  exact conflictP_either c R chp _ h n key ins _ s (hk hst) (fun x k => hc x k _)

/-- A call that starts with the methods of the key and does not panic there. -/
theorem upsertP_start (chp : Seed → K → K → Nat → Bool) (h n : Nat) (key : K) (ins : Ins K V β) (s : St K V)
    (hs : R.start (s.roots h).seed key = true) : upsertP c R chp h n key ins s = .panic s := by
  unfold upsertP
  show (check (R.start (s.roots h).seed key) >>= _) s = _
  rw [hs]
  rfl

end Either

end Amt
