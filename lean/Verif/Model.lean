/-
The algorithms of wdamron/amt as programs over `Verif.Mem`.

The ten Go files `*_map.go`, `*_set.go` are textual copies of one program.  This file contains that
program once; each difference between the copies is a field of `Cfg` (how a container stores and hashes
keys), of `Ins` (how `Set` / `Mod` / `Add` treat a hit or a new key) or an argument of `delete` / `scan`.
`Verif/Containers.lean` instantiates it for each container, with citations.

Citations below give string_map.go lines; the same lines exist in the other nine files.

General simplifications:
* `uint8` variables holding counts and indices of at most 32 are `Nat`; the depth `d` is a `Nat` kept
  below 256 by reducing modulo 256 wherever the Go code increments it.
* a `maphash.Hash` is represented by the number `w` of `Write` calls made on it (all with the same bytes).
* `bit` and `idx` are recomputed from `radix` and `l.pmap` at the head of the search loop instead of at
  the end of the previous iteration; nothing is written in between.
* `l.ptr` is read once before an element-shifting loop rather than in each iteration.
* the search path is kept by every operation although only `Del` uses it.
-/
import Verif.Mem

namespace Amt

/-! ### Bit operations -/

/-- `bits.OnesCount32`. -/
def popcount (x : BitVec 32) : Nat := (List.range 32).countP (fun i => x.getLsbD i)

/-- `bits.TrailingZeros32`. -/
def trailingZeros (x : BitVec 32) : Nat := ((List.range 32).find? (fun i => x.getLsbD i)).getD 32

/-- `uint8(hd & 0xF)`. -/
def radixOf (hd : BitVec 64) : Nat := (hd &&& 0xF#64).toNat

/-- `uint32(1) << radix`. -/
def bitOf (radix : Nat) : BitVec 32 := 1#32 <<< radix

/-- `bits.OnesCount32(pmap &^ (^uint32(0) << radix))`: number of present items before `radix`. -/
def rankOf (pmap : BitVec 32) (radix : Nat) : Nat :=
  popcount (pmap &&& ~~~(BitVec.allOnes 32 <<< radix))

/-! ### How a container stores and hashes its keys -/

/-- Where a container keeps keys and values. -/
inductive Store where
  /-- `link.ptr` points to a cell with key and value (strings, byte slices, arrays, generic keys). -/
  | boxed
  /-- the key is in `link.pmap`/`link.tmap`, `link.ptr` points to a cell with the value (`IntMap`). -/
  | inline
  /-- the key is in `link.pmap`/`link.tmap`, there is no cell (`IntSet`). -/
  | bare
  deriving DecidableEq, Repr

/-- The container-specific parts shared by all operations of one container. -/
structure Cfg (K : Type) where
  store : Store
  /-- the `pmap`, `tmap` words of a key-value link. -/
  encP : K → BitVec 32
  encT : K → BitVec 32
  /-- the key held by the `pmap`, `tmap` words of a key-value link (integer containers). -/
  dec : BitVec 32 → BitVec 32 → Option K
  /-- key equality (`==`, `bytes.Equal` or `Equal`). -/
  eq : K → K → Bool
  /-- the digest of a key when the search reaches depth `d` (a multiple of 16) and the key has been
  written `w` times to its hash state. -/
  digest : Seed → K → (w : Nat) → (d : Nat) → BitVec 64
  /-- the links written for a key pushed down by a collision have a nil pointer, whatever the link found had
  (int_set.go:136-140, against int_map.go:185-189 where the cell is kept). -/
  forget : Bool := false

/-- The pointer in the link of a key pushed down by a collision, from the one in the link found. -/
def Cfg.kept {K : Type} (c : Cfg K) (p : Ptr) : Ptr := if c.forget then .nil else p

section Keys
variable {K V : Type} (c : Cfg K)

/-- The link stored in an array slot for key `k` with cell `p`. -/
def mkLink (k : K) (p : Ptr) : Link := { ptr := p, pmap := c.encP k, tmap := c.encT k }

/-- What the link `x` becomes when a pushed-down key is put there (string_map.go:176-178, int_map.go:185-189).  A container that keeps
its keys in cells assigns `pair[i].ptr` only, so that `pmap` and `tmap` stay as they are (`encP` and `encT` are zero then); one that keeps
them in links assigns the whole link.  It makes a difference only if the callback of `Mod` has put something there. -/
def putLink (k : K) (p : Ptr) (x : Link) : Link :=
  match c.store with
  | .boxed => { ptr := p, pmap := x.pmap ||| c.encP k, tmap := x.tmap ||| c.encT k }
  | _ => mkLink c k p

@[simp] theorem putLink_ptr (k : K) (p : Ptr) (x : Link) : (putLink c k p x).ptr = p := by
  unfold putLink mkLink
  split <;> rfl

theorem putLink_fresh (k : K) (p : Ptr) : putLink c k p {} = mkLink c k p := by
  unfold putLink mkLink
  split <;> simp

/-- The key of a key-value item: `kv.k`, or `IntKey(item.pmap) | (IntKey(item.tmap) << 32)`. -/
def readKey (x : Link) : M K V K :=
  match c.store with
  | .boxed => do
    let kv ← loadKv x.ptr
    match kv.1 with
    | none => M.fail .wrongType
    | some k => pure k
  | .inline | .bare =>
    match c.dec x.pmap x.tmap with
    | none => M.fail .wrongType
    | some k => pure k

/-- `&kv{k: key, v: value}` / `&intkv{value}` / nothing. -/
def newKv (k : K) (v : V) : M K V Ptr :=
  match c.store with
  | .boxed => alloc (.kv (some k) v)
  | .inline => alloc (.kv none v)
  | .bare => pure .nil

/-! ### The search loop (string_map.go:91-117, 122-144, 222-244, 324-346) -/

/-- The variables of the search loop. -/
structure Cur where
  l    : Ref
  d    : Nat
  hd   : BitVec 64
  w    : Nat
  path : List (Nat × Option Ref)

/-- string_map.go:92-95, 122-125: `hw.WriteString(key)`, `l = &m.link`, `d = 0`. -/
def start (s : Seed) (key : K) (h : Nat) : Cur :=
  { l := ⟨.blk h, 0⟩, d := 0, hd := c.digest s key 1 0, w := 1, path := [] }

/-- string_map.go:100-109: descend into a branch, consuming 4 hash bits or rehashing. -/
def descend (s : Seed) (key : K) (cur : Cur) (item : Ref) : Cur :=
  let d := (cur.d + 1) % 256
  if d % 16 ≠ 0 then
    { l := item, d := d, hd := cur.hd >>> 4, w := cur.w, path := cur.path }
  else
    { l := item, d := d, hd := c.digest s key (cur.w + 1) d, w := cur.w + 1, path := cur.path }

/-- string_map.go:97-111 (`for l.pmap&bit != 0`): stops at the branch whose slot for the key is absent
(`false`) or holds a key-value item (`true`).  The path append is string_map.go:332. -/
def search (s : Seed) (key : K) : (fuel : Nat) → Cur → M K V (Cur × Bool)
  | 0, _ => M.fail .diverge
  | fuel + 1, cur => do
    let lk ← load cur.l
    let radix := radixOf cur.hd
    if lk.pmap &&& bitOf radix ≠ 0#32 then
      let cur := { cur with path := cur.path ++ [(radix, some cur.l)] }
      let item : Ref := ⟨lk.ptr, rankOf lk.pmap radix⟩
      if lk.tmap &&& bitOf radix = 0#32 then
        search s key fuel (descend c s key cur item)
      else pure (cur, true)
    else pure (cur, false)

/-- string_map.go:112-114: the item of the slot for the current radix. -/
def itemRef (cur : Cur) : M K V Ref := do
  let lk ← load cur.l
  pure ⟨lk.ptr, rankOf lk.pmap (radixOf cur.hd)⟩

/-- `Ptr` (string_map.go:90-118) and the search half of `Has` (string_set.go:53-78): the cell of the key
if present.  `Has` returns whether the result is `some`. -/
def lookup (h fuel : Nat) (key : K) : M K V (Option Ptr) := do
  let r ← getRoot h
  let (cur, hit) ← search c r.seed key fuel (start c r.seed key h)
  if hit then
    let item ← itemRef cur
    let x ← load item
    let k ← readKey c x
    if c.eq key k then pure (some x.ptr) else pure none
  else pure none

/-! ### Insertion -/

/-- What `Set`, `Mod` or `Add` do that is specific to them. -/
structure Ins (K V R : Type) where
  /-- the first digest of the conflicting key: `chd` and the number of writes to `chw`. -/
  chash : Seed → (key ckey : K) → (d fuel : Nat) → Except Fault (BitVec 64 × Nat)
  /-- `BytesMap` only: check that the conflicting key still belongs to its slot. -/
  guard : Bool
  /-- the key is present; `p` is its cell. -/
  hit : (p : Ptr) → M K V R
  /-- make the cell of the new key when it collides with a stored key. -/
  newSplit : M K V (Ptr × R)
  /-- make the cell of the new key when it takes a free slot or (guard) replaces an item. -/
  newSlot : M K V (Ptr × R)

/-- Run a pure computation that may fault. -/
def liftE {α : Type} (x : Except Fault α) : M K V α := fun s =>
  match x with
  | .error e => .error e
  | .ok a => .ok (a, s)

/-- string_map.go:159-186: push the new key and the conflicting key down into fresh branches until their
nibbles differ.  `item` is the slot being replaced. -/
def split {R : Type} (s : Seed) (h : Nat) (key ckey : K) (cptr : Ptr) (ins : Ins K V R) :
    (fuel : Nat) → (item : Ref) → (d : Nat) → (hd chd : BitVec 64) → (w cw : Nat) → M K V R
  | 0, _, _, _, _, _, _ => M.fail .diverge
  | fuel + 1, item, d₀, hd₀, chd₀, w₀, cw₀ => do
    let d := (d₀ + 1) % 256
    let hd := if d % 16 ≠ 0 then hd₀ >>> 4 else c.digest s key (w₀ + 1) d
    let chd := if d % 16 ≠ 0 then chd₀ >>> 4 else c.digest s ckey (cw₀ + 1) d
    let w := if d % 16 ≠ 0 then w₀ else w₀ + 1
    let cw := if d % 16 ≠ 0 then cw₀ else cw₀ + 1
    let kbit := bitOf (radixOf hd)
    let cbit := bitOf (radixOf chd)
    modLink item fun x => { x with pmap := kbit ||| cbit }
    if kbit ≠ cbit then
      modLink item fun x => { x with tmap := x.pmap }
      let arr ← newLinkArray 2
      modLink item fun x => { x with ptr := arr }
      let (kvp, res) ← ins.newSplit
      let y ← load item
      if kbit < cbit then
        modLink ⟨y.ptr, 0⟩ (putLink c key kvp)
        modLink ⟨y.ptr, 1⟩ (putLink c ckey cptr)
      else
        modLink ⟨y.ptr, 0⟩ (putLink c ckey cptr)
        modLink ⟨y.ptr, 1⟩ (putLink c key kvp)
      modRoot h fun m => { m with len := m.len + 1, dep := m.dep + BitVec.ofNat 64 d * 2 }
      pure res
    else
      let arr ← newLinkArray 1
      modLink item fun x => { x with ptr := arr }
      split s h key ckey cptr ins fuel ⟨arr, 0⟩ d hd chd w cw

/-- string_map.go:191-194: `for after := count-1; after >= idx; after--` move items up by one.
The argument is `after + 1`. -/
def shiftUp (arr : Ptr) (idx : Nat) : (n : Nat) → M K V Unit
  | 0 => pure ()
  | after + 1 =>
    if idx ≤ after then do
      let x ← load ⟨arr, after⟩
      store ⟨arr, after + 1⟩ x
      shiftUp arr idx after
    else pure ()

/-- string_map.go:201-204, 208-211, 371-378: `n` iterations of
`dst[i+doff] = src[i+soff]; i++`. -/
def copyUp (dst src : Ptr) (doff soff : Nat) : (n i : Nat) → M K V Unit
  | 0, _ => pure ()
  | n + 1, i => do
    let x ← load ⟨src, i + soff⟩
    store ⟨dst, i + doff⟩ x
    copyUp dst src doff soff n (i + 1)

/-- string_map.go:189-216: put a new key into the free slot for its nibble. -/
def insertSlot {R : Type} (h : Nat) (key : K) (ins : Ins K V R) (cur : Cur) : M K V R := do
  let radix := radixOf cur.hd
  let bit := bitOf radix
  let lk₀ ← load cur.l
  let idx := rankOf lk₀.pmap radix
  let (kvp, res) ← ins.newSlot
  let lk ← load cur.l
  let count := popcount lk.pmap
  if (count ≠ 0 ∧ count % 4 ≠ 0) ∨ cur.d = 0 then
    shiftUp lk.ptr idx count
    store ⟨lk.ptr, idx⟩ (mkLink c key kvp)
  else
    let arr ← newLinkArray (count + 1)
    modLink cur.l fun x => { x with ptr := arr }
    copyUp arr lk.ptr 0 0 idx 0
    store ⟨arr, idx⟩ (mkLink c key kvp)
    copyUp arr lk.ptr 1 0 (count - idx) idx
  modLink cur.l fun x => { x with pmap := x.pmap ||| bit, tmap := x.tmap ||| bit }
  modRoot h fun m => { m with len := m.len + 1, dep := m.dep + BitVec.ofNat 64 cur.d }
  pure res

/-- The body of the search loop once a key-value item is found (string_map.go:143-187). -/
def conflict {R : Type} (s : Seed) (h fuel : Nat) (key : K) (ins : Ins K V R) (cur : Cur) :
    M K V R := do
  let item ← itemRef cur
  let x ← load item
  let ckey ← readKey c x
  if c.eq key ckey then ins.hit x.ptr
  else
    let (chd, cw) ← liftE (ins.chash s key ckey cur.d fuel)
    if ins.guard = true ∧ radixOf chd ≠ radixOf cur.hd then
      let (kvp, res) ← ins.newSlot
      modLink item fun y => { y with ptr := kvp }
      pure res
    else
      modLink cur.l fun y => { y with tmap := y.tmap &&& ~~~bitOf (radixOf cur.hd) }
      modRoot h fun m => { m with dep := m.dep - BitVec.ofNat 64 cur.d }
      split c s h key ckey (c.kept x.ptr) ins fuel item cur.d cur.hd chd cur.w cw

/-- `Set` / `Mod` / `Add` (string_map.go:121-217, 221-320). -/
def upsert {R : Type} (h fuel : Nat) (key : K) (ins : Ins K V R) : M K V R := do
  let r ← getRoot h
  let (cur, hit) ← search c r.seed key fuel (start c r.seed key h)
  if hit then conflict c r.seed h fuel key ins cur
  else insertSlot c h key ins cur

/-! ### Deletion (string_map.go:323-396) -/

/-- `path[d].link`, `path[d].radix` (out of range or nil panics). -/
def pathAt (path : List (Nat × Option Ref)) (d : Nat) : M K V (Nat × Ref) :=
  match path[d]? with
  | none => M.fail .outOfBounds
  | some (_, none) => M.fail .nilDeref
  | some (r, some l) => pure (r, l)

/-- `path[d].link = nil`. -/
def pathClear (path : List (Nat × Option Ref)) (d : Nat) : List (Nat × Option Ref) :=
  path.modify d (fun e => (e.1, none))

/-- string_map.go:381-388: `for count == 1 && l.pmap == l.tmap && d != 0`, and the final clearing of the
path, which has no effect on the container. -/
def collapse (h : Nat) : (d : Nat) → List (Nat × Option Ref) → (l : Ref) → (count : Nat) → M K V Unit
  | 0, _, _, _ => pure ()
  | d + 1, path, l, count => do
    let lk ← load l
    if count = 1 ∧ lk.pmap = lk.tmap then
      let x ← load ⟨lk.ptr, 0⟩
      store l x
      modRoot h fun m => { m with dep := m.dep - 1 }
      let (radix, l') ← pathAt path d
      modLink l' fun y => { y with tmap := y.tmap ||| bitOf radix }
      let lk' ← load l'
      collapse h d (pathClear path d) l' (popcount lk'.pmap)
    else pure ()

/-- string_map.go:367-379: shift the items behind the removed slot back, reallocating the array when the
count drops to a multiple of 4. -/
def shiftBack (d : Nat) (l : Ref) (idx count : Nat) : M K V Unit := do
  let lk ← load l
  if count % 4 = 0 ∧ d ≠ 0 then
    let arr ← newLinkArray count
    modLink l fun y => { y with ptr := arr }
    copyUp arr lk.ptr 0 0 idx 0
    copyUp arr lk.ptr 0 1 (count - idx) idx
  else
    copyUp lk.ptr lk.ptr 0 1 (count - idx) idx

/-- string_map.go:356-393: `for count == 0 && d != 0` unlink empty branches, then shift and collapse. -/
def unlink (h : Nat) : (d : Nat) → List (Nat × Option Ref) → (l : Ref) → (idx count : Nat) → M K V Unit
  | 0, path, l, idx, count => do
    shiftBack 0 l idx count
    collapse h 0 path l count
  | d + 1, path, l, idx, count =>
    if count = 0 then do
      modLink l fun y => { y with ptr := .nil }
      let (radix, l') ← pathAt path d
      let lk ← load l'
      let idx' := rankOf lk.pmap radix
      modLink l' fun y => { y with pmap := y.pmap &&& ~~~bitOf radix, tmap := y.tmap &&& ~~~bitOf radix }
      let lk' ← load l'
      unlink h d (pathClear path d) l' idx' (popcount lk'.pmap)
    else do
      shiftBack (d + 1) l idx count
      collapse h (d + 1) path l count

/-- The rest of `Del` once a key-value item is found (string_map.go:347-395).  `skip` decides, from "the
stored key equals the argument", whether to return without deleting: `k != key` everywhere, except
bytes_set.go:206, which lacks the negation. -/
def remove (h : Nat) (skip : Bool → Bool) (key : K) (cur : Cur) : M K V Unit := do
  let item ← itemRef cur
  let x ← load item
  let k ← readKey c x
  if skip (c.eq key k) then pure ()
  else
    let lk ← load cur.l
    let radix := radixOf cur.hd
    modLink cur.l fun y => { y with pmap := y.pmap &&& ~~~bitOf radix, tmap := y.tmap &&& ~~~bitOf radix }
    modRoot h fun m => { m with len := m.len - 1, dep := m.dep - BitVec.ofNat 64 cur.d }
    let lk' ← load cur.l
    unlink h cur.d (pathClear cur.path cur.d) cur.l (rankOf lk.pmap radix) (popcount lk'.pmap)

/-- `Del` (string_map.go:323-396). -/
def delete (h fuel : Nat) (skip : Bool → Bool) (key : K) : M K V Unit := do
  let r ← getRoot h
  let (cur, hit) ← search c r.seed key fuel (start c r.seed key h)
  if hit then remove c h skip key cur else pure ()

/-! ### Iteration (string_map.go:402-423) -/

/-- string_map.go:409-421: the loop over the items of one branch; `n` items remain, `i` are done. -/
def scanItems {U : Type} (visit : U → Link → M K V (U × Bool)) (rec : U → Ref → M K V (U × Bool))
    (l : Ref) (tmap : BitVec 32) : (n i : Nat) → (pmap : BitVec 32) → U → M K V (U × Bool)
  | 0, _, _, u => pure (u, true)
  | n + 1, i, pmap, u => do
    let bit := bitOf (trailingZeros pmap)
    let lk ← load l
    let item : Ref := ⟨lk.ptr, i⟩
    let (u, go) ←
      if tmap &&& bit ≠ 0#32 then do
        let x ← load item
        visit u x
      else rec u item
    if go then scanItems visit rec l tmap n (i + 1) (pmap &&& ~~~bit) u
    else pure (u, false)

/-- `stringScan` (string_map.go:406-423).  `U` is whatever state the user's callback has. -/
def scan {U : Type} (visit : U → Link → M K V (U × Bool)) : (fuel : Nat) → U → Ref → M K V (U × Bool)
  | 0, _, _ => M.fail .diverge
  | fuel + 1, u, l => do
    let lk ← load l
    scanItems visit (scan visit fuel) l lk.tmap (popcount lk.pmap) 0 lk.pmap u

/-- The callback of a map's `All`: it receives the key and the value pointer, may assign through it, and
returns whether to go on.  `f u k v = (u', v', go)`. -/
def visitMap {U : Type} (f : U → K → V → U × V × Bool) (u : U) (x : Link) : M K V (U × Bool) := do
  let k ← readKey c x
  let kv ← loadKv x.ptr
  let r := f u k kv.2
  storeVal x.ptr r.2.1
  pure (r.1, r.2.2)

/-- The callback of a set's `All`. -/
def visitSet {U : Type} (f : U → K → U × Bool) (u : U) (x : Link) : M K V (U × Bool) := do
  let k ← readKey c x
  pure (f u k)

end Keys

end Amt
