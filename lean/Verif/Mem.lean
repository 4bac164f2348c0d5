/-
The machine on which the Go code of wdamron/amt is modelled: a heap of link arrays and key-value
cells, unsafe pointers into it, and the two counters of a root.

Every access that the Go code performs with `unsafe.Pointer` is a checked access here: reading through a
nil pointer, outside an array, through a dangling pointer, or at the wrong type is a `Fault`.  The
property theorems show that no fault is reachable (memory safety), so the checks never mask behaviour.
-/
namespace Amt

/-- Ways in which an execution can go wrong.  `diverge` is not a Go event: it marks a loop that used up
the iteration budget (`fuel`) it was given, so "`diverge` for every budget" means the Go loop never exits. -/
inductive Fault where
  | nilDeref | outOfBounds | wrongType | dangling | diverge
  deriving DecidableEq, Repr

/-- `unsafe.Pointer` as stored in `link.ptr` (amt.go:109): nil, or the address of the first byte of a
heap object (a `[4|8|12|16]link` array or a key-value cell). -/
inductive Ptr where
  | nil
  | blk (b : Nat)
  deriving DecidableEq, Repr

/-- `type link struct` (amt.go:108-112). -/
structure Link where
  ptr  : Ptr := .nil
  pmap : BitVec 32 := 0#32
  tmap : BitVec 32 := 0#32
  deriving DecidableEq, Repr

instance : Inhabited Link := ⟨{}⟩

/-- A heap object: an array of links (`newLinkArray`, amt.go:120-131; `root.items`, amt.go:68; a root's
own `link`, amt.go:63, is a one-element array), or a key-value cell (`kv` generic_map.go:57-60,
`byteskv` bytes_map.go:52-55, `strkv` string_map.go:50-53, `arrkv` arr_map.go:43-46 carry a key;
`intkv` int_map.go:52-55 carries none, its key lives in the link). -/
inductive Obj (K V : Type) where
  | links (xs : List Link)
  | kv (k : Option K) (v : V)
  deriving DecidableEq, Repr

/-- A `*link`: the object it points into and the element index, i.e. `base + idx*linkSize`. -/
structure Ref where
  base : Ptr
  idx  : Nat
  deriving DecidableEq, Repr

/-- `maphash.Seed`: one opaque machine word. -/
abbrev Seed := BitVec 64

/-- The scalar fields of `type root struct` (amt.go:62-70).  `items` and the embedded `link` are heap
objects; `path` is modelled as a local of `Del` (see `Model.lean`). -/
structure Meta where
  seed : Seed := 0#64
  len  : BitVec 64 := 0#64
  dep  : BitVec 64 := 0#64
  deriving DecidableEq, Repr

/-- The heap.  `mem` maps addresses to objects, `next` is the next free address (memory is never reused:
a garbage collector may reclaim unreachable objects, which no program can observe), `roots` holds the
scalar fields of the root whose `link` is the object at that address. -/
structure St (K V : Type) where
  mem   : Nat → Option (Obj K V)
  next  : Nat
  roots : Nat → Meta

/-- The empty heap. -/
def St.init {K V : Type} : St K V := ⟨fun _ => none, 0, fun _ => {}⟩

/-- A computation over the heap that may fault. -/
def M (K V α : Type) := St K V → Except Fault (α × St K V)

namespace M
variable {K V α β : Type}

@[inline] protected def pure (a : α) : M K V α := fun s => .ok (a, s)

@[inline] protected def bind (x : M K V α) (f : α → M K V β) : M K V β := fun s =>
  match x s with
  | .error e => .error e
  | .ok (a, s') => f a s'

instance : Monad (M K V) where
  pure := M.pure
  bind := M.bind

/-- Stop with a fault. -/
def fail (e : Fault) : M K V α := fun _ => .error e

end M

section Ops
variable {K V : Type}

/-- `*p` for a `*link` p. -/
def load (r : Ref) : M K V Link := fun s =>
  match r.base with
  | .nil => .error .nilDeref
  | .blk b =>
    match s.mem b with
    | none => .error .dangling
    | some (.kv _ _) => .error .wrongType
    | some (.links xs) =>
      match xs[r.idx]? with
      | none => .error .outOfBounds
      | some x => .ok (x, s)

/-- `*p = x` for a `*link` p. -/
def store (r : Ref) (x : Link) : M K V Unit := fun s =>
  match r.base with
  | .nil => .error .nilDeref
  | .blk b =>
    match s.mem b with
    | none => .error .dangling
    | some (.kv _ _) => .error .wrongType
    | some (.links xs) =>
      if r.idx < xs.length then
        .ok ((), { s with mem := fun a => if a = b then some (.links (xs.set r.idx x)) else s.mem a })
      else .error .outOfBounds

/-- Read-modify-write of fields of a `*link`, e.g. `l.pmap |= bit`. -/
def modLink (r : Ref) (f : Link → Link) : M K V Unit := do
  let x ← load r
  store r (f x)

/-- `new(T)` / `&T{...}`. -/
def alloc (o : Obj K V) : M K V Ptr := fun s =>
  .ok (.blk s.next,
    { s with mem := fun a => if a = s.next then some o else s.mem a, next := s.next + 1 })

/-- `newLinkArray` (amt.go:120-131): an array of 4, 8, 12 or 16 zero links. -/
def newLinkArray (capacity : Nat) : M K V Ptr :=
  if capacity ≤ 4 then alloc (.links (List.replicate 4 {}))
  else if capacity ≤ 8 then alloc (.links (List.replicate 8 {}))
  else if capacity ≤ 12 then alloc (.links (List.replicate 12 {}))
  else alloc (.links (List.replicate 16 {}))

/-- Dereference a pointer as a key-value cell (`(*kv)(item.ptr)` followed by a field read). -/
def loadKv (p : Ptr) : M K V (Option K × V) := fun s =>
  match p with
  | .nil => .error .nilDeref
  | .blk b =>
    match s.mem b with
    | none => .error .dangling
    | some (.links _) => .error .wrongType
    | some (.kv k v) => .ok ((k, v), s)

/-- Assign the value field of a key-value cell (`ckv.v = value`, `*ptr = v`). -/
def storeVal (p : Ptr) (v : V) : M K V Unit := fun s =>
  match p with
  | .nil => .error .nilDeref
  | .blk b =>
    match s.mem b with
    | none => .error .dangling
    | some (.links _) => .error .wrongType
    | some (.kv k _) =>
      .ok ((), { s with mem := fun a => if a = b then some (.kv k v) else s.mem a })

/-- Read the scalar fields of root `h`. -/
def getRoot (h : Nat) : M K V Meta := fun s => .ok (s.roots h, s)

/-- Update the scalar fields of root `h`. -/
def modRoot (h : Nat) (f : Meta → Meta) : M K V Unit := fun s =>
  .ok ((), { s with roots := fun a => if a = h then f (s.roots a) else s.roots a })

end Ops

/-- A container value: `struct { *root }` (e.g. string_map.go:47-49) — nil, or a pointer to a root. -/
abbrev Handle := Option Nat

/-- Following the embedded `*root` of a container value; nil panics. -/
def deref {K V : Type} (m : Handle) : M K V Nat :=
  match m with
  | none => M.fail .nilDeref
  | some h => pure h

/-- `newRoot` (amt.go:72-76): the root's `link` points at its `items` array.  `maphash.MakeSeed` is the
parameter `seed`. -/
def newRoot {K V : Type} (seed : Seed) : M K V Handle := fun s =>
  .ok (some s.next,
    { mem := fun a =>
        if a = s.next then some (.links [{ ptr := .blk (s.next + 1) }])
        else if a = s.next + 1 then some (.links (List.replicate 16 {}))
        else s.mem a
      next := s.next + 2
      roots := fun a => if a = s.next then { seed := seed } else s.roots a })

end Amt
