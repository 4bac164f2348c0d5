/-
Goroutines.  A program of type `T K V α` is the tree of the memory accesses that it performs; goroutines are interleaved access by
access.  `tools/go2lean.py` writes the translations of the ten Go files a second time, as trees (`ParStringMap`, ...), and
`denote` gives back the translations of `GoStringMap`, ...
-/
import Verif.Go

set_option linter.unusedVariables false

namespace Amt.Par
open Amt

/-- An assignment to one field of a link. -/
inductive Word where
  | ptr (p : Ptr)
  | pmap (b : BitVec 32)
  | tmap (b : BitVec 32)

/-- The link after the assignment. -/
def Word.put : Word → Link → Link
  | .ptr p, x => { x with ptr := p }
  | .pmap b, x => { x with pmap := b }
  | .tmap b, x => { x with tmap := b }

/-- A program: it ends, or performs one access to memory and goes on with what it has read. -/
inductive T (K V α : Type) where
  | ret (a : α)
  | fail (e : Fault)
  | load (r : Ref) (k : Link → T K V α)
  | store (r : Ref) (x : Link) (k : T K V α)
  | put (r : Ref) (w : Word) (k : T K V α)
  | alloc (o : Obj K V) (k : Ptr → T K V α)
  | loadKv (p : Ptr) (k : Option K × V → T K V α)
  | storeVal (p : Ptr) (v : V) (k : T K V α)
  | getRoot (h : Nat) (k : Meta → T K V α)
  | modRoot (h : Nat) (f : Meta → Meta) (k : T K V α)

section
variable {K V α β : Type}

/-- One program after the other. -/
protected def T.bind : T K V α → (α → T K V β) → T K V β
  | .ret a, f => f a
  | .fail e, _ => .fail e
  | .load r k, f => .load r fun x => (k x).bind f
  | .store r x k, f => .store r x (k.bind f)
  | .put r w k, f => .put r w (k.bind f)
  | .alloc o k, f => .alloc o fun x => (k x).bind f
  | .loadKv p k, f => .loadKv p fun x => (k x).bind f
  | .storeVal p v k, f => .storeVal p v (k.bind f)
  | .getRoot h k, f => .getRoot h fun x => (k x).bind f
  | .modRoot h g k, f => .modRoot h g (k.bind f)

instance : Monad (T K V) where
  pure := T.ret
  bind := T.bind

/-! ### What the translations are written in -/

/-- `*p` for a `*link` p: the words of the link are read one after the other. -/
def load (r : Ref) : T K V Link := .load r fun x => .load r fun y => .load r fun z => .ret { ptr := x.ptr, pmap := y.pmap, tmap := z.tmap }

/-- `*p = x`: the words of the link are written one after the other. -/
def store (r : Ref) (x : Link) : T K V Unit := .put r (.ptr x.ptr) (.put r (.pmap x.pmap) (.put r (.tmap x.tmap) (.ret ())))

/-- `l.ptr = p`. -/
def setPtr (l : Ref) (p : Ptr) : T K V Unit := .put l (.ptr p) (.ret ())

/-- `l.pmap = b`. -/
def setPmap (l : Ref) (b : BitVec 32) : T K V Unit := .put l (.pmap b) (.ret ())

/-- `l.tmap = b`. -/
def setTmap (l : Ref) (b : BitVec 32) : T K V Unit := .put l (.tmap b) (.ret ())

/-- `new(T)`, `&T{..}`. -/
def alloc (o : Obj K V) : T K V Ptr := .alloc o .ret

/-- `*p` for a pointer to a key-value cell. -/
def loadKv (p : Ptr) : T K V (Option K × V) := .loadKv p .ret

/-- `ckv.v = value`, `*ptr = v`. -/
def storeVal (p : Ptr) (v : V) : T K V Unit := .storeVal p v (.ret ())

/-- The scalar fields of a root. -/
def getRoot (h : Nat) : T K V Meta := .getRoot h .ret

/-- `m.len++` and the like. -/
def modRoot (h : Nat) (f : Meta → Meta) : T K V Unit := .modRoot h f (.ret ())

/-- `m.len++`, `m.len--`: the word is read, then written. -/
def modLen (h : Nat) (f : BitVec 64 → BitVec 64) : T K V Unit := .getRoot h fun x => .modRoot h (fun r => { r with len := f x.len }) (.ret ())

/-- `m.dep += x`, `m.dep -= x`: the word is read, then written. -/
def modDep (h : Nat) (f : BitVec 64 → BitVec 64) : T K V Unit := .getRoot h fun x => .modRoot h (fun r => { r with dep := f x.dep }) (.ret ())

/-- Following the embedded `*root`; nil panics. -/
def deref (m : Handle) : T K V Nat :=
  match m with
  | none => .fail .nilDeref
  | some h => .ret h

/-- A Go loop with at most `n` iterations. -/
def loop {σ : Type} (f : σ → T K V (ForInStep σ)) : Nat → σ → T K V σ
  | 0, _ => .fail .diverge
  | n + 1, s => do
    match ← f s with
    | .done s => pure s
    | .yield s => loop f n s

instance : ForIn (T K V) Go.Budget Unit where
  forIn b s f := loop (f ()) b.n s

/-- `x && y`, where `y` is evaluated only if `x` holds. -/
def andM (x y : T K V Bool) : T K V Bool := do
  if ← x then y else pure false

/-- `newLinkArray` (amt.go:120-131). -/
def newLinkArray (capacity : BitVec 8) : T K V Ptr := do
  if capacity ≤ 4#8 then
    return (← alloc (.links (List.replicate 4 {})))
  else if capacity ≤ 8#8 then
    return (← alloc (.links (List.replicate 8 {})))
  else if capacity ≤ 12#8 then
    return (← alloc (.links (List.replicate 12 {})))
  else
    return (← alloc (.links (List.replicate 16 {})))

/-- `kv.k`. -/
def kvKey (p : Ptr) : T K V K := do
  match (← loadKv p).1 with
  | none => .fail .wrongType
  | some k => pure k

/-- `*p` for a `*V`. -/
def kvVal (p : Ptr) : T K V V := do
  let kv ← loadKv p
  pure kv.2

/-- `&kv.v`: panics if `kv` is nil. -/
def fieldAddr (p : Ptr) : T K V Ptr :=
  match p with
  | .nil => .fail .nilDeref
  | .blk b => pure (.blk b)

/-- `m.path[:0]`. -/
def _root_.Amt.Slice.ofRootT (_ : Nat) (scratch : List PathLink) : T K V Slice := pure (Slice.empty scratch)

/-- `path[d].link`. -/
def _root_.Amt.Slice.linkAtT (p : Slice) (d : BitVec 8) : T K V Ref :=
  match p.view[d.toNat]? with
  | none => .fail .outOfBounds
  | some (_, none) => pure ⟨.nil, 0⟩
  | some (_, some l) => pure l

/-- `path[d].radix`. -/
def _root_.Amt.Slice.radixAtT (p : Slice) (d : BitVec 8) : T K V (BitVec 8) :=
  match p.view[d.toNat]? with
  | none => .fail .outOfBounds
  | some (r, _) => pure (BitVec.ofNat 8 r)

/-- `path[d].link = nil`. -/
def _root_.Amt.Slice.clearAtT (p : Slice) (d : BitVec 8) : T K V Slice :=
  if d.toNat < p.len then
    match p.big with
    | none => pure { p with arr := pathClear p.arr d.toNat }
    | some b => pure { p with big := some (pathClear b d.toNat) }
  else .fail .outOfBounds

end

export Amt.Go (Hasher budget goEq bytesEqual linkOf elem)

end Amt.Par
