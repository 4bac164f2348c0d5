/-
What the translations `Go*.lean` of the Go files are written in.  `tools/go2lean.py` translates each of the ten files
`*_map.go`, `*_set.go` statement by statement: `uint8` is `BitVec 8` and wraps, every use of `l.ptr` reads it again,
a `maphash.Hash` is the seed and the bytes written to it, cells are allocated where the Go code allocates them.
`GoSim*.lean` show that the program of `Model.lean`, about which the properties are proved, does the same.
-/
import Verif.Scratch

namespace Amt.Go

/-! ### Loops -/

/-- A bound on the number of iterations of a Go loop.  The loops that go over the items of an array or up a path
end after at most 256 iterations; the constant spares them a hypothesis on `n`. -/
structure Budget where
  n : Nat

/-- See `Budget`. -/
def budget (n : Nat) : Budget := ⟨n + 300⟩

/-- A Go loop, `for { .. }`, with at most `n` iterations; `ForInStep.done` is `break` or `return`. -/
def loop {K V σ : Type} (f : σ → M K V (ForInStep σ)) : Nat → σ → M K V σ
  | 0, _ => M.fail .diverge
  | n + 1, s => do
    match ← f s with
    | .done s => pure s
    | .yield s => loop f n s

instance {K V : Type} : ForIn (M K V) Budget Unit where
  forIn b s f := loop (f ()) b.n s

section
variable {K V : Type}

/-- `x && y`, where `y` is evaluated only if `x` holds. -/
def andM (x y : M K V Bool) : M K V Bool := do
  if ← x then y else pure false

/-! ### Hashing -/

/-- `maphash.Hash`: the seed and what has been written since it was set. -/
structure Hasher where
  seed : Seed := 0#64
  data : List UInt8 := []

/-- `hw.SetSeed(seed)`: it also discards what has been written. -/
def Hasher.setSeed (_ : Hasher) (s : Seed) : Hasher := ⟨s, []⟩

/-- `hw.Write(b)`, `hw.WriteString(s)`. -/
def Hasher.write (hw : Hasher) (b : List UInt8) : Hasher := ⟨hw.seed, hw.data ++ b⟩

/-- `hw.Sum64()`. -/
def Hasher.sum64 (hw : Hasher) (sum : Maphash) : BitVec 64 := sum hw.seed hw.data

/-! ### Comparison of keys -/

/-- `a == b` on keys. -/
def goEq {K : Type} [DecidableEq K] (a b : K) : Bool := decide (a = b)

/-- `bytes.Equal(a, b)`. -/
def bytesEqual (a b : List UInt8) : Bool := decide (a = b)

/-! ### Links -/

/-- `&m.link`. -/
def linkOf (h : Nat) : Ref := ⟨.blk h, 0⟩

/-- `(*link)(unsafe.Pointer(uintptr(p) + uintptr(i)*linkSize))`, `&pair[i]`. -/
def elem (p : Ptr) (i : Nat) : Ref := ⟨p, i⟩

/-- `l.ptr = p`. -/
def setPtr (l : Ref) (p : Ptr) : M K V Unit := modLink l fun x => { x with ptr := p }

/-- `l.pmap = b`. -/
def setPmap (l : Ref) (b : BitVec 32) : M K V Unit := modLink l fun x => { x with pmap := b }

/-- `l.tmap = b`. -/
def setTmap (l : Ref) (b : BitVec 32) : M K V Unit := modLink l fun x => { x with tmap := b }

/-- `newLinkArray` (amt.go:120-131). -/
def newLinkArray (capacity : BitVec 8) : M K V Ptr := do
  if capacity ≤ 4#8 then
    return (← alloc (.links (List.replicate 4 {})))
  else if capacity ≤ 8#8 then
    return (← alloc (.links (List.replicate 8 {})))
  else if capacity ≤ 12#8 then
    return (← alloc (.links (List.replicate 12 {})))
  else
    return (← alloc (.links (List.replicate 16 {})))

/-! ### Cells -/

/-- `kv.k`. -/
def kvKey (p : Ptr) : M K V K := do
  match (← loadKv p).1 with
  | none => M.fail .wrongType
  | some k => pure k

/-- `*p` for a `*V`. -/
def kvVal (p : Ptr) : M K V V := do
  let kv ← loadKv p
  pure kv.2

/-- `&kv.v`: panics if `kv` is nil. -/
def fieldAddr (p : Ptr) : M K V Ptr :=
  match p with
  | .nil => M.fail .nilDeref
  | .blk b => pure (.blk b)

/-! ### The path of `Del` -/

/-- `m.path[:0]`, given the contents of the array `m.path`. -/
def _root_.Amt.Slice.ofRoot (_ : Nat) (scratch : List PathLink) : M K V Slice := pure (Slice.empty scratch)

/-- `path[d].link`. -/
def _root_.Amt.Slice.linkAt (p : Slice) (d : BitVec 8) : M K V Ref :=
  match p.view[d.toNat]? with
  | none => M.fail .outOfBounds
  | some (_, none) => pure ⟨.nil, 0⟩
  | some (_, some l) => pure l

/-- `path[d].radix`. -/
def _root_.Amt.Slice.radixAt (p : Slice) (d : BitVec 8) : M K V (BitVec 8) :=
  match p.view[d.toNat]? with
  | none => M.fail .outOfBounds
  | some (r, _) => pure (BitVec.ofNat 8 r)

/-- `path[d].link = nil`. -/
def _root_.Amt.Slice.clearAt (p : Slice) (d : BitVec 8) : M K V Slice := p.clear d.toNat

end

end Amt.Go
