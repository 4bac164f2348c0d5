/-
The ten containers of wdamron/amt and their API, as instances of the program in `Verif/Model.lean`.

Each definition cites the Go lines it models.  Differences between the Go copies are reproduced as they
are in the source, including those that make a container misbehave.
-/
import Verif.Model

namespace Amt

/-! ### Hashing -/

/-- `hash/maphash`: the digest of the bytes written so far under a seed (`Sum64`, which does not disturb
the state).  The library treats it as opaque, and so does the model: it is an arbitrary function. -/
abbrev Maphash := Seed → List UInt8 → BitVec 64

/-- `Sum64` after `w` calls of `hw.Write(kb)` (e.g. string_map.go:91-94, 105-106). -/
def digestOf (sum : Maphash) (s : Seed) (kb : List UInt8) (w : Nat) : BitVec 64 :=
  sum s (List.replicate w kb).flatten

/-- `for cd := uint8(0); cd <= d; cd += (64 / 4) { chw.Write(ckey) }` (string_map.go:152-154): the number
of writes.  `cd` is a `uint8` and wraps. -/
def chwLoop (d : Nat) : (fuel cd w : Nat) → Except Fault Nat
  | 0, _, _ => .error .diverge
  | fuel + 1, cd, w => if cd ≤ d then chwLoop d fuel ((cd + 16) % 256) (w + 1) else .ok w

/-- Rehashing of the conflicting key by the byte-hashed containers (string_map.go:149-155,
bytes_map.go:152-158, arr_map.go:144-151, int_map.go:157-164 and the corresponding sets):
`chd = chw.Sum64() >> (4 * (d % 16))`. -/
def byteChash {K : Type} (sum : Maphash) (kb : K → List UInt8) (s : Seed) (_key ckey : K) (d fuel : Nat) :
    Except Fault (BitVec 64 × Nat) :=
  match chwLoop d fuel 0 0 with
  | .error e => .error e
  | .ok w => .ok (digestOf sum s (kb ckey) w >>> (4 * (d % 16)), w)

/-! ### Keys -/

/-- A Go `string` or `[]byte`: a sequence of bytes.  (A `[]byte` key is modelled by its contents: callers
must not modify a slice after adding it, bytes_map.go:46-48.) -/
abbrev ByteStr := List UInt8

/-- `IntKey = int64` (int_map.go:45), in two's complement. -/
abbrev IntKey := BitVec 64

/-- `byte(k >> n)` for an `int64` k (arithmetic shift, then truncation). -/
def intbyte (k : IntKey) (n : Nat) : UInt8 := ⟨(k.sshiftRight n).setWidth 8⟩

/-- `intbytes` (int_map.go:57-59). -/
def intbytes (k : IntKey) : List UInt8 :=
  [intbyte k 0, intbyte k 8, intbyte k 16, intbyte k 24, intbyte k 32, intbyte k 40, intbyte k 48,
   intbyte k 56]

/-- Containers whose keys live in key-value cells and are hashed as bytes. -/
def boxedCfg {K : Type} [DecidableEq K] (sum : Maphash) (kb : K → List UInt8) : Cfg K where
  store := .boxed
  encP _ := 0#32
  encT _ := 0#32
  dec _ _ := none
  eq a b := decide (a = b)
  digest s k w _ := digestOf sum s (kb k) w

/-- Integer containers: the key is packed into the link (int_map.go:120, 149, 184-188, 206-210). -/
def intCfg (store : Store) (sum : Maphash) : Cfg IntKey where
  store := store
  encP k := k.setWidth 32
  encT k := (k.sshiftRight 32).setWidth 32
  dec p t := some (p.setWidth 64 ||| (t.setWidth 64 <<< 32))
  eq a b := decide (a = b)
  digest s k w _ := digestOf sum s (intbytes k) w

/-- `IntSet`: no cell; a key pushed down by a collision gets a link with a nil pointer (int_set.go:136-140). -/
def intSetCfg (sum : Maphash) : Cfg IntKey := { intCfg .bare sum with forget := true }

/-- `type Key[K any] interface` (generic_map.go:32-38): user-supplied equality and hash. -/
structure KeyImpl (K : Type) where
  equal : K → K → Bool
  hash : K → Seed → (iter : Nat) → BitVec 64

/-- Generic containers: `hd = key.Hash(seed, uint(d>>4))` (generic_map.go:98, 110). -/
def genericCfg {K : Type} (I : KeyImpl K) : Cfg K where
  store := .boxed
  encP _ := 0#32
  encT _ := 0#32
  dec _ _ := none
  eq a b := I.equal a b
  digest s k _ d := I.hash k s (d / 16)

/-- `chd := ckey.Hash(seed, uint(d%(64/4))) >> (4 * (d % (64 / 4)))` (generic_map.go:149,
generic_set.go:100).  The iteration argument is `d%16`, not `d/16`.  There is no hash state; the second
component (a number of writes) is ignored by `genericCfg.digest`. -/
def genericChashSet {K : Type} (I : KeyImpl K) (s : Seed) (_key ckey : K) (d _fuel : Nat) :
    Except Fault (BitVec 64 × Nat) :=
  .ok (I.hash ckey s (d % 16) >>> (4 * (d % 16)), d / 16 + 1)

/-- `chd := key.Hash(seed, uint(d%(64/4))) >> (4 * (d % (64 / 4)))` (generic_map.go:238).  This hashes the
new key, not the conflicting one. -/
def genericChashMod {K : Type} (I : KeyImpl K) (s : Seed) (key _ckey : K) (d _fuel : Nat) :
    Except Fault (BitVec 64 × Nat) :=
  .ok (I.hash key s (d % 16) >>> (4 * (d % 16)), d / 16 + 1)

/-! ### What `Set`, `Mod` and `Add` do with a present or new key -/

/-- The type of the conflicting-key rehash. -/
abbrev Chash (K : Type) := Seed → K → K → Nat → Nat → Except Fault (BitVec 64 × Nat)

section
variable {K V : Type} (c : Cfg K)

/-- `Set(key, value)`: `ckv.v = value` on a hit (string_map.go:146); a cell with the value otherwise
(string_map.go:174, 196, 206). -/
def setIns (chash : Chash K) (guard : Bool) (key : K) (v : V) : Ins K V Unit where
  chash := chash
  guard := guard
  hit p := storeVal p v
  newSplit := do let p ← newKv c key v; pure (p, ())
  newSlot := do let p ← newKv c key v; pure (p, ())

/-- `ArrMap.Set`: as `setIns`, but the cell made on a collision is `&arrkv[K, V]{k: key}`
(arr_map.go:170): the value is not stored. -/
def setInsArr [Inhabited V] (chash : Chash K) (key : K) (v : V) : Ins K V Unit where
  chash := chash
  guard := false
  hit p := storeVal p v
  newSplit := do let p ← newKv c key default; pure (p, ())
  newSlot := do let p ← newKv c key v; pure (p, ())

/-- `Mod(key, mod)`: `mod(&ckv.v, true)` on a hit (string_map.go:246); a zeroed cell and
`mod(&kv.v, false)` otherwise (string_map.go:274-275, 290-291).  The callback maps the value it finds
to the value it leaves; the result is the list of calls made, with the arguments received.
Simplification: this callback does not use the container and does not panic; `Verif/Callback.lean` has callbacks
that are programs. -/
def modIns [Inhabited V] (chash : Chash K) (guard : Bool) (key : K) (f : V → Bool → V) :
    Ins K V (List (V × Bool)) where
  chash := chash
  guard := guard
  hit p := do
    let kv ← loadKv p
    storeVal p (f kv.2 true)
    pure [(kv.2, true)]
  newSplit := do let p ← newKv c key (f default false); pure (p, [(default, false)])
  newSlot := do let p ← newKv c key (f default false); pure (p, [(default, false)])

/-- `Add(key)` (string_set.go:81-175): nothing to do on a hit. -/
def addIns (chash : Chash K) (key : K) : Ins K Unit Unit where
  chash := chash
  guard := false
  hit _ := pure ()
  newSplit := do let p ← newKv c key (); pure (p, ())
  newSlot := do let p ← newKv c key (); pure (p, ())

end

/-! ### The map API -/

/-- A map container: its key handling and its three mutators. -/
structure MapImpl (K V : Type) where
  cfg : Cfg K
  setI : K → V → Ins K V Unit
  modI : K → (V → Bool → V) → Ins K V (List (V × Bool))
  /-- given "stored key = key", does `Del` return early? -/
  delSkip : Bool → Bool

namespace MapImpl
variable {K V : Type} [Inhabited V] (I : MapImpl K V)

/-- `NewStringMap` etc. (string_map.go:56-58). -/
def New (seed : Seed) : M K V Handle := newRoot seed

/-- `Nil` (string_map.go:61). -/
def Nil (m : Handle) : Bool := m.isNone

/-- `Len` (string_map.go:64, amt.go:79-84). -/
def Len (m : Handle) : M K V (BitVec 64) :=
  match m with
  | none => pure 0#64
  | some h => do let r ← getRoot h; pure r.len

/-- `Dep` (string_map.go:68, amt.go:87-92).  The quotient is exact here; Go rounds it to a `float64`. -/
def Dep (m : Handle) : M K V Rat :=
  match m with
  | none => pure 0
  | some h => do
    let r ← getRoot h
    if r.len = 0#64 then pure 0 else pure ((r.dep.toNat : Rat) / (r.len.toNat : Rat))

/-- `Ptr` (string_map.go:90-118). -/
def Ptr (fuel : Nat) (m : Handle) (key : K) : M K V (Option Amt.Ptr) := do
  let h ← deref m
  lookup I.cfg h fuel key

/-- `Get` (string_map.go:71-76). -/
def Get (fuel : Nat) (m : Handle) (key : K) : M K V (V × Bool) := do
  let p ← I.Ptr fuel m key
  match p with
  | none => pure (default, false)
  | some p => do let kv ← loadKv p; pure (kv.2, true)

/-- `Val` (string_map.go:79-86). -/
def Val (fuel : Nat) (m : Handle) (key : K) : M K V V :=
  match m with
  | none => pure default
  | some _ => do
    let p ← I.Ptr fuel m key
    match p with
    | none => pure default
    | some p => do let kv ← loadKv p; pure kv.2

/-- `Set` (string_map.go:121-217). -/
def Set (fuel : Nat) (m : Handle) (key : K) (v : V) : M K V Unit := do
  let h ← deref m
  upsert I.cfg h fuel key (I.setI key v)

/-- `Mod` (string_map.go:221-320). -/
def Mod (fuel : Nat) (m : Handle) (key : K) (f : V → Bool → V) : M K V (List (V × Bool)) := do
  let h ← deref m
  upsert I.cfg h fuel key (I.modI key f)

/-- `Del` (string_map.go:323-396). -/
def Del (fuel : Nat) (m : Handle) (key : K) : M K V Unit := do
  let h ← deref m
  delete I.cfg h fuel I.delSkip key

/-- `All` (string_map.go:402-404). -/
def All {U : Type} (fuel : Nat) (m : Handle) (f : U → K → V → U × V × Bool) (u : U) : M K V U := do
  let h ← deref m
  let r ← scan (visitMap I.cfg f) fuel u ⟨.blk h, 0⟩
  pure r.1

end MapImpl

/-! ### The set API -/

/-- A set container. -/
structure SetImpl (K : Type) where
  cfg : Cfg K
  addI : K → Ins K Unit Unit
  delSkip : Bool → Bool

namespace SetImpl
variable {K : Type} (I : SetImpl K)

/-- `NewStringSet` etc. (string_set.go:38-40). -/
def New (seed : Seed) : M K Unit Handle := newRoot seed

/-- `Nil` (string_set.go:43). -/
def Nil (m : Handle) : Bool := m.isNone

/-- `Len` (string_set.go:46). -/
def Len (m : Handle) : M K Unit (BitVec 64) := MapImpl.Len m

/-- `Dep` (string_set.go:50). -/
def Dep (m : Handle) : M K Unit Rat := MapImpl.Dep m

/-- `Has` (string_set.go:53-78). -/
def Has (fuel : Nat) (m : Handle) (key : K) : M K Unit Bool := do
  let h ← deref m
  let p ← lookup I.cfg h fuel key
  pure p.isSome

/-- `Add` (string_set.go:81-175). -/
def Add (fuel : Nat) (m : Handle) (key : K) : M K Unit Unit := do
  let h ← deref m
  upsert I.cfg h fuel key (I.addI key)

/-- `Del` (string_set.go:179-252). -/
def Del (fuel : Nat) (m : Handle) (key : K) : M K Unit Unit := do
  let h ← deref m
  delete I.cfg h fuel I.delSkip key

/-- `All` (string_set.go:258-279). -/
def All {U : Type} (fuel : Nat) (m : Handle) (f : U → K → U × Bool) (u : U) : M K Unit U := do
  let h ← deref m
  let r ← scan (visitSet I.cfg f) fuel u ⟨.blk h, 0⟩
  pure r.1

end SetImpl

/-! ### The containers -/

section Containers
variable {V : Type} [Inhabited V] (sum : Maphash)

/-- string_map.go -/
def StringMap : MapImpl ByteStr V :=
  let c := boxedCfg sum id
  { cfg := c, setI := setIns c (byteChash sum id) false, modI := modIns c (byteChash sum id) false,
    delSkip := fun same => !same }

/-- bytes_map.go; the guard is bytes_map.go:159-162, 264-269. -/
def BytesMap : MapImpl ByteStr V :=
  let c := boxedCfg sum id
  { cfg := c, setI := setIns c (byteChash sum id) true, modI := modIns c (byteChash sum id) true,
    delSkip := fun same => !same }

/-- arr_map.go; `keyBytes` is `ArrKey.KeyBytes` (arr_map.go:33-36). -/
def ArrMap {K : Type} [DecidableEq K] (keyBytes : K → List UInt8) : MapImpl K V :=
  let c := boxedCfg sum keyBytes
  { cfg := c, setI := setInsArr c (byteChash sum keyBytes),
    modI := modIns c (byteChash sum keyBytes) false, delSkip := fun same => !same }

/-- int_map.go -/
def IntMap : MapImpl IntKey V :=
  let c := intCfg .inline sum
  { cfg := c, setI := setIns c (byteChash sum intbytes) false,
    modI := modIns c (byteChash sum intbytes) false, delSkip := fun same => !same }

/-- generic_map.go -/
def GenericMap {K : Type} (I : KeyImpl K) : MapImpl K V :=
  let c := genericCfg I
  { cfg := c, setI := setIns c (genericChashSet I) false, modI := modIns c (genericChashMod I) false,
    delSkip := fun same => !same }

/-- string_set.go -/
def StringSet : SetImpl ByteStr :=
  let c := boxedCfg sum id
  { cfg := c, addI := addIns c (byteChash sum id), delSkip := fun same => !same }

/-- bytes_set.go; bytes_set.go:206 returns early when the keys are *equal*. -/
def BytesSet : SetImpl ByteStr :=
  let c := boxedCfg sum id
  { cfg := c, addI := addIns c (byteChash sum id), delSkip := fun same => same }

/-- arr_set.go -/
def ArrSet {K : Type} [DecidableEq K] (keyBytes : K → List UInt8) : SetImpl K :=
  let c := boxedCfg sum keyBytes
  { cfg := c, addI := addIns c (byteChash sum keyBytes), delSkip := fun same => !same }

/-- int_set.go -/
def IntSet : SetImpl IntKey :=
  let c := intSetCfg sum
  { cfg := c, addI := addIns c (byteChash sum intbytes), delSkip := fun same => !same }

/-- generic_set.go -/
def GenericSet {K : Type} (I : KeyImpl K) : SetImpl K :=
  let c := genericCfg I
  { cfg := c, addI := addIns c (genericChashSet I), delSkip := fun same => !same }

end Containers

/-! ### Ready-made `Hash` methods (for use with the generic containers) -/

/-- `Bytes.Hash` (bytes_map.go:37-44), `String.Hash` (string_map.go:36-43): write the key for
`i = 0, ..., iter` (a `uint`, no wrap below 2^64) and sum.  Returns the number of writes. -/
def hashWrites (iter : Nat) : (fuel i w : Nat) → Except Fault Nat
  | 0, _, _ => .error .diverge
  | fuel + 1, i, w => if i ≤ iter then hashWrites iter fuel ((i + 1) % 2 ^ 64) (w + 1) else .ok w

/-- `Bytes.Hash` / `String.Hash`. -/
def bytesHash (sum : Maphash) (fuel : Nat) (k : ByteStr) (s : Seed) (iter : Nat) :
    Except Fault (BitVec 64) :=
  match hashWrites iter fuel 0 0 with
  | .error e => .error e
  | .ok w => .ok (digestOf sum s k w)

/-- `Int.Hash` (int_map.go:34-42). -/
def intHash (sum : Maphash) (fuel : Nat) (k : IntKey) (s : Seed) (iter : Nat) :
    Except Fault (BitVec 64) :=
  match hashWrites iter fuel 0 0 with
  | .error e => .error e
  | .ok w => .ok (digestOf sum s (intbytes k) w)

/-- The loop of `HashBytes` (generic_map.go:46-48): `for i := uint8(0); i <= uint8(iter); i++`. -/
def hashBytesWrites (iter : Nat) : (fuel i w : Nat) → Except Fault Nat
  | 0, _, _ => .error .diverge
  | fuel + 1, i, w => if i ≤ iter % 256 then hashBytesWrites iter fuel ((i + 1) % 256) (w + 1) else .ok w

/-- `HashBytes` (generic_map.go:43-50). -/
def hashBytes (sum : Maphash) (fuel : Nat) (k : ByteStr) (s : Seed) (iter : Nat) :
    Except Fault (BitVec 64) :=
  match hashBytesWrites iter fuel 0 0 with
  | .error e => .error e
  | .ok w => .ok (digestOf sum s k w)

end Amt
