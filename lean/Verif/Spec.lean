/-
What the containers are supposed to do, written without reference to the model: finite maps and sets as
association lists, the operations a client can perform on them, and which answers are right.
-/
namespace Spec

/-! ### Finite maps -/

section Map
variable {K V : Type} [DecidableEq K]

/-- A finite map: the list of its entries. -/
abbrev FMap (K V : Type) := List (K × V)

/-- The value of a key. -/
def FMap.get : FMap K V → K → Option V
  | [], _ => none
  | (k', v) :: m, k => if k = k' then some v else FMap.get m k

/-- Without a key. -/
def FMap.del (m : FMap K V) (k : K) : FMap K V := m.filter (fun e => decide (e.1 ≠ k))

/-- With a new value for a key. -/
def FMap.set (m : FMap K V) (k : K) (v : V) : FMap K V := (k, v) :: FMap.del m k

/-- The stored keys. -/
def FMap.keys (m : FMap K V) : List K := m.map (fun e => e.1)

end Map

/-- A call of a map's API.  Callbacks are functions of everything they have seen so far. -/
inductive MOp (K V : Type) where
  | get (k : K)
  | val (k : K)
  /-- `p := m.Ptr(k)`, then `*p` unless nil. -/
  | ptr (k : K)
  | set (k : K) (v : V)
  /-- `m.Mod(k, f)`; `f old found` is what the callback leaves in the value. -/
  | mod (k : K) (f : V → Bool → V)
  | del (k : K)
  | len
  | dep
  /-- `p := m.Ptr(k); if p != nil { *p = v }`. -/
  | write (k : K) (v : V)
  /-- `m.All(f)`; `f log k v = (v', go)`: after the calls in `log`, called with `k` and a pointer to `v`,
  the callback leaves `v'` there and returns `go`. -/
  | all (f : List (K × V) → K → V → V × Bool)

/-- What a call returns. -/
inductive MOut (K V : Type) where
  | unit
  | pair (v : V) (found : Bool)
  | one (v : V)
  | opt (v : Option V)
  /-- the calls of the `Mod` callback, with its arguments. -/
  | calls (l : List (V × Bool))
  | num (n : BitVec 64)
  | rat (q : Rat)
  /-- the calls of the `All` callback, with its arguments. -/
  | log (l : List (K × V))

/-- The key a call may insert. -/
def MOp.stores {K V : Type} : MOp K V → List K
  | .set k _ => [k]
  | .mod k _ => [k]
  | _ => []

/-- The keys that a sequence of calls may insert. -/
def Stores {K V : Type} (ops : List (MOp K V)) (k : K) : Prop := ∃ op ∈ ops, k ∈ op.stores

/-- Calling `f` on the entries in a given order: the calls made, and the entries afterwards. -/
def visit {K V : Type} (f : List (K × V) → K → V → V × Bool) :
    (log : List (K × V)) → List (K × V) → List (K × V) × List (K × V)
  | log, [] => (log, [])
  | log, (k, v) :: es =>
    if (f log k v).2 then
      ((visit f (log ++ [(k, v)]) es).1, (k, (f log k v).1) :: (visit f (log ++ [(k, v)]) es).2)
    else (log ++ [(k, v)], (k, (f log k v).1) :: es)

section Step
variable {K V : Type} [DecidableEq K] [Inhabited V]

/-- `Step m op o m'`: on the map `m`, the call `op` may return `o` and leave the map `m'`.  Only the order
in which `All` visits the entries and the number that `Dep` returns are left open (they are fixed in `MStepX`). -/
def MStep (m : FMap K V) : MOp K V → MOut K V → FMap K V → Prop
  | .get k, o, m' => o = .pair ((m.get k).getD default) (m.get k).isSome ∧ m' = m
  | .val k, o, m' => o = .one ((m.get k).getD default) ∧ m' = m
  | .ptr k, o, m' => o = .opt (m.get k) ∧ m' = m
  | .set k v, o, m' => o = .unit ∧ m' = m.set k v
  | .mod k f, o, m' =>
    match m.get k with
    | some v => o = .calls [(v, true)] ∧ m' = m.set k (f v true)
    | none => o = .calls [(default, false)] ∧ m' = m.set k (f default false)
  | .del k, o, m' => o = .unit ∧ m' = m.del k
  | .len, o, m' => o = .num (BitVec.ofNat 64 m.length) ∧ m' = m
  | .dep, o, m' => (∃ q, o = .rat q) ∧ m' = m
  | .write k v, o, m' => o = .unit ∧ m' = if (m.get k).isSome then m.set k v else m
  | .all f, o, m' => ∃ order, order.Perm m ∧ o = .log (visit f [] order).1 ∧ m' = (visit f [] order).2

/-- A sequence of calls, each answered according to `step`. -/
def RunBy (step : FMap K V → MOp K V → MOut K V → FMap K V → Prop) :
    FMap K V → List (MOp K V) → List (MOut K V) → FMap K V → Prop
  | m, [], os, m' => os = [] ∧ m' = m
  | m, op :: ops, os, m' => ∃ o os' m₁, os = o :: os' ∧ step m op o m₁ ∧ RunBy step m₁ ops os' m'

/-- A sequence of calls on a finite map. -/
abbrev MRun : FMap K V → List (MOp K V) → List (MOut K V) → FMap K V → Prop := RunBy MStep

end Step

/-! ### Finite sets -/

/-- A call of a set's API. -/
inductive SOp (K : Type) where
  | has (k : K)
  | add (k : K)
  | del (k : K)
  | len
  | dep
  /-- `s.All(f)`; `f log k` is what the callback returns. -/
  | all (f : List K → K → Bool)

inductive SOut (K : Type) where
  | unit
  | bool (b : Bool)
  | num (n : BitVec 64)
  | rat (q : Rat)
  | log (l : List K)

/-- The key a call may insert. -/
def SOp.stores {K : Type} : SOp K → List K
  | .add k => [k]
  | _ => []

/-- The keys that a sequence of calls may insert. -/
def SStores {K : Type} (ops : List (SOp K)) (k : K) : Prop := ∃ op ∈ ops, k ∈ op.stores

/-- Calling `f` on the elements in a given order until it returns false. -/
def visitS {K : Type} (f : List K → K → Bool) : (log : List K) → List K → List K
  | log, [] => log
  | log, k :: ks => if f log k then visitS f (log ++ [k]) ks else log ++ [k]

section SStep
variable {K : Type} [DecidableEq K]

/-- As `MStep`; a finite set is the list of its elements. -/
def SStep (m : List K) : SOp K → SOut K → List K → Prop
  | .has k, o, m' => o = .bool (decide (k ∈ m)) ∧ m' = m
  | .add k, o, m' => o = .unit ∧ m' = if k ∈ m then m else k :: m
  | .del k, o, m' => o = .unit ∧ m' = m.filter (fun x => decide (x ≠ k))
  | .len, o, m' => o = .num (BitVec.ofNat 64 m.length) ∧ m' = m
  | .dep, o, m' => (∃ q, o = .rat q) ∧ m' = m
  | .all f, o, m' => m' = m ∧ ∃ order, order.Perm m ∧ o = .log (visitS f [] order)

/-- As `RunBy`, for sets. -/
def SRunBy (step : List K → SOp K → SOut K → List K → Prop) : List K → List (SOp K) → List (SOut K) → List K → Prop
  | m, [], os, m' => os = [] ∧ m' = m
  | m, op :: ops, os, m' => ∃ o os' m₁, os = o :: os' ∧ step m op o m₁ ∧ SRunBy step m₁ ops os' m'

/-- A sequence of calls on a finite set. -/
abbrev SRun : List K → List (SOp K) → List (SOut K) → List K → Prop := SRunBy SStep

end SStep

/-! ### Hash nibbles -/

/-- The `j`-th group of 4 bits of a key's hash stream `H k 0, H k 1, ...` of 64-bit digests, least
significant group of each digest first. -/
def nibble {K : Type} (H : K → Nat → BitVec 64) (k : K) (j : Nat) : Nat :=
  (H k (j / 16)).toNat / 16 ^ (j % 16) % 16

/-- `a` and `b` differ in one of their first 256 nibbles. -/
def Apart {K : Type} (H : K → Nat → BitVec 64) (a b : K) : Prop := ∃ j, j ≤ 255 ∧ nibble H a j ≠ nibble H b j

/-- `a` and `b` differ in one of their first 241 nibbles. -/
def Near {K : Type} (H : K → Nat → BitVec 64) (a b : K) : Prop := ∃ j, j ≤ 240 ∧ nibble H a j ≠ nibble H b j

/-- Any two different keys in `S` are told apart by their first 241 nibbles. -/
def Separated {K : Type} (H : K → Nat → BitVec 64) (S : K → Prop) : Prop :=
  ∀ a b, S a → S b → a ≠ b → Near H a b

/-- Two keys agree on their first `d` nibbles. -/
def Agree {K : Type} (H : K → Nat → BitVec 64) (a b : K) (d : Nat) : Prop := ∀ j, j < d → nibble H a j = nibble H b j

/-- The new key `key` collides with the stored key `k'`: some non-empty prefix of the nibbles of `key` is
shared by `k'` and by no other of the stored keys `ks`. -/
def CollidesWith {K : Type} (H : K → Nat → BitVec 64) (ks : List K) (key k' : K) : Prop :=
  ∃ d, 1 ≤ d ∧ k' ∈ ks ∧ Agree H key k' d ∧ ∀ k'' ∈ ks, Agree H key k'' d → k'' = k'

/-- A new key collides with a stored one. -/
def Collides {K : Type} (H : K → Nat → BitVec 64) (ks : List K) (key : K) : Prop := ∃ k', CollidesWith H ks key k'

/-- The new key `key` collides with the stored key `k'` at depth `d`: `d + 1` is the length of the shortest
non-empty prefix of the nibbles of `key` that is shared by `k'` and by no other of the stored keys `ks`. -/
def CollidesAt {K : Type} (H : K → Nat → BitVec 64) (ks : List K) (key k' : K) (d : Nat) : Prop :=
  k' ∈ ks ∧ Agree H key k' (d + 1) ∧ (∀ k'' ∈ ks, Agree H key k'' (d + 1) → k'' = k') ∧
    (d = 0 ∨ ∃ k'' ∈ ks, k'' ≠ k' ∧ Agree H key k'' d)

/-- `a` can be inserted next to `b` in an integer-keyed container.  `up b` is the upper half of the integer
`b`; the condition is that, at every nibble but the first that `a` shares with `b` together with all nibbles
before it, the bit of `up b` numbered by that nibble is clear. -/
def SafePair {K : Type} (H : K → Nat → BitVec 64) (up : K → BitVec 32) (a b : K) : Prop :=
  a ≠ b → ∀ j, 1 ≤ j → Agree H a b (j + 1) → (up b).getLsbD (nibble H a j) = false

/-- The upper half of a 64-bit integer. -/
def upper (k : BitVec 64) : BitVec 32 := k.extractLsb' 32 32

section
variable {K V : Type} [DecidableEq K]

/-- The stored keys after a call, given those before it. -/
def MOp.after (ks : List K) : MOp K V → List K
  | .set k _ => if k ∈ ks then ks else k :: ks
  | .mod k _ => if k ∈ ks then ks else k :: ks
  | .del k => ks.filter (fun x => decide (x ≠ k))
  | _ => ks

/-- The stored keys after a sequence of calls. -/
def keysAfter (ks : List K) (ops : List (MOp K V)) : List K := ops.foldl MOp.after ks

def MOp.isMod : MOp K V → Bool
  | .mod _ _ => true
  | _ => false

/-- Whenever a call in this sequence inserts a new key `k`, `P m ks k` holds, where `ks` are the keys stored
at that moment and `m` tells whether the call is a `Mod` (or else a `Set`). -/
def EachNew (P : Bool → List K → K → Prop) : List K → List (MOp K V) → Prop
  | _, [] => True
  | ks, op :: ops => (∀ k ∈ op.stores, k ∉ ks → P op.isMod ks k) ∧ EachNew P (op.after ks) ops

/-- The elements of a set after a call, given those before it. -/
def SOp.after (ks : List K) : SOp K → List K
  | .add k => if k ∈ ks then ks else k :: ks
  | .del k => ks.filter (fun x => decide (x ≠ k))
  | _ => ks

/-- The elements after a sequence of calls. -/
def elemsAfter (ks : List K) (ops : List (SOp K)) : List K := ops.foldl SOp.after ks

/-- The elements after a call, if the test in `Del` is inverted (see `SStepX`) in case `inv`. -/
noncomputable def SOp.afterX (H : K → Nat → BitVec 64) (inv : Bool) (ks : List K) : SOp K → List K
  | .del k =>
    if inv = true then
      if k ∈ ks then ks else ks.filter (fun x => @decide (¬ CollidesWith H ks k x) (Classical.propDecidable _))
    else ks.filter (fun x => decide (x ≠ k))
  | op => op.after ks

/-- The elements after a sequence of calls, if the test in `Del` is inverted in case `inv`. -/
noncomputable def elemsAfterX (H : K → Nat → BitVec 64) (inv : Bool) (ks : List K) (ops : List (SOp K)) : List K :=
  ops.foldl (SOp.afterX H inv) ks

/-- As `EachNew`, for the `Add`s of a sequence of calls on a set. -/
def SEachNew (H : K → Nat → BitVec 64) (inv : Bool) (P : List K → K → Prop) : List K → List (SOp K) → Prop
  | _, [] => True
  | ks, op :: ops => (∀ k ∈ op.stores, k ∉ ks → P ks k) ∧ SEachNew H inv P (op.afterX H inv ks) ops

/-! ### Order and depth -/

/-- `a` comes before `b` in the lexicographic order of nibbles. -/
def Before (H : K → Nat → BitVec 64) (a b : K) : Prop := ∃ j, Agree H a b j ∧ nibble H a j < nibble H b j

/-- The number of nibbles, among the first 256, before the first one in which `a` and `b` differ. -/
def sharedLen (H : K → Nat → BitVec 64) (a b : K) : Nat :=
  ((List.range 256).takeWhile (fun j => decide (nibble H a j = nibble H b j))).length

/-- The length of the longest nibble prefix that `k` shares with another key in `ks`. -/
def depthIn (H : K → Nat → BitVec 64) (ks : List K) (k : K) : Nat :=
  ((ks.filter (fun x => decide (x ≠ k))).map (sharedLen H k)).foldr max 0

/-- The sum of the depths of the keys in `ks`. -/
def depthSum (H : K → Nat → BitVec 64) (ks : List K) : Nat := (ks.map (depthIn H ks)).sum

/-- The mean depth of the keys in `ks`. -/
def meanDepth (H : K → Nat → BitVec 64) (ks : List K) : Rat :=
  if ks = [] then 0 else (depthSum H ks : Rat) / (ks.length : Rat)

/-- The same, with the sum and the number of keys counted modulo `2^64`. -/
def meanDepth64 (H : K → Nat → BitVec 64) (ks : List K) : Rat :=
  if ks.length % 2 ^ 64 = 0 then 0 else ((depthSum H ks % 2 ^ 64 : Nat) : Rat) / ((ks.length % 2 ^ 64 : Nat) : Rat)

/-- Like `MStep`, with every answer determined: `All` visits the entries in the order of their nibbles, and
`Dep` returns the mean depth (if `ex`; otherwise any number).  Moreover `Set` of a new key that collides with
a stored one stores `lossy v` instead of `v`.  (With `lossy v = v` this implies `MStep`, see `MStepX.toStep`.) -/
def MStepX [Inhabited V] (H : K → Nat → BitVec 64) (ex : Prop) (lossy : V → V) (m : FMap K V) :
    MOp K V → MOut K V → FMap K V → Prop
  | .set k v, o, m' =>
    o = .unit ∧ ((m.get k = none ∧ Collides H m.keys k ∧ m' = m.set k (lossy v)) ∨
      (¬ (m.get k = none ∧ Collides H m.keys k) ∧ m' = m.set k v))
  | .all f, o, m' => ∃ order, (order.Perm m ∧ order.Pairwise (fun a b => Before H a.1 b.1)) ∧
      o = .log (visit f [] order).1 ∧ m' = (visit f [] order).2
  | .dep, o, m' => (∃ q, o = .rat q ∧ (ex → q = meanDepth64 H m.keys)) ∧ m' = m
  | op, o, m' => MStep m op o m'

/-- As `MStepX`, for sets.  If `inv`, the test in `Del` is inverted: deleting a present key does nothing, and
deleting an absent key removes the key it collides with, if there is one. -/
def SStepX (H : K → Nat → BitVec 64) (ex : Prop) (inv : Bool) (m : List K) : SOp K → SOut K → List K → Prop
  | .del k, o, m' => o = .unit ∧
    if inv = true then
      (m' = m ∧ (k ∈ m ∨ ¬ Collides H m k)) ∨
        (k ∉ m ∧ ∃ k', CollidesWith H m k k' ∧ m' = m.filter (fun x => decide (x ≠ k')))
    else m' = m.filter (fun x => decide (x ≠ k))
  | .all f, o, m' => m' = m ∧ ∃ order, (order.Perm m ∧ order.Pairwise (Before H)) ∧ o = .log (visitS f [] order)
  | .dep, o, m' => (∃ q, o = .rat q ∧ (ex → q = meanDepth64 H m)) ∧ m' = m
  | op, o, m' => SStep m op o m'

end

/-- The hash stream of the byte-hashed containers: the `n`-th digest is that of `n + 1` copies of the
bytes. -/
def byteStream {K : Type} (sum : BitVec 64 → List UInt8 → BitVec 64) (seed : BitVec 64) (bytes : K → List UInt8)
    (k : K) (n : Nat) : BitVec 64 := sum seed (List.replicate (n + 1) (bytes k)).flatten

/-- The first digest of the key that `Set` and `Add` of the generic containers push down: right only if the
digests numbered `d % 16` and `d / 16` have the same nibbles from position `d % 16` on. -/
def GenOk {K : Type} (hash : K → Nat → BitVec 64) (_k k' : K) (d : Nat) : Prop :=
  hash k' (d % 16) >>> (4 * (d % 16)) = hash k' (d / 16) >>> (4 * (d % 16))

/-- The same for `Mod`, which hashes the new key instead. -/
def GenModOk {K : Type} (hash : K → Nat → BitVec 64) (k k' : K) (d : Nat) : Prop :=
  hash k (d % 16) >>> (4 * (d % 16)) = hash k' (d / 16) >>> (4 * (d % 16))

/-! ### Which keys can be inserted -/

/-- The new key `k` can be told apart from each of the stored keys `ks`. -/
def ApartAll {K : Type} (H : K → Nat → BitVec 64) (ks : List K) (k : K) : Prop := ∀ k' ∈ ks, Apart H k k'

/-- The new key `k` can be told apart from each of the stored keys `ks`, and does not collide with one of them
at a depth of 240 or more.  (This holds if it differs from each of them in one of the first 241 nibbles.) -/
def ByteFits {K : Type} (H : K → Nat → BitVec 64) (ks : List K) (k : K) : Prop :=
  ApartAll H ks k ∧ ∀ k' d, CollidesAt H ks k k' d → d < 240

/-- The new key `k` can be inserted next to each of the stored keys `ks` in an integer-keyed container. -/
def IntSafe (H : BitVec 64 → Nat → BitVec 64) (ks : List (BitVec 64)) (k : BitVec 64) : Prop :=
  ∀ k' ∈ ks, Near H k k' ∧ SafePair H upper k k'

/-- As `ByteFits`, for keys in `[0, 2^32)`. -/
def IntSmall (H : BitVec 64 → Nat → BitVec 64) (ks : List (BitVec 64)) (k : BitVec 64) : Prop :=
  k.toNat < 2 ^ 32 ∧ ByteFits H ks k

/-- The new key `k` can be told apart from each of the stored keys `ks`, and the wrong rehash of the key it
collides with, if there is one, is harmless. -/
def GenFits {K : Type} (H : K → Nat → BitVec 64) (isMod : Bool) (ks : List K) (k : K) : Prop :=
  ApartAll H ks k ∧ ∀ k' d, CollidesAt H ks k k' d → if isMod then GenModOk H k k' d else GenOk H k k' d

end Spec
