# A machine-checked model of wdamron/amt

The Go package keeps hash array mapped tries behind unsafe pointers: five maps (`StringMap`, `BytesMap`, `ArrMap`,
`IntMap`, generic `Map`) and five sets.  This directory contains a Lean 4 model of it and proofs about the model.
The properties are listed in `properties.jsonl`, the theorem names for each in `MANIFEST.json`.

## What is trusted

* The Lean 4 kernel, and the three axioms `propext`, `Quot.sound` and `Classical.choice` of Lean's library.  No theorem
  depends on any other axiom: there is no `sorry`, no `native_decide`, no `bv_decide`, no axiom of our own.
  (`decide +kernel` is used for concrete cases: it is evaluated by the kernel.)
* That the model is a faithful transcription of the Go code.  It was made by reading; the Go code was never run.
  Every definition of `Mem.lean`, `Model.lean` and `Containers.lean` cites the Go lines it stands for, and
  the section "What is modelled" lists every deviation.
* That the statements say what they should.  They refer to the model of the API calls (`MapImpl.Get`, ...) and to
  `Spec.lean`, which is independent of the model.

Mathlib is not imported.

## Layers

| file | content |
|---|---|
| `Mem` | the machine: objects, unsafe pointers, loads and stores that fault on nil, dangling, out-of-bounds and wrongly typed accesses, an allocator, the counters of a root |
| `Model` | the algorithms: search, split, slot insertion, deletion, iteration |
| `Containers` | the ten containers and their API; the `Hash` helpers |
| `Spec` | finite maps and sets as association lists; which answers are right; hash streams, nibbles, shared prefixes; which insertions are covered |
| `Bits`, `Trie`, `Exec`, `Rep`, `Sim*`, `Inv`, `Inst`, `Order`, `Slot` | the proof: memory represents a pure trie, every program simulates an operation of the trie, each container meets the conditions |
| `SpecLemmas`, `Refine` | every call answers as the specification says (`map_step`, `set_step`), and so does every history (`map_run`, `set_run`) |
| `PropsRefine` | C01-C10 |
| `PropsFuel` | loop bounds; more fuel changes nothing |
| `Diverge`, `PropsHang` | hangs: C24, C25, C26, C39 |
| `Api` | all containers with their covered histories in one predicate (`MapContainer`, `SetContainer`) |
| `PropsMap`, `PropsSet` | C11-C23, C27, C40 |
| `PropsShape` | exact shape of memory, exact number of levels visited: C19, C27, C37 |
| `PropsMisc` | packing, hash helpers, reads, uninitialised values: C28-C31 |
| `PropsLaws` | C34, C35, C36, C42 |
| `PropsGuard` | modified `BytesMap` keys: C38 |
| `PropsWorld` | several containers, copies: C32, C33 |
| `Rename`, `PropsRename` | programs do not depend on addresses: C62, and C33 for every program |
| `PropsExpect` | the depth is on the order of log16(N), on average over hash functions: C63 |
| `PropsSpace` | the link arrays have at most 16 + N + 4B slots, B on average of the order of N: C75 |
| `PropsEqual`, `PropsNan` | keys that are equal without being identical: C76; keys that are not equal to themselves: C77 |
| `Tests`, `PropsTests`, `PropsTestsMore` | the tests of `amt_test.go` as programs over the model, with any number of keys: C78 |
| `Scratch`, `PropsScratch` | `Del` with the array `root.path`; what stays reachable after `Del`: C64-C66 |
| `PropsEvery` | C27 for integer and generic containers on more histories; C26 refuted for generic containers |
| `Float`, `PropsFloat` | rounding to `float64` and `Dep` with its conversions and its division: C68 |
| `Apart`, `PropsApart`, `PropsBetween` | programs over many containers with callbacks and kept pointers: C67, C44 on every history |
| `Tag`, `PropsOpaque` | images of memories under functions of keys and values; values and keys are used through their methods only: C70, C71 |
| `KeyPanic`, `PropsKeyPanic` | the operations once more, with methods of keys that may panic and callers that recover: C72 |
| `Tree`, `TreeOps`, `TreeDel`, `PropsTree` | ownership of arrays and cells, kept by all operations whatever the keys and hashes; no sharing (C73), only insertions hang (C74), C22 and C55 for `IntMap` on every history, C27 refuted for keys that agree on 256 nibbles |
| `Many`, `PropsMany` | typed programs over maps and sets of any kinds and types: C67, C44 |
| `PropsEnds`, `PropsAlways` | an iteration is a loop over entries that do not depend on the callback, in every state: C44 |
| `Go`, `GoStringMap`, ..., `GoSet` | a second model: the ten Go files translated statement by statement by `tools/go2lean.py` |
| `GoLoop` | the loops of the translated programs; towards the proof that both models agree |
| `GoTidy`, `GoSlot`, `GoSplit`, `GoLevel` | no array of links is reached from itself; the free slot and the split of the translated programs |
| `GoSimRead` | the translated `Ptr`, `Has` and `scan` of all ten containers do what the model does |
| `GoSimIns` | the translated `Set`, `Mod` and `Add` do what the model does |
| `GoUnlink`, `GoSimDel` | the three loops at the end of `Del` and the translated `Del` of all ten containers, for any content of the scratch array |
| `GoKeep` | the translated calls keep the memory tidy (no array of links is reached from itself) |
| `GoBridge` | loop bounds of translation and model; the cell of a new key is made late in Go and early in the model |
| `GoHist`, `PropsGo` | histories of translated calls give the answers of the model (C69) |
| `PropsGoCallback` | the translated `Mod` and `All` with callbacks that are programs: C79 |
| `GoWith`, `GoSim` | what `Mod` does around its callback; programs over the translated methods and over the model |
| `GoCells` | no call of the model turns a key-value cell into something else |
| `GoProg`, `PropsGoProg`, `PropsGoPlain` | programs with several containers, kept pointers and callbacks, over the translated methods: C80; findings 11, 12 and 18 there |
| `Par`, `ParStringMap` … `ParSet` | the Go files as trees of memory accesses (generated) |
| `ParDen`, `ParRead`, `ParLock`, `ParHist`, `PropsPar` | the trees are the translated methods; which of them only read; goroutines, with and without a `sync.RWMutex`: C81 |
| `ParNat`, `ParNatMap`, `ParNatMap2`, `ParNatSet`, `ParOwn`, `ParProg`, `PropsOwn` | addresses do not matter to the methods (`Nrel`); goroutines that share no object do what they do alone; client programs as trees: C82 |
| `PropsRace` | there are no data races with the lock or with containers of one's own: C83 |
| `PropsEnd` | with the lock there is no deadlock and all calls return: C84 |
| `Cost`, `CostRead`, `CostDel`, `CostAlloc`, `PropsCost` | the accesses of a call are counted: C85, C86 |
| `CostIns`, `PropsCostIns`, `CostMod`, `PropsCostMod` | the accesses and allocations of `Set`, `Add` and `Mod`: C87 |
| `PropsCostMean` | mean numbers of accesses over a family of hash functions: C88 |
| `PropsCostHit` | `Set`, `Mod` and `Add` of a key that is found allocate nothing; counted allocations are the growth of the memory: C90 |
| `PropsCostHist` | the objects that a whole history allocates, and their mean over a family of hash functions: C91 |
| `PropsCostTotal` | the accesses to memory that a whole history makes, and their mean: C92 |
| `KeyUse`, `PropsKeyUse` | the operations of the model with a log of the keys that are hashed and compared, and bounds on it: C93 |
| `PropsOnce` | the share of a family of hash functions for which a history goes wrong or hashes a key twice: C94 |
| `PropsTail` | the share of a family of hash functions for which some call of a history is slow: C95 |
| `PropsSmall` | the share of a family of hash functions for which a generic container goes wrong: C96 |
| `PropsLost` | the exact condition under which a generic container loses the key in the way of a new one, and a lower bound on how often: C97 |
| `PropsUndo` | `Del` of the key that pushed another one down undoes it: C98 |
| `PropsLarge` | the share of a family of hash functions for which an integer container with large keys goes wrong: C99 |
| `PropsSwallow` | two integer keys that lose each other, and for which share of the hash functions: C100 |
| `CostScan`, `PropsCostAll` | the ten scan functions as one scan over trees of accesses, and the accesses of `All`: C89 |
| `BugsGo` | the counterexamples, C60 and C61 in the translated code |
| `PropsMixed` | C33 for programs with maps and sets of different types in one memory |
| `Callback`, `PropsCallback` | callbacks that are programs: C43-C45 |
| `Loose`, `LooseSim` | tries in which entries sit where their nibbles do not lead; the simulation for the generic containers on every history |
| `PropsLoose`, `PropsLooseMore` | generic containers on every history, whether keys are lost or not: C48-C53 |
| `PropsPanic` | callbacks of `Mod` that panic: C54 |
| `PropsCallbackSet` | callbacks of `All` on a set that use another set: C44, C45 |
| `PropsAny` | what holds in every memory whatsoever, also in a damaged container: C17, C40, C55-C59 |
| `Phantom`, `PhantomSim`, `PropsPhantom` | `IntSet` on every history, whether keys are lost to phantoms or not: C60 |
| `Kinds` | programs that leave the key-value cells alone |
| `PhantomMap`, `PropsPhantomMap` | `IntMap` on every history: C61 |
| `Examples` | concrete histories that meet the hypotheses |
| `Bugs`, `BugsMore`, `BugsCallback`, `BugsLoose`, `BugsRest`, `BugsDeep` | refutations of properties that the Go code violates |

## What is modelled

The heap is a function from addresses to objects.  An object is an array of links or a key-value cell.  A `link` has the
three fields of the Go struct.  A `*link` is an object and an index into it, so pointer arithmetic is arithmetic on
the index, and every access is checked.  A checked access that fails is a `Fault`; a loop that is given `fuel` steps and
does not finish is the fault `diverge`.  So "no fault" is memory safety plus termination, and "`diverge` for every
fuel" is a hang.

The ten Go files are copies of one program.  It is written once; every difference between the copies is a parameter,
including the ones that are mistakes.

Modelled, function by function: `newRoot`, `Len`, `Dep`, `newLinkArray`; for each of the ten containers `New`, `Nil`,
`Len`, `Dep`, `Ptr`, `Get`, `Val`, `Set`, `Mod`, `Del`, `All`, `Has`, `Add` (where present) and the scan functions;
`intbytes`; `Bytes.Hash`, `String.Hash`, `Int.Hash`, `HashBytes`.

Deviations:

* `hash/maphash` is an arbitrary function from seed and bytes to 64 bits.  Theorems hold for every such function.  A hash
  state is represented by how often the key has been written to it.
* `maphash.MakeSeed` is a parameter of `New`.  Theorems hold for every seed.
* The user's `Key` and `ArrKey` methods are total functions without side effects.
* A `[]byte` key is modelled by its contents at the time of the call.  C38 models later modification by writing to
  the key of a cell.
* Go strings and slices cannot be nil-dereferenced, and memory never runs out.  Freed memory is not reused;
  the collector is invisible.
* The fields of `root` other than `link` and `items` are kept beside the heap.  `root.path` is scratch
  of `Del`.  In `Model` it is a local variable and `append` is an ordinary list append.  `Scratch` has `Del` with the array in
  the root, with its capacity of 12 and with what earlier calls left in it, and C64 is the proof that it makes no difference.
* `uint8` counts and indices that are at most 32 are naturals.  The depth `d` is a natural reduced modulo 256 at every
  increment, as in Go.  `len` and `dep` are 64-bit words.
* In `Containers`, `Dep` is an exact quotient.  `Float` has it with the two conversions and the division of `float64`, and C68
  relates the two in every state.  Trusted here: `float64(n)` and `/` round to nearest, ties to even (IEEE 754, as the Go
  specification requires), and a `uint` has 64 bits.
* `bit` and `idx` are computed at the head of the search loop instead of at the end of the previous iteration.
* `l.ptr` is read once before a loop that moves items.
* The two links of a new branch are assigned as in Go: pointer only, or the whole link in integer-keyed containers (`putLink`).
* Callbacks do not panic, except in `PropsPanic` (C54) and in the programs of `Apart` and `Many` (`stop`, which ends the program).  The callbacks in most theorems are functions on values; `Callback` has callbacks that are
  programs and may use the container they are called from (C43-C47); `Apart` has whole programs of this kind (C67).
* A heap has one key type and one value type.  `PropsMixed` puts containers of different types in one heap by tagging keys and
  values with their types; a program that comes across an object of another type faults there.  `Many` has programs in which every
  container has its own types (`runTyped`), and C67_mixed compares them with the programs on tagged keys and values.
* Concurrent use: the package does not claim to support it without a lock.  `Par*.lean` has the translated methods once more, as trees of
  accesses to memory (the same output of `tools/go2lean.py` with another monad; `ParDen` proves that each tree, executed without
  interruption, is the method of `Go*.lean`).  Goroutines are interleaved access by access (C81): an access reads or writes one word of a link,
  a field of the root, or a key or value in a cell; `m.len++` is two accesses.  Simplifications: memory is sequentially consistent (with the lock
  there are no races (C83), so Go's memory model promises this); a key or a value is read or written in one access; `root.path` is passed from one call with the lock
  to the next; the hash functions of keys do not touch memory; a goroutine whose call panics keeps its lock.
  Goroutines that share no container are programs that create their containers themselves (C82); there no lock is needed.

The model differs from the text of the Go files in the order of some steps.  `Go*.lean` has the same methods statement by statement,
with `uint8` counters, `bit` and `idx` computed where Go computes them, `l.ptr` read at every step of a loop, the cell of a new key
allocated where Go allocates it, `Mod`'s callback called with a pointer, and `root.path` passed from one `Del` to the next.  C69 is the proof that
every history has the same answers and faults in both, for every hash function.  Trusted here: `tools/go2lean.py`, whose output
has the Go line number at the end of every line and can be read against the source.  C79 says the same of single calls of `Mod` and
`All` whose callbacks are programs.  Go's `&cval.v` panics if `cval` is nil (`fieldAddr`), while `ModWith` and `AllWith` of `Callback` pass
the pointer on unchecked; so in C79 the check is part of the callback given to the model.
C80 is the same for whole programs (`Prog` of `Apart`), run over the translated methods by `runGo`.  A program has maps of one key and value type
(or sets of one key type).  For `IntMap` the callbacks of `Mod` are functions of the value (`PropsGoPlain`): after a callback of `Mod` has damaged the memory, the pointer in a slot of an `IntMap` may lead to an array of links, and then
the two models would have to be compared on objects of the wrong type.

## Covered histories

Most theorems are about histories that meet a condition on each *inserted new key*.  It is in `Spec.lean`:

* `ByteFits` (string, byte slice and array keys): the key differs from each stored key within the first 256 nibbles of
  their hash streams, and the stored key it lands on is less than 240 levels deep.  Nothing else is possible in
  the rest: an insertion that violates this hangs or (keys agreeing on exactly the first 256 nibbles) writes out of bounds
  (`C25_map_total`, `C26_*`, `C39_*`, `C24_deep_refuted`).  So the condition is exact.
* `IntSafe` (integers): the same, and no shared nibble selects a set bit in the upper half of the displaced key.
  `IntSmall`: keys in `[0, 2^32)`, where the depth statistics are right too.
* `GenFits` (generic): the same, and the wrong rehash of the displaced key agrees with the right one.

C48-C53 do without `GenFits`: they say what the generic containers do on every history, including those in which the wrong
rehash loses keys.  They need `TwiceApart`: two different keys have different digests for an iteration below some `m` and
for an iteration from `m` to 15.  The first half bounds the depth at which keys collide, the second makes the split loop
end although the digest it starts from is a wrong one.

C60 does without `IntSafe`: it says what `IntSet` does with arbitrary 64-bit keys.  A branch that finding 3 makes look like an
entry is an entry of the specification too, with the key that its bitmaps spell (a phantom).  Two branches on two different
slots, or one on a single slot, make 136 such keys.  The hypothesis is that digests for iteration 15 differ; it bounds the
depth at which keys collide.  C61 says the same of `IntMap`, whose cells hold values only: it reads cells in the same places as a set that
carries the pointers along, so the tries of C60 serve for it too, and the values are looked up in memory.  A phantom has an array where
an entry has a cell, and the first access to it ends the history.

## Findings

The model reproduces these defects of the Go code; each has a theorem.

1. `ArrMap.Set` drops the value when a new key collides with a stored one (arr_map.go:170).  `C03_ArrMap_refuted`.
2. `BytesSet.Del` tests the wrong way round (bytes_set.go:206): it never deletes the key, and deletes another key that
   occupies its slot.  `C08_BytesSet_refuted`, `C08_BytesSet_refuted_other`.
3. `IntMap` and `IntSet` leave the upper half of a key in `tmap` of an intermediate branch: for keys outside `[0, 2^32)`
   a branch may be read as a value or keys are lost.  `Get` and `Set` of a key that has never been stored may take an array of links
   for its value and overwrite it.  `C04_IntMap_refuted`, `C09_IntSet_refuted`, `C24_IntMap_refuted`, `C24_IntMap_refuted_get`.
4. The generic `Map.Set` and `Set.Add` hash the displaced key with iteration `d%16` instead of `d/16` (generic_map.go:149,
   generic_set.go:100).  `C05_Map_refuted_set`, `C10_Set_refuted`.
5. `Map.Mod` hashes the new key instead of the displaced one (generic_map.go:238).  `C05_Map_refuted_mod`.
6. `HashBytes` compares `uint8` counters: wrong from iteration 256 on, and it does not return for iterations equal to 255 modulo
   256.  `C29_HashBytes_refuted`.
7. The rehash loop `for cd := uint8(0); cd <= d; cd += 16` does not end for a depth of 240 or more.  `C39_*`.
8. Keys with equal hash streams make `Set` and `Add` hang.  `C26_*`.  In the generic containers they may return instead, and the
   older key is lost, because it is rehashed wrongly.  `C26_Map_refuted`, `C26_Set_refuted`.
9. Keys that agree on exactly 256 nibbles or more and differ later make `Set` write outside an array (`C24_deep_refuted`), and their branch
   stays behind without entries when they are deleted (`C27_deep_refuted`).
10. `Int` has no `Equal` method, so it is not a key of the generic containers as the documentation says (C41; a fact
    about the type checker, not modelled).
11. A callback of `All` that deletes keys makes `All` skip keys, visit keys twice, or read outside an array; one that adds keys
    makes it visit keys twice and skip others.  The documentation does not say that this is forbidden.  `C46_refuted_*`.
12. A callback of `Mod` for a new key runs while the tree is half changed: `Get` in it may dereference nil, and `Set` in it may
    lose both keys.  `C47_refuted_collision`, `C47_refuted_slot`.
13. As a consequence of 4 and 5: a lost entry of a generic container comes back when its neighbours are deleted.  Then a key
    that was just deleted is found with an older value (`C13_Map_refuted`, `C13_Set_refuted`), and before that `Len` and `All`
    count the key twice (`C16_Map_refuted_twice`).
14. If the callback of `Mod` panics for a new key that collides with a stored one, and the caller recovers, the stored key is
    gone and `Get` of either key dereferences nil; in an integer-keyed map it is silently missing (`C54_refuted`).  Moving the
    call in front of the split, where it is when there is no collision, would repair this.
15. `Del` is meant to leave no pointers in its scratch area ("clear the path to prevent leaks").  It does leave them when the
    key is not stored but shares its first nibble with a stored one, and when it is below more than twelve branches, because
    `append` has then moved the path to another array (`C65_refuted`, `C65_refuted_deep`; `C65_map` says exactly when).
16. `Del` shifts the links behind the deleted one down and does not clear the last one, so that a deleted key and value stay
    reachable until the slot is reused (`C66_refuted`).  The pointers of finding 15 keep others reachable (`C66_refuted_path`).
17. The generic `Set`, `Mod` and `Add` call `Hash` of both keys in the middle of a split (generic_map.go:159, 248,
    generic_set.go:110).  If it panics there and the caller recovers, the stored key is missing although `Len` counts it
    (`C72_Map_refuted`, `C72_Set_refuted`).  A panic anywhere else, or in `KeyBytes` or `==`, does no harm.
18. The worst case of 12: `pair[0].ptr = ckv` after the callback (string_map.go:277-282, and the same in all containers but the
    integer-keyed ones) assigns the pointer of the link only.  If the callback has stored two keys that collide with each other in
    this place, the link still says that it leads to a branch, and now points to a key-value cell.  The next `Get` of one of the two keys reads the
    cell as an array of links, that is, the bytes of a key as pointers: memory corruption in a program that does not use `unsafe`
    (`C47_refuted_unsafe`).
19. `Del` goes back by `d--; l = path[d].link` (string_map.go:381-388, string_set.go the same).  `d` is a `uint8`, `path` has one entry for each branch.  If two keys
    agree on 257 nibbles, `Del` of one moves the other up into a link of the branch above, and marks a slot of the root, instead of
    this link, as an entry.  The next `Get` or `Has` of the remaining key reads an array of links as a key (`C24_deep_refuted_del`,
    `C24_deep_refuted_delS`).
20. Not a defect, as nothing else is documented: without a lock, a `Get` beside a `Set` of another key may report a stored key missing, panic, or read the cell
    of a key as an array of links, and two `Set`s may lose both keys (`C81_refuted_unlocked_reader`, `C81_refuted_unlocked_writers`).

## Status

`MANIFEST.json` has one entry for each property.  "partial" mostly means that the property as stated in
`properties.jsonl` is false of the Go code for one of the containers (finding 1-5) or in the hanging cases, so that it
is proved on the covered histories and refuted by a witness where it fails.

## Mutation testing

`tools/mutations.py` lists wrong programs: edits of one definition of the model.  `tools/mutate.py` builds each in a scratch
copy, finds the theorems that fail and those that depend on them, and runs `tools/witness.lean.txt`, which
compares random histories on all ten containers with an oracle to see which claims the edit really breaks.  A claim that is
broken while its theorem survives means that the theorem is too weak.  The outcomes are in `seeded/LOG.jsonl`.
