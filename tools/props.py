import json
P=[]
def p(title, statement, quantifier, why, anchors):
    P.append(dict(id="C%02d"%(len(P)+1), title=title, statement=statement, quantifier=quantifier, why_tests_cant=why, anchors=anchors))
H="every finite history of API calls, every key and value, every hash seed / hash function that eventually separates the keys in use"
p("StringMap behaves as a finite map",
  "After NewStringMap, any sequence of Set, Mod, Del, Get, Val, Ptr, Len and All returns exactly what the same sequence returns on an abstract finite map from strings to values (All up to visiting order).",
  H, "Collisions at arbitrary trie depth depend on the random seed and on unbounded histories; a test sees a handful of shapes.",
  ["string_map.go: StringMap.Set, Mod, Del, Get, Val, Ptr, All", "amt.go: root"])
p("BytesMap behaves as a finite map",
  "As C01 for BytesMap, for callers that obey the documented rule of not modifying key slices after insertion.",
  H, "Same as C01; in addition the 'key slice was modified' branch must never fire for callers that obey the rule.",
  ["bytes_map.go: BytesMap.Set, Mod, Del, Get, Val, Ptr, All"])
p("ArrMap behaves as a finite map",
  "As C01 for ArrMap, for key types whose KeyBytes separates the keys in use.",
  H, "The value written on the first insertion of a colliding key is only observable for key pairs whose hashes collide.",
  ["arr_map.go: ArrMap.Set (line 170), Mod, Del, Get, Val, Ptr, All"])
p("IntMap behaves as a finite map",
  "As C01 for IntMap, for all int64 keys.",
  H, "Keys are packed into bitmap words; whether stale key bits are read as type bits depends on hash collisions and key magnitude.",
  ["int_map.go: IntMap.Set, Mod, Del, Get, Val, Ptr, All, intbytes"])
p("Generic Map behaves as a finite map",
  "As C01 for Map[K,V], for every K implementing Key with Equal an equality and Hash a function of (key, seed, iter).",
  H + ", every user-supplied Hash", "The user-supplied Hash is an arbitrary function; tests fix one.",
  ["generic_map.go: Map.Set (line 149), Mod (line 238), Del, Get, Val, Ptr, All"])
p("StringSet behaves as a finite set",
  "After NewStringSet, any sequence of Add, Del, Has, Len and All returns what the same sequence returns on an abstract finite set (All up to order).",
  H, "Unbounded histories and collision patterns.", ["string_set.go: StringSet.Add, Del, Has, All"])
p("ArrSet behaves as a finite set", "As C06 for ArrSet.", H, "Unbounded histories and collision patterns.", ["arr_set.go: ArrSet.Add, Del, Has, All"])
p("BytesSet behaves as a finite set", "As C06 for BytesSet (key slices not modified after insertion).", H, "Unbounded histories and collision patterns.", ["bytes_set.go: BytesSet.Add, Del (line 206), Has, All"])
p("IntSet behaves as a finite set", "As C06 for IntSet, for all int64 keys.", H, "Depends on collisions between keys with non-zero upper words.", ["int_set.go: IntSet.Add, Del, Has, All"])
p("Generic Set behaves as a finite set", "As C06 for Set[K], every user-supplied Hash.", H, "Arbitrary user-supplied Hash.", ["generic_set.go: Set.Add (line 100), Del, Has, All"])
p("Read your writes",
  "Immediately after Set(k,v), Get(k) returns (v,true), in every reachable state, whether k was present, absent, or collides with other keys.",
  "every reachable state, key and value", "Collision depth and trie shape are unbounded.", ["*_map.go: Set, Get, Ptr"])
p("Updates are local to their key",
  "Set(k,..), Mod(k,..) and Del(k) never change what Get(k') returns for k' different from k.",
  "every reachable state, all pairs of distinct keys", "A misplaced conflicting key shows up only for particular hash patterns.", ["*_map.go: Set, Mod, Del"])
p("Del removes the key, exactly once",
  "After Del(k), Get(k) reports missing and Len drops by one iff k was present; Del of an absent key changes nothing at all.",
  "every reachable state and key", "Removal restructures branches at any depth (unlinking, reallocation, collapsing).", ["*_map.go, *_set.go: Del"])
p("Len is exact", "Len returns the number of distinct keys currently stored, in every reachable state.",
  "every reachable state", "The counter is updated separately from the trie on each of several exits.", ["amt.go: root.Len", "Set, Mod, Add, Del: len updates"])
p("Dep is the mean depth", "Dep returns the mean, over stored keys, of the length of the longest hash-nibble prefix that the key shares with another stored key (0 for an empty container).",
  "every reachable state", "The accumulator is incremented and decremented in five places and by loops of data-dependent length.", ["amt.go: root.Dep", "Set, Mod, Add, Del: dep updates"])
p("All visits every entry exactly once", "All calls the callback exactly once for each stored key with that key's value, when the callback keeps returning true.",
  "every reachable state and every callback", "Depends on bitmap scanning over arbitrary trie shapes.", ["All and the *Scan functions"])
p("All stops when told to", "If the callback returns false, All makes no further call; the calls made are a prefix of the full visiting order.",
  "every reachable state and every callback", "The stop flag must propagate through recursion of arbitrary depth.", ["All and the *Scan functions"])
p("All order depends only on seed and contents", "For a given seed, the visiting order of All is a function of the set of stored keys alone, not of the history that produced it.",
  "all pairs of histories ending with equal key sets under the same seed", "Quantifies over pairs of unbounded histories.", ["All and the *Scan functions", "Del: collapse loop"])
p("Canonical structure", "For a given seed, Dep and the visiting order are the same for any two histories that end with the same key set; in particular Set of a new key followed by Del of it restores both.",
  "all pairs of histories", "TestCanonicalStructure compares one pair of identical histories.", ["amt_test.go: TestCanonicalStructure", "Set, Add, Del"])
p("Value updates inside All", "A value assigned through the pointer passed to the All callback is what Get returns afterwards; entries not visited keep their value.",
  "every reachable state and every callback", "Needs every visited pointer to alias the stored value.", ["All, Ptr, Get"])
p("Pointer stability", "The pointer returned by Ptr(k) stays the pointer for k (and keeps aliasing its value) across any later operations until k is deleted.",
  "every reachable state, every later history without Del(k)", "Slots are shifted, reallocated and collapsed by operations on other keys.", ["Ptr, Set, Mod, Del"])
p("Write through Ptr", "Writing v through the pointer returned by Ptr(k) makes Get(k) return v and leaves every other key unchanged.",
  "every reachable state, key and value", "Needs distinct keys to own distinct value cells.", ["Ptr, Get"])
p("Mod calls back exactly once with the right arguments", "Mod(k,f) calls f exactly once, with (pointer to current value, true) if k is present and (pointer to a zero value, false) otherwise; afterwards Get(k) returns what f left there.",
  "every reachable state, key and callback", "The call sits on three different exits of the insertion code.", ["*_map.go: Mod"])
p("Memory safety of the unsafe code", "No operation dereferences a nil or dangling pointer, indexes outside an allocated link array, or reads a key-value cell as a link array or vice versa.",
  "every reachable state and every operation", "Out-of-bounds unsafe reads are silent in Go tests.", ["all unsafe.Pointer arithmetic", "amt.go: newLinkArray"])
p("Termination", "Every operation terminates in a number of loop iterations bounded by a constant, provided the hash separates the keys in use within 240 nibbles.",
  "every reachable state and every operation", "Non-termination depends on hash collisions a test cannot force.", ["search loop, split loop, chw loop"])
p("Indistinguishable keys make Set hang", "If two different keys agree on all hash nibbles, inserting the second after the first never returns.",
  "all hash functions with such a pair", "A test cannot observe that a call never returns.", ["Set: split loop; `for cd := uint8(0); cd <= d` loop"])
p("Storage is tight", "Every non-root branch with n entries owns an array of exactly 4*ceil(n/4) slots; the root always owns 16.",
  "every reachable state", "Growth and shrink points depend on history.", ["amt.go: newLinkArray", "Set: slot available / array full", "Del: reallocating"])
p("Integer keys survive packing", "For every int64 key the (pmap,tmap) words stored in a link decode to the same key, and intbytes is injective.",
  "all 2^64 keys", "2^64 inputs.", ["int_map.go: intbytes, IntKey(item.pmap)|(IntKey(item.tmap)<<32)"])
p("Hash helpers", "Bytes.Hash, String.Hash, Int.Hash and HashBytes with iteration i all return the digest of i+1 copies of the key's bytes, for every i.",
  "all keys, seeds and iteration counts", "iter ranges over all uint values.", ["generic_map.go: HashBytes", "bytes_map.go: Bytes.Hash", "string_map.go: String.Hash", "int_map.go: Int.Hash"])
p("Reads do not write", "Get, Val, Ptr, Has, Len, Dep and All with a callback that does not assign leave the memory of the container exactly as it was.",
  "every state", "A test cannot compare all of memory.", ["Get, Val, Ptr, Has, Len, Dep, All"])
p("Uninitialised containers", "On the zero value: Nil is true, Len and Dep return 0, Val returns the zero value, and every other method panics before touching memory; on an initialised container Nil is false.",
  "all states, all arguments", "Quantifies over all arguments.", ["amt.go: root.Len, root.Dep", "Nil, Val, Get, Set, Mod, Del, All"])
p("Copies share state", "A copied container value observes and performs exactly the same operations as the original.",
  "all histories split arbitrarily between the copies", "All interleavings between copies.", ["doc comments: 'A map value is safe to copy'"])
p("Containers are independent", "Operations on one container never change what any operation on another container returns.",
  "all histories over several containers in one heap", "Needs disjointness of all owned memory.", ["newRoot, all operations"])
p("Idempotence", "Repeating Set(k,v), Add(k) or Del(k) immediately has no further effect on any later result.",
  "every reachable state", "All states.", ["Set, Add, Del"])
p("Order independence", "Set(k1,v1) and Set(k2,v2) with different keys commute, and so do Del(k1) and Del(k2), and Set(k1,..) and Del(k2): all later results agree (including All order and Dep).",
  "every reachable state, all pairs of distinct keys", "All states.", ["Set, Del"])
p("Emptying", "After deleting every stored key in any order, Len and Dep are 0 and All calls nothing.",
  "every reachable state, every order of deletion", "All orders.", ["Del"])
p("Depth is bounded by key separation", "A key is stored no deeper than the longest nibble prefix it shares with another stored key; hence lookups of any key visit at most that many levels plus one.",
  "every reachable state", "All key sets.", ["Set, Del, Ptr"])
p("Modified BytesMap key is replaced safely", "If a stored BytesMap key slice was modified so that its hash no longer matches its slot, Set of a key landing on that slot replaces the entry, keeps Len, and stays memory safe.",
  "every such state", "The branch needs a caller that breaks the rule.", ["bytes_map.go lines 159-162, 264-269"])
p("Depth counter wrap", "Inserting a key that conflicts with a stored key at depth 240 or more never returns for the byte-hashed containers (the uint8 counter in the rehash loop wraps).",
  "all states with a conflict at depth >= 240", "Needs 240 colliding nibbles.", ["`for cd := uint8(0); cd <= d; cd += (64 / 4)`"])
p("Zero value for missing keys", "Get(k) on a missing key returns the zero value and false; Val(k) the zero value; Ptr(k) nil.",
  "every reachable state and missing key", "All states.", ["Get, Val, Ptr"])
p("Int is a key type of the generic containers", "The documentation says Int may be used as the key type of Map[Int,V].", "n/a", "Static typing: Int has no Equal method, so Map[Int,V] does not compile.", ["int_map.go: Int"])
p("Extensionality", "Two containers with the same seed for which Get (Has) returns the same for every key are indistinguishable by any sequence of calls, including All order and Dep, whatever their histories.",
  "all pairs of histories, all later call sequences", "All pairs of histories.", ["all methods"])
p("All with a callback that uses the container", "If the callback of All calls the container it is called from, but never adds or removes a key (Get, Val, Ptr, Has, Len, Dep, Nil, a nested All, Set and Mod of stored keys, Del of missing keys), All still visits every entry once, in order, with its value at that moment; the calls in the callback answer as if made between the visits, and the container is intact afterwards.",
  "all histories, all such callbacks, including nested iteration and early stop", "Callbacks are arbitrary programs.", ["All: `if !fn(kv.k, &kv.v) { return false }`", "scanStringMap and the other scan functions"])
p("All with a callback that uses another container", "The callback of All may call another container in any way, including adding and deleting keys there; both behave as if the calls were made between the visits.",
  "all histories of both containers, all callbacks", "Callbacks are arbitrary programs; needs disjointness of memory at every moment of the iteration.", ["All"])
p("Copying with All and Set", "src.All with a callback that calls dst.Set(k, *v) leaves dst with the entries of src, and its own entries for the keys that src lacks; src is unchanged; both stay usable and independent. Likewise All with Add on sets gives the union.",
  "all histories of both maps, of any two kinds with the same key type", "All pairs of histories.", ["All, Set"])
p("Adding and deleting during All", "The callback of All may add and delete keys of the container: every key that is stored during the whole iteration is visited exactly once, and no memory error happens.",
  "all histories, all callbacks", "Depends on the position of the iteration.", ["scanStringMap and the other scan functions", "Set, Mod, Add, Del"])
p("Mod with a callback that uses the map", "The callback of Mod may call the map it is called from: the calls answer as if made right before Mod returned, and the map is intact afterwards.",
  "all histories, all keys, all callbacks", "Callbacks are arbitrary programs.", ["Mod: `mod(&kv.v, false)`, `mod(&ckv.v, true)`"])
p("Generic Map on every history", "On any history of calls, including those in which Set or Mod loses keys, a generic map whose keys can be told apart twice (by a digest below some iteration m and by one from m on) never faults and never hangs, and behaves as a list of entries some of which are out of reach: Set and Mod of a new key put at most one other entry out of reach, Del brings at most one back, everything else is as for a finite map.",
  "all histories, all key types with a lawful Equal and such digests", "Lost entries are invisible to Get and surface much later.", ["generic_map.go: Set line 149, Mod line 238, Del, All, Get"])
p("Generic Set on every history", "As C48, for generic sets.", "all histories, all such key types", "As C48.", ["generic_set.go: Add line 100, Del, All, Has"])
p("Generic containers: read your writes on every history", "Right after Set(k,v), Get(k) returns (v,true); right after Mod(k,f), Get(k) returns what f returned; right after Add(k), Has(k) is true, even if k had been lost before.",
  "all histories as in C48", "All histories.", ["generic_map.go: Set, Mod, Get", "generic_set.go: Add, Has"])
p("Generic containers: damage is bounded", "One call to Set, Add or Mod changes what Get or Has answers for at most one other key, which is then missing and shares at least two nibbles (Mod: one nibble) with the new key; one call to Del changes it for at most one other key, which was missing and is found again, and shares a nibble with the deleted one.",
  "all histories as in C48, all pairs of other keys", "All histories and pairs of keys.", ["generic_map.go: Set, Mod, Del", "generic_set.go: Add, Del"])
p("Generic containers invent nothing", "Every value found by Get or Ptr, shown to the callback of Mod or visited by All was written for that key; every element found or visited in a set was added.",
  "all histories as in C48, all invariants of the written values", "All histories.", ["generic_map.go: Get, Ptr, Mod, All", "generic_set.go: Has, All"])
p("Generic containers: Len and All agree", "Len is the number of entries that All visits, and All visits every key that Get or Has finds, also when keys have been lost.",
  "all histories as in C48", "All histories.", ["generic_map.go: All, Len", "generic_set.go: All, Len"])
p("A panic in the callback of Mod", "If the callback of Mod panics and the caller recovers, the map is intact: it answers all further calls as before the call to Mod (with what the callback assigned, if the key was stored).",
  "all histories, all keys, all points at which a callback can panic", "Needs a panicking callback and a collision, and the damage shows later.", ["Mod: `mod(&kv.v, false)`, `mod(&ckv.v, true)`", "string_map.go lines 258-284 and the other maps"])
p("Calls on a key that is found, in any memory", "In any memory whatsoever, also after keys have been lost or the container damaged: if Get(k) finds v, then Val(k) and Ptr(k) find v; Set(k,w), writing w through Ptr(k), and Mod(k,f) with f leaving w all do the same (f is called once, with v and true); then Get(k) returns w, Len and Dep are as before, exactly the same keys are found, no other key's value changes (maps that keep keys with values), and Set(k,v) restores the memory. Add(k) changes nothing if Has(k). Del(k), if it returns, decreases Len by one (not BytesSet).",
  "every memory state, every container, key and value", "Damaged states are out of reach of tests.", ["Get, Val, Ptr, Set, Mod, Del", "Has, Add, Del"])
p("Calls on a key that is not found, in any memory", "In any memory whatsoever: if Get(k) says that k is missing, it returns the zero value, Val(k) the zero value and Ptr(k) nil; Del(k) changes nothing (not BytesSet); Mod(k,f), if it returns, has called f exactly once, with a zero value and false; Set and Mod (Add, if Has(k) is false) increase Len by one if they return (BytesMap may replace an entry instead). No other container's Len or Dep changes.",
  "every memory state, every container, key and callback", "Damaged states are out of reach of tests.", ["Get, Val, Ptr, Set, Mod, Del", "Has, Add, Del"])
p("Calls fail together", "In any memory whatsoever: if Get(k) panics or does not return, then Val(k), Ptr(k), writes through the pointer, Set(k,v) and Mod(k,f) fail in the same way (Del(k) too in maps that keep keys with values); likewise Add(k) and Del(k) if Has(k) fails.",
  "every memory state, every container, key and failure", "Damaged states are out of reach of tests.", ["all search loops"])
p("All in any memory", "In any memory whatsoever, if All returns: Len and Dep are as before, Get (Has) finds the same keys as before and fails as before; if the callback did not stop All, every key that Get (Has) finds has been visited; a value that Get returns afterwards is the old one, or, if the key was visited, one that the callback assigned in a visit of that key.",
  "every memory state, every container and callback", "Damaged states are out of reach of tests.", ["All and the scan functions"])
p("Len counts insertions and deletions", "After any calls that return, Len is what it was before, plus one for every Set or Mod (Add) of a key for which Ptr (Has) would have returned nil (false) just before, minus one for every Del of a key for which it would not have, modulo 2^64; also when keys are lost.",
  "every memory state, every history, every container but BytesMap and BytesSet", "All histories.", ["Set, Mod, Add, Del, Len"])
p("IntSet on every history", "On any history of calls with arbitrary 64-bit keys, an IntSet has no memory fault and behaves as a list of elements some of which are out of reach: Add of a new key stores it, or loses it together with the element that it collides with, leaving in their place one of 136 phantom keys, which is determined by the next nibbles of the two keys; Len counts the elements and the lost keys; Del brings at most one element back in reach; everything else is as for a finite set; Add hangs only if it collides at a depth of 240 or more. So every key that Has finds or All visits was added before or is a phantom.",
  "all histories of keys whose digests for iteration 15 differ from each other and from those of the phantoms", "Phantoms need colliding keys above 2^32 and surface later.", ["int_set.go: Add, Has, Del, All, Len"])
p("IntMap on every history", "On any history of calls with arbitrary 64-bit keys, an IntMap behaves as a list of entries some of which are out of reach and some of which are phantoms without a value: Set and Mod of a new key store it, or lose it together with the entry that it collides with, leaving a phantom in their place; Len counts the entries and the lost keys; Del brings at most one entry back in reach. The first call of Get, Val, Ptr, Set or Mod with the key of a phantom in reach, or of All that comes across a phantom, takes an array of links for a value; there is no other memory fault, and Set and Mod hang only if they collide at a depth of 240 or more. So every key that Get, Ptr, Mod or All reports was stored before, and no array is taken for a value unless a key outside [0, 2^32) was stored.",
  "all histories of keys whose digests for iteration 15 differ from each other and from those of the phantoms", "Phantoms need colliding keys above 2^32 and surface later.", ["int_map.go: Set, Mod, Get, Val, Ptr, Del, All, Len"])
p("Answers do not depend on the memory", "What the calls of a history return, and the fault in which it ends if it does, depend on the seed and the calls alone, not on the memory in which the container is created or on the addresses it is given.",
  "all histories, all containers, all memories", "A test runs in a few memories.", ["all operations; int_map.go and int_set.go use unsafe pointers"])
p("The depth is on the order of log16(N)", "Whatever the hash function, Dep of a container with at least 16^L keys is at least L - 16/15. For a family of hash functions (or seeds) under which two different keys share their first j nibbles with probability at most c/16^j for j up to m, Dep of a container with at most 16^L keys is at most L + c/15 + c(256-m)16^L/16^m on average over the family, and a search for any key visits at most one branch more than that on average. The family of all functions to 64-bit digests is such a family with c = 1 and m = 16.",
  "all histories, all numbers of keys, all families of hash functions", "A statement about averages over all seeds or hash functions.", ["amt.go line 29", "README.md line 9", "Dep and all search loops"])
p("The scratch area has no influence", "What Del and all other calls do and return does not depend on what earlier calls have left in the scratch area root.path, nor on its capacity of 12.",
  "every memory state, every history, every content of the scratch area", "All contents of the scratch area.", ["amt.go line 69", "Del: `path := m.path[:0]`, `append(path, pathLink{radix, l})`"])
p("Del clears its scratch area", "After every call of Del, the scratch area root.path holds no pointer, so that it keeps no branch alive (\"clear the path to prevent leaks\").",
  "all histories", "Invisible to callers.", ["Del: `path[d].link = nil`", "string_map.go lines 354-394 and the other containers"])
p("Deleted entries are not reachable", "After any history, every cell with a key and value that can be reached from the container, through any slot of any array and through the scratch area, belongs to a stored key.",
  "all histories", "Invisible to callers.", ["Del: `for after := idx; after < count; after++`", "amt.go line 69"])
p("Programs with callbacks see containers as if apart", "A program makes any number of containers, calls them, keeps pointers to their values and reads and assigns through them at any time, and passes programs of this kind as callbacks to All and Mod, nested at will, using any container in them, also the one that is iterated over or modified. What it sees, including faults and hangs, is what it would see if every container were in a memory of its own.",
  "all programs over any number of maps and sets of any kinds and types; no condition on the histories", "Callbacks are arbitrary programs; needs disjointness of memory in the middle of calls, also in damaged containers.", ["All, Mod", "scan functions", "newLinkArray, newRoot"])
p("Dep is correctly rounded", "Dep returns a finite float64, never NaN or an infinity, in every state; it differs from the quotient of the two counters by at most one part in 2^51 and is zero only if the quotient is. After fewer than 2^45 calls it is the float64 nearest to the mean depth of the stored keys, the even one of two equally near.",
  "every memory state; all covered histories for the exact rounding", "All 2^128 pairs of counters.", ["amt.go: root.Dep"])
p("Ten files, one algorithm", "Executed statement by statement, with the loops, early returns, shared scratch area and order of allocations of its own file, every container answers every history of calls as one common algorithm does, whose only parameters are: where keys and values are kept, how digests are computed, what is stored for a new key, whether a key pushed down by a collision keeps its pointer, the test of BytesMap before a split, and the test in Del. Faults and hangs included.",
  "all histories, all containers, all hash functions", "All histories; the ten files are separate copies of about 200 lines each.", ["string_map.go, bytes_map.go, arr_map.go, int_map.go, generic_map.go", "string_set.go, bytes_set.go, arr_set.go, int_set.go, generic_set.go"])
p("A map does not look at values", "Replace the values in the calls of a history by their images under any function that keeps the zero value: the values returned, shown to callbacks and stored are the images, and nothing else changes, faults and hangs included. So the type of the values has no influence.",
  "all histories, all five maps, all value types and functions, callbacks included", "All value types and functions between them.", ["string_map.go, bytes_map.go, arr_map.go, int_map.go, generic_map.go: V any"])
p("Keys are used through their methods only", "A generic map or set uses keys only through Equal and Hash, one with array keys only through == and KeyBytes: replace the keys in a history by others, of any type, that compare and hash like them, and the answers have the others in their place, and nothing else changes, faults and hangs included.",
  "all histories, all pairs of key types and maps between them that keep Equal and Hash (== and KeyBytes)", "All key types.", ["generic_map.go, generic_set.go: Key", "arr_map.go, arr_set.go: Arr"])
p("A panic in a method of a key", "If a method of a key (Equal, Hash, KeyBytes, or ==) panics during a call and the caller recovers, the call has had no effect: all other calls answer as if it had not been made.",
  "all histories, all keys and pairs of keys for which a method may panic, all containers with user-defined keys", "Needs methods that panic at chosen moments, in the middle of a split.", ["generic_map.go: Set line 159, Mod line 248", "generic_set.go: Add line 110", "arr_map.go, arr_set.go: KeyBytes"])
p("The structure is a tree in every state", "After any calls that return, with any keys and any hash functions, also when keys have been lost or duplicated: no two links of the container point to the same link array or the same cell, no link points to the root, and everything pointed to is allocated.",
  "all histories that return, all containers, all keys and hash functions; no condition", "Structural sharing is invisible until a later call writes to one of the places.", ["Set, Mod, Add: the split loop and the insertion of a slot", "Del: the loops that unlink, shift and collapse"])
p("Only insertions of new keys can hang", "After any calls that return, with any keys and any hash functions: a call that does not terminate is a Set or Mod (Add) of a key that Get (Has) does not find. Get, Val, Ptr, writes, Has, Del, All, Len and Dep return or panic.",
  "all histories that return, all containers, all calls, keys, callbacks and hash functions; no condition", "All histories, also those that damage the container.", ["all search loops", "the scan functions", "Del: `for count == 0 && d != 0`, `for count == 1 && l.pmap == l.tmap && d != 0`"])
p("The arrays take memory of the order of N", "The link arrays that a container with N keys reaches have together at most 16 + N + 4B slots, where B is their number without that of the root, and B is at most half the sum of the depths of the keys: so at most 16 + N(1 + 2 Dep()). For a family of hash functions (or seeds) under which two different keys share their first j nibbles with probability at most c/16^j for j up to m, B is on average over the family at most (16^(J+1)-16)/15 + cN^2/(30*16^J) + c(256-m)N^2/(2*16^m), for every J up to m. For all functions to 64-bit digests and N = 16^5 this is less than 5.41 slots per key.",
  "all histories, all numbers of keys, all families of hash functions", "A statement about all reachable memory and about averages over all hash functions.", ["amt.go lines 32 and 120-131", "README.md line 12", "the insertion of a slot, the split loop, Del"])
p("Keys that are equal without being identical", "If Equal is an equivalence relation and Hash gives the same digests for equal keys, a generic map (set) behaves as a finite map from (set of) the classes of keys, wherever it behaves as a finite map when Equal is identity (C05, C10), and as in C48 and C49 on every other history: which of several equal keys is passed to a call has no influence on its answers.",
  "all equivalence relations, all hash functions that respect them, all histories", "All equivalence relations on all key types.", ["generic_map.go, generic_set.go: Key.Equal", "amt.go: Key"])
p("Keys that are not equal to themselves", "A key that is equal to no key, itself included, is never found in a generic map or set, in any memory: Get, Val, Ptr, Has, writes and Del of it do nothing, and every Set, Mod or Add of it that returns adds an entry, which cannot be removed. If its digests are the same for every iteration, the second Set, Mod or Add of such a key never returns, whatever has been called between the first and the second, Del of that key included.",
  "every memory state, all keys that are equal to no key", "All states; the second part is non-termination.", ["generic_map.go: Get, Val, Ptr, Set, Mod, Del", "generic_set.go: Has, Add, Del"])
p("The package's tests pass, and would fail for two containers", "Every test of amt_test.go passes, for every number N of keys that is even, at least 273 and below 2^52 (2^32 for integer keys) and every hash function and seed that tells the keys of the test apart: the tests of StringMap, StringSet, IntMap and IntSet, and TestGeneric, TestNestedMap, TestModify and TestCanonicalStructure. The tests of StringSet and IntSet, applied to BytesSet, fail, and those of StringMap and IntMap, applied to ArrMap, fail; applied to ArrSet and BytesMap they pass.",
  "all N, all hash functions and seeds that tell the keys apart", "The tests run with one N and with seeds that are different in every run.", ["amt_test.go", "bytes_set.go: Add", "arr_map.go: Set"])
p("Ten files, one algorithm, with callbacks", "All and Mod of every file, executed statement by statement, call a callback when and with what the common algorithm of C69 does, and do the same before and after, whatever the callback does: it may call methods of the same container and write through pointers. Faults and hangs included.",
  "all callbacks, all memory states for All, all memory states in which no array of links is reached from itself for Mod, all containers, all hash functions", "All callbacks; the order of the writes of Mod around the call of the callback is visible only to callbacks that use the container.", ["string_map.go, bytes_map.go, arr_map.go, int_map.go, generic_map.go: Mod, All", "string_set.go, bytes_set.go, arr_set.go, int_set.go, generic_set.go: All"])
p("Ten files, one algorithm, in programs", "A program that creates any number of containers, calls their methods in any order, keeps pointers from Ptr and from callbacks and reads and writes through them, and passes callbacks to All and Mod that do all of this as well, sees the same over the files executed statement by statement as over the common algorithm of C69: the same results, the same faults, and it does not end over the one if it does not over the other. So it also sees the same as if every container had a memory of its own (C67). Faults caused by callbacks that use the container they are called from are in the files as in the common algorithm.",
  "all programs, all numbers and kinds of containers, all callbacks, all hash functions", "All programs.", ["string_map.go, bytes_map.go, arr_map.go, int_map.go, generic_map.go", "string_set.go, bytes_set.go, arr_set.go, int_set.go, generic_set.go"])
p("Readers at the same time, writers alone", "Goroutines that share a container and guard it by a sync.RWMutex, with the read lock for calls that do not change it (Get, Val, Ptr and reading through it, Has, Len, Dep, All with a callback that only looks), see it as if their calls were made one after the other in the order in which they return: the same answers, the same panics, and calls of one goroutine stay in its order. So the read lock suffices for these calls: they write nothing, in any state, also a damaged one, and any number of them may overlap without a lock if no other call does. Without a lock a Get beside a Set of another key may report a stored key missing, read a key as links, or panic, and two Sets of different keys may lose both.",
  "all numbers of goroutines, all programs that choose the next call by the results of the earlier ones, all interleavings of single accesses to memory, all containers, keys and hash functions", "All schedules.", ["string_map.go, bytes_map.go, arr_map.go, int_map.go, generic_map.go", "string_set.go, bytes_set.go, arr_set.go, int_set.go, generic_set.go"])
p("Goroutines with containers of their own need no lock", "Goroutines that are arbitrary programs over containers that they have created themselves (calls, callbacks that are programs, kept pointers) and that share no container with another goroutine see exactly what they see when they run alone, whatever the order of their accesses to memory: the same results and the same panics. They end after a number of accesses of their own that depends neither on the others nor on the order, and leave what was in memory before as it was. So two containers have nothing in common, and no access of a method depends on addresses.",
  "all numbers of goroutines, all programs, all interleavings of single accesses to memory, all containers, keys and hash functions, all contents of the rest of the memory", "All schedules and all programs.", ["string_map.go, bytes_map.go, arr_map.go, int_map.go, generic_map.go", "string_set.go, bytes_set.go, arr_set.go, int_set.go, generic_set.go", "amt.go lines 72-76 and 120-131"])
p("No data races with a read-write lock, nor between goroutines with containers of their own", "Goroutines that call the methods of one container with a read-write lock (the read lock for Get, Val, Ptr, Has, Len, Dep and for All with a callback that only reads) never get to a point at which two of them are about to access the same word of memory, one of them writing. Goroutines that use containers of their own never get to a point at which two of them are about to access the same object at all. Reading calls need no lock among themselves. Without the lock, Get and Set race, also for different keys, and so do two calls of Set.",
  "all numbers of goroutines, all programs, all interleavings of accesses to words of memory, all containers, keys and hash functions", "All schedules; the race detector sees only the schedules that occur.", ["string_map.go, bytes_map.go, arr_map.go, int_map.go, generic_map.go", "string_set.go, bytes_set.go, arr_set.go, int_set.go, generic_set.go"])
p("With a read-write lock there is no deadlock, and all calls return", "Finitely many goroutines share a container with the read-write lock of C81, and each makes finitely many calls. As long as no call has panicked or hung, something can be done or all calls have been made and have returned; and there is no infinite execution. With keys as in C01 to C10 no call panics or hangs: whatever the order of the accesses, all calls return, with the answers of the abstract map or set.",
  "all numbers of goroutines, all programs that choose the next call by the results of the earlier ones and make boundedly many, all interleavings of accesses to words of memory, all containers", "All schedules; that something does not go on for ever.", ["string_map.go, bytes_map.go, arr_map.go, int_map.go, generic_map.go", "string_set.go, bytes_set.go, arr_set.go, int_set.go, generic_set.go"])
p("A call accesses memory in proportion to the levels it visits", "After any history, Get, Val, Ptr and Has of a key read at most 10 + 13 L words of memory, where L is the number of levels that the search for the key visits (C37), and Del reads, writes and allocates at most 700 + 52 L times: none of them looks at more than a constant number of words per level, however many keys are stored.",
  "all histories, all numbers of keys, all containers and hash functions, all memories in which the container is created, all contents of the scratch area", "A bound on all executions; tests measure time in a few.", ["Get, Val, Ptr, Has, Del", "amt.go line 29", "README.md line 9"])
p("Reads allocate nothing, Del at most one array", "In any memory whatsoever, Get, Val, Ptr, Has, Len, Dep and All with a callback that writes nothing allocate nothing, and Del allocates at most one object, however many branches it removes or collapses.",
  "every memory state, every container and key, every content of the scratch area", "Every state, also damaged ones.", ["Get, Val, Ptr, Has, Len, Dep, All", "Del: `l.ptr = newLinkArray(count)`"])
p("Set, Mod and Add are linear in the levels", "After any history, Set or Mod (Add) of a key, stored or new, reads, writes and allocates at most 900 + 21 L times and allocates at most 2 + L objects, where L is the number of levels that a search for the key visits afterwards (C37): shifting a slot array, hashing a displaced key again and growing a chain of branches included, however many keys are stored. For Mod the two accesses of a function that reads the value and writes it come on top.",
  "all histories, all numbers of keys, all containers and hash functions, all memories in which the container is created", "A bound on all executions; tests measure time in a few.", ["Set, Mod, Add: the search loop, the loop that hashes the displaced key, the split loop, the shift loops", "README.md line 9"])
p("Mean cost is logarithmic", "After a history that leaves at most 16^L keys, and for a family of hash functions (or seeds) under which two different keys share their first j nibbles with probability at most c/16^j for j up to m, the mean over the family of the number of accesses to memory is at most 10 + 13 D for Get, 9 + 13 D for Has, 700 + 52 D for Del, 900 + 21 D for Set and Add and 902 + 21 D for Mod, where D = 1 + L + c/15 + c(256-m) 16^L / 16^m; and the mean number of objects that Set, Mod and Add allocate is at most 2 + D. For a random 64-bit hash function and 2^32 keys, Get makes fewer than 128 accesses on average.",
  "all histories, all containers, all families of hash functions with this property, all keys, values and contents of the scratch area, all memories in which the containers are created", "A mean over all hash functions, for every history; benchmarks measure one function and a few sizes.", ["Get, Has, Set, Mod, Add, Del", "README.md line 9", "amt.go line 29"])
p("All is linear in the keys", "After any history that leaves N keys, All makes at most 6 + (12 + q) N accesses (9 + q for each key of a set), and 9 for each nonempty path of nibbles that two keys share, of which there are at most half the sum of the depths of the keys: a callback may make up to q accesses for each key, write to the values and stop when it likes, as long as it does not change the arrays of links. On average over a family of hash functions that spreads the keys, the number of these paths is of the order of N; for a random 64-bit hash function and a million keys, All with a callback that reads and writes each value makes fewer than 24 accesses for each key.",
  "all histories, all numbers of keys, all containers and hash functions, all such callbacks, all memories in which the container is created", "A bound on all executions, and a mean over all hash functions.", ["All, and the scan functions: stringScan, stringSetScan and so on", "amt.go line 29"])
p("What is found is written in place", "In any memory in which no array of links is reached from itself, if Get finds a key, Set of it and Mod of it with a function of the value return without a fault and allocate nothing; if Has finds an element, Add of it returns, allocates nothing and changes not a word. In particular this holds for every stored key after any history.",
  "every memory state in which no array of links is reached from itself, every container, all keys, values and functions; all histories", "Every state, also damaged ones.", ["Set, Mod: `ckv.v = value`, `mod(&ckv.v, true)`", "Add: `return` for a key that is there"])
p("What a history allocates", "A history that starts with a new container makes the memory grow by the two objects of the container and by at most 2 + L objects for each call that inserts a key that is not stored, L being the number of levels that a search for the key then visits, and one for each Del: nothing else allocates, in particular not Set, Mod and Add of a stored key, nor All and writes through pointers. On average over a family of hash functions that spreads the keys, and if at most 16^L keys are stored at any time, it grows by at most 2 + I (3 + L + c/15 + c(256-m) 16^L / 16^m) + D objects, for I insertions of new keys and D calls of Del.",
  "all histories, all containers and hash functions, all memories in which the container is created; all families of hash functions with this property", "A bound on all histories, and a mean over all hash functions.", ["NewStringMap and so on", "newLinkArray", "Set, Mod, Add, Del: every `new` and every `newLinkArray`"])
p("What a history costs", "A new container followed by any history of calls makes at most 4 accesses to memory, plus the sum over the calls of what C85, C87 and C89 allow for each with the keys stored at that time: 10 + 13 L for a search, 900 + 21 L for Set and Add, 902 + 21 L for Mod, 700 + 52 L for Del, 6 + 14 N + 5 S for All, 1 for Len and Dep; L is the number of levels that a search for the key visits (for Set, Mod and Add: afterwards), N the number of keys, S the sum of their depths. Nothing is deferred to later calls. For a family of hash functions as in C88, a history of n calls other than All that never stores more than 16^L keys makes at most 4 + n (902 + 52 D) accesses on average, D being one plus the bound of C63 on the mean depth: of the order of n log n.",
  "all histories, all containers and hash functions, all memories in which the container is created; all families of hash functions with this property", "A bound on all executions, and a mean over all hash functions.", ["NewStringMap and so on", "Get, Val, Ptr, Has, Set, Mod, Add, Del, All, Len, Dep", "README.md line 9"])
p("Keys are compared at most once, and hashed once for every sixteen levels", "In any memory, a call of Get, Val, Ptr, Has or Del hashes no key but its own, and compares it with at most one key; Set, Mod and Add hash no keys but their own and the one that they compare it with, at most one; Len, Dep and All hash and compare nothing. After any history, a key is hashed once for the first sixteen levels visited and once more for every sixteen that follow, and is compared with a stored key, itself if it is stored. If Set, Mod or Add insert a key, it and the key in its way are hashed at most as often as a search for the key would hash it afterwards; Mod of a generic map hashes its key once more at most. So no call does anything with the other keys, however many are stored and however long they are.",
  "every memory state, also damaged ones; all histories, all containers, keys and hash functions", "What is done with all keys, in all executions.", ["string_map.go lines 80-111, 139-176 and the like in the other files", "generic_map.go lines 149, 238"])
p("For almost all hash functions every call is right and hashes a key once", "A history of calls names n keys. If, over a family of hash functions (or seeds), two different keys share their first m nibbles with probability at most c/16^m, then for all but a fraction c n (n-1) / (2 16^m) of the family every call of the history returns what the abstract map or set returns, and, if m is at most 16, no call hashes a key more than once. Of all functions from the keys to 64-bit digests, at most one in 2^65 / (n (n-1)) makes a call of a StringMap go wrong or hash a key twice: fewer than one in thirty million, for a million keys.",
  "all histories, all byte-hashed containers (ArrMap and BytesSet with the defects of C03 and C08) and integer containers with keys in [0, 2^32), all families of hash functions with this property, all memories in which the containers are created", "A bound on the share of all hash functions for which something goes wrong; tests meet a few.", ["string_map.go lines 80-111, 139-176 and the like in the other files", "amt.go line 29"])
p("For almost all hash functions no call is slow", "A history of calls names n keys. If, over a family of hash functions (or seeds), two different keys share their first i nibbles with probability at most c/16^i for i up to m, then for every j from 1 to m and all but a fraction c n (n-1) / (2 16^j) of the family no call of the history is slow: each call that looks for a key makes at most 10 + 13 j accesses to memory, Set and Add at most 900 + 21 j, Mod at most 902 + 21 j, Del at most 700 + 52 j, Len and Dep one, and All at most 6 + (9 + 5 j) N with N keys stored; and N calls other than All make at most 4 + N (902 + 52 j) together with the creation of the container. With up to 2^20 keys, for all but one in 512 of the functions from the keys to 64-bit digests, no Get of a StringMap makes more than 166 accesses at any time, and no Set more than 1152.",
  "all histories, all byte-hashed containers and integer containers with keys in [0, 2^32), all families of hash functions with this property, all memories in which the containers are created, all contents of the scratch area", "A bound on every call, for all but a known share of all hash functions; benchmarks measure means of a few.", ["Get, Val, Ptr, Has, Set, Mod, Add, Del, All, Len, Dep", "README.md line 9", "amt.go line 29"])
p("For which share of the hash functions a small generic container is right", "Set, Mod and Add of the generic containers hash the key in the way wrongly (C05, C10), but Set and Add only below the first level. A history of calls names n keys. If, over a family of hash functions (or seeds), two different keys share their first two nibbles with probability at most c/16^2, then for all but a fraction c n (n-1) / 512 of the family every call of a history of a generic set, or of a generic map without Mod, returns what the abstract set or map returns; with Mod, all but a fraction c n (n-1) / 32, if they share the first nibble with probability at most c/16. With five keys, all but one in 25 of the functions from the keys to 64-bit digests are right, whatever the hash function returns in later iterations; with three keys some lose one.",
  "all histories, all keys with an equality and a hash function, all families of hash functions with this property, all memories in which the containers are created", "A bound on the share of all hash functions for which something goes wrong.", ["generic_map.go lines 149, 238", "generic_set.go"])
p("Which key a generic container loses", "After every history on which a generic container was right so far, let Set or Mod (Add) insert a new key k that collides with the stored key x at depth d. Set and Add take the digest of x for iteration d mod 16 in place of the one for d / 16, Mod takes the digest of k. If the two keys part under these digests, the call returns, k is found afterwards, all keys but x are found with their values, Len is one more, and x is lost just if the digest leads it astray: if, going down from depth d + 1, it goes along with k for a while (or not at all) and then to a slot that is not its own. In particular Mod of a new key that has its first nibble in common with just one stored key loses that key, if the two differ in the digests for iteration 0 and for a later one. So for two keys at least one in 17 of the functions to 64-bit digests makes Mod of the second lose the first.",
  "all histories of Set, Mod, Del, ... (Add, Del, ...) as in C05 and C10, all keys with an equality and a hash function, all depths, all memories in which the container is created", "The exact condition, for all hash functions and histories.", ["generic_map.go lines 149, 238", "generic_set.go"])
p("Del undoes what the insertion of its key did", "After every history on which a generic container was right so far, let Set or Mod (Add) insert a new key k that collides with a stored key x, and may lose x (C97), and let Del remove k directly afterwards. Then x is back in its place: all further calls answer as if the two calls had not been made, whatever histories as in C05 and C10 follow.",
  "all histories as in C05 and C10 before and after the two calls, all keys with an equality and a hash function, all depths, all memories in which the container is created", "All histories, keys and hash functions.", ["generic_map.go lines 149, 238", "generic_map.go, generic_set.go: Del"])
p("For which share of the hash functions an integer container with large or negative keys is right", "IntMap and IntSet can lose keys if one of them lies outside [0, 2^32) (C04, C09). A history of calls names n keys, l of which may be of this kind. If, over a family of hash functions (or seeds), two different keys share their first j nibbles with probability at most c/16^j for j up to m, then for all but a fraction c (n (n-1) / (2 16^m) + l n / 256) of the family every call of the history returns what the abstract map or set returns; if all keys may be of this kind, all but a fraction c n (n-1) / 512. With twelve keys, one of them outside the range, all but one in 21 of the functions from the keys to 64-bit digests are right; with the keys -1 and 1 some lose both.",
  "all histories, all 64-bit integers, all families of hash functions with this property, all memories in which the containers are created", "A bound on the share of all hash functions for which something goes wrong.", ["int_map.go", "int_set.go", "int_map.go lines 57-59"])
p("Two integer keys that lose each other", "Let the integer keys x and k share their first two nibbles, and let the bit of the upper half of x that is numbered by the second nibble be set. Then in an IntMap that holds x only, Set of k loses both keys: Get finds neither, though Len is 2; and so does Add of an IntSet. The same happens to an IntSet after any history of calls with elements from 0 to 2^32-1, none of which has the first nibble of x: x and k are missing, all other elements are found (but for keys that an array of branches may be taken for), and Len counts them all. If x is between -2^32 and -1, all these bits are set: just one in 256 of the functions from the two keys to 64-bit digests loses both keys of an IntSet, and the others keep both, if later iterations tell all keys apart.",
  "all pairs of 64-bit keys that are none of the 136 numbers which a misread array of branches may be taken for, all hash functions that tell these and the two keys apart in iteration 15, all values, all memories in which the container is created", "The exact condition, for all such pairs and functions, and the exact share of the functions.", ["int_map.go: Set", "int_set.go: Add", "int_map.go lines 57-59"])
with open('/verif/properties.jsonl','w') as f:
    for x in P: f.write(json.dumps(x)+"\n")
print(len(P))
