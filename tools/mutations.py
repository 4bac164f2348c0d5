"""Edits for the mutation tests: realistic mistakes in the program being modelled."""
ALL = []
HEAVY = ['BugsCallback', 'BugsLoose', 'BugsRest']
def mu(name, definition, edit, claim, *edits, count=1):
    ALL.append(dict(name=name, definition=definition, edit=edit, claim=claim, edits=list(edits), count=count))
M, C, E = 'Model.lean', 'Containers.lean', 'Mem.lean'
mu('search-tmap', 'search', 'stop at branches instead of at keys: test tmap bit = 0 negated', 'C01: Get returns the stored value',
   (M, "if lk.tmap &&& bitOf radix = 0#32 then", "if lk.tmap &&& bitOf radix ≠ 0#32 then"))
mu('search-rank', 'search', 'descend into slot rank+1', 'C01, C24',
   (M, "let item : Ref := ⟨lk.ptr, rankOf lk.pmap radix⟩\n      if", "let item : Ref := ⟨lk.ptr, rankOf lk.pmap radix + 1⟩\n      if"))
mu('descend-shift', 'descend', 'shift by 3 bits instead of 4', 'C15/C18: depth and order follow the 4-bit nibbles',
   (M, "hd := cur.hd >>> 4, w := cur.w, path := cur.path }", "hd := cur.hd >>> 3, w := cur.w, path := cur.path }"))
mu('descend-rehash-17', 'descend', 'rehash every 8 levels instead of every 16', 'C15: nibbles of the digest stream',
   (M, "if d % 16 ≠ 0 then\n    { l := item", "if d % 8 ≠ 0 then\n    { l := item"))
mu('descend-nowrite', 'descend', 'on rehash the key is not written again (w stays)', 'C25: keys separated by the second digest are found',
   (M, "hd := c.digest s key (cur.w + 1) d, w := cur.w + 1", "hd := c.digest s key cur.w d, w := cur.w"))
mu('lookup-noeq', 'lookup', 'no key comparison: any key-value item in the slot is a hit', 'C40: Get of a missing key',
   (M, "if c.eq key k then pure (some x.ptr) else pure none", "if c.eq key k || true then pure (some x.ptr) else pure none"))
mu('lookup-eqneg', 'lookup', 'key comparison negated', 'C01',
   (M, "if c.eq key k then pure (some x.ptr) else pure none", "if !c.eq key k then pure (some x.ptr) else pure none"))
mu('split-len', 'split', 'Len not incremented when a collision is split', 'C14: Len is exact',
   (M, "modRoot h fun m => { m with len := m.len + 1, dep := m.dep + BitVec.ofNat 64 d * 2 }", "modRoot h fun m => { m with dep := m.dep + BitVec.ofNat 64 d * 2 }"))
mu('split-dep1', 'split', 'depth of the new key added once instead of twice', 'C15: Dep is the mean depth',
   (M, "dep := m.dep + BitVec.ofNat 64 d * 2 }", "dep := m.dep + BitVec.ofNat 64 d }"))
mu('split-order', 'split', 'the two keys are stored in the wrong order (kbit > cbit)', 'C01, C18',
   (M, "if kbit < cbit then", "if cbit < kbit then"))
mu('split-tmap', 'split', 'the new branch does not mark its items as keys', 'C01, C24',
   (M, "      modLink item fun x => { x with tmap := x.pmap }\n", ""))
mu('split-pmap', 'split', 'only the new key is marked present in the new branch', 'C12: the other key survives',
   (M, "modLink item fun x => { x with pmap := kbit ||| cbit }", "modLink item fun x => { x with pmap := kbit }"))
mu('split-noarr', 'split', 'the branch array of an intermediate level is not linked', 'C24',
   (M, "      modLink item fun x => { x with ptr := arr }\n      split s", "      split s"))
mu('split-chd', 'split', 'the conflicting key is not rehashed with its own bytes at a level multiple of 16', 'C01 for keys sharing 16 nibbles',
   (M, "else c.digest s ckey (cw₀ + 1) d", "else c.digest s key (cw₀ + 1) d"))
mu('split-cw', 'split', 'the write count of the conflicting key is not advanced', 'C01 for keys sharing 32 nibbles',
   (M, "let cw := if d % 16 ≠ 0 then cw₀ else cw₀ + 1", "let cw := cw₀"))
mu('conflict-tmap', 'conflict', 'the slot keeps its key bit when it becomes a branch', 'C24: branch read as a key-value cell',
   (M, "modLink cur.l fun y => { y with tmap := y.tmap &&& ~~~bitOf (radixOf cur.hd) }", "pure ()"))
mu('conflict-dep', 'conflict', 'old depth of the displaced key not subtracted', 'C15',
   (M, "      modRoot h fun m => { m with dep := m.dep - BitVec.ofNat 64 cur.d }\n      split", "      split"))
mu('conflict-cptr', 'conflict', 'the displaced key gets a nil cell pointer', 'C12, C21',
   (M, "split c s h key ckey (c.kept x.ptr) ins", "split c s h key ckey .nil ins"))
mu('slot-shift', 'shiftUp', 'items behind the new one are not moved (idx < after)', 'C12',
   (M, "if idx ≤ after then do", "if idx < after then do"))
mu('slot-count', 'insertSlot', 'a full array (count multiple of 4) is not reallocated', 'C24: write past the array',
   (M, "if (count ≠ 0 ∧ count % 4 ≠ 0) ∨ cur.d = 0 then", "if count ≠ 0 ∨ cur.d = 0 then"))
mu('slot-realloc-root', 'insertSlot', 'the root array is reallocated like any other', 'C27: the root keeps its 16 slots',
   (M, "if (count ≠ 0 ∧ count % 4 ≠ 0) ∨ cur.d = 0 then", "if (count ≠ 0 ∧ count % 4 ≠ 0) then"))
mu('slot-cap', 'insertSlot', 'array reallocated with capacity for the old count', 'C24',
   (M, "let arr ← newLinkArray (count + 1)", "let arr ← newLinkArray count"))
mu('slot-cap16', 'insertSlot', 'array always reallocated with 16 slots', 'C27: storage is tight',
   (M, "let arr ← newLinkArray (count + 1)", "let arr ← newLinkArray 16"))
mu('slot-copy', 'insertSlot', 'items behind the new one are copied without their offset', 'C12',
   (M, "copyUp arr lk.ptr 1 0 (count - idx) idx", "copyUp arr lk.ptr 0 0 (count - idx) idx"))
mu('slot-tmap', 'insertSlot', 'key bit of the new item not set', 'C11: read your writes',
   (M, "modLink cur.l fun x => { x with pmap := x.pmap ||| bit, tmap := x.tmap ||| bit }", "modLink cur.l fun x => { x with pmap := x.pmap ||| bit }"))
mu('slot-dep', 'insertSlot', 'depth plus one added', 'C15',
   (M, "dep := m.dep + BitVec.ofNat 64 cur.d }\n  pure res", "dep := m.dep + BitVec.ofNat 64 (cur.d + 1) }\n  pure res"))
mu('del-nocollapse', 'unlink', 'Del does not collapse single-key branches', 'C19: canonical structure, C15',
   (M, "      shiftBack (d + 1) l idx count\n      collapse h (d + 1) path l count", "      shiftBack (d + 1) l idx count"))
mu('collapse-anycount', 'collapse', 'collapse branches with up to two items', 'C12: another key is lost',
   (M, "if count = 1 ∧ lk.pmap = lk.tmap then", "if count ≤ 2 ∧ lk.pmap = lk.tmap then"))
mu('collapse-branch', 'collapse', 'collapse also a branch whose only item is a branch', 'C12, C24',
   (M, "if count = 1 ∧ lk.pmap = lk.tmap then", "if count = 1 then"))
mu('collapse-dep', 'collapse', 'Dep not decremented when a key moves up', 'C15',
   (M, "      modRoot h fun m => { m with dep := m.dep - 1 }\n", ""))
mu('collapse-once', 'collapse', 'only one level is collapsed', 'C19, C15',
   (M, "      collapse h d (pathClear path d) l' (popcount lk'.pmap)\n    else pure ()", "      pure ()\n    else pure ()"))
mu('unlink-bits', 'unlink', 'empty branches are not removed from their parent', 'C36: emptying; C18',
   (M, "    if count = 0 then do\n      modLink l fun y => { y with ptr := .nil }", "    if count = 17 then do\n      modLink l fun y => { y with ptr := .nil }"))
mu('unlink-idx', 'unlink', 'the index of the removed branch is computed after clearing its bit with the next radix', 'C12',
   (M, "let idx' := rankOf lk.pmap radix\n", "let idx' := rankOf lk.pmap (radix + 1)\n"))
mu('shiftback-off', 'shiftBack', 'one item too few is shifted back', 'C12',
   (M, "    copyUp lk.ptr lk.ptr 0 1 (count - idx) idx", "    copyUp lk.ptr lk.ptr 0 1 (count - idx - 1) idx"))
mu('shiftback-norealloc', 'shiftBack', 'arrays never shrink', 'C27',
   (M, "if count % 4 = 0 ∧ d ≠ 0 then", "if count % 4 = 5 ∧ d ≠ 0 then"))
mu('shiftback-prefix', 'shiftBack', 'the items before the removed one are not copied on reallocation', 'C12',
   (M, "    copyUp arr lk.ptr 0 0 idx 0\n    copyUp arr lk.ptr 0 1", "    copyUp arr lk.ptr 0 1"))
mu('remove-len', 'remove', 'Len not decremented by Del', 'C13, C14',
   (M, "{ m with len := m.len - 1, dep := m.dep - BitVec.ofNat 64 cur.d }", "{ m with dep := m.dep - BitVec.ofNat 64 cur.d }"))
mu('remove-tmap', 'remove', 'Del leaves the key bit of the removed slot set', 'C24/C01: a branch later made there is taken for a key',
   (M, "    modLink cur.l fun y => { y with pmap := y.pmap &&& ~~~bitOf radix, tmap := y.tmap &&& ~~~bitOf radix }\n    modRoot", "    modLink cur.l fun y => { y with pmap := y.pmap &&& ~~~bitOf radix }\n    modRoot"))
mu('remove-skip', 'remove', 'Del does not compare the key', 'C13: Del of an absent key changes nothing',
   (M, "if skip (c.eq key k) then pure ()", "if skip (c.eq key k) && false then pure ()"))
mu('scan-stop', 'scanItems', 'the stop flag of a nested branch is ignored', 'C17',
   (M, "    if go then scanItems visit rec l tmap n (i + 1) (pmap &&& ~~~bit) u\n    else pure (u, false)", "    scanItems visit rec l tmap n (i + 1) (pmap &&& ~~~bit) u"))
mu('scan-last', 'scan', 'the last item of a branch is not visited', 'C16',
   (M, "l lk.tmap (popcount lk.pmap) 0 lk.pmap u", "l lk.tmap (popcount lk.pmap - 1) 0 lk.pmap u"))
mu('visit-nostore', 'visitMap', 'assignments of the callback are lost', 'C20',
   (M, "  storeVal x.ptr r.2.1\n", ""))
mu('arr-caps', 'newLinkArray', 'capacity 12 rounded to 16', 'C27',
   (E, "else if capacity ≤ 12 then alloc (.links (List.replicate 12 {}))", "else if capacity ≤ 12 then alloc (.links (List.replicate 16 {}))"))
mu('arr-cap4', 'newLinkArray', 'capacity 5 served by 4 slots', 'C24',
   (E, "if capacity ≤ 4 then", "if capacity ≤ 5 then"))
mu('newroot-size', 'newRoot', 'root array of 15 slots', 'C24, C27',
   (E, "some (.links (List.replicate 16 {}))\n        else", "some (.links (List.replicate 15 {}))\n        else"))
mu('newroot-share', 'newRoot', 'the new root reuses the address of the previous object', 'C33: independence',
   (E, "next := s.next + 2", "next := s.next + 1"))
mu('newroot-seed', 'newRoot', 'seed not stored', 'C18 for the given seed',
   (E, "{ seed := seed }", "{ }"))
mu('set-hit', 'setIns', 'Set on a present key does not assign', 'C11',
   (C, "  guard := guard\n  hit p := storeVal p v\n", "  guard := guard\n  hit _ := pure ()\n"))
mu('set-split-default', 'setIns', 'Set stores the zero value on a collision (as ArrMap does)', 'C11',
   (C, "  hit p := storeVal p v\n  newSplit := do let p ← newKv c key v; pure (p, ())\n", "  hit p := storeVal p v\n  newSplit := do let p ← newKv c key v; storeVal p v; pure (.nil, ())\n"))
mu('arr-fixed', 'setInsArr', 'ArrMap.Set repaired: value stored on a collision', 'C03 refutation (the bug is gone)',
   (C, "newSplit := do let p ← newKv c key default; pure (p, ())", "newSplit := do let p ← newKv c key v; pure (p, ())"))
mu('mod-twice', 'modIns', 'Mod calls back twice on a hit', 'C23',
   (C, "    pure [(kv.2, true)]", "    pure [(kv.2, true), (kv.2, true)]"))
mu('mod-flag', 'modIns', 'Mod reports a new key as present', 'C23',
   (C, "newSplit := do let p ← newKv c key (f default false); pure (p, [(default, false)])", "newSplit := do let p ← newKv c key (f default true); pure (p, [(default, true)])"))
mu('mod-nostore', 'modIns', 'Mod on a hit does not keep what the callback left', 'C23',
   (C, "    storeVal p (f kv.2 true)\n", ""))
mu('bytesset-fixed', 'BytesSet', 'Del repaired', 'C08 refutation',
   (C, "delSkip := fun same => same }", "delSkip := fun same => !same }"))
mu('dep-swap', 'Dep', 'quotient inverted', 'C15',
   (C, "(r.dep.toNat : Rat) / (r.len.toNat : Rat)", "(r.len.toNat : Rat) / (r.dep.toNat : Rat)"))
mu('dep-zero', 'Dep', 'no test for an empty container, 1 is returned instead of 0', 'C36',
   (C, "if r.len = 0#64 then pure 0 else", "if r.len = 0#64 then pure 1 else"))
mu('len-nil', 'Len', 'Len of the zero value is 1', 'C31',
   (C, "  | none => pure 0#64\n", "  | none => pure 1#64\n"))
mu('nil-neg', 'Nil', 'Nil negated', 'C31',
   (C, "/-- `Nil` (string_map.go:61). -/\ndef Nil (m : Handle) : Bool := m.isNone", "/-- `Nil` (string_map.go:61). -/\ndef Nil (m : Handle) : Bool := m.isSome"))
mu('set-nil-neg', 'SetImpl.Nil', 'Nil negated', 'C31',
   (C, "/-- `Nil` (string_set.go:43). -/\ndef Nil (m : Handle) : Bool := m.isNone", "/-- `Nil` (string_set.go:43). -/\ndef Nil (m : Handle) : Bool := m.isSome"))
mu('get-flag', 'Get', 'Get reports a missing key as present', 'C40',
   (C, "| none => pure (default, false)\n  | some p => do let kv ← loadKv p; pure (kv.2, true)", "| none => pure (default, true)\n  | some p => do let kv ← loadKv p; pure (kv.2, true)"))
mu('val-nil', 'Val', 'Val dereferences the zero value', 'C31',
   (C, "def Val (fuel : Nat) (m : Handle) (key : K) : M K V V :=\n  match m with\n  | none => pure default", "def Val (fuel : Nat) (m : Handle) (key : K) : M K V V :=\n  match m with\n  | none => M.fail .nilDeref"))
mu('has-neg', 'Has', 'Has negated', 'C06',
   (C, "  pure p.isSome\n", "  pure p.isNone\n"))
mu('guard-first', 'conflict', 'the guard of BytesMap stores the new cell but keeps the item pointer', 'C38',
   (M, "      modLink item fun y => { y with ptr := kvp }\n      pure res", "      pure res"))
mu('guard-len', 'conflict', 'the guard branch also counts the key', 'C38: Len unchanged',
   (M, "      modLink item fun y => { y with ptr := kvp }\n      pure res", "      modLink item fun y => { y with ptr := kvp }\n      modRoot h fun m => { m with len := m.len + 1 }\n      pure res"))
mu('guard-cond', 'conflict', 'the guard fires when the nibbles agree', 'C02',
   (M, "radixOf chd ≠ radixOf cur.hd then", "radixOf chd = radixOf cur.hd then"))
mu('guard-none', 'BytesMap', 'no guard (as in StringMap)', 'C38',
   (C, "setI := setIns c (byteChash sum id) true, modI := modIns c (byteChash sum id) true", "setI := setIns c (byteChash sum id) false, modI := modIns c (byteChash sum id) false"))
mu('chw-lt', 'chwLoop', 'cd < d instead of cd <= d', 'C01 for conflicts at depth 0, 16, ...',
   (C, "if cd ≤ d then chwLoop", "if cd < d then chwLoop"))
mu('chw-nowrap', 'chwLoop', 'cd does not wrap', 'C39: the hang at depth 240',
   (C, "chwLoop d fuel ((cd + 16) % 256) (w + 1)", "chwLoop d fuel (cd + 16) (w + 1)"))
mu('chash-shift', 'byteChash', 'shift by d instead of d%16', 'C01 for deep conflicts',
   (C, ".ok w => .ok (digestOf sum s (kb ckey) w >>> (4 * (d % 16)), w)", ".ok w => .ok (digestOf sum s (kb ckey) w >>> (4 * d), w)"))
mu('chash-key', 'byteChash', 'hashes the new key instead of the conflicting one', 'C01',
   (C, "(s : Seed) (_key ckey : K) (d fuel : Nat) :\n    Except Fault (BitVec 64 × Nat) :=\n  match chwLoop d fuel 0 0 with\n  | .error e => .error e\n  | .ok w => .ok (digestOf sum s (kb ckey) w", "(s : Seed) (_key ckey : K) (d fuel : Nat) :\n    Except Fault (BitVec 64 × Nat) :=\n  match chwLoop d fuel 0 0 with\n  | .error e => .error e\n  | .ok w => .ok (digestOf sum s (kb _key) w"))
mu('intbytes-dup', 'intbytes', 'byte 5 packed twice, byte 6 lost', 'C28: injective',
   (C, "intbyte k 40, intbyte k 48,", "intbyte k 40, intbyte k 40,"))
mu('int-enc', 'intCfg', 'high word packed from bit 31', 'C28',
   (C, "encT k := (k.sshiftRight 32).setWidth 32", "encT k := (k.sshiftRight 31).setWidth 32"))
mu('generic-fixed', 'genericChashSet', 'Set repaired: iteration d/16', 'C05 refutation',
   (C, ".ok (I.hash ckey s (d % 16) >>> (4 * (d % 16)), d / 16 + 1)", ".ok (I.hash ckey s (d / 16) >>> (4 * (d % 16)), d / 16 + 1)"))
mu('generic-mod-fixed', 'genericChashMod', 'Mod repaired: hashes the conflicting key', 'C05/C23 refutation',
   (C, "(s : Seed) (key _ckey : K) (d _fuel : Nat) :\n    Except Fault (BitVec 64 × Nat) :=\n  .ok (I.hash key s", "(s : Seed) (key _ckey : K) (d _fuel : Nat) :\n    Except Fault (BitVec 64 × Nat) :=\n  .ok (I.hash _ckey s"))
mu('hash-lt', 'hashWrites', 'i < iter', 'C29',
   (C, "if i ≤ iter then hashWrites", "if i < iter then hashWrites"))
mu('hashbytes-fixed', 'hashBytesWrites', 'HashBytes repaired: no uint8', 'C29 refutation',
   (C, "if i ≤ iter % 256 then hashBytesWrites iter fuel ((i + 1) % 256) (w + 1)", "if i ≤ iter then hashBytesWrites iter fuel (i + 1) (w + 1)"))
mu('inthash-key', 'intHash', 'hashes the bytes of the key plus one', 'C29',
   (C, ".ok w => .ok (digestOf sum s (intbytes k) w)", ".ok w => .ok (digestOf sum s (intbytes (k + 1)) w)"))
mu('depth-nowrap', 'descend, split', 'the depth counter does not wrap at 256', 'C26: hang for indistinguishable keys',
   (M, "let d := (cur.d + 1) % 256", "let d := cur.d + 1"), (M, "let d := (d₀ + 1) % 256", "let d := d₀ + 1"))
mu('int-tmap-reset', 'split', 'IntMap repaired: tmap of an intermediate level reset', 'C04 refutation',
   (M, "      let arr ← newLinkArray 1\n      modLink item fun x => { x with ptr := arr }", "      let arr ← newLinkArray 1\n      modLink item fun x => { x with ptr := arr, tmap := 0#32 }"))
mu('start-w', 'start', 'search starts with a digest of two writes', 'C29/C15: nibbles',
   (M, "hd := c.digest s key 1 0, w := 1, path", "hd := c.digest s key 2 0, w := 2, path"))
mu('path-radix', 'search', 'path stores the current link after descending', 'C13',
   (M, "path := cur.path ++ [(radix, some cur.l)]", "path := cur.path ++ [(radix, some ⟨lk.ptr, rankOf lk.pmap radix⟩)]"))
mu('rank-incl', 'rankOf', 'rank counts the slot itself', 'C01, C24',
   (M, "popcount (pmap &&& ~~~(BitVec.allOnes 32 <<< radix))", "popcount (pmap &&& ~~~(BitVec.allOnes 32 <<< (radix + 1)))"))
mu('radix-mask', 'radixOf', 'three bits instead of four', 'C15, C18',
   (M, "(hd &&& 0xF#64).toNat", "(hd &&& 0x7#64).toNat"))
mu('gen-set-key', 'genericChashSet', 'Set hashes the new key, as Mod does', 'C51: a Set of a key sharing one nibble loses nothing',
   ('Containers.lean', "(_key ckey : K) (d _fuel : Nat) :\n    Except Fault (BitVec 64 × Nat) :=\n  .ok (I.hash ckey s (d % 16)", "(_key ckey : K) (d _fuel : Nat) :\n    Except Fault (BitVec 64 × Nat) :=\n  .ok (I.hash _key s (d % 16)"))
mu('gen-set-iter0', 'genericChashSet', 'the displaced key is hashed with iteration 0', 'C05 refutation: below 16 levels nothing is lost',
   ('Containers.lean', ".ok (I.hash ckey s (d % 16) >>>", ".ok (I.hash ckey s 0 >>>"))
mu('gen-set-shift', 'genericChashSet', 'the digest of the displaced key is not shifted', 'C48: how the displaced key is filed',
   ('Containers.lean', ".ok (I.hash ckey s (d % 16) >>> (4 * (d % 16))", ".ok (I.hash ckey s (d % 16) >>> (0 * (d % 16))"))
mu('gen-mod-iter', 'genericChashMod', 'Mod hashes the new key with iteration d/16', 'C48: how the displaced key is filed',
   ('Containers.lean', ".ok (I.hash key s (d % 16) >>>", ".ok (I.hash key s (d / 16) >>>"))
mu('visitm-stop', 'visitMapM', 'the result of the callback is ignored', 'C17/C43: All stops when the callback returns false',
   ('Callback.lean', "  f u k x.ptr\n", "  let r ← f u k x.ptr\n  pure (r.1, true)\n"))
mu('visitm-twice', 'visitMapM', 'the callback is called twice per item', 'C43',
   ('Callback.lean', "  f u k x.ptr\n", "  let r ← f u k x.ptr\n  f r.1 k x.ptr\n"))
mu('modw-hit', 'ModWith', 'a present key is reported as new', 'C47',
   ('Callback.lean', "hit := fun p => f p true", "hit := fun p => f p false"))
mu('modw-slot', 'ModWith', 'a new key is reported as present', 'C23/C47',
   ('Callback.lean', "        let p ← newKv I.cfg key default\n        let r ← f p false\n        pure (p, r) }", "        let p ← newKv I.cfg key default\n        let r ← f p true\n        pure (p, r) }"))
mu('modw-guard', 'ModWith', 'Mod with a program as callback drops the guard of BytesMap', 'C38/C47',
   ('Callback.lean', "guard := (I.modI key fun v _ => v).guard", "guard := false"))
mu('split-y', 'split', 'the new array is used after the callback instead of the reloaded link', 'C47 refutation: what a Mod callback that changes the container does',
   ('Model.lean', "      let y ← load item\n", "      let y : Link := { ptr := arr, pmap := 0, tmap := 0 }\n"))
mu('slot-late-idx', 'insertSlot', 'the index of the new item is computed after the callback', 'C47 refutation',
   ('Model.lean', "  let idx := rankOf lk₀.pmap radix\n  let (kvp, res) ← ins.newSlot\n  let lk ← load cur.l\n", "  let (kvp, res) ← ins.newSlot\n  let lk ← load cur.l\n  let idx := rankOf lk.pmap radix\n"))
mu('slot-early-link', 'insertSlot', 'the array and the count are read before the callback', 'C47 refutation',
   ('Model.lean', "  let lk ← load cur.l\n  let count := popcount lk.pmap\n  if (count", "  let lk := lk₀\n  let count := popcount lk.pmap\n  if (count"))
mu('scan-early', 'scanItems', 'All reads the link of a branch once, before the loop', 'C46 refutation: what All does when the callback changes the container',
   ('Model.lean', """    let lk ← load l
    scanItems visit (scan visit fuel) l lk.tmap (popcount lk.pmap) 0 lk.pmap u""", """    let lk ← load l
    scanItems visit (scan visit fuel) ⟨lk.ptr, 0⟩ lk.tmap (popcount lk.pmap) 0 lk.pmap u"""),
   ('Model.lean', """    let lk ← load l
    let item : Ref := ⟨lk.ptr, i⟩
    let (u, go)""", """    let item : Ref := ⟨l.arr, i⟩
    let (u, go)"""))
mu('cb-nostore', 'MapImpl.callback', 'assignments of the callback are dropped', 'C42-C45',
   ('PropsCallback.lean', "  | some v => do\n    storeVal p v\n    pure (r.1, r.2.2)\n\ntheorem map_stepUp", "  | some v => do\n    pure (r.1, r.2.2)\n\ntheorem map_stepUp"))
mu('int-dec', 'intCfg', 'the two words of a packed key are swapped when read', 'C04, C28',
   ('Containers.lean', "some (p.setWidth 64 ||| (t.setWidth 64 <<< 32))", "some (t.setWidth 64 ||| (p.setWidth 64 <<< 32))"))
mu('intbytes-le', 'intbyte', 'a byte is taken 4 bits too low', 'C28: injective',
   ('Containers.lean', "⟨(k.sshiftRight n).setWidth 8⟩", "⟨(k.sshiftRight (n - 4)).setWidth 8⟩"))
mu('split-kbit0', 'split', 'on an intermediate level the new branch is marked empty', 'C12, C24',
   ('Model.lean', "      let arr ← newLinkArray 1\n", "      modLink item fun x => { x with pmap := 0 }\n      let arr ← newLinkArray 1\n"))
mu('collapse-radix', 'collapse', 'the key bit is set in the branch itself, not in its parent', 'C12, C24',
   ('Model.lean', "modLink l' fun y => { y with tmap := y.tmap ||| bitOf radix }", "modLink l fun y => { y with tmap := y.tmap ||| bitOf radix }"))
mu('unlink-nil', 'unlink', 'an emptied branch keeps its array', 'C34: garbage is unreachable',
   ('Model.lean', "      modLink l fun y => { y with ptr := .nil }\n", ""))
mu('del-absent-len', 'delete', 'Del of a key whose slot is free decrements Len', 'C13',
   ('Model.lean', "if hit then remove c h skip key cur else pure ()", "if hit then remove c h skip key cur else modRoot h fun m => { m with len := m.len - 1 }"))
mu('ptr-copy', 'lookup', 'Ptr returns a fresh copy of the cell', 'C21: the pointer aliases the value',
   ('Model.lean', "if c.eq key k then pure (some x.ptr) else pure none", "if c.eq key k then (do let kv ← (match x.ptr with | .nil => pure (none, none) | _ => (do let kv ← loadKv x.ptr; pure (kv.1, some kv.2))); match kv.2 with | none => pure (some x.ptr) | some v => (do let p ← alloc (.kv kv.1 v); pure (some p))) else pure none"))
mu('set-newcell', 'setIns', 'Set on a present key stores into a copy of the key only', 'C11, C22',
   ('Containers.lean', "def setIns (chash : Chash K) (guard : Bool) (key : K) (v : V) : Ins K V Unit where\n  chash := chash\n  guard := guard\n  hit p := storeVal p v", "def setIns (chash : Chash K) (guard : Bool) (key : K) (v : V) : Ins K V Unit where\n  chash := chash\n  guard := guard\n  hit p := do let _ ← newKv c key v; pure ()"))
mu('search-lookup-prefix', 'search', 'the search gives up below 32 levels', 'C01 for keys sharing 32 nibbles',
   ('Model.lean', "      if lk.tmap &&& bitOf radix = 0#32 then\n        search", "      if lk.tmap &&& bitOf radix = 0#32 ∧ cur.d = 32 then pure (cur, false) else\n      if lk.tmap &&& bitOf radix = 0#32 then\n        search"))
mu('int-tmap-mask', 'split', 'on an intermediate level the stale upper bits of tmap are cut down to pmap', 'C60/C61: which phantom appears and what Del does to it',
   ('Model.lean', "      let arr ← newLinkArray 1\n      modLink item fun x => { x with ptr := arr }", "      let arr ← newLinkArray 1\n      modLink item fun x => { x with ptr := arr, tmap := x.tmap &&& x.pmap }"))
mu('collapse-sub', 'collapse', 'collapse if pmap is contained in tmap, not only if they are equal', 'C60/C61: which branches Del collapses when tmap has stale bits',
   ('Model.lean', "    if count = 1 ∧ lk.pmap = lk.tmap then", "    if count = 1 ∧ lk.pmap &&& lk.tmap = lk.pmap then"))
mu('sall-stop', 'SetImpl.AllWith', 'the result of the callback is ignored', 'C43/C45 for sets: All stops when the callback returns false',
   ('Callback.lean', "(visitMapM I.cfg fun u k _ => f u k)", "(visitMapM I.cfg fun u k _ => do let r ← f u k; pure (r.1, true))"))
mu('split-call-first', 'split', 'the callback of Mod runs before the new branch is linked', 'C54: what is left if the callback panics',
   ('Model.lean', """      modLink item fun x => { x with tmap := x.pmap }
      let arr ← newLinkArray 2
      modLink item fun x => { x with ptr := arr }
      let (kvp, res) ← ins.newSplit
""", """      let (kvp, res) ← ins.newSplit
      modLink item fun x => { x with tmap := x.pmap }
      let arr ← newLinkArray 2
      modLink item fun x => { x with ptr := arr }
"""))
mu('slot-call-late', 'insertSlot', 'the callback of Mod runs after the items have been moved', 'C54: a panic at a free slot leaves the map intact',
   ('Model.lean', """  let (kvp, res) ← ins.newSlot
  let lk ← load cur.l
  let count := popcount lk.pmap
  if (count ≠ 0 ∧ count % 4 ≠ 0) ∨ cur.d = 0 then
    shiftUp lk.ptr idx count
    store ⟨lk.ptr, idx⟩ (mkLink c key kvp)
""", """  let lk ← load cur.l
  let count := popcount lk.pmap
  if (count ≠ 0 ∧ count % 4 ≠ 0) ∨ cur.d = 0 then
    shiftUp lk.ptr idx count
  let (kvp, res) ← ins.newSlot
  if (count ≠ 0 ∧ count % 4 ≠ 0) ∨ cur.d = 0 then
    store ⟨lk.ptr, idx⟩ (mkLink c key kvp)
"""))
S = 'Scratch.lean'
mu('sc-first', 'removeS', 'the last element of the path is not cleared', 'C65',
   (S, "    let p ← p.clear cur.d\n", ""))
mu('sc-collapse', 'collapseS', 'the element of a collapsed branch is not cleared', 'C65',
   (S, "      let p ← p.clear d\n      modLink l' fun y => { y with tmap", "      modLink l' fun y => { y with tmap"))
mu('sc-unlink', 'unlinkS', 'the element of an emptied branch is not cleared', 'C65',
   (S, "      let p ← p.clear d\n      let lk ← load l'\n", "      let lk ← load l'\n"))
mu('sc-final', 'collapseS', 'the rest of the path is not cleared', 'C65',
   (S, "    else p.clearAll (d + 1)", "    else pure p"))
mu('sc-final-root', 'Slice.clearAll', 'the element of the root is not cleared', 'C65',
   (S, "  | 0, p => pure p\n  | d + 1, p => do\n    let p ← p.clear d", "  | 0, p => pure p\n  | 1, p => pure p\n  | d + 1, p => do\n    let p ← p.clear d"))
mu('sc-cap', 'Slice.append', 'the path moves to a new array one element early', 'C65: keys below twelve branches leave nothing behind',
   (S, "    if p.len < p.arr.length then", "    if p.len + 1 < p.arr.length then"))
mu('sc-dirty', 'Slice.empty', 'the path starts behind what is left in the scratch area', 'C64',
   (S, "def empty (arr : List PathLink) : Slice := ⟨arr, none, 0⟩", "def empty (arr : List PathLink) : Slice := ⟨arr, none, (arr.takeWhile fun e => e.2.isSome).length⟩"))
mu('sc-swap', 'collapseS', 'the element is cleared before it is read', 'C64',
   (S, "      let (radix, l') ← p.at' d\n      let p ← p.clear d\n      modLink l' fun y => { y with tmap", "      let p ← p.clear d\n      let (radix, l') ← p.at' d\n      modLink l' fun y => { y with tmap"))
mu('sc-miss', 'removeS', 'Del of a missing key clears the path (finding 15 half repaired)', 'C65 iff, C65_refuted',
   (S, "  if skip (c.eq key k) then pure p\n", "  if skip (c.eq key k) then p.clearAll p.len\n"))
mu('sc-copyback', 'Slice.append', 'append also records the element in the root array, at index mod 12', 'C65_refuted_deep, C64 unaffected',
   (S, "  | some b => { p with big := some (p.view ++ [e]), len := p.len + 1 }", "  | some b => { p with arr := p.arr.set (p.len % 12) e, big := some (p.view ++ [e]), len := p.len + 1 }"))
mu('sc-vacated', 'shiftBack', 'the vacated slot is cleared (finding 16 repaired)', 'C66_refuted becomes false',
   (M, "  else\n    copyUp lk.ptr lk.ptr 0 1 (count - idx) idx\n", "  else\n    copyUp lk.ptr lk.ptr 0 1 (count - idx) idx\n    store ⟨lk.ptr, count⟩ {}\n"))
mu('tree-shiftback', 'shiftBack', 'one item too few is moved back', 'C73: the last item is in two slots',
   (M, "    copyUp lk.ptr lk.ptr 0 1 (count - idx) idx\n", "    copyUp lk.ptr lk.ptr 0 1 (count - idx - 1) idx\n"))
mu('tree-nostore', 'insertSlot', 'the link of the new key is not stored when the array is not replaced', 'C73: the item that was moved up is in two slots',
   (M, "    shiftUp lk.ptr idx count\n    store ⟨lk.ptr, idx⟩ (mkLink c key kvp)\n", "    shiftUp lk.ptr idx count\n"))
mu('tree-copy', 'insertSlot', 'when the array is replaced, the items behind the new one are taken from one place earlier', 'C73: the item before the new one is in two slots',
   (M, "    copyUp arr lk.ptr 1 0 (count - idx) idx\n", "    copyUp arr lk.ptr 2 0 (count - idx) (idx - 1)\n"))
mu('tree-split', 'split', 'both links of a split get the cell of the displaced key', 'C73: the cell is in two slots',
   (M, "        modLink ⟨y.ptr, 0⟩ (putLink c key kvp)\n        modLink ⟨y.ptr, 1⟩ (putLink c ckey cptr)\n", "        modLink ⟨y.ptr, 0⟩ (putLink c key cptr)\n        modLink ⟨y.ptr, 1⟩ (putLink c ckey cptr)\n"))
mu('tree-cycle', 'split', 'the new branch of a split of one level points to itself', 'C73, C74: a search for either key does not end',
   (M, "      let arr ← newLinkArray 1\n      modLink item fun x => { x with ptr := arr }\n", "      let arr ← newLinkArray 1\n      modLink item fun x => { x with ptr := item.base }\n"))
mu('tree-encP', 'intCfg', 'a displaced integer key is stored with its lowest bit set', 'C73: an array taken for a value is pushed down with a wrong bitmap (IntMap)',
   (C, "  encP k := k.setWidth 32\n", "  encP k := k.setWidth 32 ||| 1#32\n"))
mu('tree-collapse', 'collapse', 'a branch with one entry is replaced by that entry, but the entry is stored one level higher', 'C73, C13',
   (M, "      store l x\n      modRoot h fun m => { m with dep := m.dep - 1 }\n      let (radix, l') ← pathAt path d\n", "      modRoot h fun m => { m with dep := m.dep - 1 }\n      let (radix, l') ← pathAt path d\n      store l' x\n"))
mu('tree-lookup', 'lookup', 'the key of the item found is not compared', 'C22, C55: a write through Ptr changes what Get returns for another key',
   (M, "    if c.eq key k then pure (some x.ptr) else pure none", "    pure (some x.ptr)"))
mu('tree-scan', 'scan', 'All goes down from the same link again', 'C74: All does not end',
   (M, "      else rec u item\n", "      else rec u l\n"))
mu('tree-replace', 'conflict', 'BytesMap: the replaced item keeps its pointer, and the new cell is lost', 'C73 unaffected, C12 fails for BytesMap',
   (M, "      modLink item fun y => { y with ptr := kvp }\n      pure res\n", "      pure res\n"))
KP = 'KeyPanic.lean'
mu('kp-late', 'splitP', 'the digests of a split are computed after the link has been given its bitmap', 'C72: a panic in Hash has no effect',
   (KP, "    check (d % 16 == 0 && R.rehash s key d)\n    check (d % 16 == 0 && R.rehash s ckey d)\n    let hd :=", "    let hd :="),
   (KP, "    lift (modLink item fun x => { x with pmap := kbit ||| cbit })\n", "    lift (modLink item fun x => { x with pmap := kbit ||| cbit })\n    check (d % 16 == 0 && R.rehash s key d)\n    check (d % 16 == 0 && R.rehash s ckey d)\n"))
mu('kp-chash', 'conflictP', 'the first digest of the displaced key is computed after its link has lost its mark as an entry', 'C72: a panic in KeyBytes or Hash has no effect',
   (KP, "    check (chp s key ckey cur.d)\n", ""),
   (KP, "      lift (modRoot h fun m => { m with dep := m.dep - BitVec.ofNat 64 cur.d })\n", "      check (chp s key ckey cur.d)\n      lift (modRoot h fun m => { m with dep := m.dep - BitVec.ofNat 64 cur.d })\n"))
mu('kp-none', 'splitP', 'the digests of a split do not panic', 'C72_Map_refuted, C72_Set_refuted become false',
   (KP, "    check (d % 16 == 0 && R.rehash s key d)\n    check (d % 16 == 0 && R.rehash s ckey d)\n    let hd :=", "    check (false && R.rehash s key d)\n    let hd :="))
mu('kp-remove', 'removeP', 'Del compares the keys after the slot has been cleared', 'C72: a panic in Equal has no effect',
   (KP, "  let k ← lift (readKey c x)\n  check (R.eq key k)\n  if skip", "  let k ← lift (readKey c x)\n  lift (modRoot h fun m => { m with len := m.len - 1 })\n  check (R.eq key k)\n  lift (modRoot h fun m => { m with len := m.len + 1 })\n  if skip"))
mu('kp-hit', 'conflictP', 'Set compares the keys after the depth has been taken off', 'C72: a panic in Equal has no effect',
   (KP, "  check (R.eq key ckey)\n", "  lift (modRoot h fun m => { m with dep := m.dep - 1 })\n  check (R.eq key ckey)\n  lift (modRoot h fun m => { m with dep := m.dep + 1 })\n"))
MM = 'Mem.lean'
mu('sp-alloc', 'newLinkArray', 'an array for up to four links gets eight slots', 'C75: 16 + N + 4B slots',
   (MM, "  if capacity ≤ 4 then alloc (.links (List.replicate 4 {}))\n", "  if capacity ≤ 4 then alloc (.links (List.replicate 8 {}))\n"))
mu('sp-grow', 'insertSlot', 'the new array is for eight links more', 'C75: 16 + N + 4B slots',
   (M, "    let arr ← newLinkArray (count + 1)\n    modLink cur.l", "    let arr ← newLinkArray (count + 8)\n    modLink cur.l"))
mu('sp-noshrink', 'shiftBack', 'Del never replaces the array by a smaller one', 'C75, C30',
   (M, "  if count % 4 = 0 ∧ d ≠ 0 then\n    let arr ← newLinkArray count\n", "  if count % 4 = 0 ∧ d ≠ 0 ∧ False then\n    let arr ← newLinkArray count\n"))
mu('sp-nocollapse', 'collapse', 'Del leaves branches with one entry', 'C75: B is at most half the sum of the depths, C13',
   (M, "    if count = 1 ∧ lk.pmap = lk.tmap then\n      let x ← load ⟨lk.ptr, 0⟩\n", "    if count = 1 ∧ lk.pmap = lk.tmap ∧ False then\n      let x ← load ⟨lk.ptr, 0⟩\n"))
mu('eq-swap', 'conflict', 'Set and Mod call Equal of the stored key', 'C77: insertions of a key k with k.Equal(x) false for all x (but not x.Equal(k)) add an entry; C76 unaffected in truth',
   (M, "  if c.eq key ckey then ins.hit x.ptr\n", "  if c.eq ckey key then ins.hit x.ptr\n"))
mu('eq-digest', 'conflict', 'keys with the same digests at depth 15 are taken for equal', 'C77: every Set adds an entry',
   (M, "  if c.eq key ckey then ins.hit x.ptr\n", "  if c.eq key ckey || (cur.d == 0 && c.digest s key 1 0 == c.digest s ckey 1 0) then ins.hit x.ptr\n"))
mu('eq-del', 'remove', 'Del does not compare the keys', 'C77: Del of a key that is not equal to itself does nothing; C76',
   (M, "  if skip (c.eq key k) then pure ()\n", "  if skip true then pure ()\n"))
mu('eq-keep', 'genericChashSet', 'Set rehashes the new key in place of the displaced one', 'C77_Map_hangs unaffected (the keys are the same); C05, C76 fail',
   (C, "  .ok (I.hash ckey s (d % 16) >>> (4 * (d % 16)), d / 16 + 1)", "  .ok (I.hash _key s (d % 16) >>> (4 * (d % 16)), d / 16 + 1)"))

mu('put-whole', 'putLink', 'the whole link is assigned also where keys are in cells', 'C47_refuted_unsafe becomes false (stale bitmaps no longer survive); C79: the model of Mod is no longer the code',
   (M, "  | .boxed => { ptr := p, pmap := x.pmap ||| c.encP k, tmap := x.tmap ||| c.encT k }\n", "  | .boxed => mkLink c k p\n"))
mu('t-bytesset', 'BytesSet', 'Del of BytesSet has the test of the other sets', 'C78_BytesSet_fails becomes false',
   (C, "  { cfg := c, addI := addIns c (byteChash sum id), delSkip := fun same => same }", "  { cfg := c, addI := addIns c (byteChash sum id), delSkip := fun same => !same }"))
mu('t-arrmap', 'ArrMap', 'Set of ArrMap stores the value on a collision', 'C78_ArrMap_fails becomes false',
   (C, "  newSplit := do let p ← newKv c key default; pure (p, ())\n", "  newSplit := do let p ← newKv c key v; pure (p, ())\n"))
mu('t-len', 'Len', 'Len is one too large', 'C78: the tests of StringMap pass',
   (C, "  | some h => do let r ← getRoot h; pure r.len\n", "  | some h => do let r ← getRoot h; pure (r.len + 1)\n"))
GS = 'GoStringMap.lean'
mu('cb-late', 'Go.StringMap.Mod', 'the callback is called after the pair has been linked', 'C79: a callback that uses the map sees another map',
   (GS, "        u ← mod u (← fieldAddr kv) false  -- 275\n", ""),
   (GS, "        modRoot (← deref m) fun r => { r with len := r.len + 1#64 }  -- 281\n", "        u ← mod u (← fieldAddr kv) false  -- 275\n        modRoot (← deref m) fun r => { r with len := r.len + 1#64 }  -- 281\n"))
mu('cb-count', 'Go.StringMap.Mod', 'count is read before the callback is called', 'C79: a callback that uses the map',
   (GS, "  u ← mod u (← fieldAddr kv) false  -- 291\n  let count : BitVec 8 := BitVec.ofNat 8 (popcount (← load l).pmap)  -- 292\n", "  let count : BitVec 8 := BitVec.ofNat 8 (popcount (← load l).pmap)  -- 292\n  u ← mod u (← fieldAddr kv) false  -- 291\n"))
mu('cb-scan', 'Go.StringMap.stringScan', 'All reads the bitmap tmap at every item', 'C79: a callback that changes the map',
   (GS, "      if (tmap &&& bit) != 0#32 then  -- 412\n", "      if ((← load l).tmap &&& bit) != 0#32 then  -- 412\n"))
mu('cb-exists', 'Go.StringMap.Mod', 'the callback is told that a new key exists', 'C79, C69',
   (GS, "  u ← mod u (← fieldAddr kv) false  -- 291\n", "  u ← mod u (← fieldAddr kv) true  -- 291\n"))
PS = 'ParStringMap.lean'
mu('par-writeback', 'Go.StringMap.Ptr', 'Get, Val and Ptr write the link of the root back as they have read it', 'C81 (readers share the lock), C83: two readers race',
   (GS, "  let mut radix : BitVec 8 := (hd &&& 15#64).setWidth 8  -- 95\n", "  let mut radix : BitVec 8 := (hd &&& 15#64).setWidth 8  -- 95\n  store l (← load l)\n"),
   (PS, "  let mut radix : BitVec 8 := (hd &&& 15#64).setWidth 8  -- 95\n", "  let mut radix : BitVec 8 := (hd &&& 15#64).setWidth 8  -- 95\n  store l (← load l)\n"))
mu('par-touch', 'Go.StringMap.Ptr', 'Get, Val and Ptr assign len to len', 'C81, C83: two readers race',
   (GS, "  let mut radix : BitVec 8 := (hd &&& 15#64).setWidth 8  -- 95\n", "  let mut radix : BitVec 8 := (hd &&& 15#64).setWidth 8  -- 95\n  modRoot (← deref m) fun r => { r with len := r.len }\n"),
   (PS, "  let mut radix : BitVec 8 := (hd &&& 15#64).setWidth 8  -- 95\n", "  let mut radix : BitVec 8 := (hd &&& 15#64).setWidth 8  -- 95\n  modLen (← deref m) fun x => x\n"))
mu('own-global', 'Go.StringMap.Set', 'Set looks at the length in the first root of the program', 'C83: goroutines with containers of their own access different objects',
   (GS, "  let mut radix : BitVec 8 := (hd &&& 15#64).setWidth 8  -- 126\n", "  let mut radix : BitVec 8 := (hd &&& 15#64).setWidth 8  -- 126\n  let _ ← getRoot 0\n"),
   (PS, "  let mut radix : BitVec 8 := (hd &&& 15#64).setWidth 8  -- 126\n", "  let mut radix : BitVec 8 := (hd &&& 15#64).setWidth 8  -- 126\n  let _ ← getRoot 0\n"))
mu('own-seed', 'Go.StringMap.Set', 'Set hashes with the seed of the first root of the program', 'C82: the results depend on the other goroutines',
   (GS, "  hw := hw.setSeed (← getRoot (← deref m)).seed  -- 123\n", "  hw := hw.setSeed (← getRoot 0).seed  -- 123\n"),
   (PS, "  hw := hw.setSeed (← getRoot (← deref m)).seed  -- 123\n", "  hw := hw.setSeed (← getRoot 0).seed  -- 123\n"))
PL = 'ParLock.lean'
mu('lock-readers', 'Step.start', 'a reading call may begin while another call writes', 'C81, C83',
   (PL, "(rlock : G.read op = true → ∀ j op' t, w.now j = some (op', t) → G.read op' = true)", "(rlock : G.read op = true → ∀ j op' t, w.now j = some (op', t) → G.read op' = true ∨ j ≠ i)"))
mu('lock-writers', 'Step.start', 'a writing call may begin while others read', 'C81, C83',
   (PL, "(lock : G.read op = false → ∀ j, w.now j = none)", "(lock : G.read op = false → ∀ j op' t, w.now j = some (op', t) → G.read op' = true)"))
mu('lock-scratch', 'Step.finish', 'what Del leaves in root.path is lost', 'C81: the calls in sequence pass root.path on',
   (PL, "path := if G.read op = true then w.path else p,", "path := w.path,"))
PG, PP = 'GoProg.lean', 'ParProg.lean'
mu('prog-ptr', 'Go.runGo', 'a pointer that Ptr returns is the one kept before it', 'C80, C82_map_model',
   (PG, "      | some p => runGo C (k (some e.ptrs.length)) (e.hold p)\n", "      | some p => runGo C (k (some (e.ptrs.length - 1))) (e.hold p)\n"),
   (PP, "      | some p => runTree C (k (some e.ptrs.length)) (e.hold p)\n", "      | some p => runTree C (k (some (e.ptrs.length - 1))) (e.hold p)\n"))
mu('prog-mod', 'Go.runGo', 'the callback of Mod is told the contrary', 'C80, C82_map_model',
   (PG, "runGo C (f e.ptrs.length b) (e.hold p) >>= fun r => pure (some r)) none", "runGo C (f e.ptrs.length !b) (e.hold p) >>= fun r => pure (some r)) none"),
   (PP, "runTree C (f e.ptrs.length b) (e.hold p) >>= fun r => pure (some r)) none", "runTree C (f e.ptrs.length !b) (e.hold p) >>= fun r => pure (some r)) none"))
mu('prog-all', 'Go.runGo', 'the pointers that a callback of All keeps are lost', 'C80, C82_map_model',
   (PG, "runGo C (f ue.1 key ue.2.ptrs.length) (ue.2.hold p) >>= fun r => pure ((r.1.1, r.2), r.1.2)) (u, e)", "runGo C (f ue.1 key e.ptrs.length) (e.hold p) >>= fun r => pure ((r.1.1, r.2), r.1.2)) (u, e)"),
   (PP, "runTree C (f ue.1 key ue.2.ptrs.length) (ue.2.hold p) >>= fun r => pure ((r.1.1, r.2), r.1.2)) (u, e)", "runTree C (f ue.1 key e.ptrs.length) (e.hold p) >>= fun r => pure ((r.1.1, r.2), r.1.2)) (u, e)"))
mu('prog-new', 'Go.runGo', 'a second container has the seed of the first', 'C80',
   (PG, "  | _, .new i sd k, e => Amt.newRoot sd >>= fun m =>\n", "  | _, .new i sd k, e => Amt.newRoot (if e.objs.length = 0 then sd else 0#64) >>= fun m =>\n"),
   (PP, "  | _, .new i sd k, e => New sd >>= fun m =>\n", "  | _, .new i sd k, e => New (if e.objs.length = 0 then sd else 0#64) >>= fun m =>\n"))
mu('prog-read', 'Go.runGo', 'reading through a pointer reads through the latest one', 'C80',
   (PG, "  | _, .read p k, e =>\n    match e.ptrs[p]? with\n", "  | _, .read p k, e =>\n    match e.ptrs[e.ptrs.length - 1]? with\n"),
   (PP, "  | _, .read p k, e =>\n    match e.ptrs[p]? with\n", "  | _, .read p k, e =>\n    match e.ptrs[e.ptrs.length - 1]? with\n"))
PE = 'PropsEnd.lean'
mu('end-release', 'Step.finish', 'a call that returns does not release the lock', 'C84: no infinite execution (the call returns for ever), C81: one answer for a call',
   (PL, "now := upd w.now i none, log", "now := w.now, log"), (PE, "now := upd w.now i none, log", "now := w.now, log"))
mu('end-upgrade', 'Step.start', 'a writing call may begin only beside a reading one', 'C84: no deadlock',
   (PL, "(lock : G.read op = false → ∀ j, w.now j = none)", "(lock : G.read op = false → (∀ j, w.now j = none) ∧ ∃ j op' t, w.now j = some (op', t))"),
   (PE, "(lock : G.read op = false → ∀ j, w.now j = none)", "(lock : G.read op = false → (∀ j, w.now j = none) ∧ ∃ j op' t, w.now j = some (op', t))"))
mu('end-turn', 'Step.start', 'a writing call waits until every goroutine has made a call', 'C84: no deadlock',
   (PL, "(lock : G.read op = false → ∀ j, w.now j = none)", "(lock : G.read op = false → ∀ j, w.now j = none ∧ (answersOf j w.log ≠ [] ∨ j = i))"),
   (PE, "(lock : G.read op = false → ∀ j, w.now j = none)", "(lock : G.read op = false → ∀ j, w.now j = none ∧ (answersOf j w.log ≠ [] ∨ j = i))"))
FL = 'Float.lean'
mu('f64-nan', 'depGo', 'Dep does not ask for len == 0: NaN for an empty container', 'C68: never NaN',
   (FL, "  if len = 0#64 then some 0 else quoF64 (toF64 dep.toNat) (toF64 len.toNat)\n", "  quoF64 (toF64 dep.toNat) (toF64 len.toNat)\n"))
mu('f64-trunc', 'rne', 'quotients are rounded towards zero', 'C68: nearest',
   (FL, "  if 2 * (a % b) < b then a / b\n", "  if True then a / b\n"))
mu('f64-odd', 'rne', 'ties are rounded to odd', 'C68: ties to even',
   (FL, "  else if a / b % 2 = 0 then a / b else a / b + 1\n", "  else if a / b % 2 = 1 then a / b else a / b + 1\n"))
mu('f64-int', 'depGo', 'Dep divides whole numbers', 'C68',
   (FL, "  if len = 0#64 then some 0 else quoF64 (toF64 dep.toNat) (toF64 len.toNat)\n", "  if len = 0#64 then some 0 else some (toF64 (dep.toNat / len.toNat))\n"))
mu('f64-single', 'expo', 'the numbers are float32', 'C68: nearest float64',
   (FL, "def expo (a b : Nat) : Nat := Nat.log2 (a / (2 ^ 52 * b))", "def expo (a b : Nat) : Nat := Nat.log2 (a / (2 ^ 23 * b))"))
mu('int-pack', 'intCfg', 'the halves of an integer key are exchanged in the link', 'C28: lower half in pmap, upper half in tmap (the map still works)',
   ('Containers.lean', "  encP k := k.setWidth 32\n  encT k := (k.sshiftRight 32).setWidth 32\n  dec p t := some (p.setWidth 64 ||| (t.setWidth 64 <<< 32))\n",
    "  encT k := k.setWidth 32\n  encP k := (k.sshiftRight 32).setWidth 32\n  dec t p := some (p.setWidth 64 ||| (t.setWidth 64 <<< 32))\n"))
mu('copy-deep', 'wrun', 'an assignment copies the container', 'C32',
   ('PropsWorld.lean', "  | .copy x y :: p, env => wrun new exec p (assign env y (env x))\n",
    "  | .copy x y :: p, env => match env x with\n    | none => wrun new exec p (assign env y none)\n    | some (i, h) => new 0#64 >>= fun h' => wrun new exec p (assign env y (some (i, h')))\n"))
GSS = 'GoStringSet.lean'
mu('go-set-all-stop', 'Go.StringSet.stringSetScan', 'All goes on below a branch in which it was stopped', 'C79: the callback is called again after it has returned false',
   (GSS, "        let r ← stringSetScan do_ fuel u item\n        u := r.1\n        if !r.2 then\n          return (u, false)  -- 274\n", "        let r ← stringSetScan do_ fuel u item\n        u := r.1\n"))
mu('go-set-all-count', 'Go.StringSet.stringSetScan', 'All takes the number of entries from the pmap at each turn', 'C79: a callback that removes keys is called for other keys',
   (GSS, "      if !(decide (i < count)) then break\n      let bit : BitVec 32 := 1#32 <<< (BitVec.ofNat 8 (trailingZeros pmap))  -- 266\n",
    "      if !(decide (i < BitVec.ofNat 8 (popcount (← load l).pmap))) then break\n      let bit : BitVec 32 := 1#32 <<< (BitVec.ofNat 8 (trailingZeros pmap))  -- 266\n"))
_rad = "  let mut radix : BitVec 8 := (hd &&& 15#64).setWidth 8  -- 95\n"
_scan = "    for _ in budget fuel do\n      let _ ← load l\n"
mu('cost-scan', 'Go.StringMap.Ptr', 'Get, Val and Ptr read the link 300 times at each level', 'C85 (the answers are the same)',
   *[(f, "    if !(((← load l).pmap &&& bit) != 0#32) then break\n    let item : Ref := elem (← load l).ptr idx.toNat  -- 98\n", "    if !(((← load l).pmap &&& bit) != 0#32) then break\n" + _scan + "    let item : Ref := elem (← load l).ptr idx.toNat  -- 98\n") for f in (GS, PS)])
mu('cost-buffer', 'Go.StringMap.Ptr', 'Get, Val and Ptr allocate an array', 'C86, C81 (readers write)',
   *[(f, _rad, _rad + "  let _ ← newLinkArray 4#8\n") for f in (GS, PS)])
mu('cost-twice', 'Go.StringMap.Get', 'Get searches twice', 'C85 (the answers are the same)',
   *[(f, "  let ptr := (← Ptr sum fuel m key)  -- 72\n", "  let _ ← Ptr sum fuel m key\n  let ptr := (← Ptr sum fuel m key)  -- 72\n") for f in (GS, PS)])
mu('cost-realloc', 'Go.StringMap.Del', 'Del allocates an array for every branch that it collapses', 'C86, C69',
   *[(f, "      store l ((← load (elem (← load l).ptr 0)))  -- 382\n", "      let _ ← newLinkArray 1#8\n      store l ((← load (elem (← load l).ptr 0)))  -- 382\n") for f in (GS, PS)])
# C87, C89
_many = lambda n: " " * n + "for _ in budget fuel do\n" + " " * n + "  let _ ← load l\n"
mu('price-chain', 'Go.StringMap.Set', 'Set allocates a second array at each level of a chain of branches', 'C87 (the answers are the same)',
   *[(f, "      setPtr item (← newLinkArray 1#8)  -- 185\n", "      let _ ← newLinkArray 1#8\n      setPtr item (← newLinkArray 1#8)  -- 185\n") for f in (GS, PS)])
mu('price-shift', 'Go.StringMap.Set', 'Set reads the link again and again while it shifts slots', 'C87 (the answers are the same)',
   *[(f, "      store (elem (← load l).ptr ((after + 1).toNat)) ((← load (elem (← load l).ptr after.toNat)))  -- 192\n", _many(6) + "      store (elem (← load l).ptr ((after + 1).toNat)) ((← load (elem (← load l).ptr after.toNat)))  -- 192\n") for f in (GS, PS)])
mu('price-search', 'Go.StringMap.Set', 'Set reads the link again and again at each level of the search', 'C87 (the answers are the same)',
   *[(f, "      l := item  -- 131\n", _many(6) + "      l := item  -- 131\n") for f in (GS, PS)])
mu('price-mod', 'Go.StringMap.Mod', 'Mod searches twice', 'C87 (the answers are the same)',
   *[(f, "  let mut u := u₀\n  let mut hw : Hasher := {}  -- 222\n", "  let mut u := u₀\n  let _ ← Ptr sum fuel m key\n  let mut hw : Hasher := {}  -- 222\n") for f in (GS, PS)])
mu('price-all', 'Go.StringMap.stringScan', 'All reads the link again and again for each item', 'C89 (the answers are the same)',
   *[(f, "      let item : Ref := elem (← load l).ptr i.toNat  -- 411\n", _many(6) + "      let item : Ref := elem (← load l).ptr i.toNat  -- 411\n") for f in (GS, PS)])
mu('price-walk', 'Go.StringMap.stringScan', 'All looks at every branch once before it visits its keys', 'C89 (the answers are the same)',
   *[(f, "        let r ← stringScan do_ fuel u item\n", "        let _ ← stringScan (fun u _ _ => pure (u, true)) fuel u item\n        let r ← stringScan do_ fuel u item\n") for f in (GS, PS)])
PSS = 'ParStringSet.lean'
mu('hit-set', 'Go.StringMap.Set', 'Set of a stored key allocates a cell that it drops', 'C90, C91 (the answers are the same)',
   *[(f, "      storeVal ckv value  -- 146\n", "      let _ ← alloc (.kv (some key) value)\n      storeVal ckv value  -- 146\n") for f in (GS, PS)])
mu('hit-replace', 'Go.StringMap.Set', 'Set of a stored key puts a new cell in the place of the old one', 'C90, C91, C21: pointers from Ptr stay valid',
   *[(f, "      storeVal ckv value  -- 146\n", "      setPtr item (← alloc (.kv (some key) value))\n") for f in (GS, PS)])
mu('hit-add', 'Go.StringSet.Add', 'Add of an element that is there allocates', 'C90, C91 (the answers are the same)',
   *[(f, "    if goEq ckey key then  -- 105\n      return  -- 106\n", "    if goEq ckey key then  -- 105\n      let _ ← newLinkArray 1#8\n      return  -- 106\n") for f in (GSS, PSS)])
mu('hit-add-touch', 'Go.StringSet.Add', 'Add of an element that is there writes the tmap back as it was', 'C90: changes nothing is still true, as the word is the same',
   *[(f, "    if goEq ckey key then  -- 105\n      return  -- 106\n", "    if goEq ckey key then  -- 105\n      setTmap l (← load l).tmap\n      return  -- 106\n") for f in (GSS, PSS)])
mu('set-has-alloc', 'Go.StringSet.Has', 'Has allocates an array that it drops', 'C86, C81 and C83 for readers of sets',
   *[(f, "  let mut radix : BitVec 8 := (hd &&& 15#64).setWidth 8  -- 58\n", "  let mut radix : BitVec 8 := (hd &&& 15#64).setWidth 8  -- 58\n  let _ ← newLinkArray 1#8\n") for f in (GSS, PSS)])
mu('set-has-write', 'Go.StringSet.Has', 'Has writes the link of the root back as it has read it', 'C81 and C83 for readers of sets',
   *[(f, "  let mut radix : BitVec 8 := (hd &&& 15#64).setWidth 8  -- 58\n", "  let mut radix : BitVec 8 := (hd &&& 15#64).setWidth 8  -- 58\n  store l (← load l)\n") for f in (GSS, PSS)])
mu('all-buffer', 'Go.StringMap.stringScan', 'All allocates an array for each item', 'C91, C86: All allocates nothing',
   *[(f, "      let item : Ref := elem (← load l).ptr i.toNat  -- 411\n", "      let _ ← newLinkArray 1#8\n      let item : Ref := elem (← load l).ptr i.toNat  -- 411\n") for f in (GS, PS)])
mu('newroot-three', 'newRoot', 'a new container allocates one object more', 'C91: two objects',
   (E, "      next := s.next + 2\n", "      next := s.next + 3\n"))
mu('fix-generic', 'genericChashSet', 'Set repaired: iteration d/16 (with the refutations)', 'C18-C21, C36, C37, C42, C45 refutations for Map and Set',
   (C, ".ok (I.hash ckey s (d % 16) >>> (4 * (d % 16)), d / 16 + 1)", ".ok (I.hash ckey s (d / 16) >>> (4 * (d % 16)), d / 16 + 1)"))
mu('fix-arr', 'setInsArr', 'ArrMap.Set repaired: value stored on a collision (with the refutations)', 'C45 refutation for ArrMap',
   (C, "newSplit := do let p ← newKv c key default; pure (p, ())", "newSplit := do let p ← newKv c key v; pure (p, ())"))
mu('fix-int', 'split', 'IntMap repaired: tmap of an intermediate level reset (with the refutations)', 'C21, C23, C36 refutations for IntMap and IntSet',
   (M, "      let arr ← newLinkArray 1\n      modLink item fun x => { x with ptr := arr }", "      let arr ← newLinkArray 1\n      modLink item fun x => { x with ptr := arr, tmap := 0#32 }"))
KU = 'KeyUse.lean'
mu('keyuse-eight', 'searchQ', 'the key is hashed again every eight levels', 'C93: once for every sixteen levels',
   (KU, "        use (if (cur.d + 1) % 256 % 16 ≠ 0 then [] else [.hash key])\n", "        use (if (cur.d + 1) % 256 % 8 ≠ 0 then [] else [.hash key])\n"))
mu('keyuse-path', 'searchQ', 'the key is compared at every branch', 'C93: compared at most once',
   (KU, "        use (if (cur.d + 1) % 256 % 16 ≠ 0 then [] else [.hash key])\n", "        use (if (cur.d + 1) % 256 % 16 ≠ 0 then [.equal key key] else [.hash key])\n"))
mu('keyuse-del-twice', 'deleteQ', 'Del compares the key twice', 'C93: compared at most once',
   (KU, "    use [.equal key k]\n    if skip (c.eq key k)", "    use [.equal key k, .equal key k]\n    if skip (c.eq key k)"))
mu('keyuse-late', 'lookupQ', 'Get hashes the stored key before it compares it', 'C93: Get hashes no key but its own',
   (KU, "    use [.equal key k]\n    if c.eq key k then pure (some", "    use [.hash k, .equal key k]\n    if c.eq key k then pure (some"))
mu('keyuse-split', 'splitQ', 'the key in the way is hashed at every level of the chain', 'C93: once for every sixteen levels',
   (KU, "    use (if d % 16 ≠ 0 then [] else [.hash key, .hash ckey])\n", "    use (if d % 16 ≠ 0 then [.hash ckey] else [.hash key, .hash ckey])\n"))
mu('keyuse-chain', 'byteHashing', 'the first digest of the key in the way takes one write more', 'C93: at most as often as a search hashes it',
   (KU, "  set _ ckey cw := List.replicate cw (.hash ckey)\n", "  set _ ckey cw := List.replicate (cw + 1) (.hash ckey)\n"))
mu('keyuse-set-own', 'genericHashing', 'Set of a generic map hashes its own key as Mod does', 'C93: Set does not hash its key once more',
   (KU, "  set _ ckey _ := [.hash ckey]\n", "  set key ckey _ := [.hash ckey, .hash key]\n"))
mu('keyuse-len', 'MapImpl.execQ', 'Ptr of a stored key compares it again when the value is read', 'C93',
   (KU, "  | .ptr k => do\n    let p ← I.PtrQ fuel m k\n", "  | .ptr k => do\n    let p ← I.PtrQ fuel m k\n    use [.equal k k]\n"))
mu('lost-set-right', 'genericChashSet', 'Set repaired: iteration d/16', 'C97: which key Set and Add lose',
   (C, ".ok (I.hash ckey s (d % 16) >>> (4 * (d % 16)), d / 16 + 1)", ".ok (I.hash ckey s (d / 16) >>> (4 * (d % 16)), d / 16 + 1)"))
mu('lost-mod-right', 'genericChashMod', 'Mod hashes the key in the way, with the wrong iteration, as Set does', 'C97: Mod loses the only key with the same first nibble',
   (C, ".ok (I.hash key s (d % 16) >>> (4 * (d % 16)), d / 16 + 1)", ".ok (I.hash _ckey s (d % 16) >>> (4 * (d % 16)), d / 16 + 1)"))
mu('undo-once', 'collapse', 'only one level is collapsed', 'C98: the key that was pushed down is back in its place',
   (M, "      collapse h d (pathClear path d) l' (popcount lk'.pmap)\n    else pure ()", "      pure ()\n    else pure ()"))
mu('undo-none', 'unlink', 'Del does not collapse single-key branches', 'C98: the key that was pushed down is back in its place',
   (M, "      shiftBack (d + 1) l idx count\n      collapse h (d + 1) path l count", "      shiftBack (d + 1) l idx count"))
mu('large-bit', 'intCfg', 'the lowest bit of the upper half of a stored integer is set', 'C99: keys in [0, 2^32) share more than two nibbles without harm',
   (C, "encT k := (k.sshiftRight 32).setWidth 32", "encT k := (k.sshiftRight 32).setWidth 32 ||| 1#32"))
mu('large-byte', 'intbytes', 'the highest byte is packed twice, the one below it is lost', 'C99: a random function separates the keys',
   (C, "intbyte k 40, intbyte k 48,", "intbyte k 40, intbyte k 56,"))
