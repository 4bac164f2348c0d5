#!/usr/bin/env python3
"""Writes MANIFEST.json."""
import json, os
claims = []
def c(p, st, ths, note):
    claims.append({"property": p, "status": st, "theorems": ["Amt." + t for t in ths], "note": note})
c("C01", "proved", ["C01_StringMap"], "every history that inserts only keys differing from each stored key within 256 nibbles and whose conflict depth is below 240 (implied by separation within 241 nibbles); anything else makes the insertion hang, see C25_map_total")
c("C02", "proved", ["C02_BytesMap"], "as C01")
c("C03", "partial", ["C03_ArrMap_exact", "C03_ArrMap_partial", "C03_ArrMap_refuted", "Go.C03_code_refuted"], "false as stated: Set of a new colliding key stores the zero value (arr_map.go:170); exact behaviour proved and counterexample given")
c("C04", "partial", ["C04_IntMap_partial", "C04_IntMap_refuted", "Go.C04_code_refuted"], "false as stated; proved for all int64 keys such that no shared nibble selects a set bit in the upper half of the older key (in particular keys in [0,2^32))")
c("C05", "partial", ["C05_Map_partial", "C05_Map_refuted_set", "C05_Map_refuted_mod", "Go.C05_code_refuted_set", "Go.C05_code_refuted_mod"], "false as stated; proved for every history in which the wrong rehash of the displaced key happens to agree with the right one; what holds on the other histories: C48-C53")
c("C06", "proved", ["C06_StringSet"], "")
c("C07", "proved", ["C07_ArrSet"], "")
c("C08", "partial", ["C08_BytesSet_exact", "C08_BytesSet_partial", "C08_BytesSet_refuted", "C08_BytesSet_refuted_other", "Go.C08_code_refuted"], "false as stated: Del has an inverted test")
c("C09", "partial", ["C09_IntSet_partial", "C09_IntSet_refuted", "Go.C09_code_refuted"], "as C04")
c("C10", "partial", ["C10_Set_partial", "C10_Set_refuted", "Go.C10_code_refuted"], "as C05")
W = "for all five maps and five sets, within the histories covered by C01-C10"
c("C11", "partial", ["C11_read_your_writes", "C11_set", "C11_ArrMap_refuted", "C12_IntMap_refuted"], W + "; false as stated for ArrMap (collision path drops the value) and IntMap")
c("C12", "partial", ["C12_updates_are_local", "C12_set", "C12_IntMap_refuted", "C12_Map_refuted", "C12_BytesSet_refuted"], W + "; false as stated for IntMap, Map and BytesSet")
c("C13", "partial", ["C13_del", "C13_del_absent", "C13_set", "C13_set_absent", "C13_BytesSet_refuted", "C13_Map_refuted", "C13_Set_refuted"], W + "; false for BytesSet, and for the generic containers in general: a deleted key is found again with an older value")
c("C14", "partial", ["C14_len", "C14_keys", "C14_set", "C14_has", "C16_IntSet_refuted", "C14_Map_refuted"], W + "; false as stated for IntSet and Map")
c("C15", "partial", ["C15_dep", "C15_set", "C19_IntMap_refuted", "C19_Map_refuted", "C19_Set_refuted"], W + "; false for integer keys outside; integer containers only for keys in [0,2^32)" + "; false for the generic containers in general")
c("C16", "partial", ["C16_all_visits_all", "C16_set", "C16_IntSet_refuted", "C16_Map_refuted_twice"], W + "; false as stated for IntSet and Map")
c("C17", "proved", ["C17_any", "C17_anyS", "C17_all_stops", "C17_set"], "every memory state (C17_any, C17_anyS)")
c("C18", "partial", ["C18_all_order", "C18_set", "C18_Map_refuted", "C18_Set_refuted"], W + "; false for the generic containers in general")
c("C19", "partial", ["C19_dep_canonical", "C19_set_del", "C19_set", "C27_map_shape", "C27_set_shape", "C19_IntMap_refuted", "C19_IntSet_refuted", "C19_Map_refuted", "C19_Set_refuted"], W + "; integer containers only for keys in [0,2^32)" + "; false for the generic containers in general")
c("C20", "partial", ["C20_all_updates", "C58_values", "C20_Map_refuted"], W + "; for maps that keep keys with values, every memory state, up to which of several visits of the same key (C58_values)" + "; false for Map in general")
c("C21", "partial", ["C21_ptr_stable", "C21_Map_refuted", "C21_IntMap_refuted"], W + "; false for Map and IntMap in general")
c("C22", "partial", ["C22_write_through", "C55_stored", "C55_local", "C22_IntMap", "C22_IntMap_refuted"], "every memory state for all maps but IntMap (C55_stored, C55_local); IntMap: every history that returns, with any keys and any hash function, if the write is one to a value (C22_IntMap); false as stated for IntMap, where Ptr of a key that has never been stored may return a pointer to a link array (C22_IntMap_refuted)")
c("C23", "partial", ["C23_mod", "C55_stored", "C56_insert", "C23_IntMap_refuted", "C05_Map_refuted_mod"], W + "; the number and arguments of the calls in every memory state (C55_stored, C56_insert)" + "; false for Map and IntMap in general")
c("C24", "partial", ["C24_map", "C24_map_any", "C24_set", "C24_set_any", "C24_Map_twice", "C24_Set_twice", "C24_IntMap_refuted", "C24_IntMap_refuted_get", "Go.C24_code_refuted", "C24_deep_refuted", "C24_deep_refuted_del", "C24_deep_refuted_delS", "Go.C24_code_refuted_del", "C60_IntSet", "C61_IntMap", "C61_confusion"], "for all covered histories, for all histories of the generic containers with keys as in C48, and for the byte-hashed containers for every history whatsoever up to its first key that is not covered; false as stated for IntMap (a link array is passed to the callback of All, or returned by Get of a key that has never been stored, as a value) and for keys agreeing on 256 nibbles and differing later (a slot is written outside its array, or an array of links is read as a key-value cell after Del)" + "; an IntSet has no memory fault (C60_IntSet), and an IntMap only this one (C61_IntMap, C61_confusion)")
c("C25", "proved", ["C25_map", "C25_map_total", "C25_set", "C25_set_total", "C25_Map_twice", "C25_Set_twice", "C60_IntSet", "C61_IntMap"], "fuel 256 suffices for every loop of every covered history; C25_map_total adds that a byte-hashed container either follows the specification or hangs at the first uncovered insertion" + "; the integer containers hang only at the insertion of a key that collides at a depth of 240 or more, on every history as in C60 and C61")
c("C26", "partial", ["C26_map", "C26_IntMap", "C26_Map", "C26_set", "C26_IntSet", "C26_Set", "C26_Map_refuted", "C26_Set_refuted"], "generic containers: provided the displaced key is rehashed correctly; false for them in general: the insertion returns and the older key is lost")
c("C27", "partial", ["C27_map", "C27_set", "C27_map_shape", "C27_set_shape", "C27_Map_twice", "C27_Set_twice", "C27_IntMap", "C27_IntSet", "C27_deep_refuted"], "false as stated for keys that agree on 256 nibbles and differ later (C27_deep_refuted: a branch without entries keeps four slots); " + W + "; generic containers: every history as in C48; integer containers: every history that returns, whatever the keys, provided that different keys have different digests for iteration 15; C27_map_shape and C27_set_shape add that the stored keys alone determine the branches and their bitmaps (integer containers: keys in [0,2^32))")
c("C28", "proved", ["C28_packing", "C28_intbytes", "C28_injective"], "")
c("C29", "partial", ["C29_Bytes", "C29_Int", "C29_HashBytes_exact", "C29_HashBytes_partial", "C29_HashBytes_refuted", "C29_stream"], "false as stated for HashBytes (iter is compared as a byte) and for the largest uint, where the loops do not end; exact behaviour proved for all iteration counts")
c("C30", "proved", ["C30_map", "C30_set", "C30_map_returns", "C30_set_returns"], "every memory state, no hypothesis")
c("C31", "proved", ["C31_map", "C31_set", "C31_new", "C31_new_set"], "")
c("C32", "proved", ["C32_copies", "C32_map"], "C32_copies for every program, with no condition; C32_map adds what is returned, " + W)
c("C33", "proved", ["C33_mixed", "C33_map_any", "C33_set_any", "C33_map", "C33_map_alone", "C33_set", "C33_set_alone"], "every program with any number of containers of any kinds and types in one memory, with copies, no condition on the histories (faults and hangs included); C33_map and C33_set add that there are no faults and what is returned, on covered histories")
c("C34", "partial", ["C34_set_twice", "C34_del_twice", "C34_add_twice", "C34_add_present", "C34_del_twice_set", "C34_ArrMap_refuted", "C34_BytesSet_refuted"], W + "; the repeated call changes no word of memory; false as stated for ArrMap.Set of a new colliding key and BytesSet.Del")
c("C35", "partial", ["C35_map", "C35_set", "C35_ArrMap_refuted", "C35_BytesSet_refuted"], W + " (Dep excluded for integer keys outside [0,2^32)); false as stated for ArrMap.Set of new keys and BytesSet.Del")
c("C36", "partial", ["C36_map", "C36_set", "C36_BytesSet_refuted", "C36_Map_refuted", "C36_IntSet_refuted"], W + "; false for BytesSet" + "; false for Map and IntSet in general")
c("C37", "partial", ["C37_map", "C37_set", "levels_stored", "levels_le", "C37_Map_refuted"], W + "; exact number of rounds of the search loop (integer containers: keys in [0,2^32))" + "; false for Map in general")
c("C38", "partial", ["C38_BytesMap_partial", "C38_deep"], "after every covered history and any number of modified keys, Set and Mod; at a slot depth of 240 or more Set hangs instead (C38_deep), so the claim is false there")
c("C39", "proved", ["C39_map", "C39_set"], "")
c("C40", "proved", ["C56_missing", "C40_missing", "C40_set"], "every memory state (C56_missing)")
c("C41", "not_applicable", [], "a fact about the type checker: Int has no Equal method, so Map[Int,V] does not compile")
c("C42", "partial", ["C42_map", "C42_set", "C42_Map_refuted"], W + " (Dep excluded for integer keys outside [0,2^32))" + "; false for Map in general")
c("C43", "partial", ["C43_map", "C43_set", "C16_Map_refuted_twice"], W + "; callbacks are arbitrary programs over the calls of the container, with state, nested iteration and early stop, such that no run of the specification adds or removes a key" + "; false for Map in general, where All visits a key twice")
c("C44", "proved", ["C44_always", "C44_mixed", "C67_mixed", "C44_any_map", "C44_any_set", "C44_map", "C44_set"], "C44_always: any number of maps and sets of any kinds and types, every state of them, every callback, nested iterations included, and also iterations that come to a fault or do not end; by C67_mixed the common memory makes no difference. C44_map, C44_set: what is visited and returned, on covered histories")
c("C45", "partial", ["C45_copy", "C45_copy_bytes", "C45_union", "C45_union_bytes", "C45_ArrMap_refuted", "C45_Map_refuted"], W + "; sets: All and Add; the destination is not an ArrMap, whose Set loses values (C03)" + "; false for ArrMap and Map as destination in general")
c("C46", "partial", ["C43_map", "C43_set", "C46_refuted_del", "C46_refuted_bounds", "C46_refuted_set"], "false as stated: deleting during All skips keys, visits keys twice or reads outside an array, adding visits keys twice and skips others; true if the callback adds and removes no key (C43)")
c("C47", "partial", ["C47_present", "C47_refuted_collision", "C47_refuted_slot", "C47_refuted_unsafe"], "proved for a stored key, for every callback; false as stated for a new key: a Get in the callback dereferences nil, keys are lost, or a later Get reads a key-value cell as an array of links")
T = "hypothesis TwiceApart: two different keys of the history have different digests for an iteration below m and for one from m to 15"
c("C48", "proved", ["C48_Map"], T)
c("C49", "proved", ["C49_Set"], T)
c("C50", "proved", ["C50_Map_set", "C50_Map_mod", "C50_Set"], T)
c("C51", "proved", ["C51_Map_set", "C51_Map_mod", "C51_Map_del", "C51_Set_add", "C51_Set_del"], T)
c("C52", "proved", ["C52_Map", "C52_Set"], T)
c("C53", "proved", ["C53_Map", "C53_Set"], T)
c("C54", "partial", ["C54_intact_partial", "C54_refuted", "C54_refuted_string"], "proved for a stored key and for a new key that does not collide; false of a new key that collides with a stored one: that one is gone, and Get of it panics (integer-keyed maps: says it is absent)")
c("C55", "proved", ["C55_stored", "C55_local", "C55_IntMap", "C55_del", "C55_set"], "every memory state, no hypothesis on the history; values of other keys for IntMap: every history that returns (C55_IntMap)")
c("C56", "proved", ["C56_missing", "C56_insert", "C56_set"], "every memory state")
c("C57", "proved", ["C57_faults", "C57_set"], "every memory state")
c("C58", "proved", ["C58_visits", "C58_values", "C17_anyS"], "every memory state; values not for IntMap")
c("C59", "proved", ["C59_len", "C59_lenS"], "every memory state and history")
c("C60", "proved", ["C60_IntSet", "C60_keys", "Go.C60_code"], "")
c("C61", "proved", ["C61_IntMap", "C61_keys", "C61_confusion", "Go.C61_code"], "the history ends with the first call that takes an array of links for a value")
c("C62", "proved", ["C62_map", "C62_set"], "")
c("C63", "proved", ["C63_lower", "C63_dep", "C63_search", "C63_random", "C63_set_lower", "C63_set_dep", "C63_set_search"], "on covered histories (hash functions under which the history is not covered count as zero in the average); integer keys in [0,2^32); averages not for BytesSet")
c("C64", "proved", ["C64_map", "C64_set"], "every memory state and history")
c("C65", "partial", ["C65_map", "C65_map_history", "C65_set", "C65_set_history", "deleteS_left", "C65_refuted", "C65_refuted_deep"], "false as stated: for a missing key that shares its first nibble with a stored one, and for a key below more than twelve branches; proved that these are the only cases (not for BytesSet)")
c("C66", "partial", ["C66_map_partial", "C66_set_partial", "C66_refuted", "C66_refuted_path"], "false as stated: the slot behind the last link is not cleared, and the scratch area keeps pointers; proved for the slots in use, " + W)
c("C67", "proved", ["C67_mixed", "C67_map", "C67_set"], "every program, no condition on the histories; faults and hangs included")
c("C68", "proved", ["C68_near", "C68_near_set", "C68_map", "C68_set", "round64_spec"], "the bound for every memory state; the exact rounding " + W + " (integer keys in [0,2^32))")
c("C69", "proved", ["Go.C69_map", "Go.C69_set", "Go.C69_map_ok", "Go.C69_map_loops", "Go.C69_set_ok", "Go.C69_set_loops", "Go.C69_StringMap", "Go.C69_BytesMap", "Go.C69_ArrMap", "Go.C69_IntMap", "Go.C69_Map", "Go.C69_StringSet", "Go.C69_BytesSet", "Go.C69_ArrSet", "Go.C69_IntSet", "Go.C69_Set"], "every history, no hypothesis on keys or hash functions, for all ten containers; the other theorems restate C01-C10 for the translated files")
c("C70", "proved", ["C70_map", "C70_StringMap", "C70_BytesMap", "C70_ArrMap", "C70_IntMap", "C70_Map"], "every history, no hypothesis on keys or hash functions")
c("C71", "proved", ["C71_Map", "C71_Set", "C71_ArrMap", "C71_ArrSet"], "every history, no hypothesis on hash functions")
c("C72", "partial", ["C72_ArrMap", "C72_ArrSet", "C72_Map_partial", "C72_Set_partial", "C72_reads_map", "C72_reads_set", "C72_Map_refuted", "C72_Set_refuted"], "array keys: in full. Generic keys: Hash panics for a key in every iteration or in none; Get, Val, Ptr, Has and Del without condition. False as stated: a Hash that panics only in a later iteration, in the middle of a split, loses the displaced key (refuted)")
c("C73", "proved", ["C73_map", "C73_set"], "every history that returns, no condition on keys and hash functions")
c("C74", "proved", ["C74_map", "C74_set"], "every history that returns, no condition on keys and hash functions")
c("C75", "proved", ["C75_map", "C75_set", "C75_average", "C75_set_average", "C75_random"], "on covered histories (hash functions under which the history is not covered count as zero in the average); integer keys in [0,2^32); averages not for BytesSet; counts the link arrays, not the cells of keys and values")
c("C76", "proved", ["exists_classes", "C76_Map", "C76_Set", "C76_Map_every", "C76_Set_every", "C76_code"], "on the histories of C05 and C10, and of C48 and C49, with classes in place of the keys; callbacks of All treat equal keys alike")
c("C77", "proved", ["C77_Map", "C77_Set", "C77_Map_hangs", "C77_Set_hangs", "C77_hangs"], "first part for every memory state; second part on histories that are covered (C05, C10) for the other keys, and with one key that is not equal to itself")
c("C78", "proved", ["C78_StringMap", "C78_StringSet", "C78_IntMap", "C78_IntSet", "C78_Generic_map", "C78_Generic_set", "C78_Nested", "C78_Modify", "C78_Canonical", "C78_BytesSet_fails", "C78_ArrMap_fails", "C78_BytesMap", "C78_ArrSet"], "the tests as programs over the model; t.Fatal is the result false; that the keys are told apart within 241 nibbles is assumed, which the random seeds make overwhelmingly likely, not certain")
c("C79", "proved", ["Go.C79_map_All", "Go.C79_set_All", "Go.C79_map_Mod"], "call by call; for Mod the callback is asked to keep the memory free of arrays reached from themselves, which the translated calls do; the address of the value is taken with Go's check for nil")
c("C80", "partial", ["Go.C80_map", "Go.C80_set", "Go.C80_map_ends", "Go.C80_map_loops", "Go.C80_map_stable", "Go.C80_set_ends", "Go.C80_map_apart", "Go.C80_map_plain", "Go.C80_map_plain_ends", "Go.C46_code_refuted", "Go.C47_code_refuted_slot", "Go.C47_code_refuted_collision", "Go.C47_code_refuted_unsafe"], "programs with maps or with sets in one memory, not both; IntMap only in programs whose callbacks of Mod are functions of the value (C80_map_plain; callbacks of All are programs), with Go's check for nil in the common algorithm; otherwise no condition on keys, hash functions and callbacks")
c("C81", "proved", ["Par.C81_map", "Par.C81_set", "Par.C81_map_complete", "Par.C81_set_complete", "Par.C81_map_readers", "Par.C81_set_readers", "Par.C81_StringMap", "Par.C81_BytesMap", "Par.C81_ArrMap", "Par.C81_IntMap", "Par.C81_Map", "Par.C81_StringSet", "Par.C81_ArrSet", "Par.C81_BytesSet", "Par.C81_IntSet", "Par.C81_Set", "Par.C81_refuted_unlocked_reader", "Par.C81_refuted_unlocked_writers"], "over the translated methods as trees of accesses; sequentially consistent interleaving; the three words of a link are accessed one by one, a key, a value and a field of the root in one access; the lock is the rule when a call may begin. What a kept pointer is written through is a call of its own (write). Conversely every sequence of calls is an execution (C81_map_complete)")
c("C82", "proved", ["Par.C82_map", "Par.C82_set", "Par.C82_map_model", "Par.C82_set_model", "Par.C82_map_calls", "Par.C82_set_calls", "Par.C82_StringMap", "Par.C82_BytesMap", "Par.C82_ArrMap", "Par.C82_IntMap", "Par.C82_Map", "Par.C82_StringSet", "Par.C82_BytesSet", "Par.C82_ArrSet", "Par.C82_IntSet", "Par.C82_Set", "Par.own"], "over the translated methods as trees of accesses, goroutines that are programs of C67/C80; the goroutines of one statement use one type of keys and one of values (the ten kinds mixed as far as these types permit), and all have results of one type")
c("C83", "proved", ["Par.C83_map", "Par.C83_set", "Par.C83_readers", "Par.C83_readers_set", "Par.C83_own_map", "Par.C83_own_set", "Par.C83_own_no_race", "Par.C83_refuted_unlocked"], "a race is a reachable state in which two goroutines are about to access the same link, cell or root, one of them writing; root.path is not memory in this model (only Del uses it, with the lock)")
c("C84", "proved", ["Par.C84_map", "Par.C84_set", "Par.C84_StringMap", "Par.C84_BytesMap", "Par.C84_ArrMap", "Par.C84_IntMap", "Par.C84_Map", "Par.C84_StringSet", "Par.C84_BytesSet", "Par.C84_ArrSet", "Par.C84_IntSet", "Par.C84_Set"], "a call that loops more than n times ends like a panic in this model, for every bound n from 256 on the same; C84_map and C84_set are for every such n and all keys, the theorems per container have the conditions of C81 on the keys. A goroutine whose call has panicked keeps its lock, so others may then wait for ever. The lock is the rule when a call may begin, not the code of sync.RWMutex; fairness is not needed, as nothing goes on for ever")
c("C85", "proved", ["Par.C85_map", "Par.C85_set"], "over the translated methods as trees of accesses, " + W + " (integer keys in [0,2^32)); Set, Mod and Add are bounded in C87, All in C89; a call is counted as it runs alone")
c("C86", "proved", ["Par.C86_map", "Par.C86_set"], "over the translated methods as trees of accesses; Set, Mod and Add are bounded in C87; keys and hashes of Go's library are not part of the memory")
c("C87", "proved", ["Par.C87_map", "Par.C87_mod", "Par.C87_set"], "over the translated methods as trees of accesses, " + W + " (integer keys in [0,2^32)), for every key that is stored or that may follow the history; Mod with a function of the value and the flag (Go.*Map.Mod_costs bound it by the rounds of its loops for every program as the function)")
c("C88", "proved", ["Par.C88_map", "Par.C88_set", "Par.C88_random"], "over the translated methods as trees of accesses; " + W + " (integer keys in [0,2^32)); functions with which the history is not covered count as zero; sets with the inverted Del are not included; that maphash is such a family is not claimed")
c("C89", "proved", ["Par.C89_map", "Par.C89_set", "Par.C89_map_mean", "Par.C89_set_mean", "Par.C89_random"], "over the translated methods as trees of accesses; " + W + " (integer keys in [0,2^32)); callbacks that insert or delete keys of the container are not included; in the mean, functions with which the history is not covered count as zero, and sets with the inverted Del are not included")
c("C90", "proved", ["Par.C90_map", "Par.C90_set", "Par.C90_map_after", "Par.C90_set_after"], "over the translated methods as trees of accesses, in every memory in which no array of links is reached from itself (Tidy); the histories are those covered by C01-C10")
c("C91", "proved", ["Par.C91_map", "Par.C91_set", "Par.C91_map_mean", "Par.C91_set_mean"], "over the translated methods as trees of accesses; " + W + " (integer keys in [0,2^32)); what the garbage collector frees is not counted; in the mean, functions with which the history is not covered count as zero, and sets with the inverted Del are not included")
c("C92", "proved", ["Par.C92_map", "Par.C92_set", "Par.C92_map_mean", "Par.C92_set_mean"], "over the translated methods as trees of accesses to memory; " + W + " (integer keys in [0,2^32)); an access is one read, write or allocation of a word or object; in the mean, functions with which the history is not covered count as zero, and sets with the inverted Del are not included")
c("C93", "proved", ["C93_any_map", "C93_any_set", "C93_map", "C93_set"], "over the common algorithm of C69 with a log of hashes and comparisons (execQ_bare: the same otherwise); the log is kept if a call faults, but the first digest of the key in the way is logged when it is done; after histories: " + W + " (integer keys in [0,2^32)); one Write to a hash state or one call of Hash is one hash")
c("C94", "proved", ["C94_StringMap", "C94_BytesMap", "C94_ArrMap", "C94_IntMap", "C94_StringSet", "C94_ArrSet", "C94_BytesSet", "C94_IntSet", "C94_random"], "ArrMap and BytesSet behave as in C03 and C08 (their exact behaviour, defects included); integer keys in [0,2^32); generic containers not included, as they hash again wrongly (C05, C10); that maphash is such a family is not claimed; hashes are counted over the common algorithm of C69, as in C93")
c("C95", "proved", ["Par.C95_StringMap", "Par.C95_BytesMap", "Par.C95_ArrMap", "Par.C95_IntMap", "Par.C95_StringSet", "Par.C95_BytesSet", "Par.C95_ArrSet", "Par.C95_IntSet", "Par.C95_random"], "over the files as translated, as accesses to memory (C85, C92); integer keys in [0,2^32); generic containers not included, as they hash again wrongly (C05, C10); that maphash is such a family is not claimed; All with the callbacks of C92, with two accesses for each key")
c("C96", "proved", ["C96_Map", "C96_Map_mod", "C96_Set", "C96_random", "C96_lost"], "upper bounds; that a container is wrong for a certain share at least is not claimed (C96_lost: one function); what holds on the other histories: C48-C53")
c("C97", "proved", ["C97_Map_set", "C97_Map_mod", "C97_mod_first", "C97_Set", "C97_random"], "that the two keys part (Parts) is a hypothesis (keys that never part make the call hang, cf. C26); what a loss leads to in later calls: C48-C53")
c("C98", "proved", ["C98_Map_set", "C98_Map_mod", "C98_Set"], "that the two keys part is a hypothesis, as in C97; for other containers and for keys that do not collide it follows from C01-C10")
c("C99", "proved", ["C99_IntMap", "C99_IntMap_all", "C99_IntSet", "C99_IntSet_all", "C99_random", "C99_lost"], "upper bounds; that a container is wrong for a certain share at least is not claimed (C99_lost: one function); what holds on the other histories: C27; that maphash is such a family is not claimed")
c("C100", "proved", ["C100_IntMap", "C100_IntSet", "C100_IntSet_after", "C100_random"], "containers with one key, and sets of small keys; other histories: C60, C61 (what may happen) and C99 (what share of the functions is right)")
json.dump({"claims": claims}, open(os.path.join(os.path.dirname(__file__), "..", "MANIFEST.json"), "w"), indent=1)
