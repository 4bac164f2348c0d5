{
 "claims": [
  {
   "property": "C01",
   "status": "proved",
   "theorems": [
    "Amt.C01_StringMap"
   ],
   "note": "every history that inserts only keys differing from each stored key within 256 nibbles and whose conflict depth is below 240 (implied by separation within 241 nibbles); anything else makes the insertion hang, see C25_map_total"
  },
  {
   "property": "C02",
   "status": "proved",
   "theorems": [
    "Amt.C02_BytesMap"
   ],
   "note": "as C01"
  },
  {
   "property": "C03",
   "status": "partial",
   "theorems": [
    "Amt.C03_ArrMap_exact",
    "Amt.C03_ArrMap_partial",
    "Amt.C03_ArrMap_refuted",
    "Amt.Go.C03_code_refuted"
   ],
   "note": "false as stated: Set of a new colliding key stores the zero value (arr_map.go:170); exact behaviour proved and counterexample given"
  },
  {
   "property": "C04",
   "status": "partial",
   "theorems": [
    "Amt.C04_IntMap_partial",
    "Amt.C04_IntMap_refuted",
    "Amt.Go.C04_code_refuted"
   ],
   "note": "false as stated; proved for all int64 keys such that no shared nibble selects a set bit in the upper half of the older key (in particular keys in [0,2^32))"
  },
  {
   "property": "C05",
   "status": "partial",
   "theorems": [
    "Amt.C05_Map_partial",
    "Amt.C05_Map_refuted_set",
    "Amt.C05_Map_refuted_mod",
    "Amt.Go.C05_code_refuted_set",
    "Amt.Go.C05_code_refuted_mod"
   ],
   "note": "false as stated; proved for every history in which the wrong rehash of the displaced key happens to agree with the right one; what holds on the other histories: C48-C53"
  },
  {
   "property": "C06",
   "status": "proved",
   "theorems": [
    "Amt.C06_StringSet"
   ],
   "note": ""
  },
  {
   "property": "C07",
   "status": "proved",
   "theorems": [
    "Amt.C07_ArrSet"
   ],
   "note": ""
  },
  {
   "property": "C08",
   "status": "partial",
   "theorems": [
    "Amt.C08_BytesSet_exact",
    "Amt.C08_BytesSet_partial",
    "Amt.C08_BytesSet_refuted",
    "Amt.C08_BytesSet_refuted_other",
    "Amt.Go.C08_code_refuted"
   ],
   "note": "false as stated: Del has an inverted test"
  },
  {
   "property": "C09",
   "status": "partial",
   "theorems": [
    "Amt.C09_IntSet_partial",
    "Amt.C09_IntSet_refuted",
    "Amt.Go.C09_code_refuted"
   ],
   "note": "as C04"
  },
  {
   "property": "C10",
   "status": "partial",
   "theorems": [
    "Amt.C10_Set_partial",
    "Amt.C10_Set_refuted",
    "Amt.Go.C10_code_refuted"
   ],
   "note": "as C05"
  },
  {
   "property": "C11",
   "status": "partial",
   "theorems": [
    "Amt.C11_read_your_writes",
    "Amt.C11_set",
    "Amt.C11_ArrMap_refuted",
    "Amt.C12_IntMap_refuted"
   ],
   "note": "for all five maps and five sets, within the histories covered by C01-C10; false as stated for ArrMap (collision path drops the value) and IntMap"
  },
  {
   "property": "C12",
   "status": "partial",
   "theorems": [
    "Amt.C12_updates_are_local",
    "Amt.C12_set",
    "Amt.C12_IntMap_refuted",
    "Amt.C12_Map_refuted",
    "Amt.C12_BytesSet_refuted"
   ],
   "note": "for all five maps and five sets, within the histories covered by C01-C10; false as stated for IntMap, Map and BytesSet"
  },
  {
   "property": "C13",
   "status": "partial",
   "theorems": [
    "Amt.C13_del",
    "Amt.C13_del_absent",
    "Amt.C13_set",
    "Amt.C13_set_absent",
    "Amt.C13_BytesSet_refuted",
    "Amt.C13_Map_refuted",
    "Amt.C13_Set_refuted"
   ],
   "note": "for all five maps and five sets, within the histories covered by C01-C10; false for BytesSet, and for the generic containers in general: a deleted key is found again with an older value"
  },
  {
   "property": "C14",
   "status": "partial",
   "theorems": [
    "Amt.C14_len",
    "Amt.C14_keys",
    "Amt.C14_set",
    "Amt.C14_has",
    "Amt.C16_IntSet_refuted",
    "Amt.C14_Map_refuted"
   ],
   "note": "for all five maps and five sets, within the histories covered by C01-C10; false as stated for IntSet and Map"
  },
  {
   "property": "C15",
   "status": "partial",
   "theorems": [
    "Amt.C15_dep",
    "Amt.C15_set",
    "Amt.C19_IntMap_refuted",
    "Amt.C19_Map_refuted",
    "Amt.C19_Set_refuted"
   ],
   "note": "for all five maps and five sets, within the histories covered by C01-C10; false for integer keys outside; integer containers only for keys in [0,2^32); false for the generic containers in general"
  },
  {
   "property": "C16",
   "status": "partial",
   "theorems": [
    "Amt.C16_all_visits_all",
    "Amt.C16_set",
    "Amt.C16_IntSet_refuted",
    "Amt.C16_Map_refuted_twice"
   ],
   "note": "for all five maps and five sets, within the histories covered by C01-C10; false as stated for IntSet and Map"
  },
  {
   "property": "C17",
   "status": "proved",
   "theorems": [
    "Amt.C17_any",
    "Amt.C17_anyS",
    "Amt.C17_all_stops",
    "Amt.C17_set"
   ],
   "note": "every memory state (C17_any, C17_anyS)"
  },
  {
   "property": "C18",
   "status": "partial",
   "theorems": [
    "Amt.C18_all_order",
    "Amt.C18_set",
    "Amt.C18_Map_refuted",
    "Amt.C18_Set_refuted"
   ],
   "note": "for all five maps and five sets, within the histories covered by C01-C10; false for the generic containers in general"
  },
  {
   "property": "C19",
   "status": "partial",
   "theorems": [
    "Amt.C19_dep_canonical",
    "Amt.C19_set_del",
    "Amt.C19_set",
    "Amt.C27_map_shape",
    "Amt.C27_set_shape",
    "Amt.C19_IntMap_refuted",
    "Amt.C19_IntSet_refuted",
    "Amt.C19_Map_refuted",
    "Amt.C19_Set_refuted"
   ],
   "note": "for all five maps and five sets, within the histories covered by C01-C10; integer containers only for keys in [0,2^32); false for the generic containers in general"
  },
  {
   "property": "C20",
   "status": "partial",
   "theorems": [
    "Amt.C20_all_updates",
    "Amt.C58_values",
    "Amt.C20_Map_refuted"
   ],
   "note": "for all five maps and five sets, within the histories covered by C01-C10; for maps that keep keys with values, every memory state, up to which of several visits of the same key (C58_values); false for Map in general"
  },
  {
   "property": "C21",
   "status": "partial",
   "theorems": [
    "Amt.C21_ptr_stable",
    "Amt.C21_Map_refuted",
    "Amt.C21_IntMap_refuted"
   ],
   "note": "for all five maps and five sets, within the histories covered by C01-C10; false for Map and IntMap in general"
  },
  {
   "property": "C22",
   "status": "partial",
   "theorems": [
    "Amt.C22_write_through",
    "Amt.C55_stored",
    "Amt.C55_local",
    "Amt.C22_IntMap",
    "Amt.C22_IntMap_refuted"
   ],
   "note": "every memory state for all maps but IntMap (C55_stored, C55_local); IntMap: every history that returns, with any keys and any hash function, if the write is one to a value (C22_IntMap); false as stated for IntMap, where Ptr of a key that has never been stored may return a pointer to a link array (C22_IntMap_refuted)"
  },
  {
   "property": "C23",
   "status": "partial",
   "theorems": [
    "Amt.C23_mod",
    "Amt.C55_stored",
    "Amt.C56_insert",
    "Amt.C23_IntMap_refuted",
    "Amt.C05_Map_refuted_mod"
   ],
   "note": "for all five maps and five sets, within the histories covered by C01-C10; the number and arguments of the calls in every memory state (C55_stored, C56_insert); false for Map and IntMap in general"
  },
  {
   "property": "C24",
   "status": "partial",
   "theorems": [
    "Amt.C24_map",
    "Amt.C24_map_any",
    "Amt.C24_set",
    "Amt.C24_set_any",
    "Amt.C24_Map_twice",
    "Amt.C24_Set_twice",
    "Amt.C24_IntMap_refuted",
    "Amt.C24_IntMap_refuted_get",
    "Amt.Go.C24_code_refuted",
    "Amt.C24_deep_refuted",
    "Amt.C24_deep_refuted_del",
    "Amt.C24_deep_refuted_delS",
    "Amt.Go.C24_code_refuted_del",
    "Amt.C60_IntSet",
    "Amt.C61_IntMap",
    "Amt.C61_confusion"
   ],
   "note": "for all covered histories, for all histories of the generic containers with keys as in C48, and for the byte-hashed containers for every history whatsoever up to its first key that is not covered; false as stated for IntMap (a link array is passed to the callback of All, or returned by Get of a key that has never been stored, as a value) and for keys agreeing on 256 nibbles and differing later (a slot is written outside its array, or an array of links is read as a key-value cell after Del); an IntSet has no memory fault (C60_IntSet), and an IntMap only this one (C61_IntMap, C61_confusion)"
  },
  {
   "property": "C25",
   "status": "proved",
   "theorems": [
    "Amt.C25_map",
    "Amt.C25_map_total",
    "Amt.C25_set",
    "Amt.C25_set_total",
    "Amt.C25_Map_twice",
    "Amt.C25_Set_twice",
    "Amt.C60_IntSet",
    "Amt.C61_IntMap"
   ],
   "note": "fuel 256 suffices for every loop of every covered history; C25_map_total adds that a byte-hashed container either follows the specification or hangs at the first uncovered insertion; the integer containers hang only at the insertion of a key that collides at a depth of 240 or more, on every history as in C60 and C61"
  },
  {
   "property": "C26",
   "status": "partial",
   "theorems": [
    "Amt.C26_map",
    "Amt.C26_IntMap",
    "Amt.C26_Map",
    "Amt.C26_set",
    "Amt.C26_IntSet",
    "Amt.C26_Set",
    "Amt.C26_Map_refuted",
    "Amt.C26_Set_refuted"
   ],
   "note": "generic containers: provided the displaced key is rehashed correctly; false for them in general: the insertion returns and the older key is lost"
  },
  {
   "property": "C27",
   "status": "partial",
   "theorems": [
    "Amt.C27_map",
    "Amt.C27_set",
    "Amt.C27_map_shape",
    "Amt.C27_set_shape",
    "Amt.C27_Map_twice",
    "Amt.C27_Set_twice",
    "Amt.C27_IntMap",
    "Amt.C27_IntSet",
    "Amt.C27_deep_refuted"
   ],
   "note": "false as stated for keys that agree on 256 nibbles and differ later (C27_deep_refuted: a branch without entries keeps four slots); for all five maps and five sets, within the histories covered by C01-C10; generic containers: every history as in C48; integer containers: every history that returns, whatever the keys, provided that different keys have different digests for iteration 15; C27_map_shape and C27_set_shape add that the stored keys alone determine the branches and their bitmaps (integer containers: keys in [0,2^32))"
  },
  {
   "property": "C28",
   "status": "proved",
   "theorems": [
    "Amt.C28_packing",
    "Amt.C28_intbytes",
    "Amt.C28_injective"
   ],
   "note": ""
  },
  {
   "property": "C29",
   "status": "partial",
   "theorems": [
    "Amt.C29_Bytes",
    "Amt.C29_Int",
    "Amt.C29_HashBytes_exact",
    "Amt.C29_HashBytes_partial",
    "Amt.C29_HashBytes_refuted",
    "Amt.C29_stream"
   ],
   "note": "false as stated for HashBytes (iter is compared as a byte) and for the largest uint, where the loops do not end; exact behaviour proved for all iteration counts"
  },
  {
   "property": "C30",
   "status": "proved",
   "theorems": [
    "Amt.C30_map",
    "Amt.C30_set",
    "Amt.C30_map_returns",
    "Amt.C30_set_returns"
   ],
   "note": "every memory state, no hypothesis"
  },
  {
   "property": "C31",
   "status": "proved",
   "theorems": [
    "Amt.C31_map",
    "Amt.C31_set",
    "Amt.C31_new",
    "Amt.C31_new_set"
   ],
   "note": ""
  },
  {
   "property": "C32",
   "status": "proved",
   "theorems": [
    "Amt.C32_copies",
    "Amt.C32_map"
   ],
   "note": "C32_copies for every program, with no condition; C32_map adds what is returned, for all five maps and five sets, within the histories covered by C01-C10"
  },
  {
   "property": "C33",
   "status": "proved",
   "theorems": [
    "Amt.C33_mixed",
    "Amt.C33_map_any",
    "Amt.C33_set_any",
    "Amt.C33_map",
    "Amt.C33_map_alone",
    "Amt.C33_set",
    "Amt.C33_set_alone"
   ],
   "note": "every program with any number of containers of any kinds and types in one memory, with copies, no condition on the histories (faults and hangs included); C33_map and C33_set add that there are no faults and what is returned, on covered histories"
  },
  {
   "property": "C34",
   "status": "partial",
   "theorems": [
    "Amt.C34_set_twice",
    "Amt.C34_del_twice",
    "Amt.C34_add_twice",
    "Amt.C34_add_present",
    "Amt.C34_del_twice_set",
    "Amt.C34_ArrMap_refuted",
    "Amt.C34_BytesSet_refuted"
   ],
   "note": "for all five maps and five sets, within the histories covered by C01-C10; the repeated call changes no word of memory; false as stated for ArrMap.Set of a new colliding key and BytesSet.Del"
  },
  {
   "property": "C35",
   "status": "partial",
   "theorems": [
    "Amt.C35_map",
    "Amt.C35_set",
    "Amt.C35_ArrMap_refuted",
    "Amt.C35_BytesSet_refuted"
   ],
   "note": "for all five maps and five sets, within the histories covered by C01-C10 (Dep excluded for integer keys outside [0,2^32)); false as stated for ArrMap.Set of new keys and BytesSet.Del"
  },
  {
   "property": "C36",
   "status": "partial",
   "theorems": [
    "Amt.C36_map",
    "Amt.C36_set",
    "Amt.C36_BytesSet_refuted",
    "Amt.C36_Map_refuted",
    "Amt.C36_IntSet_refuted"
   ],
   "note": "for all five maps and five sets, within the histories covered by C01-C10; false for BytesSet; false for Map and IntSet in general"
  },
  {
   "property": "C37",
   "status": "partial",
   "theorems": [
    "Amt.C37_map",
    "Amt.C37_set",
    "Amt.levels_stored",
    "Amt.levels_le",
    "Amt.C37_Map_refuted"
   ],
   "note": "for all five maps and five sets, within the histories covered by C01-C10; exact number of rounds of the search loop (integer containers: keys in [0,2^32)); false for Map in general"
  },
  {
   "property": "C38",
   "status": "partial",
   "theorems": [
    "Amt.C38_BytesMap_partial",
    "Amt.C38_deep"
   ],
   "note": "after every covered history and any number of modified keys, Set and Mod; at a slot depth of 240 or more Set hangs instead (C38_deep), so the claim is false there"
  },
  {
   "property": "C39",
   "status": "proved",
   "theorems": [
    "Amt.C39_map",
    "Amt.C39_set"
   ],
   "note": ""
  },
  {
   "property": "C40",
   "status": "proved",
   "theorems": [
    "Amt.C56_missing",
    "Amt.C40_missing",
    "Amt.C40_set"
   ],
   "note": "every memory state (C56_missing)"
  },
  {
   "property": "C41",
   "status": "not_applicable",
   "theorems": [],
   "note": "a fact about the type checker: Int has no Equal method, so Map[Int,V] does not compile"
  },
  {
   "property": "C42",
   "status": "partial",
   "theorems": [
    "Amt.C42_map",
    "Amt.C42_set",
    "Amt.C42_Map_refuted"
   ],
   "note": "for all five maps and five sets, within the histories covered by C01-C10 (Dep excluded for integer keys outside [0,2^32)); false for Map in general"
  },
  {
   "property": "C43",
   "status": "partial",
   "theorems": [
    "Amt.C43_map",
    "Amt.C43_set",
    "Amt.C16_Map_refuted_twice"
   ],
   "note": "for all five maps and five sets, within the histories covered by C01-C10; callbacks are arbitrary programs over the calls of the container, with state, nested iteration and early stop, such that no run of the specification adds or removes a key; false for Map in general, where All visits a key twice"
  },
  {
   "property": "C44",
   "status": "proved",
   "theorems": [
    "Amt.C44_always",
    "Amt.C44_mixed",
    "Amt.C67_mixed",
    "Amt.C44_any_map",
    "Amt.C44_any_set",
    "Amt.C44_map",
    "Amt.C44_set"
   ],
   "note": "C44_always: any number of maps and sets of any kinds and types, every state of them, every callback, nested iterations included, and also iterations that come to a fault or do not end; by C67_mixed the common memory makes no difference. C44_map, C44_set: what is visited and returned, on covered histories"
  },
  {
   "property": "C45",
   "status": "partial",
   "theorems": [
    "Amt.C45_copy",
    "Amt.C45_copy_bytes",
    "Amt.C45_union",
    "Amt.C45_union_bytes",
    "Amt.C45_ArrMap_refuted",
    "Amt.C45_Map_refuted"
   ],
   "note": "for all five maps and five sets, within the histories covered by C01-C10; sets: All and Add; the destination is not an ArrMap, whose Set loses values (C03); false for ArrMap and Map as destination in general"
  },
  {
   "property": "C46",
   "status": "partial",
   "theorems": [
    "Amt.C43_map",
    "Amt.C43_set",
    "Amt.C46_refuted_del",
    "Amt.C46_refuted_bounds",
    "Amt.C46_refuted_set"
   ],
   "note": "false as stated: deleting during All skips keys, visits keys twice or reads outside an array, adding visits keys twice and skips others; true if the callback adds and removes no key (C43)"
  },
  {
   "property": "C47",
   "status": "partial",
   "theorems": [
    "Amt.C47_present",
    "Amt.C47_refuted_collision",
    "Amt.C47_refuted_slot",
    "Amt.C47_refuted_unsafe"
   ],
   "note": "proved for a stored key, for every callback; false as stated for a new key: a Get in the callback dereferences nil, keys are lost, or a later Get reads a key-value cell as an array of links"
  },
  {
   "property": "C48",
   "status": "proved",
   "theorems": [
    "Amt.C48_Map"
   ],
   "note": "hypothesis TwiceApart: two different keys of the history have different digests for an iteration below m and for one from m to 15"
  },
  {
   "property": "C49",
   "status": "proved",
   "theorems": [
    "Amt.C49_Set"
   ],
   "note": "hypothesis TwiceApart: two different keys of the history have different digests for an iteration below m and for one from m to 15"
  },
  {
   "property": "C50",
   "status": "proved",
   "theorems": [
    "Amt.C50_Map_set",
    "Amt.C50_Map_mod",
    "Amt.C50_Set"
   ],
   "note": "hypothesis TwiceApart: two different keys of the history have different digests for an iteration below m and for one from m to 15"
  },
  {
   "property": "C51",
   "status": "proved",
   "theorems": [
    "Amt.C51_Map_set",
    "Amt.C51_Map_mod",
    "Amt.C51_Map_del",
    "Amt.C51_Set_add",
    "Amt.C51_Set_del"
   ],
   "note": "hypothesis TwiceApart: two different keys of the history have different digests for an iteration below m and for one from m to 15"
  },
  {
   "property": "C52",
   "status": "proved",
   "theorems": [
    "Amt.C52_Map",
    "Amt.C52_Set"
   ],
   "note": "hypothesis TwiceApart: two different keys of the history have different digests for an iteration below m and for one from m to 15"
  },
  {
   "property": "C53",
   "status": "proved",
   "theorems": [
    "Amt.C53_Map",
    "Amt.C53_Set"
   ],
   "note": "hypothesis TwiceApart: two different keys of the history have different digests for an iteration below m and for one from m to 15"
  },
  {
   "property": "C54",
   "status": "partial",
   "theorems": [
    "Amt.C54_intact_partial",
    "Amt.C54_refuted",
    "Amt.C54_refuted_string"
   ],
   "note": "proved for a stored key and for a new key that does not collide; false of a new key that collides with a stored one: that one is gone, and Get of it panics (integer-keyed maps: says it is absent)"
  },
  {
   "property": "C55",
   "status": "proved",
   "theorems": [
    "Amt.C55_stored",
    "Amt.C55_local",
    "Amt.C55_IntMap",
    "Amt.C55_del",
    "Amt.C55_set"
   ],
   "note": "every memory state, no hypothesis on the history; values of other keys for IntMap: every history that returns (C55_IntMap)"
  },
  {
   "property": "C56",
   "status": "proved",
   "theorems": [
    "Amt.C56_missing",
    "Amt.C56_insert",
    "Amt.C56_set"
   ],
   "note": "every memory state"
  },
  {
   "property": "C57",
   "status": "proved",
   "theorems": [
    "Amt.C57_faults",
    "Amt.C57_set"
   ],
   "note": "every memory state"
  },
  {
   "property": "C58",
   "status": "proved",
   "theorems": [
    "Amt.C58_visits",
    "Amt.C58_values",
    "Amt.C17_anyS"
   ],
   "note": "every memory state; values not for IntMap"
  },
  {
   "property": "C59",
   "status": "proved",
   "theorems": [
    "Amt.C59_len",
    "Amt.C59_lenS"
   ],
   "note": "every memory state and history"
  },
  {
   "property": "C60",
   "status": "proved",
   "theorems": [
    "Amt.C60_IntSet",
    "Amt.C60_keys",
    "Amt.Go.C60_code"
   ],
   "note": ""
  },
  {
   "property": "C61",
   "status": "proved",
   "theorems": [
    "Amt.C61_IntMap",
    "Amt.C61_keys",
    "Amt.C61_confusion",
    "Amt.Go.C61_code"
   ],
   "note": "the history ends with the first call that takes an array of links for a value"
  },
  {
   "property": "C62",
   "status": "proved",
   "theorems": [
    "Amt.C62_map",
    "Amt.C62_set"
   ],
   "note": ""
  },
  {
   "property": "C63",
   "status": "proved",
   "theorems": [
    "Amt.C63_lower",
    "Amt.C63_dep",
    "Amt.C63_search",
    "Amt.C63_random",
    "Amt.C63_set_lower",
    "Amt.C63_set_dep",
    "Amt.C63_set_search"
   ],
   "note": "on covered histories (hash functions under which the history is not covered count as zero in the average); integer keys in [0,2^32); averages not for BytesSet"
  },
  {
   "property": "C64",
   "status": "proved",
   "theorems": [
    "Amt.C64_map",
    "Amt.C64_set"
   ],
   "note": "every memory state and history"
  },
  {
   "property": "C65",
   "status": "partial",
   "theorems": [
    "Amt.C65_map",
    "Amt.C65_map_history",
    "Amt.C65_set",
    "Amt.C65_set_history",
    "Amt.deleteS_left",
    "Amt.C65_refuted",
    "Amt.C65_refuted_deep"
   ],
   "note": "false as stated: for a missing key that shares its first nibble with a stored one, and for a key below more than twelve branches; proved that these are the only cases (not for BytesSet)"
  },
  {
   "property": "C66",
   "status": "partial",
   "theorems": [
    "Amt.C66_map_partial",
    "Amt.C66_set_partial",
    "Amt.C66_refuted",
    "Amt.C66_refuted_path"
   ],
   "note": "false as stated: the slot behind the last link is not cleared, and the scratch area keeps pointers; proved for the slots in use, for all five maps and five sets, within the histories covered by C01-C10"
  },
  {
   "property": "C67",
   "status": "proved",
   "theorems": [
    "Amt.C67_mixed",
    "Amt.C67_map",
    "Amt.C67_set"
   ],
   "note": "every program, no condition on the histories; faults and hangs included"
  },
  {
   "property": "C68",
   "status": "proved",
   "theorems": [
    "Amt.C68_near",
    "Amt.C68_near_set",
    "Amt.C68_map",
    "Amt.C68_set",
    "Amt.round64_spec"
   ],
   "note": "the bound for every memory state; the exact rounding for all five maps and five sets, within the histories covered by C01-C10 (integer keys in [0,2^32))"
  },
  {
   "property": "C69",
   "status": "proved",
   "theorems": [
    "Amt.Go.C69_map",
    "Amt.Go.C69_set",
    "Amt.Go.C69_map_ok",
    "Amt.Go.C69_map_loops",
    "Amt.Go.C69_set_ok",
    "Amt.Go.C69_set_loops",
    "Amt.Go.C69_StringMap",
    "Amt.Go.C69_BytesMap",
    "Amt.Go.C69_ArrMap",
    "Amt.Go.C69_IntMap",
    "Amt.Go.C69_Map",
    "Amt.Go.C69_StringSet",
    "Amt.Go.C69_BytesSet",
    "Amt.Go.C69_ArrSet",
    "Amt.Go.C69_IntSet",
    "Amt.Go.C69_Set"
   ],
   "note": "every history, no hypothesis on keys or hash functions, for all ten containers; the other theorems restate C01-C10 for the translated files"
  },
  {
   "property": "C70",
   "status": "proved",
   "theorems": [
    "Amt.C70_map",
    "Amt.C70_StringMap",
    "Amt.C70_BytesMap",
    "Amt.C70_ArrMap",
    "Amt.C70_IntMap",
    "Amt.C70_Map"
   ],
   "note": "every history, no hypothesis on keys or hash functions"
  },
  {
   "property": "C71",
   "status": "proved",
   "theorems": [
    "Amt.C71_Map",
    "Amt.C71_Set",
    "Amt.C71_ArrMap",
    "Amt.C71_ArrSet"
   ],
   "note": "every history, no hypothesis on hash functions"
  },
  {
   "property": "C72",
   "status": "partial",
   "theorems": [
    "Amt.C72_ArrMap",
    "Amt.C72_ArrSet",
    "Amt.C72_Map_partial",
    "Amt.C72_Set_partial",
    "Amt.C72_reads_map",
    "Amt.C72_reads_set",
    "Amt.C72_Map_refuted",
    "Amt.C72_Set_refuted"
   ],
   "note": "array keys: in full. Generic keys: Hash panics for a key in every iteration or in none; Get, Val, Ptr, Has and Del without condition. False as stated: a Hash that panics only in a later iteration, in the middle of a split, loses the displaced key (refuted)"
  },
  {
   "property": "C73",
   "status": "proved",
   "theorems": [
    "Amt.C73_map",
    "Amt.C73_set"
   ],
   "note": "every history that returns, no condition on keys and hash functions"
  },
  {
   "property": "C74",
   "status": "proved",
   "theorems": [
    "Amt.C74_map",
    "Amt.C74_set"
   ],
   "note": "every history that returns, no condition on keys and hash functions"
  },
  {
   "property": "C75",
   "status": "proved",
   "theorems": [
    "Amt.C75_map",
    "Amt.C75_set",
    "Amt.C75_average",
    "Amt.C75_set_average",
    "Amt.C75_random"
   ],
   "note": "on covered histories (hash functions under which the history is not covered count as zero in the average); integer keys in [0,2^32); averages not for BytesSet; counts the link arrays, not the cells of keys and values"
  },
  {
   "property": "C76",
   "status": "proved",
   "theorems": [
    "Amt.exists_classes",
    "Amt.C76_Map",
    "Amt.C76_Set",
    "Amt.C76_Map_every",
    "Amt.C76_Set_every",
    "Amt.C76_code"
   ],
   "note": "on the histories of C05 and C10, and of C48 and C49, with classes in place of the keys; callbacks of All treat equal keys alike"
  },
  {
   "property": "C77",
   "status": "proved",
   "theorems": [
    "Amt.C77_Map",
    "Amt.C77_Set",
    "Amt.C77_Map_hangs",
    "Amt.C77_Set_hangs",
    "Amt.C77_hangs"
   ],
   "note": "first part for every memory state; second part on histories that are covered (C05, C10) for the other keys, and with one key that is not equal to itself"
  },
  {
   "property": "C78",
   "status": "proved",
   "theorems": [
    "Amt.C78_StringMap",
    "Amt.C78_StringSet",
    "Amt.C78_IntMap",
    "Amt.C78_IntSet",
    "Amt.C78_Generic_map",
    "Amt.C78_Generic_set",
    "Amt.C78_Nested",
    "Amt.C78_Modify",
    "Amt.C78_Canonical",
    "Amt.C78_BytesSet_fails",
    "Amt.C78_ArrMap_fails",
    "Amt.C78_BytesMap",
    "Amt.C78_ArrSet"
   ],
   "note": "the tests as programs over the model; t.Fatal is the result false; that the keys are told apart within 241 nibbles is assumed, which the random seeds make overwhelmingly likely, not certain"
  },
  {
   "property": "C79",
   "status": "proved",
   "theorems": [
    "Amt.Go.C79_map_All",
    "Amt.Go.C79_set_All",
    "Amt.Go.C79_map_Mod"
   ],
   "note": "call by call; for Mod the callback is asked to keep the memory free of arrays reached from themselves, which the translated calls do; the address of the value is taken with Go's check for nil"
  },
  {
   "property": "C80",
   "status": "partial",
   "theorems": [
    "Amt.Go.C80_map",
    "Amt.Go.C80_set",
    "Amt.Go.C80_map_ends",
    "Amt.Go.C80_map_loops",
    "Amt.Go.C80_map_stable",
    "Amt.Go.C80_set_ends",
    "Amt.Go.C80_map_apart",
    "Amt.Go.C80_map_plain",
    "Amt.Go.C80_map_plain_ends",
    "Amt.Go.C46_code_refuted",
    "Amt.Go.C47_code_refuted_slot",
    "Amt.Go.C47_code_refuted_collision",
    "Amt.Go.C47_code_refuted_unsafe"
   ],
   "note": "programs with maps or with sets in one memory, not both; IntMap only in programs whose callbacks of Mod are functions of the value (C80_map_plain; callbacks of All are programs), with Go's check for nil in the common algorithm; otherwise no condition on keys, hash functions and callbacks"
  },
  {
   "property": "C81",
   "status": "proved",
   "theorems": [
    "Amt.Par.C81_map",
    "Amt.Par.C81_set",
    "Amt.Par.C81_map_complete",
    "Amt.Par.C81_set_complete",
    "Amt.Par.C81_map_readers",
    "Amt.Par.C81_set_readers",
    "Amt.Par.C81_StringMap",
    "Amt.Par.C81_BytesMap",
    "Amt.Par.C81_ArrMap",
    "Amt.Par.C81_IntMap",
    "Amt.Par.C81_Map",
    "Amt.Par.C81_StringSet",
    "Amt.Par.C81_ArrSet",
    "Amt.Par.C81_BytesSet",
    "Amt.Par.C81_IntSet",
    "Amt.Par.C81_Set",
    "Amt.Par.C81_refuted_unlocked_reader",
    "Amt.Par.C81_refuted_unlocked_writers"
   ],
   "note": "over the translated methods as trees of accesses; sequentially consistent interleaving; the three words of a link are accessed one by one, a key, a value and a field of the root in one access; the lock is the rule when a call may begin. What a kept pointer is written through is a call of its own (write). Conversely every sequence of calls is an execution (C81_map_complete)"
  },
  {
   "property": "C82",
   "status": "proved",
   "theorems": [
    "Amt.Par.C82_map",
    "Amt.Par.C82_set",
    "Amt.Par.C82_map_model",
    "Amt.Par.C82_set_model",
    "Amt.Par.C82_map_calls",
    "Amt.Par.C82_set_calls",
    "Amt.Par.C82_StringMap",
    "Amt.Par.C82_BytesMap",
    "Amt.Par.C82_ArrMap",
    "Amt.Par.C82_IntMap",
    "Amt.Par.C82_Map",
    "Amt.Par.C82_StringSet",
    "Amt.Par.C82_BytesSet",
    "Amt.Par.C82_ArrSet",
    "Amt.Par.C82_IntSet",
    "Amt.Par.C82_Set",
    "Amt.Par.own"
   ],
   "note": "over the translated methods as trees of accesses, goroutines that are programs of C67/C80; the goroutines of one statement use one type of keys and one of values (the ten kinds mixed as far as these types permit), and all have results of one type"
  },
  {
   "property": "C83",
   "status": "proved",
   "theorems": [
    "Amt.Par.C83_map",
    "Amt.Par.C83_set",
    "Amt.Par.C83_readers",
    "Amt.Par.C83_readers_set",
    "Amt.Par.C83_own_map",
    "Amt.Par.C83_own_set",
    "Amt.Par.C83_own_no_race",
    "Amt.Par.C83_refuted_unlocked"
   ],
   "note": "a race is a reachable state in which two goroutines are about to access the same link, cell or root, one of them writing; root.path is not memory in this model (only Del uses it, with the lock)"
  },
  {
   "property": "C84",
   "status": "proved",
   "theorems": [
    "Amt.Par.C84_map",
    "Amt.Par.C84_set",
    "Amt.Par.C84_StringMap",
    "Amt.Par.C84_BytesMap",
    "Amt.Par.C84_ArrMap",
    "Amt.Par.C84_IntMap",
    "Amt.Par.C84_Map",
    "Amt.Par.C84_StringSet",
    "Amt.Par.C84_BytesSet",
    "Amt.Par.C84_ArrSet",
    "Amt.Par.C84_IntSet",
    "Amt.Par.C84_Set"
   ],
   "note": "a call that loops more than n times ends like a panic in this model, for every bound n from 256 on the same; C84_map and C84_set are for every such n and all keys, the theorems per container have the conditions of C81 on the keys. A goroutine whose call has panicked keeps its lock, so others may then wait for ever. The lock is the rule when a call may begin, not the code of sync.RWMutex; fairness is not needed, as nothing goes on for ever"
  },
  {
   "property": "C85",
   "status": "proved",
   "theorems": [
    "Amt.Par.C85_map",
    "Amt.Par.C85_set"
   ],
   "note": "over the translated methods as trees of accesses, for all five maps and five sets, within the histories covered by C01-C10 (integer keys in [0,2^32)); Set, Mod and Add are bounded in C87, All in C89; a call is counted as it runs alone"
  },
  {
   "property": "C86",
   "status": "proved",
   "theorems": [
    "Amt.Par.C86_map",
    "Amt.Par.C86_set"
   ],
   "note": "over the translated methods as trees of accesses; Set, Mod and Add are bounded in C87; keys and hashes of Go's library are not part of the memory"
  },
  {
   "property": "C87",
   "status": "proved",
   "theorems": [
    "Amt.Par.C87_map",
    "Amt.Par.C87_mod",
    "Amt.Par.C87_set"
   ],
   "note": "over the translated methods as trees of accesses, for all five maps and five sets, within the histories covered by C01-C10 (integer keys in [0,2^32)), for every key that is stored or that may follow the history; Mod with a function of the value and the flag (Go.*Map.Mod_costs bound it by the rounds of its loops for every program as the function)"
  },
  {
   "property": "C88",
   "status": "proved",
   "theorems": [
    "Amt.Par.C88_map",
    "Amt.Par.C88_set",
    "Amt.Par.C88_random"
   ],
   "note": "over the translated methods as trees of accesses; for all five maps and five sets, within the histories covered by C01-C10 (integer keys in [0,2^32)); functions with which the history is not covered count as zero; sets with the inverted Del are not included; that maphash is such a family is not claimed"
  },
  {
   "property": "C89",
   "status": "proved",
   "theorems": [
    "Amt.Par.C89_map",
    "Amt.Par.C89_set",
    "Amt.Par.C89_map_mean",
    "Amt.Par.C89_set_mean",
    "Amt.Par.C89_random"
   ],
   "note": "over the translated methods as trees of accesses; for all five maps and five sets, within the histories covered by C01-C10 (integer keys in [0,2^32)); callbacks that insert or delete keys of the container are not included; in the mean, functions with which the history is not covered count as zero, and sets with the inverted Del are not included"
  },
  {
   "property": "C90",
   "status": "proved",
   "theorems": [
    "Amt.Par.C90_map",
    "Amt.Par.C90_set",
    "Amt.Par.C90_map_after",
    "Amt.Par.C90_set_after"
   ],
   "note": "over the translated methods as trees of accesses, in every memory in which no array of links is reached from itself (Tidy); the histories are those covered by C01-C10"
  },
  {
   "property": "C91",
   "status": "proved",
   "theorems": [
    "Amt.Par.C91_map",
    "Amt.Par.C91_set",
    "Amt.Par.C91_map_mean",
    "Amt.Par.C91_set_mean"
   ],
   "note": "over the translated methods as trees of accesses; for all five maps and five sets, within the histories covered by C01-C10 (integer keys in [0,2^32)); what the garbage collector frees is not counted; in the mean, functions with which the history is not covered count as zero, and sets with the inverted Del are not included"
  },
  {
   "property": "C92",
   "status": "proved",
   "theorems": [
    "Amt.Par.C92_map",
    "Amt.Par.C92_set",
    "Amt.Par.C92_map_mean",
    "Amt.Par.C92_set_mean"
   ],
   "note": "over the translated methods as trees of accesses to memory; for all five maps and five sets, within the histories covered by C01-C10 (integer keys in [0,2^32)); an access is one read, write or allocation of a word or object; in the mean, functions with which the history is not covered count as zero, and sets with the inverted Del are not included"
  },
  {
   "property": "C93",
   "status": "proved",
   "theorems": [
    "Amt.C93_any_map",
    "Amt.C93_any_set",
    "Amt.C93_map",
    "Amt.C93_set"
   ],
   "note": "over the common algorithm of C69 with a log of hashes and comparisons (execQ_bare: the same otherwise); the log is kept if a call faults, but the first digest of the key in the way is logged when it is done; after histories: for all five maps and five sets, within the histories covered by C01-C10 (integer keys in [0,2^32)); one Write to a hash state or one call of Hash is one hash"
  },
  {
   "property": "C94",
   "status": "proved",
   "theorems": [
    "Amt.C94_StringMap",
    "Amt.C94_BytesMap",
    "Amt.C94_ArrMap",
    "Amt.C94_IntMap",
    "Amt.C94_StringSet",
    "Amt.C94_ArrSet",
    "Amt.C94_BytesSet",
    "Amt.C94_IntSet",
    "Amt.C94_random"
   ],
   "note": "ArrMap and BytesSet behave as in C03 and C08 (their exact behaviour, defects included); integer keys in [0,2^32); generic containers not included, as they hash again wrongly (C05, C10); that maphash is such a family is not claimed; hashes are counted over the common algorithm of C69, as in C93"
  },
  {
   "property": "C95",
   "status": "proved",
   "theorems": [
    "Amt.Par.C95_StringMap",
    "Amt.Par.C95_BytesMap",
    "Amt.Par.C95_ArrMap",
    "Amt.Par.C95_IntMap",
    "Amt.Par.C95_StringSet",
    "Amt.Par.C95_BytesSet",
    "Amt.Par.C95_ArrSet",
    "Amt.Par.C95_IntSet",
    "Amt.Par.C95_random"
   ],
   "note": "over the files as translated, as accesses to memory (C85, C92); integer keys in [0,2^32); generic containers not included, as they hash again wrongly (C05, C10); that maphash is such a family is not claimed; All with the callbacks of C92, with two accesses for each key"
  },
  {
   "property": "C96",
   "status": "proved",
   "theorems": [
    "Amt.C96_Map",
    "Amt.C96_Map_mod",
    "Amt.C96_Set",
    "Amt.C96_random",
    "Amt.C96_lost"
   ],
   "note": "upper bounds; that a container is wrong for a certain share at least is not claimed (C96_lost: one function); what holds on the other histories: C48-C53"
  },
  {
   "property": "C97",
   "status": "proved",
   "theorems": [
    "Amt.C97_Map_set",
    "Amt.C97_Map_mod",
    "Amt.C97_mod_first",
    "Amt.C97_Set",
    "Amt.C97_random"
   ],
   "note": "that the two keys part (Parts) is a hypothesis (keys that never part make the call hang, cf. C26); what a loss leads to in later calls: C48-C53"
  },
  {
   "property": "C98",
   "status": "proved",
   "theorems": [
    "Amt.C98_Map_set",
    "Amt.C98_Map_mod",
    "Amt.C98_Set"
   ],
   "note": "that the two keys part is a hypothesis, as in C97; for other containers and for keys that do not collide it follows from C01-C10"
  },
  {
   "property": "C99",
   "status": "proved",
   "theorems": [
    "Amt.C99_IntMap",
    "Amt.C99_IntMap_all",
    "Amt.C99_IntSet",
    "Amt.C99_IntSet_all",
    "Amt.C99_random",
    "Amt.C99_lost"
   ],
   "note": "upper bounds; that a container is wrong for a certain share at least is not claimed (C99_lost: one function); what holds on the other histories: C27; that maphash is such a family is not claimed"
  },
  {
   "property": "C100",
   "status": "proved",
   "theorems": [
    "Amt.C100_IntMap",
    "Amt.C100_IntSet",
    "Amt.C100_IntSet_after",
    "Amt.C100_random"
   ],
   "note": "containers with one key, and sets of small keys; other histories: C60, C61 (what may happen) and C99 (what share of the functions is right)"
  }
 ]
}