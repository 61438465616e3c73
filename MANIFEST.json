{
 "claims": [
  {
   "property": "C01",
   "status": "proved",
   "theorems": [
    "Frozen.C01_set_histories",
    "Frozen.C01_description_unique",
    "Frozen.C01_with_elements",
    "Frozen.C01_without_elements",
    "Frozen.C01_where_elements",
    "Frozen.C01_newSet_elements",
    "Frozen.C01_where_any"
   ],
   "note": "Program language over the Set API refined to predicates; representatives of With/Without/Where/NewSet too."
  },
  {
   "property": "C02",
   "status": "proved",
   "theorems": [
    "Frozen.C02_count",
    "Frozen.C02_card_unique"
   ],
   "note": "Count and IsEmpty on every reachable set."
  },
  {
   "property": "C03",
   "status": "partial",
   "theorems": [
    "Frozen.C03_union_partial",
    "Frozen.C03_union_panics",
    "Frozen.C03_union_total_refuted"
   ],
   "note": "Totality is false of the code (C03_union_total_refuted); C03_union_panics gives the exact panic condition, C03_union_partial the result otherwise."
  },
  {
   "property": "C04",
   "status": "proved",
   "theorems": [
    "Frozen.C04_intersection",
    "Frozen.C04_difference",
    "Frozen.C04_symmetricDifference"
   ],
   "note": "Intersection and Difference total and exact; SymmetricDifference exact whenever it returns, with the exact panic condition."
  },
  {
   "property": "C05",
   "status": "proved",
   "theorems": [
    "Frozen.C05_equal"
   ],
   "note": ""
  },
  {
   "property": "C06",
   "status": "proved",
   "theorems": [
    "Frozen.C06_isSubsetOf",
    "Frozen.C06_order"
   ],
   "note": ""
  },
  {
   "property": "C07",
   "status": "proved",
   "theorems": [
    "Frozen.C07_range"
   ],
   "note": ""
  },
  {
   "property": "C08",
   "status": "proved",
   "theorems": [
    "Frozen.C08_hash"
   ],
   "note": ""
  },
  {
   "property": "C09",
   "status": "proved",
   "theorems": [
    "Frozen.C09_builder",
    "Frozen.C09_trace_length"
   ],
   "note": "Full call traces of the builder."
  },
  {
   "property": "C10",
   "status": "partial",
   "theorems": [
    "Frozen.C10_comparisons_partial",
    "Frozen.C10_comparisons_write_nothing_partial",
    "Frozen.C10_persistence_partial",
    "Frozen.C10_persistence_few_collisions_partial",
    "Frozen.C10_other_calls_keep_sets_partial",
    "Frozen.C10_sharing_unobservable_partial",
    "Frozen.C10_persistence_fails",
    "Frozen.C10_persistence_fails_union"
   ],
   "note": "Full persistence is false of the code (C10_persistence_fails, C10_persistence_fails_union: appends into shared spare capacity). Proved over a memory model for every history that adds no element to a set with three others of the same 64-bit hash, and for every history when only With/Union/Merge/Update calls are excluded after the observation."
  },
  {
   "property": "C11",
   "status": "proved",
   "theorems": [
    "Frozen.C11_union",
    "Frozen.C11_intersection",
    "Frozen.C11_difference",
    "Frozen.C11_where",
    "Frozen.C11_equal",
    "Frozen.C11_isSubsetOf",
    "Frozen.C11_reduce",
    "Frozen.C11_merge",
    "Frozen.C11_update",
    "Frozen.C11_mapEqual"
   ],
   "note": "Goroutine machine for Gauge.Parallel with arbitrary schedules, nested calls, racy mask updates, buffered channel and early return; sequential consistency assumed. Callbacks (predicates, reducers, resolvers) are pure functions."
  },
  {
   "property": "C12",
   "status": "proved",
   "theorems": [
    "Frozen.C12_map_histories",
    "Frozen.C12_map_failures",
    "Frozen.C12_get_variants",
    "Frozen.C12_any",
    "Frozen.C12_range",
    "Frozen.C12_with_entries"
   ],
   "note": "Program language over the Map API refined to functions K -> Option V; also iteration, Any, MustGet/GetElse/GetElseFunc."
  },
  {
   "property": "C13",
   "status": "partial",
   "theorems": [
    "Frozen.C13_merge_partial",
    "Frozen.C13_update_partial",
    "Frozen.C13_panics",
    "Frozen.C13_total_refuted"
   ],
   "note": "'Both return normally for all maps' is false of the code (C13_total_refuted); C13_panics gives the exact panic condition, the _partial theorems the exact result otherwise, with the argument order and the key given to resolve."
  },
  {
   "property": "C14",
   "status": "proved",
   "theorems": [
    "Frozen.C14_equal",
    "Frozen.C14_hash"
   ],
   "note": ""
  },
  {
   "property": "C15",
   "status": "proved",
   "theorems": [
    "Frozen.C15_keys",
    "Frozen.C15_values",
    "Frozen.C15_project",
    "Frozen.C15_where",
    "Frozen.C15_mapMap",
    "Frozen.C15_newMapFromKeys"
   ],
   "note": "Stated on entries, so also for functions that tell Equal keys apart."
  },
  {
   "property": "C16",
   "status": "proved",
   "theorems": [
    "Frozen.C16_builder"
   ],
   "note": "Full call traces of the builder."
  },
  {
   "property": "C17",
   "status": "proved",
   "theorems": [
    "Frozen.C17_ordered",
    "Frozen.C17_orderedFirstN",
    "Frozen.C17_orderedFirstN_negative",
    "Frozen.C17_first",
    "Frozen.C17_firstN"
   ],
   "note": "For every reachable set and strict weak order; container/heap (Go standard library) is modelled function by function. OrderedFirstN panics for negative n."
  },
  {
   "property": "C18",
   "status": "proved",
   "theorems": [
    "Frozen.C18_reduce",
    "Frozen.C18_reduce2",
    "Frozen.C18_nonempty"
   ],
   "note": "Associativity gives the fold in iteration order; commutativity any order."
  },
  {
   "property": "C19",
   "status": "proved",
   "theorems": [
    "Frozen.C19_powerset",
    "Frozen.C19_powerset_too_large"
   ],
   "note": "Powerset of every reachable set with at most 63 elements: contains exactly the subsets, count 2^n; panics above 63."
  },
  {
   "property": "C20",
   "status": "proved",
   "theorems": [
    "Frozen.C20_groupBy",
    "Frozen.C20_groupBy_mem"
   ],
   "note": "SetGroupBy for every reachable set and key function: keys are exactly those of elements, groups hold exactly the elements (the same values) with that key."
  },
  {
   "property": "C21",
   "status": "partial",
   "theorems": [
    "Frozen.C21_actual",
    "Frozen.C21_actual_compare",
    "Frozen.C21_actual_ideal",
    "Frozen.C21_unsigned",
    "Frozen.C21_intset_partial",
    "Frozen.C21_compare_partial",
    "Frozen.C21_negative_lost",
    "Frozen.C21_negative_replaced"
   ],
   "note": "Full for unsigned types (C21_unsigned). For signed types false on negative integers that are not multiples of 64 (C21_negative_lost; what Elements delivers in their place is C21_negative_replaced); proved for all programs that insert none of those. C21_actual and C21_actual_compare have no hypothesis: they say exactly what every program over the API gets; C21_actual_ideal shows that this is the mathematical set if none of those integers is inserted."
  },
  {
   "property": "C22",
   "status": "partial",
   "theorems": [
    "Frozen.C22_bitIterator",
    "Frozen.C22_masker",
    "Frozen.C22_masker_ops",
    "Frozen.C22_has",
    "Frozen.C22_with",
    "Frozen.C22_without_refuted",
    "Frozen.C22_without_actual",
    "Frozen.C22_without_partial"
   ],
   "note": "Without is false of the code (C22_without_refuted); C22_without_actual says what it computes and C22_without_partial when that is right. Everything else is proved in full."
  },
  {
   "property": "C23",
   "status": "proved",
   "theorems": [
    "Frozen.C23_iota3",
    "Frozen.C23_iota3_zero",
    "Frozen.C23_iota2",
    "Frozen.C23_iota",
    "Frozen.C23_iota3_overflow_diverges",
    "Frozen.C23_mask64"
   ],
   "note": "Iota3/Iota2/Iota for every range that does not overflow, divergence on overflow, NewSetFromMask64."
  },
  {
   "property": "C24",
   "status": "proved",
   "theorems": [
    "Frozen.C24_any",
    "Frozen.C24_anyN"
   ],
   "note": ""
  },
  {
   "property": "C25",
   "status": "proved",
   "theorems": [
    "Frozen.C25_map_lookup_cost",
    "Frozen.C25_lookup_cost"
   ],
   "note": "Sets and maps."
  },
  {
   "property": "C26",
   "status": "proved",
   "theorems": [
    "Frozen.C26_map_no_panic",
    "Frozen.C26_map_panics_only",
    "Frozen.C26_no_panic",
    "Frozen.C26_union_panics_only",
    "Frozen.C26_programs"
   ],
   "note": "Sets and maps; builder calls are in C09 and C16."
  },
  {
   "property": "C27",
   "status": "proved",
   "theorems": [
    "Frozen.C27_setVal_methods",
    "Frozen.C27_sets_lawful",
    "Frozen.C27_sets_ext",
    "Frozen.C27_mapVal_methods",
    "Frozen.C27_maps_lawful",
    "Frozen.C27_maps_ext"
   ],
   "note": "Sets and maps as elements/keys: Equal and Hash never panic, Equal is an equivalence compatible with Hash for all seeds, at every nesting depth (the lawfulness instance is recursive)."
  },
  {
   "property": "C28",
   "status": "proved",
   "theorems": [
    "Frozen.C28_setMap",
    "Frozen.C28_setMap_image",
    "Frozen.C28_setAs",
    "Frozen.C28_asSetAny",
    "Frozen.C28_union",
    "Frozen.C28_union_panics",
    "Frozen.C28_intersection"
   ],
   "note": ""
  },
  {
   "property": "C29",
   "status": "proved",
   "theorems": [
    "Frozen.C29_goMap",
    "Frozen.C29_map",
    "Frozen.C29_needs_identity"
   ],
   "note": "Go maps as duplicate-free lists in any order; C29_needs_identity shows the hypothesis is needed."
  },
  {
   "property": "C30",
   "status": "partial",
   "theorems": [
    "Frozen.C30_join_partial",
    "Frozen.C30_join_all_partial",
    "Frozen.C30_join_panics",
    "Frozen.C30_join_empty_right",
    "Frozen.C30_join_refuted",
    "Frozen.C30_join_clash_refuted"
   ],
   "note": "The natural join unless the second relation is empty (then Join returns the first: C30_join_empty_right, C30_join_refuted) or the attributes have the collision pattern (panic: C30_join_panics). Also n-ary."
  },
  {
   "property": "C31",
   "status": "partial",
   "theorems": [
    "Frozen.C31_get",
    "Frozen.C31_tuple_ext",
    "Frozen.C31_new",
    "Frozen.C31_new_uniform",
    "Frozen.C31_new_mismatch",
    "Frozen.C31_project",
    "Frozen.C31_cartesianProduct_merge_partial",
    "Frozen.C31_cartesianProduct_partial",
    "Frozen.C31_cartesianProduct_panics"
   ],
   "note": "New and Project fully; CartesianProduct up to the collision pattern on which Map.Update panics (C31_cartesianProduct_panics)."
  },
  {
   "property": "C32",
   "status": "partial",
   "theorems": [
    "Frozen.C32_nest_all_partial",
    "Frozen.C32_nest_no_attributes",
    "Frozen.C32_nest",
    "Frozen.C32_unnest_partial",
    "Frozen.C32_unnest_other_values",
    "Frozen.C32_unnest_nest_partial"
   ],
   "note": "Nest under one new name is fully proved (C32_nest); Unnest and the round trip up to the collision pattern on which Map.Update panics."
  },
  {
   "property": "C33",
   "status": "partial",
   "theorems": [
    "Frozen.C33_iteration_partial",
    "Frozen.C33_freeze_partial",
    "Frozen.C33_iteration_refuted",
    "Frozen.C33_once_refuted"
   ],
   "note": "Proved after every history of calls in which right operands of Intersection/Difference contain no Difference. The full statement is false of the code: C33_iteration_refuted (nested Difference), C33_once_refuted (duplicates)."
  },
  {
   "property": "C34",
   "status": "partial",
   "theorems": [
    "Frozen.C34_has_partial",
    "Frozen.C34_fastHas_partial",
    "Frozen.C34_has_refuted",
    "Frozen.C34_fastHas_refuted"
   ],
   "note": "Proved for sets built without Difference (Has) or lazy Union/Difference (FastHas). The full statement is false of the code: C34_has_refuted, C34_fastHas_refuted."
  },
  {
   "property": "C35",
   "status": "partial",
   "theorems": [
    "Frozen.C35_isEmpty_partial",
    "Frozen.C35_count_partial",
    "Frozen.C35_countUpTo_partial",
    "Frozen.C35_fastCount_partial",
    "Frozen.C35_count_refuted",
    "Frozen.C35_powerset_isEmpty_refuted",
    "Frozen.C35_powerset_fastIsEmpty_refuted"
   ],
   "note": "IsEmpty/FastIsEmpty/FastCount for every set of a covered history; Count/CountUpTo unless an overlapping lazy Union, a lazy With of a present element or a lazy Map that is not one-to-one went into the set. Full statement false of the code: C35_count_refuted, C35_powerset_isEmpty_refuted."
  },
  {
   "property": "C36",
   "status": "partial",
   "theorems": [
    "Frozen.C36_iterators_partial",
    "Frozen.C36_next_after_end_refuted"
   ],
   "note": "All interleavings of iterators with all other calls, for clients that stop calling Next once it has returned false. Without that it is false of the code: C36_next_after_end_refuted."
  },
  {
   "property": "C37",
   "status": "proved",
   "theorems": [
    "Frozen.C37_uncached_powerset",
    "Frozen.C37_uncached_count",
    "Frozen.C37_uncached_fastCount",
    "Frozen.C37_uncached_has",
    "Frozen.C37_powerset",
    "Frozen.C37_ends",
    "Frozen.C37_sources",
    "Frozen.C37_count",
    "Frozen.C37_has_partial",
    "Frozen.C37_distinct_refuted",
    "Frozen.C37_has_refuted",
    "Frozen.C37_has_lazy_refuted",
    "Frozen.C37_count_refuted"
   ],
   "note": "All histories of sets, powersets and interleaved iterators, with the memo table that Powerset() puts around its result: delivered values are distinct subsets, an ended iterator has delivered all 2^m; iterators end; sources stay right; Count for m < 63. Refuted: distinctness for sources iterated with repetitions (overlapping unions), Count at m = 63 (negative), Has after a complete iteration and for lazy arguments."
  },
  {
   "property": "C38",
   "status": "partial",
   "theorems": [
    "Frozen.C38_equalSet_partial",
    "Frozen.C38_equal_partial",
    "Frozen.C38_isSubsetOf_partial",
    "Frozen.C38_hash_fold_partial",
    "Frozen.C38_hash_partial",
    "Frozen.C38_equal_refuted",
    "Frozen.C38_equalSet_refuted",
    "Frozen.C38_isSubsetOf_refuted",
    "Frozen.C38_hash_refuted"
   ],
   "note": "EqualSet, IsSubsetOf, Equal and Hash on covered histories with the stated conditions; full statement false of the code: C38_equal_refuted, C38_equalSet_refuted, C38_isSubsetOf_refuted, C38_hash_refuted."
  },
  {
   "property": "C39",
   "status": "proved",
   "theorems": [
    "Frozen.C39_set",
    "Frozen.C39_set_width",
    "Frozen.C39_map",
    "Frozen.C39_intset",
    "Frozen.C39_plus_empty_panics",
    "Frozen.C39_plus",
    "Frozen.C39_plus_map",
    "Frozen.C39_keyValue",
    "Frozen.C39_plus_intset"
   ],
   "note": "Text written for sets (with and without width), builders, maps and integer sets, with the rendering of a single element as a parameter. With %+v the empty set panics inside Format (proved). With %+v an integer set is written as its blocks with their masks, for all integers (C39_plus_intset)."
  },
  {
   "property": "C40",
   "status": "proved",
   "theorems": [
    "Frozen.C40_map_finish_isolates",
    "Frozen.C40_builder_calls_keep_sets",
    "Frozen.C40_finish_isolates",
    "Frozen.C40_builders_independent",
    "Frozen.C40_builder_contents",
    "Frozen.C40_new_builder_empty"
   ],
   "note": "Over a memory model with in-place mutation, for every history and every growth policy of append; sets and maps."
  },
  {
   "property": "C41",
   "status": "proved",
   "theorems": [
    "Frozen.C41_union",
    "Frozen.C41_intersection",
    "Frozen.C41_distributive",
    "Frozen.C41_deMorgan",
    "Frozen.C41_with"
   ],
   "note": ""
  },
  {
   "property": "C42",
   "status": "proved",
   "theorems": [
    "Frozen.C42_keyValue",
    "Frozen.C42_keyValue_union_panics",
    "Frozen.C42_entry"
   ],
   "note": ""
  },
  {
   "property": "C43",
   "status": "partial",
   "theorems": [
    "Frozen.C43_equal_partial",
    "Frozen.C43_map_persistence_few_collisions_partial",
    "Frozen.C43_other_calls_keep_maps_partial",
    "Frozen.C43_map_persistence_fails",
    "Frozen.C43_sharing_unobservable_partial",
    "Frozen.C43_sharing_unobservable_few_collisions_partial",
    "Frozen.C43_map_persistence_partial"
   ],
   "note": "False of the code when a key is added to a map that has three others with the same 64-bit hash (C43_map_persistence_fails); proved of all other histories, and for all keys when With/Merge/Update are excluded after the observation."
  },
  {
   "property": "C44",
   "status": "proved",
   "theorems": [
    "Frozen.C44_set",
    "Frozen.C44_map",
    "Frozen.C44_accepted_count"
   ],
   "note": "Vetting itself is compiled out in the repo; Vet is modelled without the texts of wrapped panics."
  },
  {
   "property": "C45",
   "status": "proved",
   "theorems": [
    "Frozen.C45_set",
    "Frozen.C45_set_not_canonical",
    "Frozen.C45_map",
    "Frozen.C45_object",
    "Frozen.C45_object_equal"
   ],
   "note": "encoding/json is modelled by its documentation, with the element encoder as a parameter. Equal sets need not have equal texts: C45_set_not_canonical."
  },
  {
   "property": "C46",
   "status": "proved",
   "theorems": [
    "Frozen.C46_bitIter",
    "Frozen.C46_length"
   ],
   "note": "The whole domain, by induction over the bytes."
  },
  {
   "property": "C47",
   "status": "proved",
   "theorems": [
    "Frozen.C47_set",
    "Frozen.C47_map",
    "Frozen.C47_default"
   ],
   "note": "The gauge is computed from the receiver's count, GOMAXPROCS and the parsed FROZEN_CONCURRENCY; parsing the variable is not modelled."
  },
  {
   "property": "C48",
   "status": "proved",
   "theorems": [
    "Frozen.C48_adaptive",
    "Frozen.C48_adaptive_ends",
    "Frozen.C48_undisturbed",
    "Frozen.C48_no_race",
    "Frozen.C48_ends",
    "Frozen.C48_alone"
   ],
   "note": "Fork model: goroutines get all sets at their start, do not exchange sets afterwards and use builders of their own; node reads and writes are single accesses, slices are read element by element. The adaptive theorems let a goroutine's next operation be any function of what it has seen."
  },
  {
   "property": "C49",
   "status": "partial",
   "theorems": [
    "Frozen.C49_adaptive_partial",
    "Frozen.C49_adaptive_ends_partial",
    "Frozen.C49_adaptive_few_collisions_partial",
    "Frozen.C49_undisturbed_partial",
    "Frozen.C49_ends_partial",
    "Frozen.C49_few_collisions_partial",
    "Frozen.C49_shared_with_refuted",
    "Frozen.C49_data_race"
   ],
   "note": "False of the code: C49_shared_with_refuted, C49_data_race (two goroutines append into the same spare capacity). Proved when no addition goes to a set with three other elements of the same 64-bit hash. The adaptive theorems let a goroutine's next operation be any function of what it has seen."
  },
  {
   "property": "C50",
   "status": "proved",
   "theorems": [
    "Frozen.C50_abandoned_calls_keep_sets",
    "Frozen.C50_as_if_not_made",
    "Frozen.C50_other_calls_keep_sets",
    "Frozen.C50_builder_contents",
    "Frozen.C50_nothing_written_nothing_changed",
    "Frozen.C50_abandoned_calls_keep_sets_few_collisions",
    "Frozen.C50_intset_as_if_not_made",
    "Frozen.C50_intset_abandoned_keeps",
    "Frozen.C50_abandoned_calls_keep_maps",
    "Frozen.C50_map_as_if_not_made",
    "Frozen.C50_other_calls_keep_maps",
    "Frozen.C50_abandoned_calls_keep_maps_few_collisions"
   ],
   "note": "Over the memory model; a call may stop after any number of accesses, a superset of the points where user code runs. Histories that add to a crowded set are covered for calls other than With and the merges. For maps the comparison is with the map API on values (Spec/MapCrash.lean). For integer sets a call of Where may stop after any number of blocks of 64 integers (Spec/IntCrash.lean)."
  },
  {
   "property": "C51",
   "status": "partial",
   "theorems": [
    "Frozen.C51_intset",
    "Frozen.C51_intset_comparisons",
    "Frozen.C51_set_answers_partial",
    "Frozen.C51_comparisons_partial",
    "Frozen.C51_elements",
    "Frozen.C51_same_elements_partial",
    "Frozen.C51_ordered_partial",
    "Frozen.C51_map_answers_partial",
    "Frozen.C51_panic_refuted",
    "Frozen.C51_intersection_refuted"
   ],
   "note": "False of the code: C51_panic_refuted (a union panics with one hash and returns with another), C51_intersection_refuted (which of two equal elements is kept). Proved: whenever both runs return, all lookups, counts, comparisons and ordered listings agree, and without Intersection the elements are identical. For integer sets it holds without exception (C51_intset, C51_intset_comparisons)."
  },
  {
   "property": "C52",
   "status": "proved",
   "theorems": [
    "Frozen.C52_intset_work",
    "Frozen.C52_intset_has_work",
    "Frozen.C52_next_work",
    "Frozen.C52_iterator_work",
    "Frozen.C52_map_work",
    "Frozen.C52_map_builder_work",
    "Frozen.C52_has_work",
    "Frozen.C52_with_work",
    "Frozen.C52_without_work",
    "Frozen.C52_versions_share",
    "Frozen.C52_iteration_work",
    "Frozen.C52_builder_add_work",
    "Frozen.C52_builder_remove_work",
    "Frozen.C52_builder_has_work",
    "Frozen.C52_constant_work",
    "Frozen.C52_map_constant_work"
   ],
   "note": "Counted in single accesses of the memory model (Spec/Work.lean): nodes and array elements read, nodes and arrays allocated, writes. The bounds hold for all sizes; 311 of the 336 accesses of With and all 23 + 3 of a lookup are reached by an example with three colliding elements. The proviso on sets is that of C10; no proviso for builders. Iterators: C52_next_work in any history with any calls in between, C52_iterator_work by a potential that each Next uses up; C52_iteration_work is about the traversal used to state other theorems. C52_intset_work: every code that calls on IntSets run leads from the maps of one history of map calls to those of a longer one, so the bounds for maps add up."
  },
  {
   "property": "C53",
   "status": "proved",
   "theorems": [
    "Frozen.C53_elements",
    "Frozen.C53_total",
    "Frozen.C53_union",
    "Frozen.C53_odd_value",
    "Frozen.C53_equal",
    "Frozen.C53_never_equal",
    "Frozen.C53_map_entries",
    "Frozen.C53_map_total",
    "Frozen.C53_map_odd_key",
    "Frozen.C53_map_merge",
    "Frozen.C53_map_equal"
   ],
   "note": "The reference is a semantics by element lists (Spec/Nan.lean, Spec/NanMap.lean) rather than membership, which does not see such values. The hash must be a function of the value also for values unlike themselves; should the hash library draw a random hash for a floating-point NaN on each call, as Go's own maps do, that case is outside the theorem."
  },
  {
   "property": "C54",
   "status": "partial",
   "theorems": [
    "Frozen.C54_intset_iterators_partial",
    "Frozen.C54_intset_few_collisions_partial",
    "Frozen.C54_intset_iterating_changes_nothing",
    "Frozen.C54_intset_iterators_refuted",
    "Frozen.C54_intset_abandoned_partial",
    "Frozen.C54_intset_loops_partial",
    "Frozen.C54_intset_abandoned_loop_partial",
    "Frozen.C54_abandoned_calls_partial",
    "Frozen.C54_abandoned_calls_few_collisions_partial",
    "Frozen.C54_abandoned_calls_next_total",
    "Frozen.C54_map_iterators_partial",
    "Frozen.C54_map_few_collisions_partial",
    "Frozen.C54_map_iterating_changes_nothing",
    "Frozen.C54_map_iterators_refuted",
    "Frozen.C54_map_abandoned_calls_partial",
    "Frozen.C54_map_abandoned_calls_few_collisions_partial",
    "Frozen.C54_iterators_partial",
    "Frozen.C54_few_collisions_partial",
    "Frozen.C54_iterating_changes_nothing",
    "Frozen.C54_next_total",
    "Frozen.C54_other_calls_undisturbed",
    "Frozen.C54_iterators_refuted",
    "Frozen.C54_map_next_total",
    "Frozen.C54_intset_next_total"
   ],
   "note": "False as stated: With on a set that has three other elements with the argument's hash may write into an array that another set's iterator has still to read, and the iterator then delivers an element its set never had (C54_iterators_refuted). Proved for all histories without that pattern; in all histories, that iterating changes nothing, that Next does not panic (map and integer-set iterators included), and that an iterator is independent of all calls other than With and the merges. The reference list is what a Range loop without other calls delivers (Tree.rangeList), which other properties describe. The same for map iterators (C54_map_iterators_partial, C54_map_iterators_refuted) and for iterators over integer sets, there for all histories that never add a cell to a set that has three others with the same hash (C54_intset_iterators_partial), which are all histories if no four values share a hash (C54_intset_few_collisions_partial); it is false otherwise (C54_intset_iterators_refuted). The loops inside Where, Union and Intersection of integer sets have the same condition (C54_intset_loops_partial, for an abandoned Where C54_intset_abandoned_loop_partial). Calls that are abandoned at any point do not disturb iterators either (C54_abandoned_calls_partial, C54_map_abandoned_calls_partial, C54_intset_abandoned_partial)."
  },
  {
   "property": "C55",
   "status": "proved",
   "theorems": [
    "Frozen.C55_where",
    "Frozen.C55_setMap",
    "Frozen.C55_groupBy",
    "Frozen.C55_newMapFromKeys",
    "Frozen.C55_mapWhere",
    "Frozen.C55_mapMap",
    "Frozen.C55_reduce",
    "Frozen.C55_reduce2",
    "Frozen.C55_merge",
    "Frozen.C55_pure",
    "Frozen.C55_effects",
    "Frozen.C55_intWhere",
    "Frozen.C55_intMap",
    "Frozen.C55_int_pure",
    "Frozen.C55_where_parallel",
    "Frozen.C55_reduce_parallel",
    "Frozen.C55_merge_parallel"
   ],
   "note": "C55_*_parallel cover the goroutines of Gauge.Parallel: every schedule, every gauge. A call is one step there, so overlapping calls are taken in the order in which they return, and the goroutines' channel and packer traffic, which C11 covers, is not modelled again. C55_pure ties the computations to the functions the other properties are about. C55_intWhere and C55_intMap are about sets that hold what was put into them (always, if the type is unsigned; see C21). Whether Merge panics is C13."
  },
  {
   "property": "C56",
   "status": "proved",
   "theorems": [
    "Frozen.C56_equal_iff",
    "Frozen.C56_dispatch",
    "Frozen.C56_equalFuncFor",
    "Frozen.C56_lawful",
    "Frozen.C56_nested",
    "Frozen.C56_nested_equal",
    "Frozen.C56_sum",
    "Frozen.C56_intset",
    "Frozen.C56_uncomparable_refuted",
    "Frozen.C56_lazy_refuted"
   ],
   "note": "C56_equal_iff shows that the contract is also necessary. hash.Any is a parameter; the contract asks that it respects equality. A panic of a comparison inside a collection is not modelled (elements there are compared by a total function), so for types that break the contract only value.Equal itself is covered: C56_uncomparable_refuted, C56_lazy_refuted. Methods of user types are taken to answer false for the library's collections."
  },
  {
   "property": "C57",
   "status": "proved",
   "theorems": [
    "Frozen.C57_values",
    "Frozen.C57_schedule",
    "Frozen.C57_keeps",
    "Frozen.C57_goroutines",
    "Frozen.C57_ends",
    "Frozen.C57_other_calls_keep_sets",
    "Frozen.C57_schedule_other_calls",
    "Frozen.C57_builders_other_calls",
    "Frozen.C57_values_few_collisions",
    "Frozen.C57_adaptive_values",
    "Frozen.C57_adaptive_schedule",
    "Frozen.C57_adaptive_keeps",
    "Frozen.C57_adaptive_ends",
    "Frozen.C57_adaptive_completes",
    "Frozen.C57_adaptive_few_collisions",
    "Frozen.C57_adaptive_schedule_other_calls",
    "Frozen.C57_adaptive_keeps_other_calls",
    "Frozen.C57_adaptive_ends_other_calls",
    "Frozen.C57_adaptive_completes_other_calls"
   ],
   "note": "Over the memory model with goroutines of C48 and C49; taking over lays the goroutines' memories one behind the other (Spec/ForkJoin.lean). The C57_adaptive theorems are about programs that decide as they go (Spec/JoinProg.lean). Goroutines start no goroutines, and the main goroutine makes no calls while it waits. The proviso is that of C10 and C49."
  },
  {
   "property": "C58",
   "status": "partial",
   "theorems": [
    "Frozen.C58_read_only_partial",
    "Frozen.C58_reorder_partial",
    "Frozen.C58_builders_keep_partial",
    "Frozen.C58_no_panic_partial",
    "Frozen.C58_read_only_keeps_partial",
    "Frozen.C58_accumulate_refuted",
    "Frozen.C58_sort_refuted",
    "Frozen.C58_append_refuted"
   ],
   "note": "False as stated: leaves pass their own storage, so that a function that accumulates in its slice changes the set and others that share its nodes (C58_accumulate_refuted), and so may a function that only sorts (C58_sort_refuted) or appends (C58_append_refuted). Proved: functions that do not write change nothing, in any history, and return what they return on values; functions that reorder change at most the order of iteration if no three different values share a hash; whatever a function writes, builders are unaffected and sets remain usable without panics. Children are visited sequentially in this model."
  },
  {
   "property": "C59",
   "status": "proved",
   "theorems": [
    "Frozen.C59_union_work",
    "Frozen.C59_difference_work",
    "Frozen.C59_intersection_work",
    "Frozen.C59_where_work",
    "Frozen.C59_linear_in_smaller",
    "Frozen.C59_map_linear_in_smaller",
    "Frozen.C59_equal_work",
    "Frozen.C59_subset_work",
    "Frozen.C59_map_equal_work",
    "Frozen.C59_map_merge_work"
   ],
   "note": "Counted as in C52, over the memory model, in which the goroutines of large operands run one after the other (their work is the sum). The proviso on histories is that of C10. The map theorem states the number of new nodes and arrays, which the accesses bound."
  },
  {
   "property": "C60",
   "status": "proved",
   "theorems": [
    "Frozen.C60_values",
    "Frozen.C60_gauges",
    "Frozen.C60_schedule",
    "Frozen.C60_keeps",
    "Frozen.C60_no_shared_writes",
    "Frozen.C60_gets_on",
    "Frozen.C60_schedule_other_calls",
    "Frozen.C60_no_shared_writes_other_calls",
    "Frozen.C60_values_few_collisions"
   ],
   "note": "Over the memory model, one access per step (Model/MemParallel). A goroutine's write to its own slot of the branch under construction is done when its parent collects the results, and so is the mask, which updateMask recomputes; the interleavings of these writes and the channel are C11's subject. The proviso on merges is that of C10; without merges there is none (the theorems on other calls)."
  },
  {
   "property": "C61",
   "status": "partial",
   "theorems": [
    "Frozen.C61_union",
    "Frozen.C61_intersection",
    "Frozen.C61_difference",
    "Frozen.C61_where",
    "Frozen.C61_reduce",
    "Frozen.C61_equal_partial",
    "Frozen.C61_isSubsetOf_partial",
    "Frozen.C61_merge",
    "Frozen.C61_update",
    "Frozen.C61_mapEqual_partial",
    "Frozen.C61_equal_refuted",
    "Frozen.C61_isSubsetOf_refuted"
   ],
   "note": "False of the code: Equal and IsSubsetOf return false as soon as one goroutine says so and leave the others running (C61_equal_refuted, C61_isSubsetOf_refuted). Proved for all other calls, and for these two when they return true."
  },
  {
   "property": "C62",
   "status": "partial",
   "theorems": [
    "Frozen.C62_intersection_partial",
    "Frozen.C62_difference_partial",
    "Frozen.C62_where_partial",
    "Frozen.C62_reduce_partial",
    "Frozen.C62_union_races",
    "Frozen.C62_union_refuted",
    "Frozen.C62_union_mask_partial",
    "Frozen.C62_union_partial",
    "Frozen.C62_union_small_partial",
    "Frozen.C62_union_same_partial",
    "Frozen.C62_union_gauge_partial",
    "Frozen.C62_merge_partial",
    "Frozen.C62_update_partial",
    "Frozen.C62_flip_refuted",
    "Frozen.C62_update_refuted"
   ],
   "note": "False of the code: in Union two goroutines may update the mask of the new branch (C62_union_refuted, C62_union_races) or the cache of CombineArgs.Flip (C62_flip_refuted, C62_update_refuted) without synchronisation. Exactly which calls of Union, Merge and Update contain a race is proved, in terms of the elements' hashes (C62_union_partial, C62_merge_partial, C62_update_partial). Proved race free: Intersection, Difference, Where, Reduce. Equal and IsSubsetOf write nothing shared. The result is right all the same under sequential consistency (C11)."
  },
  {
   "property": "C63",
   "status": "partial",
   "theorems": [
    "Frozen.C63_answers_partial",
    "Frozen.C63_no_waiting_partial",
    "Frozen.C63_alone",
    "Frozen.C63_refuted",
    "Frozen.C63_schedule_refuted"
   ],
   "note": "False over all allowed calls (C63_refuted, C63_schedule_refuted), because differenceSet.Has is wrong (C33, C34). Proved for all numbers of goroutines and all schedules, for calls whose operands of Intersection, Difference and SymmetricDifference have a right Has; answers of Has, Count, EqualSet and IsSubsetOf under the conditions of C34, C35 and C38. Sets and iterators are not passed between running goroutines."
  },
  {
   "property": "C64",
   "status": "partial",
   "theorems": [
    "Frozen.C64_undisturbed",
    "Frozen.C64_ends",
    "Frozen.C64_answers_partial",
    "Frozen.C64_all_calls_end_partial",
    "Frozen.C64_few_collisions_partial",
    "Frozen.C64_refuted"
   ],
   "note": "False of the code when goroutines add keys to a map that has three other keys with the same 64-bit hash (C64_refuted, the defect of C43). Proved for all calls otherwise, and without that proviso for goroutines that do not call With, Merge and Update. Programs branch on everything seen (Spec/Adaptive.lean). Maps are not passed between running goroutines."
  },
  {
   "property": "C65",
   "status": "proved",
   "theorems": [
    "Frozen.C65_set",
    "Frozen.C65_builder",
    "Frozen.C65_empty",
    "Frozen.C65_set_programs",
    "Frozen.C65_map",
    "Frozen.C65_map_builder",
    "Frozen.C65_map_programs",
    "Frozen.C65_intset",
    "Frozen.C65_intset_memory",
    "Frozen.C65_intset_memory_empty"
   ],
   "note": "Counted are the node cells and backing arrays that can be reached from the root (Mem.Keeps, Spec/Footprint.lean). C65_set_programs, C65_map_programs and C65_intset count those of the tree of any collection a program over the API makes. An example reaches 24 of 25. C65_intset_memory is about integer sets over one memory, with any integers."
  },
  {
   "property": "C66",
   "status": "partial",
   "theorems": [
    "Frozen.C66_where_partial",
    "Frozen.C66_where_default_partial",
    "Frozen.C66_where_refuted",
    "Frozen.C66_reduce_partial",
    "Frozen.C66_reduce_default_partial",
    "Frozen.C66_union_partial",
    "Frozen.C66_merge_partial",
    "Frozen.C66_merge_panics_partial",
    "Frozen.C66_update_partial"
   ],
   "note": "False of the code: from 2^17 elements on, by default, the functions run in goroutines that Gauge.Parallel starts and that do not recover (C66_where_refuted), and so does Union and Update (C66_union_partial, C66_update_partial). Exactly when the caller's goroutine makes the calls, or panics, is proved for every gauge and for the default settings. Not covered: panics of the elements' own Equal and Hash methods."
  },
  {
   "property": "C67",
   "status": "partial",
   "theorems": [
    "Frozen.C67_join_comm_partial",
    "Frozen.C67_join_idem_partial",
    "Frozen.C67_join_assoc_partial",
    "Frozen.C67_join_union_partial",
    "Frozen.C67_project_project",
    "Frozen.C67_project_all",
    "Frozen.C67_decompose_partial",
    "Frozen.C67_semijoin_partial",
    "Frozen.C67_join_product_partial",
    "Frozen.C67_join_comm_refuted",
    "Frozen.C67_join_assoc_refuted"
   ],
   "note": "The laws of Project hold without exception. Those of Join are false with empty relations, because Join(s, {}) is s (C67_join_comm_refuted, C67_join_assoc_refuted), and with attributes that have the collision pattern on which merging tuples panics (C30_join_clash_refuted); they are proved for all other uniform relations."
  },
  {
   "property": "C68",
   "status": "proved",
   "theorems": [
    "Frozen.C68_with_same",
    "Frozen.C68_with_different",
    "Frozen.C68_no_change",
    "Frozen.C68_update",
    "Frozen.C68_merge",
    "Frozen.C68_panics_symmetric",
    "Frozen.C68_where",
    "Frozen.C68_project",
    "Frozen.C68_mapMap",
    "Frozen.C68_keys"
   ],
   "note": "When Update and Merge return is C13's subject."
  },
  {
   "property": "C69",
   "status": "partial",
   "theorems": [
    "Frozen.C69_values_partial",
    "Frozen.C69_schedule_partial",
    "Frozen.C69_keeps_partial",
    "Frozen.C69_ends_partial",
    "Frozen.C69_completes_partial",
    "Frozen.C69_few_collisions_partial",
    "Frozen.C69_schedule_other_calls",
    "Frozen.C69_keeps_other_calls",
    "Frozen.C69_completes_other_calls",
    "Frozen.C69_refuted"
   ],
   "note": "False of the code when somebody adds a key to a map that has three other keys with the same 64-bit hash (C69_refuted, the defect of C43). Proved for all other programs; of programs whose goroutines do not call With, Merge and Update, schedule, persistence and completion are proved without that proviso. Proved for every program if the key type has few collisions. Goroutines start no goroutines, and the main goroutine makes no calls while it waits."
  },
  {
   "property": "C70",
   "status": "proved",
   "theorems": [
    "Frozen.C70_where_twice",
    "Frozen.C70_where_split",
    "Frozen.C70_where_distributes",
    "Frozen.C70_counts",
    "Frozen.C70_subset",
    "Frozen.C70_symmetricDifference",
    "Frozen.C70_setMap_twice",
    "Frozen.C70_setMap_union",
    "Frozen.C70_setMap_where",
    "Frozen.C70_groupBy_where",
    "Frozen.C70_groupBy_counts",
    "Frozen.C70_reduce_union",
    "Frozen.C70_powerset_intersection",
    "Frozen.C70_ordered_where",
    "Frozen.C70_orderedFirstN",
    "Frozen.C70_firstN_twice",
    "Frozen.C70_setMap_needs_respect"
   ],
   "note": "When Union and SymmetricDifference return is the subject of C03 and C04. That the second function of two SetMap must respect Equal is necessary: C70_setMap_needs_respect."
  },
  {
   "property": "C71",
   "status": "partial",
   "theorems": [
    "Frozen.C71_sharing_unobservable_partial",
    "Frozen.C71_persistence_partial",
    "Frozen.C71_persistence_few_collisions_partial",
    "Frozen.C71_sets_partial",
    "Frozen.C71_fails",
    "Frozen.C71_actual_partial"
   ],
   "note": "For histories in which no call adds a cell (a block of 64 integers) to a set that has three others with the same 64-bit hash: all histories, if no four values of the integer type share a hash. C71_fails: with four cells of one hash, With on one set replaces an integer of another set. C71_sets_partial also excludes the negative integers that an IntSet cannot hold (C21); C71_actual_partial does not, and says exactly what the sets then hold."
  },
  {
   "property": "C72",
   "status": "proved",
   "theorems": [
    "Frozen.C72_others_kept"
   ],
   "note": "For all programs without Map. (Map reads the empty cells as elements: C21_actual.)"
  },
  {
   "property": "C73",
   "status": "partial",
   "theorems": [
    "Frozen.C73_unsigned",
    "Frozen.C73_union_partial",
    "Frozen.C73_intersection_partial",
    "Frozen.C73_distributive_partial",
    "Frozen.C73_with_partial",
    "Frozen.C73_where_partial",
    "Frozen.C73_map_partial",
    "Frozen.C73_count_partial",
    "Frozen.C73_subset_partial",
    "Frozen.C73_has",
    "Frozen.C73_refuted"
   ],
   "note": "All laws for all unsigned types (C73_unsigned), and for signed types for programs that put only non-negative integers and multiples of 64 into sets. False of any other integer: C73_refuted. Has obeys the laws for all integers (C73_has), if the programs do not call Map."
  }
 ]
}