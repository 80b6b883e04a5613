{
 "claims": [
  {
   "property": "C01",
   "status": "proved",
   "theorems": [
    "Verif.Compare.C01_any_reports",
    "Verif.Compare.C01_any_lawful"
   ],
   "note": "Any, AnyDesc over any linear order"
  },
  {
   "property": "C02",
   "status": "proved",
   "theorems": [
    "Verif.Compare.C02_arrayAny_reports",
    "Verif.Compare.C02_arrayLenAny_reports",
    "Verif.Compare.C02_runes_desc",
    "Verif.Compare.C02_array_lawful"
   ],
   "note": ""
  },
  {
   "property": "C03",
   "status": "partial",
   "theorems": [
    "Verif.Compare.C03_anyEx_lawful_partial",
    "Verif.Compare.C03_arrayAnyEx_not_lawful",
    "Verif.Compare.C03_arrayAnyEx_equal_length_partial"
   ],
   "note": "AnyEx is lawful; ArrayAnyEx is not (negation proved); lawful on equal lengths"
  },
  {
   "property": "C04",
   "status": "proved",
   "theorems": [
    "Verif.Stack.C04_array_lifo",
    "Verif.Stack.C04_list_lifo"
   ],
   "note": ""
  },
  {
   "property": "C05",
   "status": "proved",
   "theorems": [
    "Verif.Stack.C05_listarray_lifo",
    "Verif.Stack.C05_cap_zero_panics"
   ],
   "note": ""
  },
  {
   "property": "C06",
   "status": "proved",
   "theorems": [
    "Verif.Queue.C06_list_deque"
   ],
   "note": ""
  },
  {
   "property": "C07",
   "status": "proved",
   "theorems": [
    "Verif.Queue.C07_ring_deque"
   ],
   "note": "histories that do not read the ends of an empty queue"
  },
  {
   "property": "C08",
   "status": "partial",
   "theorems": [
    "Verif.Queue.C08_ring_index_partial",
    "Verif.Queue.C08_negative_index_not_rejected",
    "Verif.Queue.C08_front_of_empty_not_nil"
   ],
   "note": "Index of a negative position is not rejected by the code: negation proved; the rest is proved"
  },
  {
   "property": "C09",
   "status": "proved",
   "theorems": [
    "Verif.Heap.C09_heap_priority_queue"
   ],
   "note": ""
  },
  {
   "property": "C10",
   "status": "proved",
   "theorems": [
    "Verif.Heap.C09_heap_priority_queue",
    "Verif.Heap.C10_heap_drains_sorted"
   ],
   "note": ""
  },
  {
   "property": "C11",
   "status": "proved",
   "theorems": [
    "Verif.Map.C11_hashmap_contract"
   ],
   "note": "all iteration orders"
  },
  {
   "property": "C12",
   "status": "proved",
   "theorems": [
    "Verif.Map.C12_hashset_set"
   ],
   "note": ""
  },
  {
   "property": "C13",
   "status": "proved",
   "theorems": [
    "Verif.Map.Linked.C13_linkedhashmap_map"
   ],
   "note": ""
  },
  {
   "property": "C14",
   "status": "proved",
   "theorems": [
    "Verif.Map.Linked.C14_linkedhashmap_order"
   ],
   "note": ""
  },
  {
   "property": "C15",
   "status": "partial",
   "theorems": [
    "Verif.Bloom.C15_wraps",
    "Verif.Bloom.C15_bloom_exact_partial",
    "Verif.Bloom.C15_no_false_negative_partial",
    "Verif.Bloom.C15_add_reports_contains_partial",
    "Verif.Bloom.C15_cap_zero_panics"
   ],
   "note": "any hash function; capacities from 1 to 2^64-8, allocation assumed to succeed. False for the seven capacities above (C15_wraps): bitsCap+7 wraps around, the filter has no bits and every Add and Contains panics"
  },
  {
   "property": "C16",
   "status": "partial",
   "theorems": [
    "Verif.Bloom.C16_decoded_filter_panics",
    "Verif.Bloom.C16_roundtrip_partial"
   ],
   "note": "the code violates it: decoding drops the bits (negation proved); HitSize and Cap do round trip"
  },
  {
   "property": "C17",
   "status": "proved",
   "theorems": [
    "Verif.Bloom.C17_hitsize",
    "Verif.Bloom.C17_wraps",
    "Verif.Bloom.C15_bloom_exact_partial"
   ],
   "note": "Filters made by New, all capacities. For filters made by Decode, which have no bits but the old HitSize, see C16 and C112."
  },
  {
   "property": "C18",
   "status": "partial",
   "theorems": [
    "Verif.AList.C18_array_sequence_partial",
    "Verif.AList.C18_pushes_fit",
    "Verif.AList.C18_small_list_exhausts_memory"
   ],
   "note": "Every legal history (any M bytes-worth of slots, 8 <= M <= 2^62) gives the results of the ideal sequence or a refused allocation, never an index panic. Without pops and removes, M >= 8*pushed+16 suffices. Bounded memory for a bounded list is false: proved that a list of at most 18 elements can exhaust any memory."
  },
  {
   "property": "C19",
   "status": "partial",
   "theorems": [
    "Verif.AList.C19_set_in_range",
    "Verif.AList.C19_remove",
    "Verif.AList.C19_set_out_of_range_partial",
    "Verif.AList.C19_set_out_of_range_unreported"
   ],
   "note": "In range fully proved; out-of-range Remove reports and changes nothing; out-of-range Set changes no element but is not always reported (negation proved)."
  },
  {
   "property": "C20",
   "status": "partial",
   "theorems": [
    "Verif.AList.C20_array_contains_partial",
    "Verif.AList.C20_contains_ordinary_comparator",
    "Verif.LList.C20_linked_contains_partial",
    "Verif.LList.C20_linked_contains_ordinary"
   ],
   "note": "Contains tests compare == -1: right for comparators answering -1 exactly on equal values; for comparators of the ordinary convention it provably misses the equal element and counts a smaller one, in both lists."
  },
  {
   "property": "C21",
   "status": "partial",
   "theorems": [
    "Verif.AList.C21_forward",
    "Verif.AList.C21_backward",
    "Verif.AList.C21_circular",
    "Verif.AList.C21_remove",
    "Verif.AList.C21_edit",
    "Verif.AList.C21_index_to",
    "Verif.AList.C21_swap_lists",
    "Verif.AList.C21_circular_remove_partial",
    "Verif.AList.C21_circular_remove_invalid"
   ],
   "note": "All of the statement except circular removal at the ends, which leaves a cursor outside the list (negation proved)."
  },
  {
   "property": "C22",
   "status": "proved",
   "theorems": [
    "Verif.LList.C22_list_history",
    "Verif.LList.C22_links_agree"
   ],
   "note": ""
  },
  {
   "property": "C23",
   "status": "partial",
   "theorems": [
    "Verif.LList.C23_history",
    "Verif.LList.C23_edits_partial",
    "Verif.LList.C22_links_agree",
    "Verif.LList.C23_insert_nothing_panics"
   ],
   "note": "Proved for any number of iterators in any legal history. Missing: an insertion of zero values, which panics (proved)."
  },
  {
   "property": "C24",
   "status": "proved",
   "theorems": [
    "Verif.LList.C24_wrap",
    "Verif.LList.C24_full_circle",
    "Verif.LList.C24_move",
    "Verif.LList.C24_move_least"
   ],
   "note": "C24_move: Move(d) for every d except -2^63, for which Move does not move (C24_move_least); the statement is about n steps"
  },
  {
   "property": "C25",
   "status": "partial",
   "theorems": [
    "Verif.Avl.C25_answers_right",
    "Verif.Avl.C25_map_shallow_partial",
    "Verif.Avl.C25_map_partial",
    "Verif.Avl.C25_map_threshold_two",
    "Verif.Avl.C25_map_panics",
    "Verif.Avl.C25_arrayAnyEx_loses_key"
   ],
   "note": "C25_answers_right: for every lawful comparator, every threshold and every history, all answers are those of the ideal map as long as no call panics. C25_map_shallow_partial: no call panics while Height() is at most 126 before each call, for every threshold from 1 to 127 and maps of any size; C25_map_partial: so no call panics while the number of entries stays below room d (at least 127 for every threshold, at least 2^63 for threshold 2). False for the default threshold 1: C25_map_panics, for every lawful comparator with increasing sequences of keys of every length (strings, integers without bound) some history of Put and Remove leaves 8257 entries and then a Put panics, because a recorded height (int8) overflows. The proof constructs the history by induction; it is astronomically long (its length grows exponentially with the height 128); shorter ones are not excluded. Open: keys of a finite type such as int64, and maps between 127 and 8257 entries."
  },
  {
   "property": "C26",
   "status": "proved",
   "theorems": [
    "Verif.Avl.C26_sorted"
   ],
   "note": "For every threshold and every history of calls that did not panic: Traverse (also stopped early) and Values enumerate the ideal map in strictly increasing order."
  },
  {
   "property": "C27",
   "status": "partial",
   "theorems": [
    "Verif.Avl.C27_height_balance_shallow_partial",
    "Verif.Avl.C27_height_balance_partial",
    "Verif.Avl.C27_default_not_avl",
    "Verif.Avl.C27_default_puts"
   ],
   "note": "Heights are exact for every threshold 1..127, and with threshold d >= 2 sibling heights differ by less than d. Both on maps of any size made by a history before each call of which Height() is at most 126 (always so below room d entries). The part of the statement about the default map (threshold 1) is false: C27_default_not_avl gives a history of eight Puts and one Remove after which siblings differ by 2; C27_default_puts reaches it with 27 Puts and no removal."
  },
  {
   "property": "C28",
   "status": "partial",
   "theorems": [
    "Verif.Avl.C28_iterator_partial",
    "Verif.Avl.C28_scan_partial"
   ],
   "note": "All legal iterator histories on every map of any size made by a history before each call of which Height() is at most 126 (always so below room d entries, shallow_of_fits: 127 for the default threshold 1). Missing: maps after a call at height 127, where recorded heights can overflow (C25_map_panics)."
  },
  {
   "property": "C29",
   "status": "partial",
   "theorems": [
    "Verif.Avl.C29_seek_partial",
    "Verif.Avl.C28_iterator_partial"
   ],
   "note": "Seeks from every state of the iterator, and (C28_iterator_partial) steps after them. Missing as in C28: maps after a call at height 127."
  },
  {
   "property": "C30",
   "status": "proved",
   "theorems": [
    "Verif.Avls.C30_answers_right",
    "Verif.Avls.C30_stable_multimap"
   ],
   "note": "C30_answers_right covers every threshold as long as no call panics; C30_stable_multimap shows that none does for the default threshold and fewer than 2^63 entries."
  },
  {
   "property": "C31",
   "status": "partial",
   "theorems": [
    "Verif.Avls.C31_default_balanced_partial",
    "Verif.Avls.C31_thresholds_inexact"
   ],
   "note": "Proved for the default threshold 2. For other thresholds the statement is false: C31_thresholds_inexact gives short histories with thresholds 1, 3, 4 after which Height() is wrong."
  },
  {
   "property": "C32",
   "status": "proved",
   "theorems": [
    "Verif.Avls.C32_iterator",
    "Verif.Avls.C32_scan",
    "Verif.Avls.C32_threshold_four_panics"
   ],
   "note": "Default threshold. With threshold 4 an iterator panics (C32_threshold_four_panics), a consequence of the wrong heights of C31."
  },
  {
   "property": "C33",
   "status": "proved",
   "theorems": [
    "Verif.TreeSet.C33_sorted_set"
   ],
   "note": "Default threshold; sets of fewer than 2^63 items (the range of Len)."
  },
  {
   "property": "C34",
   "status": "proved",
   "theorems": [
    "Verif.TreeSet.C34_union",
    "Verif.TreeSet.C34_intersection",
    "Verif.TreeSet.C34_difference"
   ],
   "note": "Two distinct sets with together fewer than 2^62 items. The other set is only read by the code and is a value in the model."
  },
  {
   "property": "C35",
   "status": "proved",
   "theorems": [
    "Verif.TreeSet.C35_balanced"
   ],
   "note": ""
  },
  {
   "property": "C36",
   "status": "proved",
   "theorems": [
    "Verif.TreeSet.C36_iterator",
    "Verif.TreeSet.C36_scan"
   ],
   "note": ""
  },
  {
   "property": "C37",
   "status": "partial",
   "theorems": [
    "Verif.IndexTree.C37_sorted_map_partial",
    "Verif.IndexTree.C37_contents",
    "Verif.IndexTree.C37_sorted",
    "Verif.IndexTree.C37_set_on_empty"
   ],
   "note": "Every history, every tolerance shift, trees of any size and depth. Missing: Set on an empty tree, which answers true (negation proved); the contents are right also after it (C37_contents, C37_sorted)."
  },
  {
   "property": "C38",
   "status": "proved",
   "theorems": [
    "Verif.IndexTree.C38_ranks"
   ],
   "note": ""
  },
  {
   "property": "C39",
   "status": "partial",
   "theorems": [
    "Verif.IndexTree.C39_removeRange_partial",
    "Verif.IndexTree.C39_removeRangeByIndex",
    "Verif.IndexTree.C39_removeRangeByIndex_panics",
    "Verif.IndexTree.C39_difference_comparator"
   ],
   "note": "RemoveRange proved for comparators that answer with one number per case (as all of package compare do). For a comparator such as a - b it is false: C39_difference_comparator."
  },
  {
   "property": "C40",
   "status": "partial",
   "theorems": [
    "Verif.IndexTree.C40_trim_partial",
    "Verif.IndexTree.C40_trimByIndex",
    "Verif.IndexTree.C40_trimByIndex_panics_partial",
    "Verif.IndexTree.C40_difference_comparator",
    "Verif.IndexTree.C40_trimByIndex_corrupts"
   ],
   "note": "Same restriction on the comparator for Trim. An out-of-range TrimByIndex always panics; the tree is unchanged unless the first rank is in range and the last is not, where it is provably corrupted."
  },
  {
   "property": "C41",
   "status": "partial",
   "theorems": [
    "Verif.IndexTree.C41_split_partial",
    "Verif.IndexTree.C41_split_empty"
   ],
   "note": "All trees that are not empty. On an empty tree nil is returned instead of an empty tree."
  },
  {
   "property": "C42",
   "status": "partial",
   "theorems": [
    "Verif.IndexTree.C42_iterator_partial",
    "Verif.IndexTree.C42_seek_partial",
    "Verif.IndexTree.C42_seekGT_never",
    "Verif.IndexTree.C42_seekLT_partial",
    "Verif.IndexTree.C42_seekGT_wrong",
    "Verif.IndexTree.C42_seekLT_wrong",
    "Verif.IndexTree.C42_seekGT_panics",
    "Verif.IndexTree.C42_index_after_seekGE",
    "Verif.IndexTree.C42_next_after_seekByIndex",
    "Verif.IndexTree.C42_index_past_end",
    "Verif.IndexTree.C42_deep_panics"
   ],
   "note": "SeekToFirst, SeekToLast, SeekGE, SeekLE, Next, Prev, Index on trees of height at most 128; 1973 calls make a tree of 179 entries where SeekGE and SeekLE panic. SeekGT is right only for a key above all others, SeekLT can go to an entry that is not less or panic (both described for all trees and keys), Index is wrong after a SeekGE for an absent key, walking after SeekByIndex is wrong: each proved with a witness."
  },
  {
   "property": "C43",
   "status": "partial",
   "theorems": [
    "Verif.OrderedMap.C43_ordered_map_partial",
    "Verif.OrderedMap.C43_nil_value",
    "Verif.OrderedMap.C43_nil_removeIndex",
    "Verif.OrderedMap.C43_set_on_empty"
   ],
   "note": "Proved for all histories with values that are not nil. Nil values and Set on an empty map violate the statement (proved)."
  },
  {
   "property": "C44",
   "status": "partial",
   "theorems": [
    "Verif.TreeList.C44_sorted_map_partial",
    "Verif.TreeList.C44_small_partial",
    "Verif.TreeList.C44_put_panics",
    "Verif.TreeList.C44_sorted"
   ],
   "note": "Histories that do not panic answer as the ideal sorted map; histories that insert only while there are at most 63 entries do not panic. False in general: 1779 calls of Put and Remove are given after which Put panics (the table of sizes has no entry for the height 64)."
  },
  {
   "property": "C45",
   "status": "partial",
   "theorems": [
    "Verif.TreeList.C45_thread_partial"
   ],
   "note": "All tree lists made by legal calls and set operations. False after Trim to a range without entries (C47_trim_empty) and after a TrimByIndex that panics (C47_trimByIndex_corrupts)."
  },
  {
   "property": "C46",
   "status": "partial",
   "theorems": [
    "Verif.TreeList.C46_removeRange_partial",
    "Verif.TreeList.C46_removeRangeByIndex_partial",
    "Verif.TreeList.C46_removeRangeByIndex_panics",
    "Verif.TreeList.C46_difference_comparator"
   ],
   "note": "RemoveRange needs a comparator with one number per case (negation given for a difference comparator); RemoveRangeByIndex of a range that meets no rank panics and changes nothing."
  },
  {
   "property": "C47",
   "status": "partial",
   "theorems": [
    "Verif.TreeList.C47_trim_partial",
    "Verif.TreeList.C47_trimByIndex",
    "Verif.TreeList.C47_trim_empty",
    "Verif.TreeList.C47_trim_empty_union",
    "Verif.TreeList.C47_trimByIndex_corrupts"
   ],
   "note": "Ranges that hold an entry. Trim to a range without entries leaves Head, Tail, iteration and set operations with the old entries (proved); TrimByIndex with a last rank that is too great corrupts the tree (proved)."
  },
  {
   "property": "C48",
   "status": "proved",
   "theorems": [
    "Verif.TreeList.C48_set_operations"
   ],
   "note": "All pairs of reached tree lists, also one with itself; the result is again a reached tree list. That the arguments are unchanged holds by the form of the model."
  },
  {
   "property": "C49",
   "status": "partial",
   "theorems": [
    "Verif.TreeList.C49_iterator_partial",
    "Verif.TreeList.C49_seek_partial",
    "Verif.TreeList.C49_empty_panics",
    "Verif.TreeList.C49_panics_only"
   ],
   "note": "All non-empty tree lists; on the empty one the seeks by key panic (proved)."
  },
  {
   "property": "C50",
   "status": "partial",
   "theorems": [
    "Verif.TreeList.C50_range_partial",
    "Verif.TreeList.C50_empty_panics"
   ],
   "note": "All non-empty tree lists, both directions, callbacks that end the walk; on the empty one the call panics (proved)."
  },
  {
   "property": "C51",
   "status": "partial",
   "theorems": [
    "Verif.Priority.C51_stable_multimap_partial",
    "Verif.Priority.C51_panic_loses_entries"
   ],
   "note": "All comparators and all histories in which RemoveIndex is called with a rank of the tree. After a recovered panic of RemoveIndex the statement fails (proved with a witness)."
  },
  {
   "property": "C52",
   "status": "proved",
   "theorems": [
    "Verif.Priority.C52_gets",
    "Verif.Priority.C52_order_differs"
   ],
   "note": "As a multiset; the order is that of a preorder walk, not of insertion."
  },
  {
   "property": "C53",
   "status": "partial",
   "theorems": [
    "Verif.Priority.C53_index",
    "Verif.Priority.C53_removeIndex_partial",
    "Verif.Priority.C53_negative_panics",
    "Verif.Priority.C53_panic_changes_size"
   ],
   "note": "Index in full. RemoveIndex for ranks in range; every negative index panics, and a panic may count sizes down (proved)."
  },
  {
   "property": "C54",
   "status": "partial",
   "theorems": [
    "Verif.Priority.C54_scan_partial",
    "Verif.Priority.C54_iterator_partial",
    "Verif.Priority.C54_distinct_partial",
    "Verif.Priority.C54_small_fits",
    "Verif.Priority.C54_iterator_panics",
    "Verif.Priority.C54_seekGT_stays"
   ],
   "note": "Proved for trees that fit the iterator stack, always so up to four entries. A tree of seven entries makes a scan panic, and SeekGT/SeekLT stop inside a run of equal keys (both proved)."
  },
  {
   "property": "C55",
   "status": "proved",
   "theorems": [
    "Verif.Skip.C55_sorted_map",
    "Verif.Skip.C55_levels_unobservable"
   ],
   "note": "All maximum levels, all random numbers, all histories without TrimByIndex (for which see C58)."
  },
  {
   "property": "C56",
   "status": "proved",
   "theorems": [
    "Verif.Skip.C56_levels",
    "Verif.Skip.C56_iterators"
   ],
   "note": "All histories of all calls; reading outside of a tower is a panic of the model."
  },
  {
   "property": "C57",
   "status": "partial",
   "theorems": [
    "Verif.Skip.C57_seek_partial",
    "Verif.Skip.C57_index_partial",
    "Verif.Skip.C57_index_wrong"
   ],
   "note": "Positions of all seeks and moves. Index is the rank only while walking after SeekToFirst and SeekToLast; it is wrong after the other seeks (proved)."
  },
  {
   "property": "C58",
   "status": "partial",
   "theorems": [
    "Verif.Skip.C58_ranges",
    "Verif.Skip.C58_trimByIndex_partial",
    "Verif.Skip.C58_trimByIndex_wrong",
    "Verif.Skip.C58_set_operations"
   ],
   "note": "RemoveRangeByIndex, Trim and the set operations in full. TrimByIndex with a range that holds no rank keeps everything (proved for all lists)."
  },
  {
   "property": "C59",
   "status": "proved",
   "theorems": [
    "Verif.Conc.C59_linearizable",
    "Verif.Conc.C59_sorted_maps"
   ],
   "note": "Any number of goroutines and lists, all schedules, every way to cut the work under a lock into atomic accesses; sequentially consistent memory."
  },
  {
   "property": "C60",
   "status": "partial",
   "theorems": [
    "Verif.Conc.C60_chooses_partial",
    "Verif.Conc.C60_alone_partial",
    "Verif.Conc.C60_panics",
    "Verif.Conc.C60_nothing",
    "Verif.Conc.C59_linearizable"
   ],
   "note": "False: both failures are proved with a schedule. What holds for all schedules of the code with one access under each lock: no panic unless the list is empty at a moment of the call, and the key removed was the smallest at such a moment; an entry is returned if no other call that removes is under way at the same time. In all cases the Remove in the end is atomic (C59)."
  },
  {
   "property": "C61",
   "status": "partial",
   "theorems": [
    "Verif.Conc.C61_progress_partial",
    "Verif.Conc.C61_completes_partial",
    "Verif.Conc.C61_deadlock",
    "Verif.Conc.C61_deadlock_union",
    "Verif.Conc.C61_self"
   ],
   "note": "Proved when pairs of lists are used in one order only: no deadlock, no infinite schedule, and when nothing can move all calls have returned. False otherwise: opposite orders and a list with itself block for ever (proved for all lists)."
  },
  {
   "property": "C62",
   "status": "proved",
   "theorems": [
    "Verif.Astar.C62_search_decides",
    "Verif.Astar.C62_answer",
    "Verif.Astar.C62_unreachable",
    "Verif.Astar.C62_cost_zero_hangs"
   ],
   "note": "Default cost, any weight function, any symmetric set of directions (both of the package are), any dimensions and targets on the map. With another cost the answer is right if there is one; going back may not end."
  },
  {
   "property": "C63",
   "status": "proved",
   "theorems": [
    "Verif.Astar.C63_valid_path"
   ],
   "note": ""
  },
  {
   "property": "C64",
   "status": "partial",
   "theorems": [
    "Verif.Astar.C64_not_shortest",
    "Verif.Astar.C64_not_shortest8",
    "Verif.Astar.C64_free_rectangle_partial",
    "Verif.Astar.C64_free_rectangle8_partial",
    "Verif.Astar.C64_breadth_first_partial"
   ],
   "note": "The claim is false (witnesses for both neighbourhoods). It holds when no block lies in the rectangle between start and end, and on all maps for a weight that prefers tiles near the start."
  },
  {
   "property": "C65",
   "status": "partial",
   "theorems": [
    "Verif.Astar.C65_multi_partial",
    "Verif.Astar.C65_multi_wrong"
   ],
   "note": "The claim is false on every map: each path has the end tile twice and GetSteps is one too many. Without its first tile each path is valid."
  },
  {
   "property": "C66",
   "status": "partial",
   "theorems": [
    "Verif.Astar.C66_clear_partial",
    "Verif.Astar.C66_same_target",
    "Verif.Astar.C66_path_attribute",
    "Verif.Astar.C66_new_target",
    "Verif.Astar.C66_needed"
   ],
   "note": "False when start and end are the same tile, when a tile has the attribute of a path, and when SetTarget is called between Search and Clear; proved otherwise."
  },
  {
   "property": "C67",
   "status": "partial",
   "theorems": [
    "Verif.Utils.C67_error_reported_partial",
    "Verif.Utils.C67_returning_panics",
    "Verif.Utils.C67_panics_iff"
   ],
   "note": "The error of a panicking callback is reported. A callback that returns makes TryPanic itself panic (proved for every such callback)."
  },
  {
   "property": "C68",
   "status": "partial",
   "theorems": [
    "Verif.Utils.C68_random_text_partial",
    "Verif.Utils.C68_every_length",
    "Verif.Utils.C68_too_long"
   ],
   "note": "Lengths lie in [s, s+e); the upper bound e of the statement is exceeded (proved with a witness)."
  },
  {
   "property": "C69",
   "status": "partial",
   "theorems": [
    "Verif.Conc.C59_linearizable",
    "Verif.Conc.C69_difference_not_atomic"
   ],
   "note": "Intersection and UnionSets are among the calls of C59_linearizable. DifferenceSets is not atomic (schedule given)."
  },
  {
   "property": "C70",
   "status": "proved",
   "theorems": [
    "Verif.Astar.C70_tiles",
    "Verif.Astar.C70_target",
    "Verif.Astar.C70_path",
    "Verif.Astar.C70_panics"
   ],
   "note": "The text as a picture: length, newlines and the byte of each tile. Points off the map panic (C70_panics)."
  },
  {
   "property": "C71",
   "status": "partial",
   "theorems": [
    "Verif.Astar.C71_round_trip_partial",
    "Verif.Astar.C71_set_partial",
    "Verif.Astar.C71_cut",
    "Verif.Astar.C71_wide"
   ],
   "note": "Holds for up to 4096 columns. Fails for all wider maps (C71_wide): ReadLine gives long lines in pieces and isPrefix is ignored, so no text makes a map of more than 4096 columns (C71_cut)."
  },
  {
   "property": "C72",
   "status": "partial",
   "theorems": [
    "Verif.Astar.C72_target_partial",
    "Verif.Astar.C72_search_partial",
    "Verif.Astar.C72_same_target"
   ],
   "note": "Holds for up to 4096 columns, for the same reason as C71. With start equal to end only the end is printed (C72_same_target)."
  },
  {
   "property": "C73",
   "status": "proved",
   "theorems": [
    "Verif.Astar.C73_drawn_path"
   ],
   "note": "For any weight, the default cost and any symmetric neighbourhood."
  },
  {
   "property": "C74",
   "status": "partial",
   "theorems": [
    "Verif.Astar.C74_found_partial",
    "Verif.Astar.C74_kept",
    "Verif.Astar.C74_panics",
    "Verif.Astar.C74_stale"
   ],
   "note": "Holds after a success. After a failure the queries answer as before it (C74_kept): GetPath panics (C74_panics) or gives the path of an earlier search (C74_stale)."
  },
  {
   "property": "C75",
   "status": "partial",
   "theorems": [
    "Verif.Astar.C75_same_reading_partial",
    "Verif.Astar.C75_blank_line",
    "Verif.Astar.C75_form_feed"
   ],
   "note": "Holds for texts without form feeds and carriage returns in which every line that is not empty has a tile, lines up to 4096 bytes. A line of blanks is a row for SetStringTiles only and leads to a panic (C75_blank_line); a form feed is a tile for SetStringTiles only (C75_form_feed)."
  },
  {
   "property": "C76",
   "status": "proved",
   "theorems": [
    "Verif.Exper.C76_put",
    "Verif.Exper.C76_contents",
    "Verif.Exper.C76_same_tree"
   ],
   "note": "For comparators of the usual convention."
  },
  {
   "property": "C77",
   "status": "partial",
   "theorems": [
    "Verif.Exper.C77_height_partial",
    "Verif.Exper.C77_height_small",
    "Verif.Exper.C77_overflow"
   ],
   "note": "Holds up to height 127. With shift 0 nothing is rotated and Height becomes -128 (C77_overflow)."
  },
  {
   "property": "C78",
   "status": "partial",
   "theorems": [
    "Verif.Exper.C78_get_finds_smaller",
    "Verif.Exper.C78_smallest_not_found",
    "Verif.Exper.C78_put_get",
    "Verif.Exper.C78_wrong_value",
    "Verif.Exper.C78_ex_twice"
   ],
   "note": "False for every comparator: with the usual convention no key is ever found and a value found belongs to a smaller key; with the other one Put inserts a key twice."
  },
  {
   "property": "C79",
   "status": "proved",
   "theorems": [
    "Verif.Exper.C79_stats"
   ],
   "note": "The float quotient itself is not modelled."
  },
  {
   "property": "C80",
   "status": "partial",
   "theorems": [
    "Verif.Exper.AvlLike.C80_insert_partial",
    "Verif.Exper.AvlLike.C80_no_panic_partial",
    "Verif.Exper.AvlLike.C80_get_finds_smaller",
    "Verif.Exper.AvlLike.C80_put_get",
    "Verif.Exper.AvlLike.C80_remove_other",
    "Verif.Exper.AvlLike.C80_ex_refused"
   ],
   "note": "Holds for the calls that do not search (in descending order). Get, Upsert and Remove are wrong for every comparator of the usual convention; with the other convention Put refuses and Set destroys entries."
  },
  {
   "property": "C81",
   "status": "proved",
   "theorems": [
    "Verif.Skip.C81_modified"
   ],
   "note": "One goroutine: calls on the list and calls of Next in any order."
  },
  {
   "property": "C82",
   "status": "partial",
   "theorems": [
    "Verif.TreeList.C82_modified_partial",
    "Verif.TreeList.C82_small_partial",
    "Verif.TreeList.C82_next_in_order",
    "Verif.TreeList.C82_remove_current_skips",
    "Verif.TreeList.C82_remove_other_repeats",
    "Verif.TreeList.C82_index_stale"
   ],
   "note": "Holds for insertions and updates between the steps; after a call that may remove entries the iterator must be placed by a seek again, since the statement is then false (two concrete runs). Index is not included. No panic is proved up to 64 entries (C44: the table of heights)."
  },
  {
   "property": "C83",
   "status": "partial",
   "theorems": [
    "Verif.Avl.C83_avl",
    "Verif.Avl.C83_avl_default_deep",
    "Verif.TreeSet.C83_treeset",
    "Verif.Avls.C83_avls",
    "Verif.Heap.C83_heap",
    "Verif.IndexTree.C83_indextree_deep"
   ],
   "note": "Searches with a count of the calls, equal to the searches of the model without it. False for index trees: 1973 calls make a tree of 179 entries where Get compares 130 times. avl with the default threshold 1 has no logarithmic bound up to the height that int8 can record: for every n up to 128 some history leaves n(n+1)/2 entries and a Get with n comparisons (20 for 210 entries). Not covered: range calls."
  },
  {
   "property": "C84",
   "status": "proved",
   "theorems": [
    "Verif.Astar.C84_no_tile_lost"
   ],
   "note": "All texts; for lines of 4096 bytes and more the rows are pieces of lines (C71)."
  },
  {
   "property": "C85",
   "status": "partial",
   "theorems": [
    "Verif.LList.C85_linked_forward",
    "Verif.LList.C85_linked_backward",
    "Verif.AList.C85_array_forward_partial",
    "Verif.AList.C85_array_backward_partial",
    "Verif.AList.C85_array_seen_twice"
   ],
   "note": "Linked list: all of it. Array list: all but that every element is looked at once; after the removal of the last (first) element the new last (first) one is looked at again (witness)."
  },
  {
   "property": "C86",
   "status": "partial",
   "theorems": [
    "Verif.Conc.C86_quiet_partial",
    "Verif.Conc.C86_traverse",
    "Verif.Conc.C86_putDuplicate"
   ],
   "note": "False: with a callback that calls a method of the list (other than RemoveHead) neither this call nor any later one on the list returns, under any schedule (proved). The partial theorem is about callbacks that do not call the list."
  },
  {
   "property": "C87",
   "status": "partial",
   "theorems": [
    "Verif.AvlHeap.C87_nodes_form_tree",
    "Verif.AvlHeap.C87_same_answers",
    "Verif.Avl.C87_avl_shallow_partial",
    "Verif.AvlHeap.C87_avl_answers",
    "Verif.AvlHeap.C87_treeset_answers"
   ],
   "note": "Program on pointers, one memory update per assignment. The shape and the equality with the model of C25 hold for every comparison and threshold; the answers of the ideal map and the absence of panics have the limits of C25 (Height() at most 126 before each call) and C33. Without them the statement is false: by C87_same_answers the panic of C25_map_panics also happens here."
  },
  {
   "property": "C88",
   "status": "partial",
   "theorems": [
    "Verif.AvlHeap.C88_avl_partial",
    "Verif.AvlHeap.C88_treeset_partial",
    "Verif.AvlHeap.C88_avl_put_skips",
    "Verif.AvlHeap.C88_avl_remove_repeats",
    "Verif.AvlHeap.C88_avl_removed_shown",
    "Verif.AvlHeap.C88_remove_current_skips",
    "Verif.AvlHeap.C88_put_panics",
    "Verif.AvlHeap.C88_old_iterator_panics",
    "Verif.AvlHeap.C88_cleared_shown",
    "Verif.AvlHeap.C88_clone_panics"
   ],
   "note": "False after a call that adds or removes an entry: entries are missed, repeated or shown after their removal, and the iterator panics when the map has become higher (concrete runs). Proved: all calls that add or remove no entry leave the iterator where it is, with the new values; after other calls it is right again from the next seek on, while the map is not higher than it was when the iterator was made."
  },
  {
   "property": "C89",
   "status": "partial",
   "theorems": [
    "Verif.IndexHeap.C89_same_answers",
    "Verif.IndexHeap.C89_answers_partial",
    "Verif.IndexHeap.C89_shape_partial",
    "Verif.IndexHeap.C89_check_sound"
   ],
   "note": "Program on pointers with Parent, one memory update per assignment. Every comparison: answers as the model with subtrees (where that one does not panic by a nil pointer) and the nodes form a tree with right parents. Several trees, lawful comparisons: sizes, separation, check, answers. Left out in the last two: the calls for which the code is wrong by C37 to C42 (RemoveRange and Trim with comparisons that answer other values than -1, 0, 1; TrimByIndex with high beyond the end; for the answers also Set on an empty tree and Delete of a nil value)."
  },
  {
   "property": "C90",
   "status": "partial",
   "theorems": [
    "Verif.IndexHeap.C90_iterator_partial",
    "Verif.IndexHeap.C90_put_skips",
    "Verif.IndexHeap.C90_remove_repeats",
    "Verif.IndexHeap.C90_removed_shown",
    "Verif.IndexHeap.C90_remove_current_skips",
    "Verif.IndexHeap.C90_index_stale",
    "Verif.IndexHeap.C90_cleared_shown",
    "Verif.IndexHeap.C90_old_iterator_panics",
    "Verif.IndexHeap.C90_clone_panics",
    "Verif.IndexHeap.C90_seek_than_wrong"
   ],
   "note": "False after a call that adds or removes an entry: entries are missed, repeated or shown after their removal, Index is not the rank, and the iterator panics when the tree has become higher (concrete runs). Proved: all calls that add or remove no entry leave the iterator where it is, with the new values; after other calls it is right again from the next seek on, while the tree is not higher than it was when the iterator was made. SeekGT, SeekLT and steps after SeekByIndex are excluded as in C42."
  },
  {
   "property": "C91",
   "status": "partial",
   "theorems": [
    "Verif.Astar.C91_attributes_partial",
    "Verif.Astar.C91_outside_panics",
    "Verif.Astar.C91_equal_targets",
    "Verif.Astar.C91_new_target",
    "Verif.Astar.C91_marks_lost",
    "Verif.Astar.C91_search_twice"
   ],
   "note": "Proved for histories with the default cost and any weight, in which a search has two different targets on the map, is not repeated before Clear, the targets are not changed in between, and no tile gets the attribute o, s or e. False for each of the others (concrete runs)."
  },
  {
   "property": "C92",
   "status": "partial",
   "theorems": [
    "Verif.ListHeap.C92_answers_partial",
    "Verif.ListHeap.C92_small_partial",
    "Verif.ListHeap.C92_shape_partial"
   ],
   "note": "Program on pointers with Parent and Direct, one memory update per assignment, several lists in one memory. Left out: the calls for which the code is wrong by C46 and C47 (RemoveRange and Trim with comparisons that answer other values than -1, 0, 1, Trim to a range without entries, TrimByIndex with high beyond the end), and that no program panics that inserts into lists with more than 63 entries (false by C44 for the model with subtrees)."
  },
  {
   "property": "C93",
   "status": "partial",
   "theorems": [
    "Verif.PriorityHeap.C93_nodes_form_tree",
    "Verif.PriorityHeap.C93_same_answers",
    "Verif.PriorityHeap.C93_answers_partial",
    "Verif.PriorityHeap.C93_panic_changes_size"
   ],
   "note": "Program on pointers, one memory update per assignment. Shape and equality with the model of C51 for every comparison and every history. Sizes and answers of the ideal queue without RemoveIndex out of range, after which the sizes are wrong (C93_panic_changes_size)."
  },
  {
   "property": "C94",
   "status": "partial",
   "theorems": [
    "Verif.PriorityHeap.C94_iterator_partial",
    "Verif.PriorityHeap.C94_put_skips",
    "Verif.PriorityHeap.C94_remove_repeats",
    "Verif.PriorityHeap.C94_removed_shown",
    "Verif.PriorityHeap.C94_remove_current_skips",
    "Verif.PriorityHeap.C94_old_iterator_panics",
    "Verif.PriorityHeap.C94_cleared_shown",
    "Verif.PriorityHeap.C94_clone_panics"
   ],
   "note": "False after a call that adds or removes an entry: entries are missed, repeated or shown after their removal, and the iterator panics when the tree is deeper than its array is long (concrete runs). Proved: all calls that add or remove no entry leave the iterator where it is; after other calls it is right again from the next seek on, while the tree is not deeper than the array. The places SeekGT and SeekLT go to are excluded as in C54."
  },
  {
   "property": "C95",
   "status": "proved",
   "theorems": [
    "Verif.AvlsHeap.C95_nodes_form_tree",
    "Verif.AvlsHeap.C95_same_answers",
    "Verif.AvlsHeap.C95_answers_right",
    "Verif.AvlsHeap.C95_answers"
   ],
   "note": "Program on pointers, one memory update per assignment. The shape and the equality with the model of C30 hold for every comparison and threshold, the answers of calls that return for every threshold; no panic for the default threshold and fewer than 2^63 entries."
  },
  {
   "property": "C96",
   "status": "partial",
   "theorems": [
    "Verif.AvlsHeap.C96_iterator_partial",
    "Verif.AvlsHeap.C96_put_skips",
    "Verif.AvlsHeap.C96_put_panics",
    "Verif.AvlsHeap.C96_remove_repeats",
    "Verif.AvlsHeap.C96_removed_shown",
    "Verif.AvlsHeap.C96_remove_current_skips",
    "Verif.AvlsHeap.C96_old_iterator_panics",
    "Verif.AvlsHeap.C96_clone_panics"
   ],
   "note": "False after a call that adds or removes an entry: entries are missed, repeated or shown after their removal, and the iterator panics when the tree has become higher (concrete runs). Proved: all calls that add or remove no entry leave the iterator where it is, with the new values; after other calls it is right again from the next seek on, while the tree is not higher than it was when the iterator was made."
  },
  {
   "property": "C97",
   "status": "proved",
   "theorems": [
    "Verif.Print.C97_array_stack",
    "Verif.Print.C97_list_stack",
    "Verif.Print.C97_listarray_stack",
    "Verif.Print.C97_array_list",
    "Verif.Print.C97_linked_list",
    "Verif.Print.C97_linked_hash_map",
    "Verif.Print.C97_hash_set",
    "Verif.Print.C97_tree_set",
    "Verif.Print.C97_readable"
   ],
   "note": "What %v gives for one element is an arbitrary function; what it gives for a slice is part of the model. Not modelled: String of hashmap, which prints a Go map."
  },
  {
   "property": "C98",
   "status": "proved",
   "theorems": [
    "Verif.Print.C98_lines",
    "Verif.Print.C98_empty",
    "Verif.Print.C98_picture_determines",
    "Verif.Print.C98_empty_differs"
   ],
   "note": "For the default IsDebugString = false."
  },
  {
   "property": "C99",
   "status": "partial",
   "theorems": [
    "Verif.Conc.C99_writer_owns",
    "Verif.Conc.C99_no_race_partial",
    "Verif.Conc.C99_locked_calls_partial",
    "Verif.Conc.C99_races"
   ],
   "note": "Writers always own the lock, and there is no race among the methods that lock. False for RemoveHead, the second list of DifferenceSets, and Next, Key/Value and SeekToFirst of iterators, which read without the lock: states with a race against Put are reached (concrete schedules), in which the order of the two accesses makes a difference."
  },
  {
   "property": "C100",
   "status": "partial",
   "theorems": [
    "Verif.ListHeap.C100_partial",
    "Verif.ListHeap.C100_small_partial",
    "Verif.ListHeap.C100_after_remove"
   ],
   "note": "For pointers used before the next call that may take entries out. False afterwards: Remove moves the entry of a neighbour into the node of the removed entry, so a pointer to the removed entry then shows and changes the neighbour, and writes through the pointer to the neighbour are lost (concrete runs). Panics only by the table of heights, excluded for lists with at most 63 entries (see C44)."
  },
  {
   "property": "C101",
   "status": "partial",
   "theorems": [
    "Verif.Exper.AvlLike.C101_walk_shallow_partial",
    "Verif.Exper.AvlLike.C101_walk_partial",
    "Verif.Exper.AvlLike.C101_seek_finds_smaller",
    "Verif.Exper.AvlLike.C101_least_denied",
    "Verif.Exper.AvlLike.C101_seek_wrong"
   ],
   "note": "Walks are proved for trees made by the calls of C80 that do not search (any size, Height() at most 126 before each call; always so up to 126 entries). The seeks for a key are wrong for every comparator of the usual convention: they take an entry with a smaller key for the key (proved in general, with concrete runs)."
  },
  {
   "property": "C102",
   "status": "partial",
   "theorems": [
    "Verif.Alloc.C102_ring",
    "Verif.Alloc.C102_ring_space",
    "Verif.Alloc.C102_ring_seen",
    "Verif.Alloc.C102_heap",
    "Verif.Alloc.C102_heap_space",
    "Verif.Alloc.C102_heap_seen",
    "Verif.Alloc.C102_stack",
    "Verif.Alloc.C102_stack_space",
    "Verif.Alloc.C102_stack_seen",
    "Verif.Alloc.C102_array_list"
   ],
   "note": "Proved for the circular buffer, the heap and the stack of segments, with the constants 15, 16 and 10 for the cells asked for, 2, 2 and 9 for the cells held. False for the array list: 805 calls with never more than 18 elements ask for more than 2^62 cells. The list made by Values is not counted."
  },
  {
   "property": "C103",
   "status": "partial",
   "theorems": [
    "Verif.Float.C103_numbers_lawful_partial",
    "Verif.Float.C103_nan_equals_all",
    "Verif.Float.C103_index_first_nan",
    "Verif.Float.C103_avl_first_nan",
    "Verif.Float.C103_skip_first_nan",
    "Verif.Float.C103_treelist_first_nan",
    "Verif.Float.C103_remove_nan",
    "Verif.Float.C103_avl_nan_hides",
    "Verif.Float.C103_heap_nan"
   ],
   "note": "Without NaN the comparators are lawful, so all theorems for lawful comparators hold. False with NaN, which counts as equal to every float: if NaN is the first key of an index tree, avl map, tree set, skip list or tree list, no later Put adds an entry (proved for all histories of puts), Remove(NaN) removes another key, a heap gives out 2 before 1 (concrete runs)."
  },
  {
   "property": "C104",
   "status": "partial",
   "theorems": [
    "Verif.AvlHeap.C104_quiet_callback_partial",
    "Verif.AvlHeap.C104_quiet_all_seen_partial",
    "Verif.AvlHeap.C104_union_self",
    "Verif.AvlHeap.C104_intersection_self",
    "Verif.AvlHeap.C104_put_misses_avl",
    "Verif.AvlHeap.C104_add_misses_treeset",
    "Verif.AvlHeap.C104_difference_self_leaves"
   ],
   "note": "On the model with pointers. Proved for callbacks whose calls add and take out no entry (reads, updates of entries that are there, removals of absent keys), and for Union and Intersection of a set with itself. False for callbacks that add or remove: an entry that stays in the tree is not seen after a rotation, and the difference of {1, 2, 3, 4} with itself is {3, 4} (concrete runs). A callback that itself calls Traverse has an inner callback that only reads its arguments."
  },
  {
   "property": "C105",
   "status": "partial",
   "theorems": [
    "Verif.AList.C105_array_rounds",
    "Verif.AList.C105_array_appends",
    "Verif.AList.C105_array_remove_skips",
    "Verif.AList.C105_array_front_repeats",
    "Verif.LList.C105_linked_follow",
    "Verif.LList.C105_linked_appends",
    "Verif.LList.C105_linked_remove_panics",
    "Verif.LList.C105_linked_clear_goes_on",
    "Verif.Queue.C105_queue_rounds_partial",
    "Verif.Queue.C105_queue_appends_partial",
    "Verif.Queue.C105_queue_reads",
    "Verif.Queue.C105_queue_append_skips"
   ],
   "note": "Appending: proved for both lists, and for circular queues that were never changed at the front; false for the others (an element is skipped and a value shown that never was in the queue). Also proved: the array list hands over in round i what has index i then, for all callbacks; the linked list goes to the element that comes after the current one then, for all callbacks that leave the current one in the list. Removal of the element handed over: false for both lists (array list skips the next one, linked list panics), concrete runs."
  },
  {
   "property": "C106",
   "status": "partial",
   "theorems": [
    "Verif.IndexHeap.C106_index_quiet_partial",
    "Verif.IndexHeap.C106_index_all_seen_partial",
    "Verif.IndexHeap.C106_index_put_misses",
    "Verif.IndexHeap.C106_index_remove_misses",
    "Verif.AvlsHeap.C106_avls_quiet_partial",
    "Verif.AvlsHeap.C106_avls_all_seen_partial",
    "Verif.AvlsHeap.C106_avls_put_misses",
    "Verif.AvlsHeap.C106_avls_remove_misses",
    "Verif.ListHeap.C106_list_quiet_partial",
    "Verif.ListHeap.C106_list_all_seen_partial",
    "Verif.ListHeap.C106_list_put_misses",
    "Verif.ListHeap.C106_list_remove_misses",
    "Verif.PriorityHeap.C106_priority_quiet_partial",
    "Verif.PriorityHeap.C106_priority_all_seen_partial",
    "Verif.PriorityHeap.C106_priority_put_misses",
    "Verif.PriorityHeap.C106_priority_remove_misses"
   ],
   "note": "On the models with pointers. Proved for callbacks whose calls add and take out no entry: the walk is the ideal walk over the list of entries, every key is seen once and in order up to the one at which the callback stops, later calls are answered right. False for callbacks that add or remove: an entry that stays is not seen (concrete runs for each of the four). A callback that itself calls Traverse has an inner callback that only reads its arguments. Index tree and tree list: histories without the calls for which the code is wrong by C37 to C47."
  },
  {
   "property": "C107",
   "status": "partial",
   "theorems": [
    "Verif.AvlHeap.C107_no_trace",
    "Verif.AvlHeap.C107_answers_partial",
    "Verif.AvlHeap.C107_avl",
    "Verif.AvlHeap.C107_treeset",
    "Verif.AvlsHeap.C107_no_trace",
    "Verif.AvlsHeap.C107_answers_partial",
    "Verif.AvlsHeap.C107_avls",
    "Verif.PriorityHeap.C107_no_trace",
    "Verif.PriorityHeap.C107_priority",
    "Verif.IndexHeap.C107_no_trace_partial",
    "Verif.IndexHeap.C107_index_partial",
    "Verif.IndexHeap.C107_removeRange_spoils",
    "Verif.IndexHeap.C107_trim_spoils",
    "Verif.IndexHeap.C107_split_spoils",
    "Verif.ListHeap.C107_no_trace_partial",
    "Verif.ListHeap.C107_list_partial",
    "Verif.ListHeap.C107_removeRange_spoils",
    "Verif.ListHeap.C107_trim_spoils",
    "Verif.Heap.C107_heap_partial",
    "Verif.Heap.C107_heap_recovers",
    "Verif.Heap.C107_heap_put_spoils",
    "Verif.Heap.C107_heap_pop_spoils",
    "Verif.Skip.C107_no_trace_partial",
    "Verif.Skip.C107_skip_partial",
    "Verif.Skip.C107_trim_spoils",
    "Verif.Skip.C107_removeRange_spoils"
   ],
   "note": "On the models with pointers. Proved for avl map, tree set, stable tree and priority queue: the same nodes and links as without the calls that panicked, for any comparison, and the answers of the ideal container for a lawful one (avl map, tree set and stable tree: any size and threshold as long as no call fails by itself, C107_answers_partial; that none does: fewer calls than room d for the avl map, 127 for the default threshold; histories without the calls for which the code is wrong). Index tree and tree list: proved for all calls except RemoveRange and Trim while they cut at the upper bound and Split after its first search; false for these (concrete runs: entries lost, Size wrong, links and tree disagree). Heap: false (Put leaves a zero value in it, Pop loses another entry, concrete runs); proved for all states that can be reached with panics: no other failure, no more than one slot is added, lost or overwritten, and Clear or Reset makes the heap right again. Skip list: proved for all calls except RemoveRangeByIndex and Trim (a panic of the function given to PutDuplicate included); these two may have removed a part of what they had to remove (concrete runs), proved to leave a list that is right otherwise. TrimByIndex excluded as in C58."
  },
  {
   "property": "C108",
   "status": "partial",
   "theorems": [
    "Verif.Avl.C108_map_answers",
    "Verif.Avl.C108_map_partial",
    "Verif.Avl.C108_map_negative",
    "Verif.Avl.C108_map_zero",
    "Verif.Avl.C108_treeset_heights_wrong",
    "Verif.Avl.C108_treeset_iterator_panics",
    "Verif.Avls.C108_avls_partial",
    "Verif.Avls.C108_avls_negative",
    "Verif.Avls.C108_avls_zero"
   ],
   "note": "Answers right for every threshold as long as no call panics (for avls C30_answers_right). No panic: proved for thresholds from 1 to 127 and histories with at most 126 calls that insert, although recorded heights may be wrong (concrete histories for thresholds 1, 3, 4; with 4 an iterator panics). False for thresholds below 1: with a negative one the second Put panics, with zero a Remove that leaves one entry (both for all keys). Missing: more than 126 insertions (false for threshold 1 of avl, see C25); for the default thresholds see C25, C30, C33."
  },
  {
   "property": "C109",
   "status": "proved",
   "theorems": [
    "Verif.Bloom.C109_values_exact",
    "Verif.Bloom.C109_no_false_negative",
    "Verif.Bloom.C109_refused",
    "Verif.Bloom.C109_not_writable",
    "Verif.Bloom.C109_bytes_injective",
    "Verif.Bloom.C109_layout",
    "Verif.Bloom.C109_big_endian",
    "Verif.Bloom.C109_types_confused",
    "Verif.Bloom.C109_last_byte",
    "Verif.Bloom.C109_one_byte_exact"
   ],
   "note": "binary.Write of the standard library is modelled on a small language of types (Bloom/Value.lean). C109_types_confused: values of different types may be the same key, such as true and uint8(1), or a number and the array of its bytes; slices of empty structs are all the same key."
  },
  {
   "property": "C110",
   "status": "proved",
   "theorems": [
    "Verif.Map.Nan.C110_hashmap",
    "Verif.Map.Nan.C110_hashset",
    "Verif.Map.Nan.C110_linkedhashmap",
    "Verif.Map.Nan.C110_hashmap_nans",
    "Verif.Map.Nan.C110_hashset_nans",
    "Verif.Map.Nan.C110_linkedhashmap_nans",
    "Verif.Map.Nan.C110_refused"
   ],
   "note": "The built-in map of Go is modelled with its rule for keys that are not equal to themselves (Map/NanModel.lean). Answers are those of C11, C12 and C14 for the history in which each call with a NaN has a key of its own. Keys that are equal are taken to be the same (+0 and -0)."
  },
  {
   "property": "C111",
   "status": "proved",
   "theorems": [
    "Verif.Bloom.C111_ratio",
    "Verif.Bloom.C111_monotone",
    "Verif.Bloom.C111_no_bits",
    "Verif.Bloom.C111_positives"
   ],
   "note": "Floats are rationals with NaN; of the rounding only monotonicity and that it keeps certain floats is assumed (structure Rounding, an instance that does round is given)."
  },
  {
   "property": "C112",
   "status": "partial",
   "theorems": [
    "Verif.Bloom.C112_reset_partial",
    "Verif.Bloom.C112_decoded",
    "Verif.Bloom.C112_no_bits"
   ],
   "note": "proved for New with 1 to 2^64-8 bits; false for decoded filters, where Reset returns early and HitSize stays (C112_decoded), and for filters of no bits, where Contains panics (C112_no_bits, C15_wraps)"
  }
 ]
}