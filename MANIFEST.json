{
 "claims": [
  {
   "property": "C01",
   "status": "partial",
   "theorems": [
    "CCC.Buf.C01_no_out_of_bounds_partial",
    "CCC.Buf.C01_returned_slot_in_bounds_partial",
    "CCC.Buf.C01_insert_full_undefined",
    "CCC.Buf.C01_shrink_then_push_undefined",
    "CCC.Buf.C01_erase_overlap_undefined",
    "CCC.Buf.C01_unrestricted_false"
   ],
   "note": "False without restriction (negations proved: insert on a full buffer, shrinking allocation followed by push, erase with overlapping memcpy). Proved for every history of the remaining calls, with memmove semantics for erase."
  },
  {
   "property": "C02",
   "status": "proved",
   "theorems": [
    "CCC.Buf.C02_stack_step",
    "CCC.Buf.C02_stack_history",
    "CCC.Buf.C02_access"
   ],
   "note": "Refinement to a list-as-stack for every history; every allocator outcome."
  },
  {
   "property": "C03",
   "status": "partial",
   "theorems": [
    "CCC.Buf.C03_size_exceeds_capacity",
    "CCC.Buf.C03_size_le_capacity_partial"
   ],
   "note": "False when alloc shrinks below the size (negation proved); proved for all other histories."
  },
  {
   "property": "C04",
   "status": "partial",
   "theorems": [
    "CCC.Buf.C04_size_minus",
    "CCC.Buf.C04_size_set",
    "CCC.Buf.C04_size_plus_partial",
    "CCC.Buf.C04_size_plus_wraps",
    "CCC.Buf.C04_word_agrees",
    "CCC.Buf.C04_growth_covers",
    "CCC.Buf.C04_explicit_alloc_overflows"
   ],
   "note": "Clamping proved in 64-bit arithmetic except size_plus, which wraps (witness proved) and is proved when the sum does not wrap."
  },
  {
   "property": "C05",
   "status": "partial",
   "theorems": [
    "CCC.Buf.C05_erase_partial",
    "CCC.Buf.C05_insert_duplicates",
    "CCC.Buf.C05_insert_contract_false",
    "CCC.Buf.C05_insert_at_end_partial"
   ],
   "note": "erase proved; insert violates its contract (negation proved) except at the end (proved)."
  },
  {
   "property": "C06",
   "status": "partial",
   "theorems": [
    "CCC.Buf.C06_forward",
    "CCC.Buf.C06_reverse_undefined_when_full",
    "CCC.Buf.C06_reverse_visits_extra",
    "CCC.Buf.C06_reverse_false",
    "CCC.Buf.C06_capacity",
    "CCC.Buf.C06_unallocated"
   ],
   "note": "Forward iteration proved; reverse iteration false (negation proved)."
  },
  {
   "property": "C07",
   "status": "partial",
   "theorems": [
    "CCC.Fdeq.C07_push_back",
    "CCC.Fdeq.C07_push_front",
    "CCC.Fdeq.C07_pop_front",
    "CCC.Fdeq.C07_pop_back",
    "CCC.Fdeq.C07_push_back_range_partial",
    "CCC.Fdeq.C07_push_front_range_partial",
    "CCC.Fdeq.C07_first_range_truncated",
    "CCC.Fdeq.C07_history_partial"
   ],
   "note": "Every history of pushes, pops, range pushes and clear with any allocator outcomes refines the sequence specification, except empty front ranges (C09_empty_front_range_breaks_front) and first ranges of more than eight elements on a queue without memory (C07_first_range_truncated: elements are lost); both exclusions are proved to be real failures of the code."
  },
  {
   "property": "C08",
   "status": "partial",
   "theorems": [
    "CCC.Fdeq.C08_push_back",
    "CCC.Fdeq.C08_push_front",
    "CCC.Fdeq.C08_zero_capacity_undefined",
    "CCC.Fdeq.C08_ring_history_partial"
   ],
   "note": "Ring of capacity c>0: push/pop proved in full, and every history equals the functional specification except empty front ranges; capacity 0 is proved undefined."
  },
  {
   "property": "C09",
   "status": "partial",
   "theorems": [
    "CCC.Fdeq.C09_push_back_range",
    "CCC.Fdeq.C09_push_front_range_partial",
    "CCC.Fdeq.C09_empty_front_range_breaks_front"
   ],
   "note": "Back ranges proved in full. Front ranges for non-empty ranges; for an empty one the code is proved to break front()."
  },
  {
   "property": "C10",
   "status": "proved",
   "theorems": [
    "CCC.Fdeq.C10_front",
    "CCC.Fdeq.C10_back",
    "CCC.Fdeq.C10_at",
    "CCC.Fdeq.C10_size",
    "CCC.Fdeq.C10_iterate",
    "CCC.Fdeq.C10_iterate_reverse"
   ],
   "note": "front/back/at/size and complete forward and backward iteration for every state."
  },
  {
   "property": "C11",
   "status": "partial",
   "theorems": [
    "CCC.Fdeq.C11_clear",
    "CCC.Fdeq.C11_clear_destructor_partial",
    "CCC.Fdeq.C11_clear_destructor_keeps_size",
    "CCC.Fdeq.C11_clear_destructor_full",
    "CCC.Fdeq.C11_clear_destructor_zero_capacity"
   ],
   "note": "Without destructor proved. With a destructor the call order/once-per-element is proved for a non-full queue; the size is proved never to be reset, a full queue is proved to have no destructor call, a queue without memory divides by zero."
  },
  {
   "property": "C12",
   "status": "proved",
   "theorems": [
    "CCC.Fdeq.C12_copy",
    "CCC.Fdeq.C12_copy_refused_corrupts"
   ],
   "note": "Result code characterised exactly; on success same sequence. Additionally: a refused copy is proved to corrupt the destination's size (C12_copy_refused_corrupts)."
  },
  {
   "property": "C13",
   "status": "partial",
   "theorems": [
    "CCC.Fpq.C13_heapify_init_partial",
    "CCC.Fpq.C13_heapify_init_full_array_lost",
    "CCC.Fpq.C13_front",
    "CCC.Fpq.C13_history"
   ],
   "note": "Proved for every history of push/front/pop/erase/update/increase/decrease/heapify/clear and for heapify_init with a spare slot; heapify_init on a full array loses the elements (witness proved)."
  },
  {
   "property": "C14",
   "status": "proved",
   "theorems": [
    "CCC.Fpq.C14_push",
    "CCC.Fpq.C14_pop",
    "CCC.Fpq.C14_pop_empty",
    "CCC.Fpq.C14_erase",
    "CCC.Fpq.C14_update",
    "CCC.Fpq.C14_heapify",
    "CCC.Fpq.C14_clear",
    "CCC.Fpq.C14_step",
    "CCC.Fpq.C14_copy"
   ],
   "note": "Each call changes the bag of elements exactly as documented; also heapify, clear and copy."
  },
  {
   "property": "C15",
   "status": "proved",
   "theorems": [
    "CCC.Fpq.C14_push",
    "CCC.Fpq.C14_update",
    "CCC.Fpq.C14_step",
    "CCC.Fpq.C13_history"
   ],
   "note": ""
  },
  {
   "property": "C16",
   "status": "partial",
   "theorems": [
    "CCC.Fpq.C16_push_refused",
    "CCC.Fpq.C16_emplace_refused_not_unchanged"
   ],
   "note": "Proved for ccc_fpq_push; the emplace macro violates it (witness proved)."
  },
  {
   "property": "C17",
   "status": "proved",
   "theorems": [
    "CCC.Fpq.C17_drain_sorts"
   ],
   "note": ""
  },
  {
   "property": "C18",
   "status": "partial",
   "theorems": [
    "CCC.Pq.C18_pq_front_partial",
    "CCC.Pq.C18_pq_violated"
   ],
   "note": "Every history of push, pop, extract, erase, update, increase, decrease, clear of user owned structs, every total preorder, both orders. Excluded because the code gets it wrong: raising (increase in a max queue, decrease in a min queue) an element that an earlier update, increase or decrease brought to the front (C18_pq_violated: an erased element comes back)."
  },
  {
   "property": "C19",
   "status": "partial",
   "theorems": [
    "CCC.Pq.C19_pq_step_partial",
    "CCC.Pq.C19_pq_history_partial",
    "CCC.Pq.C19_pq_size_partial",
    "CCC.Pq.C19_pq_refuse",
    "CCC.Pq.C19_pq_extracted",
    "CCC.Pq.C19_pq_violated",
    "CCC.Pq.C19_pq_violated_lost"
   ],
   "note": "As C18; every answer, the exact set of elements, the size, no use of NULL or foreign memory. The excluded calls write through stale sibling links (C19_pq_violated: use of memory given away; C19_pq_violated_lost: elements are lost and come out in the wrong order though none was removed)."
  },
  {
   "property": "C20",
   "status": "partial",
   "theorems": [
    "CCC.Sll.C20_sll_step_partial",
    "CCC.Sll.C20_sll_history_partial",
    "CCC.Sll.C20_sll_iterate",
    "CCC.Sll.C20_sll_values",
    "CCC.Sll.C20_sll_refuse",
    "CCC.Sll.C20_sll_refuse_sentinel",
    "CCC.Sll.C20_sll_violated_splice",
    "CCC.Sll.C20_sll_violated_range",
    "CCC.Sll.C20_sll_violated_begin_elem"
   ],
   "note": "Every history of the full interface over any number of lists, with and without allocation, every answer of the allocator. Partial because the code departs from the documentation: splice and splice_range put elements after pos (C20_sll_violated_splice), the end of a range is part of it (C20_sll_violated_range), begin_elem of an empty list is the sentinel (C20_sll_violated_begin_elem). The specification proved follows the code in these points."
  },
  {
   "property": "C21",
   "status": "partial",
   "theorems": [
    "CCC.Dll.C21_dll_step_partial",
    "CCC.Dll.C21_dll_history_partial",
    "CCC.Dll.C21_dll_nopop_partial",
    "CCC.Dll.C21_dll_iterate",
    "CCC.Dll.C21_dll_reverse_partial",
    "CCC.Dll.C21_dll_reverse_tail_partial",
    "CCC.Dll.C21_dll_values",
    "CCC.Dll.C21_dll_refuse",
    "CCC.Dll.C21_dll_violated_push_back",
    "CCC.Dll.C21_dll_violated_lost",
    "CCC.Dll.C21_dll_violated_freed",
    "CCC.Dll.C21_dll_violated_reverse",
    "CCC.Dll.C21_dll_violated_pop_back",
    "CCC.Dll.C21_dll_violated_insert",
    "CCC.Dll.C21_dll_violated_splice_range",
    "CCC.Dll.C21_dll_violated_range"
   ],
   "note": "Every history of the full interface over any number of lists, with and without allocation, every answer of the allocator, of calls that use no back link left stale by pop_front or clear (C21_dll_step_partial, C21_dll_reverse_partial; C21_dll_nopop_partial: all histories without pop_front and clear). Excluded because the code gets it wrong: push_back to a list emptied by pop_front or clear loses the element or writes to freed memory (C21_dll_violated_push_back, _lost, _freed), pop_back, insert and reverse iteration after pop_front (C21_dll_violated_pop_back, _insert, _reverse), splice_range of a long range into a short list fails an assertion (C21_dll_violated_splice_range), answers of the range calls (C21_dll_violated_range)."
  },
  {
   "property": "C22",
   "status": "partial",
   "theorems": [
    "CCC.Dll.C22_dll_erase_partial",
    "CCC.Dll.C22_dll_violated"
   ],
   "note": "Removes exactly the element, answers NULL exactly for the last (C22_dll_erase_partial). False otherwise: the answer is the erased element itself, which an allocating list has given away (C22_dll_violated)."
  },
  {
   "property": "C23",
   "status": "partial",
   "theorems": [
    "CCC.Om.C23_om_history_partial",
    "CCC.Om.C23_om_history",
    "CCC.Om.C23_om_sorted"
   ],
   "note": "Full interface incl. entry functions and lazy macros, user owned and allocated structs, every history; the one excluded call is contains on an empty map (C26_om_violated)."
  },
  {
   "property": "C24",
   "status": "proved",
   "theorems": [
    "CCC.Om.C24_om_iteration"
   ],
   "note": "Both directions; iteration functions return no new state."
  },
  {
   "property": "C25",
   "status": "proved",
   "theorems": [
    "CCC.Fom.C25_fom_range_ends",
    "CCC.Fom.C25_fom_range",
    "CCC.Fom.C25_fom_rrange",
    "CCC.Frm.C25_frm_range_ends",
    "CCC.Frm.C25_frm_range",
    "CCC.Frm.C25_frm_rrange",
    "CCC.Om.C25_om_range_ends",
    "CCC.Om.C25_om_range",
    "CCC.Om.C25_om_rrange",
    "CCC.Rom.C25_rom_range_ends",
    "CCC.Rom.C25_rom_range",
    "CCC.Rom.C25_rom_rrange"
   ],
   "note": "All four ordered maps, both directions; every key pair for the end points, iteration for ordered pairs (on the state the query leaves, for the splay maps)."
  },
  {
   "property": "C26",
   "status": "partial",
   "theorems": [
    "CCC.Fom.C26_fom_empty_partial",
    "CCC.Fom.C26_fom_violated",
    "CCC.Fom.C26_fom_violated_history",
    "CCC.Frm.C26_frm_empty",
    "CCC.Om.C26_om_empty_partial",
    "CCC.Om.C26_om_violated",
    "CCC.Omm.C26_omm_empty_partial",
    "CCC.Omm.C26_omm_violated_contains",
    "CCC.Omm.C26_omm_violated_ends",
    "CCC.Rom.C26_rom_empty"
   ],
   "note": "Proved for the realtime map and the flat realtime map for any comparison function; for the two splay maps proved for every query but contains, which compares the key with the sentinel (C26_om_violated) or with stale data in slot 0 (C26_fom_violated, C26_fom_violated_history: an empty map says it contains 5). Multimap: find, entry, begin, rbegin, ranges and pops proved whatever the comparison function; false for contains (C26_omm_violated_contains), max and min (C26_omm_violated_ends)."
  },
  {
   "property": "C27",
   "status": "proved",
   "theorems": [
    "CCC.Fom.C27_fom_locality",
    "CCC.Om.C27_om_locality"
   ],
   "note": "Ordered map and flat ordered map: after every call that looks up or inserts a key that is stored afterwards, its element is the root, and a lookup of it succeeds for every comparison function that is right about the root alone."
  },
  {
   "property": "C28",
   "status": "partial",
   "theorems": [
    "CCC.Fom.C28_fom_history_partial",
    "CCC.Fom.C28_fom_sorted",
    "CCC.Fom.C28_fom_compact",
    "CCC.Fom.C28_fom_iteration"
   ],
   "note": "Full interface; every history from a fresh map over arbitrary memory, every allocator outcome; slots 1..size are exactly the stored elements, iteration in key order. The one excluded call is contains on an empty map (C26_fom_violated)."
  },
  {
   "property": "C29",
   "status": "proved",
   "theorems": [
    "CCC.Rom.C29_rom_history",
    "CCC.Rom.C29_rom_sorted"
   ],
   "note": "Full interface incl. entry functions, lazy macros, allocating and non-allocating maps; every history, every allocator outcome."
  },
  {
   "property": "C30",
   "status": "partial",
   "theorems": [
    "CCC.Frm.C30_frm_ranks_partial",
    "CCC.Frm.C30_frm_balanced_partial",
    "CCC.Rom.C30_rom_ranks",
    "CCC.Rom.C30_rom_balanced"
   ],
   "note": "Proved for the realtime map. For the flat one proved except after clear on a never used map with memory (C46_frm_violated). Both realtime maps: the rank rules and the resulting bound on every descent."
  },
  {
   "property": "C31",
   "status": "partial",
   "theorems": [
    "CCC.Frm.C31_frm_iteration_partial",
    "CCC.Rom.C31_rom_iteration"
   ],
   "note": "Proved for the realtime map. For the flat one proved except after clear on a never used map with memory. Both realtime maps, both directions."
  },
  {
   "property": "C32",
   "status": "partial",
   "theorems": [
    "CCC.Frm.C32_frm_history_partial",
    "CCC.Frm.C32_frm_sorted_partial",
    "CCC.Frm.C32_frm_compact_partial"
   ],
   "note": "Full interface; every history from a fresh map over arbitrary memory, every allocator outcome; slots 1..size are exactly the stored elements. The one excluded call is clear on a never used map with memory (see C46)."
  },
  {
   "property": "C33",
   "status": "proved",
   "theorems": [
    "CCC.Frm.C33_frm_pure",
    "CCC.Rom.C33_rom_pure",
    "CCC.Rom.C33_rom_repeat"
   ],
   "note": "Both realtime maps; no hypothesis on the state."
  },
  {
   "property": "C34",
   "status": "partial",
   "theorems": [
    "CCC.Omm.C34_omm_history_partial",
    "CCC.Omm.C34_omm_history",
    "CCC.Omm.C34_omm_max",
    "CCC.Omm.C34_omm_min_partial",
    "CCC.Omm.C34_omm_get",
    "CCC.Omm.C34_omm_remove",
    "CCC.Omm.C34_omm_insert"
   ],
   "note": "Every history of the full interface, with and without allocation, every answer of the allocator, every total preorder, every degree of duplication; every returned pointer, value and status. Excluded because the code gets it wrong: contains, max and min of an empty multimap (C26_omm_violated_contains, _ends), with an allocation function the inserting calls that link the caller's struct and pop_min unless the handle comes first (C58_omm_violated_try_insert, _pop_min), and extracting for a second time (C36_omm_violated)."
  },
  {
   "property": "C35",
   "status": "proved",
   "theorems": [
    "CCC.Omm.C35_omm_iteration",
    "CCC.Omm.C35_omm_reverse",
    "CCC.Omm.C35_omm_range",
    "CCC.Omm.C35_omm_rrange"
   ],
   "note": "Every reachable multimap, whole iteration and both kinds of range, in the direction the code has (descending, see C59)."
  },
  {
   "property": "C36",
   "status": "partial",
   "theorems": [
    "CCC.Omm.C36_omm_extract",
    "CCC.Omm.C36_omm_update",
    "CCC.Omm.C36_omm_again_partial",
    "CCC.Omm.C36_omm_violated"
   ],
   "note": "Any stored element in any position, exactly that element, order of the others; a second extraction answers NULL except for an element that was extracted from behind two or more older ones with the same key, where it fails an assertion (C36_omm_violated)."
  },
  {
   "property": "C37",
   "status": "partial",
   "theorems": [
    "CCC.Fhm.C37_fhm_history_partial",
    "CCC.Fhm.C37_fhm_unique",
    "CCC.Fhm.C37_fhm_violated"
   ],
   "note": "Every history of the full interface (functions and macros), every hash function, both slot mappings (modulo and fast range), every allocator outcome, capacity 0 or at least 6, arbitrary initial memory. Excluded: capacities 1..5 (C40_fhm_violated), get/remove/validate on memory still holding garbage (C37_fhm_violated, C42_fhm_violated), entries of stored keys after failed growth (C44_fhm_violated)."
  },
  {
   "property": "C38",
   "status": "proved",
   "theorems": [
    "CCC.Fhm.C38_fhm_lookup",
    "CCC.Fhm.C38_fhm_insert",
    "CCC.Fhm.C38_fhm_remove"
   ],
   "note": "get, insert, insert_or_assign, remove: return with at most capacity slots looked at (counted in the model). Capacity 0 or at least 6."
  },
  {
   "property": "C39",
   "status": "proved",
   "theorems": [
    "CCC.Fhm.C39_fhm_growth"
   ],
   "note": "maybe_resize: same contents whatever the outcome; on failure the map is unchanged. Together with C37 for whole histories."
  },
  {
   "property": "C40",
   "status": "partial",
   "theorems": [
    "CCC.Fhm.C40_fhm_fixed_partial",
    "CCC.Fhm.C40_fhm_violated",
    "CCC.Fhm.C40_fhm_violated_four",
    "CCC.Fhm.C40_fhm_violated_five",
    "CCC.Fhm.C40_fhm_tiny"
   ],
   "note": "Proved for every fixed capacity of at least 6 and, as every insertion is refused there, at 1 and 2; false at exactly 3, 4 and 5 (C40_fhm_violated, _four, _five)."
  },
  {
   "property": "C41",
   "status": "proved",
   "theorems": [
    "CCC.Fhm.C41_fhm_iteration"
   ],
   "note": "Every reachable map."
  },
  {
   "property": "C42",
   "status": "partial",
   "theorems": [
    "CCC.Fhm.C42_fhm_clear_partial",
    "CCC.Fhm.C42_fhm_violated"
   ],
   "note": "size, iteration, contains and all later histories of entry based calls; false for get right after clear and for clear with a destructor (C42_fhm_violated)."
  },
  {
   "property": "C43",
   "status": "partial",
   "theorems": [
    "CCC.Fhm.C43_fhm_copy_partial",
    "CCC.Fhm.C43_fhm_violated"
   ],
   "note": "Proved for equal capacity or a smaller destination that obtains memory; false for larger destinations (C43_fhm_violated)."
  },
  {
   "property": "C44",
   "status": "partial",
   "theorems": [
    "CCC.Fhm.C44_fhm_entry_partial",
    "CCC.Fhm.C44_fhm_violated"
   ],
   "note": "Proved if there is room or the map can grow; false otherwise for every reachable map and stored key (C44_fhm_violated)."
  },
  {
   "property": "C45",
   "status": "proved",
   "theorems": [
    "CCC.C45_predicates",
    "CCC.C45_unwrap",
    "CCC.C45_distinct"
   ],
   "note": "Every status word."
  },
  {
   "property": "C46",
   "status": "partial",
   "theorems": [
    "CCC.Dll.C46_dll_validate_partial",
    "CCC.Fdeq.C46_fdeq_validate",
    "CCC.Fhm.C46_fhm_validate_partial",
    "CCC.Fhm.C46_fhm_violated",
    "CCC.Fom.C46_fom_validate",
    "CCC.Fpq.C46_fpq_validate",
    "CCC.Fpq.C46_fpq_validate_sound",
    "CCC.Frm.C46_frm_validate_partial",
    "CCC.Frm.C46_frm_violated",
    "CCC.Om.C46_om_validate",
    "CCC.Omm.C46_omm_validate",
    "CCC.Pq.C46_pq_validate_partial",
    "CCC.Pq.C46_pq_violated",
    "CCC.Rom.C46_rom_validate",
    "CCC.Sll.C46_sll_validate"
   ],
   "note": "Proved for flat priority queue, deque, ordered map, flat ordered map, realtime map, multimap, singly linked list, and doubly linked list (for the histories of C21). For the flat realtime map false when clear is the first call on a map with memory (C46_frm_violated), for the hash map false after clear of a map in use (C46_fhm_violated), for the pairing heap false after increase/decrease/update brings an element to the front (C46_pq_violated); proved otherwise."
  },
  {
   "property": "C47",
   "status": "partial",
   "theorems": [
    "CCC.Fdeq.C47_fdeq_clear_and_free",
    "CCC.Fdeq.C47_fdeq_clear_and_free_destructor_keeps_size",
    "CCC.Fhm.C47_fhm_clear_and_free_partial",
    "CCC.Fhm.C47_fhm_violated",
    "CCC.Fom.C47_fom_clear_and_free_partial",
    "CCC.Fom.C47_fom_violated",
    "CCC.Fpq.C47_fpq_clear_and_free_not_empty",
    "CCC.Fpq.C47_fpq_push_after_free_undefined",
    "CCC.Fpq.C47_fpq_clear_and_free_partial",
    "CCC.Frm.C47_frm_clear_and_free_partial",
    "CCC.Frm.C47_frm_violated"
   ],
   "note": "False for the deque with destructor, for the flat ordered and flat realtime maps after use (size kept, next insert writes through NULL), for the hash map with destructor, and see the _violated theorems for others; the cases that hold are proved."
  },
  {
   "property": "C48",
   "status": "partial",
   "theorems": [
    "CCC.Fdeq.C48_insert_range_end_partial",
    "CCC.Fdeq.C48_insert_range_begin_partial",
    "CCC.Fdeq.C48_insert_range_middle_partial",
    "CCC.Fdeq.C48_insert_range_wrap_loses_element",
    "CCC.Fdeq.C48_insert_range_reads_out_of_bounds",
    "CCC.Fdeq.C48_insert_range_after_growth_undefined"
   ],
   "note": "End, begin and middle insertion proved when there is room and (middle) neither the tail nor its destination wraps; begin returns the last element of the range instead of its start; wrapping middle insertions are proved to lose elements or read out of bounds; growth is proved to use a dangling position."
  },
  {
   "property": "C49",
   "status": "partial",
   "theorems": [
    "CCC.Fdeq.C49_emplace_back_returns_null",
    "CCC.Fdeq.C49_emplace_front_returns_null"
   ],
   "note": "Violated by the code: the element is stored but the macro always evaluates to NULL (both theorems prove this)."
  },
  {
   "property": "C50",
   "status": "partial",
   "theorems": [
    "CCC.Fom.C50_fom_lazy",
    "CCC.Frm.C50_frm_lazy",
    "CCC.Om.C50_om_partial",
    "CCC.Om.C50_om_violated",
    "CCC.Omm.C50_omm_violated",
    "CCC.Omm.C50_omm_partial",
    "CCC.Rom.C50_rom_partial",
    "CCC.Rom.C50_rom_violated"
   ],
   "note": "False for the ordered map and the realtime map whenever an insertion succeeds (C50_om_violated, C50_rom_violated); storage and returned pointer proved right. Holds for the flat ordered map and the flat realtime map (C50_fom_lazy, C50_frm_lazy). Multimap: false in the same way (C50_omm_violated)."
  },
  {
   "property": "C51",
   "status": "partial",
   "theorems": [
    "CCC.Dll.C51_dll_clear_partial",
    "CCC.Dll.C51_dll_violated",
    "CCC.Fhm.C51_fhm_destroy_partial",
    "CCC.Fom.C51_fom_clear_partial",
    "CCC.Fom.C51_fom_violated",
    "CCC.Frm.C51_frm_clear_partial",
    "CCC.Frm.C51_frm_violated",
    "CCC.Om.C51_om_clear",
    "CCC.Omm.C51_omm_clear",
    "CCC.Pq.C51_pq_clear",
    "CCC.Rom.C51_rom_clear",
    "CCC.Sll.C51_sll_clear"
   ],
   "note": "Proved for the ordered map, the multimap, the realtime map, the pairing heap and the singly linked list. Doubly linked list: each element once, but an element pushed at the back afterwards is lost (C51_dll_violated). For the flat maps proved for maps in use with two or more slots, false for a never used map with memory (C51_fom_violated, C51_frm_violated). Hash map: each element once, proved for maps in use."
  },
  {
   "property": "C52",
   "status": "partial",
   "theorems": [
    "CCC.Fhm.C52_fhm_insert",
    "CCC.Fhm.C52_fhm_insert_new",
    "CCC.Fom.C52_fom_insert_partial",
    "CCC.Fom.C52_fom_violated",
    "CCC.Frm.C52_frm_insert_partial",
    "CCC.Frm.C52_frm_violated",
    "CCC.Om.C52_om_insert",
    "CCC.Rom.C52_rom_insert"
   ],
   "note": "Proved for the ordered map, the realtime map and the hash map. False for the flat ordered maps: the entry unwraps to the slot in the map holding the new value (C52_fom_violated, C52_frm_violated); the old value is in the user's struct."
  },
  {
   "property": "C53",
   "status": "partial",
   "theorems": [
    "CCC.Fhm.C53_fhm_copy_partial",
    "CCC.Fhm.C53_fhm_violated",
    "CCC.Fom.C53_fom_copy",
    "CCC.Fom.C53_fom_violated",
    "CCC.Frm.C53_frm_copy",
    "CCC.Frm.C53_frm_violated"
   ],
   "note": "Flat ordered and flat realtime map: proved for every successful copy; hash map: proved unless the destination is larger (C43_fhm_violated). False after a refused allocation (C53_fom_violated, C53_frm_violated, C53_fhm_violated)."
  },
  {
   "property": "C54",
   "status": "partial",
   "theorems": [
    "CCC.Pq.C54_pq_drain_partial"
   ],
   "note": "Every reachable queue with user owned structs (reachable without the calls excluded in C18)."
  },
  {
   "property": "C55",
   "status": "partial",
   "theorems": [
    "CCC.Pq.C55_pq_violated",
    "CCC.Pq.C55_pq_violated_offset",
    "CCC.Pq.C55_pq_violated_emplace",
    "CCC.Pq.C55_pq_refused_partial"
   ],
   "note": "False: with the handle as first field the caller's struct is linked instead of the copy (C55_pq_violated), otherwise the link is no handle at all (C55_pq_violated_offset); emplace leaks a second struct (C55_pq_violated_emplace). The refusal of memory is handled as documented (C55_pq_refused_partial)."
  },
  {
   "property": "C56",
   "status": "partial",
   "theorems": [
    "CCC.Dll.C56_dll_extracted_partial",
    "CCC.Dll.C56_dll_violated",
    "CCC.Sll.C56_sll_extracted_partial",
    "CCC.Sll.C56_sll_violated"
   ],
   "note": "Singly and doubly linked list: proved if the handle is the first field of the user's struct, false otherwise (C56_sll_violated, C56_dll_violated)."
  },
  {
   "property": "C57",
   "status": "partial",
   "theorems": [
    "CCC.Dll.C57_dll_validate_partial",
    "CCC.Dll.C57_dll_violated_reverse",
    "CCC.Sll.C57_sll_validate",
    "CCC.Om.C57_om_validate",
    "CCC.Rom.C57_rom_validate",
    "CCC.Rom.C57_rom_unbalanced_accepted",
    "CCC.Fom.C57_fom_validate_partial",
    "CCC.Fom.C57_fom_violated",
    "CCC.Frm.C57_frm_validate_partial",
    "CCC.Frm.C57_frm_violated",
    "CCC.Fdeq.C57_fdeq_validate",
    "CCC.Fhm.C57_fhm_validate",
    "CCC.Fhm.C57_fhm_validate_history",
    "CCC.Fhm.C57_fhm_lost_accepted",
    "CCC.Fpq.C57_fpq_validate_partial",
    "CCC.Fpq.C57_fpq_violated",
    "CCC.Pq.C57_pq_violated",
    "CCC.Pq.C57_pq_violated_shared",
    "CCC.Omm.C57_omm_violated",
    "CCC.Omm.C57_omm_validate_partial",
    "CCC.Omm.C57_omm_rings",
    "CCC.Omm.C57_omm_wrong_size",
    "CCC.Pq.C57_pq_validate_partial",
    "CCC.Pq.C57_pq_neighbours",
    "CCC.Pq.C57_pq_wrong_size"
   ],
   "note": "Proved for every memory: singly linked list, ordered map, realtime map, deque, hash map. Doubly linked list: proved forwards, false in reverse for reachable lists (C57_dll_violated_reverse). Flat ordered maps: proved when there is a root or the buffer is empty, false for a buffer in use without a root (C57_fom_violated, C57_frm_violated). Pairing heap: proved, with every later history, for memories in which neighbouring siblings know each other and the root has none (C57_pq_validate_partial); validation checks neither, and is wrong without (C57_pq_violated, C57_pq_violated_shared). Multimap: proved, with every later history, for memories whose rings of duplicates are in order (C57_omm_validate_partial); validation does not look at them (C57_omm_violated). Every reachable state meets these conditions (C57_pq_neighbours, C57_omm_rings) and a wrong size is never accepted (C57_pq_wrong_size, C57_omm_wrong_size). Beyond the property: for the splay maps and, under conditions validation does not check, the hash map, every later history is right too; validation of the realtime map does not establish balance (C57_rom_unbalanced_accepted), that of the hash map accepts an element no lookup finds (C57_fhm_lost_accepted). Flat priority queue: proved when a slot is free, false for a full queue (C57_fpq_violated)."
  },
  {
   "property": "C58",
   "status": "partial",
   "theorems": [
    "CCC.Omm.C58_omm_owned_partial",
    "CCC.Omm.C58_omm_violated_try_insert",
    "CCC.Omm.C58_omm_violated_pop_min"
   ],
   "note": "What the multimap stores through insert and the macros came from the allocation function (C58_omm_owned_partial). False for try_insert, insert_or_assign, or_insert and insert_entry, which link the caller's struct and free it on removal (C58_omm_violated_try_insert), and for pop_min, which frees a wrong address unless the handle is the first field (C58_omm_violated_pop_min)."
  },
  {
   "property": "C59",
   "status": "partial",
   "theorems": [
    "CCC.Omm.C59_omm_violated",
    "CCC.Omm.C59_omm_violated_sample"
   ],
   "note": "False: begin is the oldest greatest element and next descends (C59_omm_violated); the order the code has is C35."
  },
  {
   "property": "C60",
   "status": "partial",
   "theorems": [
    "CCC.Omm.C60_omm_violated"
   ],
   "note": "False: a duplicate is stored and the existing element is left as it is (C60_omm_violated)."
  },
  {
   "property": "C61",
   "status": "partial",
   "theorems": [
    "CCC.Buf.C61_index",
    "CCC.Buf.C61_buffer_array_partial"
   ],
   "note": "Every history without the calls the code gets wrong: an allocation below the size (C01_shrink_then_push_undefined), an insertion before the end (C05_insert_duplicates), an erase that moves two or more elements unless memcpy tolerates overlap (C01_erase_overlap_undefined)."
  },
  {
   "property": "C62",
   "status": "partial",
   "theorems": [
    "CCC.Om.C62_om_amortized",
    "CCC.Om.C62_om_begin_violated",
    "CCC.Fom.C62_fom_amortized",
    "CCC.Omm.C62_omm_amortized",
    "CCC.Omm.C62_omm_begin_violated",
    "CCC.Fom.C62_fom_begin_violated"
   ],
   "note": "Proved for the ordered map, the flat ordered map and the multimap with explicit constants, all calls but validate. False for begin and rbegin, which walk down the tree without splaying (C62_om_begin_violated, C62_fom_begin_violated, C62_omm_begin_violated)."
  },
  {
   "property": "C63",
   "status": "partial",
   "theorems": [
    "CCC.Rom.C63_rom_logarithmic",
    "CCC.Rom.C63_rom_clear",
    "CCC.Rom.C63_rom_clear_violated",
    "CCC.Frm.C63_frm_logarithmic",
    "CCC.Frm.C63_frm_amortized"
   ],
   "note": "Proved with explicit constants for both maps, all calls but validate and the realtime map's clear. Clearing takes at most O(n log n) accesses (C63_rom_clear) and the documented O(n) is false: no linear bound holds (C63_rom_clear_violated)."
  },
  {
   "property": "C64",
   "status": "proved",
   "theorems": [
    "CCC.Fpq.C64_fpq_logarithmic",
    "CCC.Fpq.C64_fpq_heapify",
    "CCC.Fpq.C64_fpq_heapify_init",
    "CCC.Fpq.C64_fpq_amortized"
   ],
   "note": "Explicit constants, each call, and histories from a new queue with moves of the buffer included. Counted: comparisons and element copies."
  },
  {
   "property": "C65",
   "status": "partial",
   "theorems": [
    "CCC.Pq.C65_pq_amortized_partial",
    "CCC.Pq.C65_pq_push",
    "CCC.Pq.C65_pq_raise_partial",
    "CCC.Pq.C65_pq_update_violated"
   ],
   "note": "Proved with explicit constants for queues with user owned elements, for histories without the calls the code gets wrong (as in C19), validate not counted. False for a single update, documented as O(lgN) in the worst case: it may take linear time (C65_pq_update_violated)."
  },
  {
   "property": "C66",
   "status": "proved",
   "theorems": [
    "CCC.C66_result_msg",
    "CCC.C66_status_msg"
   ],
   "note": "Result codes are taken as values of an unsigned type."
  },
  {
   "property": "C67",
   "status": "partial",
   "theorems": [
    "CCC.Omm.C67_omm_max_dups",
    "CCC.Omm.C67_omm_min_dups_partial",
    "CCC.Omm.C67_omm_pop_violated"
   ],
   "note": "Proved for the calls while an element of that key remains: exactly one comparison each, with the specified answers (pop_min without the defect of C58). The pop of the last such element is not constant, although documented as O(1): it joins two trees with a splay (C67_omm_pop_violated)."
  },
  {
   "property": "C68",
   "status": "partial",
   "theorems": [
    "CCC.Omm.C68_omm_extract_partial",
    "CCC.Omm.C68_omm_extract_violated",
    "CCC.Omm.C68_omm_remove_entry_violated"
   ],
   "note": "Extraction of an element with two older elements of the same key makes no comparison. False otherwise: the group is splayed and its tree joined (C68_omm_extract_violated), and remove_entry splays and joins too (C68_omm_remove_entry_violated)."
  },
  {
   "property": "C69",
   "status": "proved",
   "theorems": [
    "CCC.Omm.C69_omm_traverse",
    "CCC.Om.C69_om_traverse",
    "CCC.Rom.C69_rom_traverse",
    "CCC.Rom.C69_rom_range",
    "CCC.Rom.C69_rom_rrange",
    "CCC.Fom.C69_fom_traverse",
    "CCC.Frm.C69_frm_traverse",
    "CCC.Frm.C69_frm_range",
    "CCC.Frm.C69_frm_rrange"
   ],
   "note": "Whole loops in both directions: at most six accesses per element for the ordered map, the realtime map and the two flat maps, at most thirty for the multimap; ranges of the realtime maps: six per element and a logarithm."
  },
  {
   "property": "C70",
   "status": "partial",
   "theorems": [
    "CCC.Omm.C70_omm_dup_partial",
    "CCC.Omm.C70_omm_rnext_violated",
    "CCC.Om.C70_om_rnext_violated",
    "CCC.Rom.C70_rom_next_partial",
    "CCC.Rom.C70_rom_next_violated",
    "CCC.Fom.C70_fom_rnext_violated",
    "CCC.Frm.C70_frm_next_partial",
    "CCC.Frm.C70_frm_next_violated"
   ],
   "note": "False in all five containers: a single step climbs or descends the tree (C70_om_rnext_violated, C70_fom_rnext_violated, C70_omm_rnext_violated, C70_rom_next_violated, C70_frm_next_violated). What holds: logarithmic in the worst case for the realtime maps, constant between elements of the multimap with equal keys, and constant on average over a whole loop (C69)."
  },
  {
   "property": "C71",
   "status": "proved",
   "theorems": [
    "CCC.Buf.C71_buf_amortized",
    "CCC.Fdeq.C71_fdeq_amortized",
    "CCC.Fdeq.C71_fdeq_new",
    "CCC.Fdeq.C71_fdeq_fixed",
    "CCC.Fdeq.C71_fdeq_worst",
    "CCC.Fdeq.C71_fdeq_insert_range"
   ],
   "note": "Explicit constant three, any initial state. Every defined history; which histories are defined is C02 and C07 (C71_fdeq_new). The allocation function is taken to copy every old slot when it moves a buffer."
  },
  {
   "property": "C72",
   "status": "proved",
   "theorems": [
    "CCC.Om.C72_om_calls",
    "CCC.Om.C72_om_balance",
    "CCC.Om.C72_om_clear",
    "CCC.Om.C72_om_fixed",
    "CCC.Rom.C72_rom_calls",
    "CCC.Rom.C72_rom_balance",
    "CCC.Rom.C72_rom_clear",
    "CCC.Rom.C72_rom_fixed"
   ],
   "note": "Histories of defined calls (those of C23 and C29); the allocator may refuse any request. The blocks are those the model's own calls of the allocation function name: the model writes every call down (Model/OrderedMapLedger.lean, Model/RealtimeMapLedger.lean)."
  },
  {
   "property": "C73",
   "status": "partial",
   "theorems": [
    "CCC.Fhm.C73_fhm_amortised_partial",
    "CCC.Fhm.C73_fhm_constant_partial",
    "CCC.Fhm.C73_fhm_lookup_partial",
    "CCC.Fhm.C73_fhm_violated"
   ],
   "note": "Exact average over all functions from a finite set of keys to 64 bit values, history and keys fixed in advance: at most 28000 slots per call (a crude constant) plus the initial capacity, 3601 per lookup, both ways of mapping hashes to slots. With calls of clear the capacities at those calls are added, and must be: the call after a clear wipes the whole memory (C73_fhm_violated). Histories of defined calls (C37), at most 2^46 calls, initial capacity at most 2^50; the work of validate is not counted."
  },
  {
   "property": "C74",
   "status": "proved",
   "theorems": [
    "CCC.Sll.C74_sll_step",
    "CCC.Sll.C74_sll_history",
    "CCC.Sll.C74_sll_constant",
    "CCC.Sll.C74_sll_linear",
    "CCC.Dll.C74_dll_any",
    "CCC.Dll.C74_dll_step",
    "CCC.Dll.C74_dll_history"
   ],
   "note": "Explicit constants: 8 and 14 links per element and call. The singly linked list over all histories of allowed calls (C20); each O(1) call of it, and every call of the doubly linked list, in any memory in which it returns. That the linear bound is attained is C74_sll_linear."
  },
  {
   "property": "C75",
   "status": "partial",
   "theorems": [
    "CCC.Sll.C75_sll_calls",
    "CCC.Sll.C75_sll_balance",
    "CCC.Sll.C75_sll_settled",
    "CCC.Sll.C75_sll_fixed",
    "CCC.Sll.C75_sll_violated_splice",
    "CCC.Dll.C75_dll_calls",
    "CCC.Dll.C75_dll_balance_partial",
    "CCC.Dll.C75_dll_settled_partial",
    "CCC.Dll.C75_dll_fixed",
    "CCC.Dll.C75_dll_violated_splice"
   ],
   "note": "Each call and whole histories, any number of lists, some with and some without an allocation function; histories of calls C20 and C21 cover. False when an element is spliced from a list without an allocation function into one with, which the documentation allows: the user's memory is then freed (C75_sll_violated_splice, C75_dll_violated_splice), so whole histories are proved for splices between lists of the same kind."
  },
  {
   "property": "C76",
   "status": "proved",
   "theorems": [
    "CCC.Buf.C76_buf_history",
    "CCC.Buf.C76_buf_settled",
    "CCC.Buf.C76_buf_fixed",
    "CCC.Fdeq.C76_fdeq_history",
    "CCC.Fdeq.C76_fdeq_settled",
    "CCC.Fdeq.C76_fdeq_fixed",
    "CCC.Fpq.C76_fpq_history",
    "CCC.Fpq.C76_fpq_settled",
    "CCC.Fpq.C76_fpq_fixed",
    "CCC.Frm.C76_frm_history",
    "CCC.Frm.C76_frm_settled",
    "CCC.Frm.C76_frm_fixed",
    "CCC.Fom.C76_fom_history",
    "CCC.Fom.C76_fom_settled",
    "CCC.Fom.C76_fom_fixed",
    "CCC.Fhm.C76_fhm_history",
    "CCC.Fhm.C76_fhm_settled",
    "CCC.Fhm.C76_fhm_fixed"
   ],
   "note": "All histories of calls, for each of the six containers. The allocation function passed to ccc_buf_alloc and to the copy functions is taken to serve the same memory as the container's own, and memory the container starts with to be a block of it. A container without an allocation function that grew in a copy keeps that block: the documentation says the user frees it."
  },
  {
   "property": "C77",
   "status": "partial",
   "theorems": [
    "CCC.Om.C77_om_status",
    "CCC.Fom.C77_fom_status",
    "CCC.Omm.C77_omm_status",
    "CCC.Rom.C77_rom_status_partial",
    "CCC.Rom.C77_rom_status_violated",
    "CCC.Frm.C77_frm_status_partial",
    "CCC.Frm.C77_frm_status_violated",
    "CCC.Fhm.C77_fhm_status_partial",
    "CCC.Fhm.C77_fhm_status_violated"
   ],
   "note": "Complete for the ordered map, the flat ordered map and the multimap. For the realtime maps and the hash map everything but the message: vacant entries carry a private flag, so their message is about unwrapping, not about vacancy, and an entry of the hash map that is found while there is no room has the message of an unknown combination of flags (C77_rom_status_violated, C77_frm_status_violated, C77_fhm_status_violated)."
  },
  {
   "property": "C78",
   "status": "proved",
   "theorems": [
    "CCC.Om.C78_om_fixed_tree",
    "CCC.Om.C78_om_recency",
    "CCC.Om.C78_om_again",
    "CCC.Fom.C78_fom_fixed_tree",
    "CCC.Fom.C78_fom_recency",
    "CCC.Fom.C78_fom_again",
    "CCC.Omm.C78_omm_fixed_tree",
    "CCC.Omm.C78_omm_recency",
    "CCC.Omm.C78_omm_again"
   ],
   "note": "For all three splay tree maps, from every state a safe history reaches. The constants: 14 times the fixed tree's comparisons plus 4 times those of looking up every stored element once; 12 log2(g+1)+10 for a key with g other keys looked up since, plus N(4 log2 N + 2) once."
  },
  {
   "property": "C79",
   "status": "proved",
   "theorems": [
    "CCC.Graph.C79_graph_shortest",
    "CCC.Graph.C79_graph_answer",
    "CCC.Graph.C79_graph_violated_parallel"
   ],
   "note": "Any number of vertices. Hypotheses: edges lead to vertices, no two edges from one vertex to another (the sample checks this before adding one), no sum of costs reaches INT_MAX (implied by n * C < INT_MAX for costs of at most C, fit_of_costs). The answer for a reachable destination is always 0, not the cost as the type suggests (C79_graph_answer). With parallel edges the queue loses a vertex and the search uses NULL (C79_graph_violated_parallel). Drawing on the terminal is not modelled, except for which edges are painted last."
  },
  {
   "property": "C80",
   "status": "partial",
   "theorems": [
    "CCC.Fdeq.C80_fdeq_words",
    "CCC.Fdeq.C80_fdeq_history_partial",
    "CCC.Fdeq.C80_fdeq_ring",
    "CCC.Fdeq.C80_fdeq_request_wraps",
    "CCC.Fdeq.C80_fdeq_request",
    "CCC.Fhm.C80_fhm_history_partial",
    "CCC.Fhm.C80_fhm_validate",
    "CCC.Fhm.C80_fhm_load_test",
    "CCC.Fhm.C80_fhm_map_partial",
    "CCC.Fom.C80_fom_map_partial",
    "CCC.Fpq.C80_fpq_words",
    "CCC.Fpq.C80_fpq_history",
    "CCC.Frm.C80_frm_map_partial"
   ],
   "note": "Flat priority queue: all histories up to 2^61 slots (C80_fpq_history). Flat double-ended queue: all histories up to 2^61 slots that do not corrupt the queue (C80_fdeq_history_partial), and the ring buffer (C80_fdeq_ring); the number of bytes requested for a range push may wrap around although everything fits in memory (C80_fdeq_request_wraps), and is right below 2^63 bytes (C80_fdeq_request). Flat hash map: all histories up to 2^50 slots with the checker treated apart (C80_fhm_history_partial, C80_fhm_validate), and the answers of the finite map under the conditions of C37 (C80_fhm_map_partial); the load test with rounded quotient and rounded 0.8 is exact (C80_fhm_load_test). Flat tree maps: all histories of fewer than 2^62 calls, with the answers of the sorted list (C80_frm_map_partial, C80_fom_map_partial), under the conditions of C32 and C28. The node based containers do no arithmetic but counting their elements."
  },
  {
   "property": "C81",
   "status": "partial",
   "theorems": [
    "CCC.Fhm.C81_fhm_history_partial",
    "CCC.Fom.C81_fom_history_partial",
    "CCC.Fpq.C81_fpq_push",
    "CCC.Fpq.C81_fpq_pop",
    "CCC.Fpq.C81_fpq_erase",
    "CCC.Fpq.C81_fpq_update",
    "CCC.Fpq.C81_fpq_heapify",
    "CCC.Fpq.C81_fpq_step",
    "CCC.Fpq.C81_fpq_history",
    "CCC.Frm.C81_frm_history_partial",
    "CCC.Om.C81_om_history_partial",
    "CCC.Omm.C81_omm_violated",
    "CCC.Omm.C81_omm_liar_violated",
    "CCC.Omm.C81_omm_extract_violated",
    "CCC.Omm.C81_omm_update_violated",
    "CCC.Pq.C81_pq_history_partial",
    "CCC.Rom.C81_rom_history",
    "CCC.Rom.C81_rom_clear",
    "CCC.Om.C81_om_violated",
    "CCC.Om.C81_om_liar_violated",
    "CCC.Fom.C81_fom_violated",
    "CCC.Fom.C81_fom_liar_violated"
   ],
   "note": "Flat priority queue (C81_fpq_history, and every call by itself), realtime map (C81_rom_history, C81_rom_clear), flat realtime map but for clearing a map nothing was inserted into (C81_frm_history_partial, see C32), priority queue but for increase, decrease and validate after an update brought the element to the front (C81_pq_history_partial, see C19 and C46), flat hash map but for the calls that go wrong with any functions (C81_fhm_history_partial, see C37, C42 and C44), ordered map and flat ordered map as long as no single element is taken out (C81_om_history_partial, C81_fom_history_partial). Violated by removals from the splay trees: after a key was overwritten in place, or under a comparison that lies, removing one element loses others (C81_om_violated, C81_om_liar_violated, C81_fom_violated, C81_fom_liar_violated, C81_omm_violated, C81_omm_liar_violated), and the multimap's extract and update drop an element from the size that they did not find (C81_omm_extract_violated, C81_omm_update_violated). Missing: histories of the multimap. Within one call the comparison is a function of the two values."
  },
  {
   "property": "C82",
   "status": "partial",
   "theorems": [
    "CCC.Dictionary.C82_dictionary_partial",
    "CCC.Dictionary.C82_interchange_partial"
   ],
   "note": "All five maps refine one dictionary (C82_dictionary_partial), hence any two of them answer alike (C82_interchange_partial). Missing: the calls the code gets wrong, i.e. contains on an empty splay tree map (C26), clear as first call on a flat realtime ordered map (C32), the stale and failed-growth cases and the capacities 1 to 5 of the hash map (C37, C40, C44). Addresses, capacities and positions of next are not compared."
  },
  {
   "property": "C83",
   "status": "partial",
   "theorems": [
    "CCC.Maze.C83_maze_partial",
    "CCC.Maze.C83_maze_violated"
   ],
   "note": "Proved for all sizes whose number of squares, rounded up to odd rows and columns, fits into an int, and all answers of rand (C83_maze_partial). For all other accepted sizes the index of a square overflows before the maze is begun (C83_maze_violated), so the bound is exact. calloc and malloc are taken to succeed; the drawing on the terminal and the bits that only the drawing reads are not part of the claim."
  },
  {
   "property": "C84",
   "status": "partial",
   "theorems": [
    "CCC.Words.C84_words_partial",
    "CCC.Words.C84_words_last_byte",
    "CCC.Words.C84_report_unique",
    "CCC.Words.C84_words_violated"
   ],
   "note": "Proved for all texts of ASCII of at most INT_MAX bytes whose last line is ended, and all requests (C84_words_partial); the report is unique (C84_report_unique). If the last line is not ended its last byte is lost, whatever it is (C84_words_last_byte), and a byte of 128 or more is handed to isalpha as a negative number, which is undefined (C84_words_violated). Requests for memory are taken to succeed; the reading of the arguments and getline itself are not part of the claim."
  },
  {
   "property": "C85",
   "status": "proved",
   "theorems": [
    "CCC.Search.C85_closest",
    "CCC.Search.C85_graph",
    "CCC.Search.C85_solve"
   ],
   "note": "One search: C85_closest; the whole graph: C85_graph; the graph and then the search for shortest paths of C79 on it: C85_solve, for boards whose number of cells times the number of vertices is below INT_MAX. A board of 5 by 7 cells with two vertices meets the hypotheses (sample_placed) and there the search makes an edge of cost 2 (sample_joined). Requests for memory are taken to succeed; the placement of the vertices (C86) and the drawing of directions and labels are not part of the claim."
  },
  {
   "property": "C86",
   "status": "partial",
   "theorems": [
    "CCC.Search.C86_place_partial",
    "CCC.Search.C86_place_endless",
    "CCC.Search.C86_place_sound",
    "CCC.Search.C86_place_small",
    "CCC.Search.C86_build_partial",
    "CCC.Search.C86_outline_partial",
    "CCC.Search.C86_whole_partial",
    "CCC.Search.C86_outline_violated",
    "CCC.Search.C86_place_violated"
   ],
   "note": "Does not hold: in a row without a place left the search never ends, whatever the other rows have (C86_place_endless); with a rand that answers 0 this happens at the third vertex of a board of 9 by 9 (C86_place_violated). C86_place_partial: if the row picked has a place the search finds one there. C86_outline_partial, C86_outline_violated: the outline is made if the number of cells is an int, from more than 2^31 cells on an index overflows. C86_place_small: a board that is too small is refused. C86_place_sound: whenever it answers, the answer is a place. C86_build_partial: if the placement of all vertices ends, each has a place of its own and the edges are those of C85_graph. C86_whole_partial: the outline, the places and the edges one after the other, from the grid of zeros; first_placed shows that its hypothesis can be met."
  },
  {
   "property": "C87",
   "status": "proved",
   "theorems": [
    "CCC.Search.C87_paint",
    "CCC.Search.C87_paint_known"
   ],
   "note": "C87_paint: every edge, in both directions, at the end and after any part of the edges. C87_paint_known: every edge known to a vertex. sample_painted shows a board with an edge to paint."
  },
  {
   "property": "C88",
   "status": "proved",
   "theorems": [
    "CCC.Search.C88_label"
   ],
   "note": "C88_label. sample_label shows a label that is written; sample_painted a board with an edge."
  },
  {
   "property": "C89",
   "status": "partial",
   "theorems": [
    "CCC.Search.C89_session_partial",
    "CCC.Search.C89_session_violated"
   ],
   "note": "Does not hold: at the end of the input the program asks again, for ever (C89_session_violated). C89_session_partial: the lines up to one that ends the session are answered correctly and the session ends there. A last line without a line end loses its last byte; it is treated as the bytes before it."
  },
  {
   "property": "C90",
   "status": "proved",
   "theorems": [
    "CCC.Search.C90_shape"
   ],
   "note": "C90_shape. The bits at the vertices themselves, which are printed as letters, and the outline of the board are not part of it. sample_shape shows a cell that is joined."
  }
 ]
}