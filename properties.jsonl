{"id": "C01", "title": "Buffer never touches memory outside its allocation", "statement": "Whatever sequence of buffer operations a program issues with arbitrary indices and counts, each call either reports an error (NULL / CCC_INPUT_ERR / CCC_NO_ALLOC / CCC_MEM_ERR) or touches only element slots below ccc_buf_capacity; no call reads or writes outside the allocation.", "quantifier": "every history of buffer calls, every index/count argument, every allocator outcome", "why_tests_cant": "the number of histories and index values is unbounded; a test exercises a few lengths", "anchors": ["src/buffer.c: ccc_buf_at, ccc_buf_alloc_back, ccc_buf_push_back, ccc_buf_insert, ccc_buf_erase, ccc_buf_swap, ccc_buf_copy, ccc_buf_write"]}
{"id": "C02", "title": "Buffer used as a stack behaves as a growable sequence", "statement": "Starting from an empty buffer, push_back appends the value at the end, pop_back removes the last value, at(i)/back return the i-th / last value of the sequence and size its length, for every interleaving; a push that needs memory and is refused leaves the sequence unchanged and returns NULL.", "quantifier": "every history of push_back/pop_back/pop_back_n/clear/at/back with every allocator outcome", "why_tests_cant": "needs every interleaving of growth with pushes and pops", "anchors": ["src/buffer.c: ccc_buf_push_back, ccc_buf_pop_back, ccc_buf_pop_back_n, ccc_buf_at, ccc_buf_back, ccc_buf_alloc_back, ccc_buf_alloc"]}
{"id": "C03", "title": "Buffer size never exceeds capacity", "statement": "After any public buffer call, ccc_buf_size is at most ccc_buf_capacity (documented as the invariant of the container).", "quantifier": "every history of buffer calls", "why_tests_cant": "a single shrinking reallocation at the right moment breaks it; needs all histories", "anchors": ["src/buffer.c: ccc_buf_alloc, ccc_buf_size_set, ccc_buf_size_plus, ccc_buf_size_minus"]}
{"id": "C04", "title": "Buffer size adjustment saturates", "statement": "size_plus(n), size_minus(n), size_set(n) set the size to the exact mathematical result when that is within [0, capacity], otherwise saturate at the nearest bound and report CCC_INPUT_ERR, for every 64-bit n.", "quantifier": "every 64-bit size, capacity and argument", "why_tests_cant": "2^192 combinations, the interesting ones at the wrap-around of size_t", "anchors": ["src/buffer.c: ccc_buf_size_plus, ccc_buf_size_minus, ccc_buf_size_set"]}
{"id": "C05", "title": "Positional insert and erase shift the sequence", "statement": "ccc_buf_insert(b,i,data) with spare capacity makes data the i-th element and shifts the later ones right by one; ccc_buf_erase(b,i) removes exactly the i-th element and keeps the order of the rest.", "quantifier": "every buffer content and index", "why_tests_cant": "all positions of all lengths", "anchors": ["src/buffer.c: ccc_buf_insert, ccc_buf_erase, ccc_buf_erase_w_swap"]}
{"id": "C06", "title": "Buffer iteration visits exactly the stored elements", "statement": "begin/next/end visits elements 0..size-1 in order and rbegin/rnext/rend visits the same in reverse.", "quantifier": "every buffer", "why_tests_cant": "all lengths; the reverse start is an off-by-one boundary", "anchors": ["src/buffer.c: ccc_buf_begin, ccc_buf_next, ccc_buf_end, ccc_buf_rbegin, ccc_buf_rnext, ccc_buf_rend"]}
{"id": "C07", "title": "Double-ended queue with allocation permission is a sequence", "statement": "With an allocator, push_back/push_front/pop_back/pop_front and the range pushes act on the queue as append/prepend/drop on a mathematical sequence for every history; when the allocator refuses, the call reports failure and the sequence is unchanged.", "quantifier": "every history and every allocator outcome sequence", "why_tests_cant": "needs every combination of wrap-around position, growth moment and operation", "anchors": ["src/flat_double_ended_queue.c: ccc_fdeq_push_back, ccc_fdeq_push_front, ccc_fdeq_pop_front, ccc_fdeq_pop_back, ccc_fdeq_push_back_range, ccc_fdeq_push_front_range, maybe_resize"]}
{"id": "C08", "title": "Double-ended queue without allocation is an overwriting ring buffer", "statement": "Without an allocator and capacity c>0, push_back keeps the last c elements of (sequence ++ [x]) and push_front the first c elements of ([x] ++ sequence); no push ever fails.", "quantifier": "every history, every capacity", "why_tests_cant": "all combinations of front position, fill level and push direction", "anchors": ["src/flat_double_ended_queue.c: alloc_back, alloc_front, ccc_fdeq_push_back, ccc_fdeq_push_front"]}
{"id": "C09", "title": "Range pushes on the ring keep the newest elements", "statement": "push_back_range of n elements onto a ring of capacity c leaves the last c elements of (sequence ++ range); push_front_range leaves the range (or its last c elements) followed by the longest prefix of the old sequence that fits.", "quantifier": "every ring state, every range length including n>=capacity", "why_tests_cant": "wrap-around splits the copy in two chunks at every possible position", "anchors": ["src/flat_double_ended_queue.c: push_back_range, push_front_range"]}
{"id": "C10", "title": "Double-ended queue access and iteration follow the sequence", "statement": "front, back, at(i), begin/next and rbegin/rnext return the elements of the abstract sequence in order / reverse order, wherever the front index lies.", "quantifier": "every queue state and index", "why_tests_cant": "wrap-around positions x lengths", "anchors": ["src/flat_double_ended_queue.c: ccc_fdeq_at, ccc_fdeq_front, ccc_fdeq_back, ccc_fdeq_begin, ccc_fdeq_next, ccc_fdeq_rbegin, ccc_fdeq_rnext"]}
{"id": "C11", "title": "Double-ended queue clear with a destructor", "statement": "ccc_fdeq_clear(q, fn) calls fn exactly once on each stored element and leaves the queue with size 0.", "quantifier": "every queue state", "why_tests_cant": "all wrap-around positions including full", "anchors": ["src/flat_double_ended_queue.c: ccc_fdeq_clear, ccc_fdeq_clear_and_free"]}
{"id": "C12", "title": "Double-ended queue copy", "statement": "After a successful ccc_fdeq_copy(dst, src, fn), dst holds the same sequence as src; when it reports an error the error is the documented one.", "quantifier": "every source queue, destination and allocator outcome", "why_tests_cant": "the copy un-rotates a wrapped ring at any position", "anchors": ["src/flat_double_ended_queue.c: ccc_fdeq_copy"]}
{"id": "C13", "title": "Flat priority queue front is always the extreme element", "statement": "After any history of push/pop/erase/update/increase/decrease/heapify, ccc_fpq_front is an element that no stored element beats in the chosen order.", "quantifier": "every history, every comparison function that is a total preorder, min and max order", "why_tests_cant": "heap shapes grow exponentially with size", "anchors": ["src/flat_priority_queue.c: ccc_fpq_push, ccc_fpq_pop, ccc_fpq_erase, ccc_fpq_update, ccc_fpq_heapify, bubble_up, bubble_down, inplace_heapify"]}
{"id": "C14", "title": "Flat priority queue stores exactly the multiset pushed minus popped", "statement": "push adds exactly its element, pop removes exactly the front, erase removes exactly the designated element, update replaces exactly the designated element by its updated value, heapify replaces the content by the input array; nothing is lost or duplicated.", "quantifier": "every history", "why_tests_cant": "as above", "anchors": ["src/flat_priority_queue.c: ccc_fpq_push, ccc_fpq_pop, ccc_fpq_erase, ccc_fpq_update, ccc_fpq_heapify"]}
{"id": "C15", "title": "Flat priority queue handles returned by push/update point at the element", "statement": "The pointer returned by ccc_fpq_push or ccc_fpq_update refers to a slot that holds the pushed/updated value.", "quantifier": "every history", "why_tests_cant": "position depends on the full heap contents", "anchors": ["src/flat_priority_queue.c: ccc_fpq_push, ccc_fpq_update, bubble_up, fix_up"]}
{"id": "C16", "title": "Failed flat priority queue push changes nothing", "statement": "When memory is needed and refused (or allocation is banned and the queue holds capacity-1 elements), ccc_fpq_push returns NULL and the stored elements are unchanged.", "quantifier": "every state and allocator outcome", "why_tests_cant": "allocator failures at any point of any history", "anchors": ["src/flat_priority_queue.c: ccc_fpq_push"]}
{"id": "C17", "title": "Draining a flat priority queue sorts", "statement": "Repeating front/pop until empty yields all stored elements in the queue's order.", "quantifier": "every heap state", "why_tests_cant": "every multiset of elements", "anchors": ["src/flat_priority_queue.c: ccc_fpq_front, ccc_fpq_pop"]}
{"id": "C18", "title": "Pairing-heap priority queue front is always the extreme element", "statement": "After any history of push/pop/extract/erase/update/increase/decrease of user-owned elements, ccc_pq_front is an element no stored element beats.", "quantifier": "every history, every total preorder comparison", "why_tests_cant": "linked multiway tree shapes, any element may be cut at any time", "anchors": ["src/priority_queue.c: ccc_pq_push, ccc_pq_pop, ccc_pq_extract, ccc_pq_erase, ccc_pq_update, ccc_pq_increase, ccc_pq_decrease, merge, delete_min, delete_node, cut_child"]}
{"id": "C19", "title": "Pairing-heap priority queue stores exactly the elements pushed and not removed", "statement": "push adds exactly the given element, pop removes exactly the front element, erase/extract removes exactly the given element, update/increase/decrease change no membership; size is the number of stored elements. No call dereferences a NULL or foreign link.", "quantifier": "every history", "why_tests_cant": "as above", "anchors": ["src/priority_queue.c"]}
{"id": "C20", "title": "Singly linked list is a sequence", "statement": "push_front, pop_front, splice, splice_range, erase, erase_range, extract, extract_range and iteration act as the corresponding operations on a mathematical sequence of elements, size is its length, and the ring of links through the sentinel is intact after every call.", "quantifier": "every history of calls whose element arguments are in the list", "why_tests_cant": "aliasing between positions and ranges, unbounded lengths", "anchors": ["src/singly_linked_list.c"]}
{"id": "C21", "title": "Doubly linked list is a sequence (both directions)", "statement": "push_front/push_back/pop_front/pop_back/insert/splice/splice_range/extract/extract_range act as the corresponding operations on a sequence; forward iteration yields it and reverse iteration yields its reverse.", "quantifier": "every history of calls whose element arguments are in the list", "why_tests_cant": "a stale backward link is only seen by a later reverse operation", "anchors": ["src/doubly_linked_list.c"]}
{"id": "C22", "title": "Doubly linked list erase returns the following element", "statement": "ccc_dll_erase(l, e) removes exactly e and returns the element that followed e (NULL if e was last).", "quantifier": "every list and element", "why_tests_cant": "all positions", "anchors": ["src/doubly_linked_list.c: ccc_dll_erase"]}
{"id": "C23", "title": "Splay ordered map refines a finite map", "statement": "For every history of entry/insert/try_insert/insert_or_assign/remove/get_key_val/contains on an ordered map with user-owned nodes, the answers equal those of a finite map from keys to nodes; splaying changes no membership.", "quantifier": "every history, every lawful three-way key comparison", "why_tests_cant": "tree shape depends on the complete access history", "anchors": ["src/ordered_map.c: splay, find, contains, insert, erase, ccc_om_insert, ccc_om_remove, ccc_om_entry"]}
{"id": "C24", "title": "Splay ordered map iterates in key order", "statement": "begin/next visits each stored element exactly once in ascending key order, rbegin/rnext in descending order, with no structural change.", "quantifier": "every reachable map", "why_tests_cant": "parent-pointer traversal over every tree shape", "anchors": ["src/ordered_map.c: next, min_max_from, ccc_om_begin, ccc_om_next, ccc_om_rnext"]}
{"id": "C25", "title": "Ordered range queries", "statement": "equal_range(b,e) returns [first element not less than b, first element greater than e); equal_rrange is the mirror image; when b is not greater than e, iterating the range yields exactly the stored keys in [b,e] (for the reverse range, keys in [e,b] in descending order).", "quantifier": "every map and every pair of keys", "why_tests_cant": "all tree shapes x key positions", "anchors": ["src/ordered_map.c: equal_range", "src/realtime_ordered_map.c: equal_range", "src/flat_ordered_map.c: equal_range", "src/flat_realtime_ordered_map.c: equal_range"]}
{"id": "C26", "title": "Query operations are safe on an empty map", "statement": "contains/get_key_val/min/max/begin on an empty ordered map or multimap report absence and never call the comparison callback on the container's own sentinel.", "quantifier": "every empty container state", "why_tests_cant": "undefined behaviour need not be visible in a test run", "anchors": ["src/ordered_map.c: contains", "src/flat_ordered_map.c: contains", "src/ordered_multimap.c: contains, ccc_omm_max, ccc_omm_min"]}
{"id": "C27", "title": "Access locality of the splay map", "statement": "After a successful lookup or insertion of a key, that key's element is the root, so an immediately repeated lookup needs one comparison step.", "quantifier": "every map state and key", "why_tests_cant": "self-adjustment over any shape", "anchors": ["src/ordered_map.c: splay, find", "src/flat_ordered_map.c: splay, find"]}
{"id": "C28", "title": "Flat ordered map refines a finite map in compact storage", "statement": "For every history of insert/remove/lookup on a flat ordered map, answers equal those of a finite map, and stored elements occupy exactly slots 1..size of the backing buffer.", "quantifier": "every history including growth and allocator failure", "why_tests_cant": "removal moves the last slot and must repair its neighbours wherever they are", "anchors": ["src/flat_ordered_map.c: insert, erase, swap_and_pop, remove_from_tree"]}
{"id": "C29", "title": "Realtime ordered map refines a finite map", "statement": "For every history of insertions, assignments, removals and lookups on the realtime ordered map (WAVL tree) with user-owned nodes, the answers equal those of a finite map.", "quantifier": "every history, every lawful comparison", "why_tests_cant": "rebalancing cases cascade to any depth", "anchors": ["src/realtime_ordered_map.c: find, insert, remove_fixup, insert_fixup, rebalance_3_child, rotate, double_rotate, transplant"]}
{"id": "C30", "title": "Realtime ordered map is always balanced", "statement": "After every history the tree obeys the WAVL rank rules, hence every search path has at most 2*log2(n+1) nodes for n stored elements.", "quantifier": "every history", "why_tests_cant": "worst cases need long adversarial histories", "anchors": ["src/realtime_ordered_map.c: insert_fixup, remove_fixup, rebalance_3_child", "src/flat_realtime_ordered_map.c"]}
{"id": "C31", "title": "Realtime ordered map iterates in key order", "statement": "begin/next visits each stored element exactly once in ascending key order, rbegin/rnext in descending order.", "quantifier": "every reachable map", "why_tests_cant": "parent-pointer traversal over every tree shape", "anchors": ["src/realtime_ordered_map.c: next", "src/flat_realtime_ordered_map.c: next"]}
{"id": "C32", "title": "Flat realtime ordered map refines a finite map in compact storage", "statement": "For every history on the flat realtime map, answers equal those of a finite map, elements occupy slots 1..size, and the WAVL rank rules hold.", "quantifier": "every history including growth and allocator failure", "why_tests_cant": "slot compaction interacts with rebalancing", "anchors": ["src/flat_realtime_ordered_map.c: insert, remove_fixup, swap_and_pop"]}
{"id": "C33", "title": "Lookups in realtime maps do not modify the map", "statement": "contains/get_key_val/entry/begin/next/equal_range leave every stored link and element unchanged.", "quantifier": "every map and argument", "why_tests_cant": "absence of writes on all paths", "anchors": ["src/realtime_ordered_map.c: find, next, equal_range", "src/flat_realtime_ordered_map.c"]}
{"id": "C34", "title": "Ordered multimap keeps equal keys in first-in first-out order", "statement": "For every history of insert/pop_max/pop_min/remove/extract, elements are organised by key, and among equal keys in insertion order: pop_max removes the oldest element of the greatest key, pop_min the oldest of the least key, a lookup finds the oldest.", "quantifier": "every history with arbitrary duplication", "why_tests_cant": "duplicate rings attached to splayed tree nodes; interleavings unbounded", "anchors": ["src/ordered_multimap.c: multimap_insert, add_duplicate, multimap_erase, erase_max_or_min, pop_front_dup, splay"]}
{"id": "C35", "title": "Ordered multimap iteration", "statement": "begin/next visits every stored element exactly once, keys descending, equal keys oldest first; rbegin/rnext keys ascending.", "quantifier": "every reachable multimap", "why_tests_cant": "tree and duplicate-ring traversal with overloaded parent pointers", "anchors": ["src/ordered_multimap.c: multimap_next, next_tree_node, next"]}
{"id": "C36", "title": "Ordered multimap removes an arbitrary handle", "statement": "ccc_omm_extract/erase of any stored element, whether tree node, duplicate head or later duplicate, removes exactly that element and keeps the order of all others. Extracting or updating an element that is no longer stored answers NULL (false) and changes nothing.", "quantifier": "every multimap and element", "why_tests_cant": "the element may be in any of four structural positions", "anchors": ["src/ordered_multimap.c: multimap_erase_node, pop_dup_node, pop_front_dup"]}
{"id": "C37", "title": "Hash map refines a finite map", "statement": "For every history of insert/try_insert/insert_or_assign/remove/contains/get on a hash map (starting empty and initialised), answers equal those of a finite map, for every hash function, however bad.", "quantifier": "every history, every hash function, every capacity allowed", "why_tests_cant": "probe sequences wrap around and shift on deletion; collisions unbounded", "anchors": ["src/flat_hash_map.c: find, insert, erase, ccc_fhm_insert, ccc_fhm_remove, ccc_fhm_entry"]}
{"id": "C38", "title": "Hash map lookups terminate", "statement": "Every lookup, insertion and removal on a reachable hash map terminates, having probed at most capacity slots.", "quantifier": "every reachable state, key", "why_tests_cant": "termination depends on an empty slot always existing", "anchors": ["src/flat_hash_map.c: find, insert, erase, maybe_resize"]}
{"id": "C39", "title": "Hash map growth preserves content", "statement": "When an operation grows the table all previously stored elements are still found with the same values; when growth fails nothing changes.", "quantifier": "every state, every allocator outcome", "why_tests_cant": "rehash places every element again", "anchors": ["src/flat_hash_map.c: maybe_resize, insert"]}
{"id": "C40", "title": "Fixed-capacity hash map never loses inserted elements", "statement": "On a fixed-capacity hash map an insertion either reports an error or the element is found by later lookups, at every capacity.", "quantifier": "every fixed capacity and history", "why_tests_cant": "boundary capacities", "anchors": ["src/flat_hash_map.c: maybe_resize, find"]}
{"id": "C41", "title": "Hash map iteration visits each element exactly once", "statement": "begin/next/end visits exactly the stored elements, each once.", "quantifier": "every reachable table", "why_tests_cant": "all placements", "anchors": ["src/flat_hash_map.c: ccc_fhm_begin, ccc_fhm_next"]}
{"id": "C42", "title": "Hash map clear empties the map", "statement": "After ccc_fhm_clear the map reports size 0 and no key is found.", "quantifier": "every table", "why_tests_cant": "stale slots are only seen by lookups that skip initialisation", "anchors": ["src/flat_hash_map.c: ccc_fhm_clear"]}
{"id": "C43", "title": "Hash map copy", "statement": "After a successful ccc_fhm_copy, dst finds exactly the entries of src.", "quantifier": "every source and every destination capacity >= source capacity", "why_tests_cant": "home slots depend on capacity", "anchors": ["src/flat_hash_map.c: ccc_fhm_copy"]}
{"id": "C44", "title": "Hash map removal via entry works on a full table", "statement": "ccc_fhm_remove_entry / ccc_fhm_and_modify on an occupied entry removes/modifies the element even when the fixed table cannot grow.", "quantifier": "every table state", "why_tests_cant": "only at the exact load threshold", "anchors": ["src/flat_hash_map.c: ccc_fhm_remove_entry, ccc_fhm_and_modify, container_entry"]}
{"id": "C45", "title": "Entry status predicates decode statuses consistently", "statement": "For every status bit combination, occupied / insert_error / input_error report exactly their bit; unwrap yields NULL when the entry is not viewable.", "quantifier": "every status value", "why_tests_cant": "finite but exhaustive; combined with all container outcomes", "anchors": ["src/types.c: ccc_entry_occupied, ccc_entry_unwrap"]}
{"id": "C46", "title": "Validation accepts every reachable container", "statement": "ccc_*_validate returns true on every state reachable through the documented API.", "quantifier": "every history", "why_tests_cant": "all shapes", "anchors": ["src/*.c: ccc_fpq_validate, ccc_rom_validate, ccc_om_validate, ccc_pq_validate, ccc_fhm_validate"]}
{"id": "C47", "title": "clear_and_free leaves an empty usable container", "statement": "After ccc_X_clear_and_free the container reports size zero and later operations behave as on a fresh container.", "quantifier": "every container state with an allocator", "why_tests_cant": "needs every later history after the call", "anchors": ["src/flat_priority_queue.c: ccc_fpq_clear_and_free", "src/flat_double_ended_queue.c: ccc_fdeq_clear_and_free", "src/flat_hash_map.c: ccc_fhm_clear_and_free", "src/flat_ordered_map.c: ccc_fom_clear_and_free", "src/flat_realtime_ordered_map.c: ccc_frm_clear_and_free"]}
{"id": "C48", "title": "Double-ended queue insert_range", "statement": "ccc_fdeq_insert_range(q, pos, n, elems) with room for n more elements puts the range, in order, before the element at pos, keeps all other elements in order and returns a reference to the start of the inserted range.", "quantifier": "every queue state, position and range", "why_tests_cant": "all combinations of wrap-around of the moved tail, its destination and the range", "anchors": ["src/flat_double_ended_queue.c: ccc_fdeq_insert_range, push_range", "ccc/flat_double_ended_queue.h: ccc_fdeq_insert_range"]}
{"id": "C49", "title": "Double-ended queue emplace returns the stored element", "statement": "ccc_fdeq_emplace_back/front store the element like push and evaluate to a reference to it, NULL only when memory is refused.", "quantifier": "every queue state and allocator outcome", "why_tests_cant": "all states; the tests ignore the returned reference", "anchors": ["ccc/impl/impl_flat_double_ended_queue.h: ccc_impl_fdeq_emplace_back, ccc_impl_fdeq_emplace_front"]}
{"id": "C50", "title": "Lazy insertion macros report success", "statement": "When try_insert_w or insert_or_assign_w of an ordered map stores the new element, the returned entry reports no insertion error.", "quantifier": "every map state, key and value, every successful allocation", "why_tests_cant": "the status must be right for every outcome of every call; a test looks at a few", "anchors": ["ccc/impl/impl_realtime_ordered_map.h: ccc_impl_rom_insert_and_copy_key, ccc_impl_rom_try_insert_w, ccc_impl_rom_insert_or_assign_w", "ccc/impl/impl_ordered_map.h: ccc_impl_om_insert_and_copy_key", "ccc/impl/impl_ordered_multimap.h: ccc_impl_omm_insert_and_copy_key"]}
{"id": "C51", "title": "clear destroys each element exactly once", "statement": "The clear call of a container that accepts a destructor hands every stored element to it exactly once, then the container is empty and behaves like a fresh one.", "quantifier": "every reachable container state and every later history", "why_tests_cant": "the destruction order follows the tree shape; a skipped or doubly destroyed element needs a particular shape", "anchors": ["src/realtime_ordered_map.c: ccc_rom_clear", "src/ordered_map.c: ccc_om_clear", "src/singly_linked_list.c: ccc_sll_clear", "src/doubly_linked_list.c: ccc_dll_clear", "src/priority_queue.c: ccc_pq_clear", "src/ordered_multimap.c: ccc_omm_clear", "src/flat_realtime_ordered_map.c: ccc_frm_clear", "src/flat_ordered_map.c: ccc_fom_clear", "src/flat_hash_map.c: ccc_fhm_clear"]}
{"id": "C52", "title": "insert hands back the replaced value", "statement": "When insert finds the key stored, the returned entry is Occupied and unwraps to the old value, the old value is also in the user's struct, and the map holds the new value; when it does not, the user's struct is unchanged.", "quantifier": "every map state and every inserted key and value", "why_tests_cant": "must hold wherever in the container the replaced element lives", "anchors": ["ccc/flat_realtime_ordered_map.h: ccc_frm_insert", "ccc/flat_ordered_map.h: ccc_fom_insert", "ccc/realtime_ordered_map.h: ccc_rom_insert", "ccc/ordered_map.h: ccc_om_insert", "ccc/flat_hash_map.h: ccc_fhm_insert"]}
{"id": "C53", "title": "A copied flat map equals its source", "statement": "After a successful copy the destination answers every later history as the source would, and the two are independent; after a failed copy the destination is still a usable map.", "quantifier": "every source and destination state, capacity and allocation outcome, every later history", "why_tests_cant": "depends on relative capacities and allocation failure at one point", "anchors": ["src/flat_realtime_ordered_map.c: ccc_frm_copy", "src/flat_ordered_map.c: ccc_fom_copy", "src/flat_hash_map.c: ccc_fhm_copy"]}
{"id": "C54", "title": "Draining a pairing-heap priority queue sorts", "statement": "Repeating front/pop until the queue is empty yields every stored element exactly once, no element being ahead of an earlier one.", "quantifier": "every reachable queue", "why_tests_cant": "depends on every tree shape delete_min can meet", "anchors": ["src/priority_queue.c: ccc_pq_front, ccc_pq_pop, delete_min, merge"]}
{"id": "C55", "title": "An allocating priority queue stores the copy it returns", "statement": "With an allocation function ccc_pq_push copies the user's struct into a new one, stores the copy and returns a reference to it; the caller's struct is not part of the queue. ccc_pq_emplace stores exactly one new struct. If memory is refused both answer NULL and the queue is unchanged.", "quantifier": "every queue, struct and allocator answer, every layout of the user type", "why_tests_cant": "depends on the offset of the handle in the user type and on allocation failure", "anchors": ["src/priority_queue.c: ccc_pq_push", "ccc/impl/impl_priority_queue.h: ccc_impl_pq_emplace"]}
{"id": "C56", "title": "An extracted range is a chain of its own", "statement": "After extract_range the elements of the range can be iterated from its first to its last element with the ordinary next function of the list, and the iteration then ends.", "quantifier": "every list, every range, every layout of the user type", "why_tests_cant": "depends on the offset of the handle in the user type", "anchors": ["ccc/singly_linked_list.h: ccc_sll_extract_range, ccc_sll_next", "ccc/doubly_linked_list.h: ccc_dll_extract_range, ccc_dll_next"]}
{"id": "C57", "title": "Validation accepts only intact containers", "statement": "If the validation function answers true, whatever the memory holds, then iteration ends, visits no element twice and visits as many elements as size says. For the flat priority queue, which has no iteration: front is right, and so is every later call.", "quantifier": "every state of memory, reachable or not", "why_tests_cant": "ranges over every way a structure can be damaged", "anchors": ["src/singly_linked_list.c: ccc_sll_validate", "src/doubly_linked_list.c: ccc_dll_validate", "src/ordered_map.c: ccc_om_validate", "src/realtime_ordered_map.c: ccc_rom_validate", "src/flat_ordered_map.c: ccc_fom_validate", "src/flat_realtime_ordered_map.c: ccc_frm_validate", "src/flat_double_ended_queue.c: ccc_fdeq_validate", "src/flat_hash_map.c: ccc_fhm_validate"]}
{"id": "C58", "title": "An allocating multimap owns its memory", "statement": "With an allocation function every inserting call stores a copy of the user's struct in newly allocated memory, never the struct itself, and only memory obtained from the allocation function is given back to it.", "quantifier": "every multimap, inserted struct, allocator answer and layout of the user type", "why_tests_cant": "freeing foreign memory may go unnoticed in a test run and depends on the offset of the handle in the user type", "anchors": ["src/ordered_multimap.c: ccc_omm_insert, ccc_omm_try_insert, ccc_omm_insert_or_assign, ccc_omm_or_insert, ccc_omm_insert_entry, ccc_omm_pop_min"]}
{"id": "C59", "title": "Multimap iteration runs in the documented direction", "statement": "begin is the oldest element of the least key and next ascends; rbegin is the greatest and rnext descends; equal_range is ascending, equal_rrange descending.", "quantifier": "every reachable multimap", "why_tests_cant": "must hold for every content", "anchors": ["ccc/ordered_multimap.h: ccc_omm_begin, ccc_omm_rbegin, ccc_omm_equal_range", "src/ordered_multimap.c: ccc_omm_begin, ccc_omm_next"]}
{"id": "C60", "title": "insert_entry overwrites an occupied entry", "statement": "ccc_omm_insert_entry with an occupied entry writes the new element over the existing one, as its documentation says; the number of elements stays the same.", "quantifier": "every reachable multimap and every occupied entry", "why_tests_cant": "must hold for every content and position of the entry", "anchors": ["ccc/ordered_multimap.h: ccc_omm_insert_entry", "src/ordered_multimap.c: ccc_omm_insert_entry"]}
{"id": "C61", "title": "A buffer is a random access array", "statement": "Every history of buffer calls answers what an array with capacity cells, the first size of them in use, answers: a write, swap or copy changes the named cells and no other, growing keeps every old cell, erasing closes the gap, insertion opens one, and a refused call changes nothing but what its documentation says.", "quantifier": "every initial memory and capacity, every history, every allocator answer", "why_tests_cant": "ranges over unbounded histories, indices and allocator answers", "anchors": ["src/buffer.c: ccc_buf_alloc, ccc_buf_push_back, ccc_buf_swap, ccc_buf_copy, ccc_buf_write, ccc_buf_erase, ccc_buf_insert", "ccc/impl/impl_buffer.h: ccc_impl_buf_emplace, ccc_impl_buf_emplace_back"]}
{"id": "C62", "title": "Splay maps cost logarithmic amortised comparisons", "statement": "Any history of m calls on an initially empty ordered map, flat ordered map or ordered multimap that never holds more than N elements calls the user's comparison function O(m log N) times, however unbalanced the tree becomes in between; begin and rbegin follow O(log N) links amortised.", "quantifier": "every history, every comparison that is a total order, every N", "why_tests_cant": "ranges over unbounded histories and adversarial access patterns; a single call may be linear", "anchors": ["ccc/ordered_map.h: Amortized O(lg N)", "src/ordered_map.c: splay, find, alloc_insert, insert, erase, equal_range, min, max", "src/flat_ordered_map.c: splay", "src/ordered_multimap.c: splay"]}
{"id": "C63", "title": "Realtime maps are logarithmic in the worst case", "statement": "Every single call on a realtime ordered map of n elements follows, reads or writes O(log n) links, ranks and keys, whatever the history that led to the map; clearing it takes O(n). The flat realtime map has the same bound, insertion into it amortised over the moves of its buffer.", "quantifier": "every reachable map, every call, every comparison that is a total order", "why_tests_cant": "a worst case bound ranges over all shapes a tree can be brought into", "anchors": ["ccc/realtime_ordered_map.h: O(lg N)", "ccc/flat_realtime_ordered_map.h: O(lg N)", "src/realtime_ordered_map.c: find, insert, insert_fixup, remove_fixup, min_max_from, next, ccc_rom_clear", "src/flat_realtime_ordered_map.c: find, insert, remove_fixup, alloc_back"]}
{"id": "C64", "title": "Flat priority queue calls are logarithmic, heapify is linear", "statement": "Push, pop, erase and update on a flat priority queue of n elements take O(log n) comparisons and copies of elements, push amortised over the moves of the buffer; heapify of n elements takes O(n).", "quantifier": "every queue content, every call, every history, every comparison that is a total preorder", "why_tests_cant": "a worst case bound ranges over all contents and sizes", "anchors": ["ccc/flat_priority_queue.h: O(lgN), O(N)", "src/flat_priority_queue.c: ccc_fpq_push, ccc_fpq_pop, ccc_fpq_erase, ccc_fpq_update, ccc_fpq_heapify, ccc_impl_fpq_in_place_heapify, bubble_up, bubble_down"]}
{"id": "C65", "title": "Pairing heap: constant push, logarithmic amortised calls", "statement": "Push takes constant time whatever came before, and so does moving an element towards the front with increase (greatest first) or decrease (least first). Any history of m calls on an initially empty priority queue that never holds more than N elements takes O(m log N) comparisons and accesses to elements. A single update takes O(log N).", "quantifier": "every history, every comparison that is a total preorder, every N", "why_tests_cant": "ranges over unbounded histories and adversarial heap shapes; a single call may be linear", "anchors": ["ccc/priority_queue.h: O(1), Amortized O(lgN), O(lgN) worst case", "src/priority_queue.c: ccc_pq_push, ccc_pq_pop, ccc_pq_erase, ccc_pq_update, ccc_pq_increase, ccc_pq_decrease, delete_min, cut_child, merge"]}
{"id": "C66", "title": "Every result and status has its own message", "statement": "ccc_result_msg and ccc_entry_status_msg give a message for every value of their argument, without reading outside a table; different documented values give different messages and every other value gives a message that says so.", "quantifier": "every value of the argument", "why_tests_cant": "ranges over all values, documented or not", "anchors": ["src/types.c: ccc_result_msg, ccc_entry_status_msg"]}
{"id": "C67", "title": "Multimap: a query pays for the pops that follow it", "statement": "After ccc_omm_max (ccc_omm_min) has searched the greatest (least) key, a pop of it takes constant time, and while duplicates of that key remain so does every further query or pop of that end, as long as no other calls come in between.", "quantifier": "every reachable multimap, every degree of duplication, every such sequence of queries and pops", "why_tests_cant": "a cost bound ranges over all shapes a tree can be brought into", "anchors": ["ccc/ordered_multimap.h: ccc_omm_max, ccc_omm_min", "src/ordered_multimap.c: multimap_erase_max_or_min, pop_front_dup, remove_from_tree"]}
{"id": "C68", "title": "Multimap: constant time removal of known elements", "statement": "ccc_omm_extract of a stored element and ccc_omm_remove_entry of an occupied entry take constant time, as documented.", "quantifier": "every reachable multimap and every stored element", "why_tests_cant": "a cost bound ranges over all shapes a tree can be brought into", "anchors": ["ccc/ordered_multimap.h: ccc_omm_extract, ccc_omm_remove_entry", "src/ordered_multimap.c: multimap_erase_node, multimap_erase, remove_from_tree"]}
{"id": "C69", "title": "Iteration over a tree map is linear", "statement": "Iterating over a whole ordered map or multimap of n elements, forwards or backwards, accesses elements O(n) times in total whatever the shape of the tree; in the realtime maps asking for a range of k elements and iterating over it takes O(k + log n).", "quantifier": "every reachable map, both directions, every range", "why_tests_cant": "a cost bound ranges over all shapes a tree can be brought into", "anchors": ["ccc/ordered_map.h: ccc_om_next", "ccc/realtime_ordered_map.h: ccc_rom_next", "ccc/flat_ordered_map.h: ccc_fom_next", "ccc/flat_realtime_ordered_map.h: ccc_frm_next", "src/ordered_map.c: next, ccc_om_begin", "src/realtime_ordered_map.c: next, equal_range", "src/flat_ordered_map.c: next", "src/flat_realtime_ordered_map.c: next, equal_range", "ccc/ordered_multimap.h: ccc_omm_next", "src/ordered_multimap.c: multimap_next, next_tree_node, next"]}
{"id": "C70", "title": "One step of an iteration over a tree map is O(1)", "statement": "A single next or rnext of an ordered map, realtime ordered map, flat ordered map, flat realtime ordered map or ordered multimap follows a number of links bounded by a constant, as documented.", "quantifier": "every reachable map, every stored element, both directions", "why_tests_cant": "a constant must serve for all sizes and shapes of the tree", "anchors": ["ccc/ordered_map.h: ccc_om_next, ccc_om_rnext", "ccc/realtime_ordered_map.h: ccc_rom_next, ccc_rom_rnext", "ccc/flat_ordered_map.h: ccc_fom_next, ccc_fom_rnext", "ccc/flat_realtime_ordered_map.h: ccc_frm_next, ccc_frm_rnext", "ccc/ordered_multimap.h: ccc_omm_next, ccc_omm_rnext"]}
{"id": "C71", "title": "Pushing onto a buffer or a double-ended queue is amortised O(1)", "statement": "Over any history of pushes and pops at either end (and, on the double-ended queue, range pushes and clears) the elements copied, including those moved to larger memory, are at most a constant multiple of the elements pushed. Without allocation permission a push onto the double-ended queue copies one element and a pop none. Pushing or inserting a range copies at most the elements stored and those of the range.", "quantifier": "every initial capacity and content, every history, every allocator answer", "why_tests_cant": "an amortised bound ranges over unbounded histories and all points at which memory may run out", "anchors": ["ccc/flat_double_ended_queue.h: amortized O(1), ccc_fdeq_push_back, ccc_fdeq_push_front, ccc_fdeq_insert_range", "src/flat_double_ended_queue.c: maybe_resize, alloc_front, alloc_back, push_back_range, push_front_range, push_range", "src/buffer.c: ccc_buf_alloc_back, ccc_buf_push_back"]}
{"id": "C72", "title": "A pointer based map returns to the allocator exactly what it took", "statement": "An ordered map or realtime ordered map with an allocation function requests exactly one block for each insertion of a new key and none for any other call, gives back exactly the block of the element removed, and at a clear the block of every element; no block is given back twice or while it was never obtained. At any time the blocks that are out are those of the stored elements, one each, so a history that ends with clear leaks nothing. A map without an allocation function calls none.", "quantifier": "every history of calls, every answer of the allocation function to every request", "why_tests_cant": "leaks and double frees depend on the whole history and on the points at which memory is refused", "anchors": ["src/ordered_map.c: alloc_insert, ccc_om_remove, ccc_om_remove_entry, ccc_om_clear", "src/realtime_ordered_map.c: maybe_alloc_insert, ccc_rom_remove, ccc_rom_remove_entry, ccc_rom_clear", "ccc/impl/impl_ordered_map.h", "ccc/impl/impl_realtime_ordered_map.h"]}
{"id": "C73", "title": "Hash map calls take expected amortised constant time", "statement": "With a hash function that spreads the keys like a random one, any history of m calls on a hash map inspects and wipes O(m) slots in expectation, growth included, and a single lookup inspects a constant number of slots in expectation however many elements are stored.", "quantifier": "every history and every key looked for, averaged over all hash functions from the keys to 64 bit values", "why_tests_cant": "an expectation over all hash functions and a constant for all sizes cannot be measured", "anchors": ["ccc/flat_hash_map.h: amortized O(1)", "src/flat_hash_map.c: find, insert, erase, maybe_resize, to_index, next_prime"]}
{"id": "C74", "title": "Linked list calls take the documented time", "statement": "Calls of the singly and doubly linked lists that are documented as O(1) (pushing, popping, inserting, splicing or erasing one element of the doubly linked list, asking for ends and neighbours) read and write a bounded number of links; those documented as O(N) at most a constant multiple of the number of elements of the list they work on.", "quantifier": "every reachable set of lists and every allowed call; for the doubly linked list every state of memory in which the call returns", "why_tests_cant": "a constant must serve for all lists", "anchors": ["ccc/singly_linked_list.h: O(1), O(N)", "ccc/doubly_linked_list.h: O(1), O(N)", "src/singly_linked_list.c: before, len, extract_range, erase_range, ccc_sll_splice, ccc_sll_clear", "src/doubly_linked_list.c: len, extract_range, erase_range, ccc_dll_splice, ccc_dll_splice_range, ccc_dll_clear"]}
{"id": "C75", "title": "A linked list returns to the allocator exactly what it took", "statement": "A list with an allocation function requests one block for each push, insertion or emplacement and none for any other call; popping or erasing gives back the block of each element removed, clearing the block of every element, extraction and splicing none. No block is given back twice or without having been obtained, and at any time the blocks the lists answer for are their elements, one each. A list without an allocation function calls none.", "quantifier": "every history of calls on any number of lists, every answer of the allocation function to every request", "why_tests_cant": "leaks and double frees depend on the whole history and on the points at which memory is refused", "anchors": ["src/singly_linked_list.c: ccc_sll_push_front, ccc_sll_pop_front, ccc_sll_erase, ccc_sll_erase_range, ccc_sll_clear, ccc_sll_splice", "src/doubly_linked_list.c: ccc_dll_push_front, ccc_dll_push_back, ccc_dll_insert, ccc_dll_pop_front, ccc_dll_pop_back, ccc_dll_erase, ccc_dll_erase_range, ccc_dll_clear, ccc_dll_splice, ccc_dll_splice_range", "ccc/impl/impl_doubly_linked_list.h"]}
{"id": "C76", "title": "A flat container holds one block of memory and returns it", "statement": "A buffer, flat double-ended queue, flat priority queue, flat ordered map, flat realtime ordered map or flat hash map holds at most one block of memory, of exactly the size its capacity says, and none if the capacity is 0. Every pointer it hands to the allocation function is NULL or that block, so nothing is freed twice; growing, failing to grow and being copied to or from leak nothing and share nothing. After clear_and_free no block is out. A container without an allocation function that is given none calls none.", "quantifier": "every history of calls, every initial capacity, every answer of the allocation function to every request", "why_tests_cant": "leaks, double frees and shared blocks depend on the whole history and on the points at which memory is refused", "anchors": ["src/buffer.c: ccc_buf_alloc, ccc_buf_alloc_back", "src/flat_double_ended_queue.c: maybe_resize, ccc_fdeq_copy, ccc_fdeq_clear_and_free", "src/flat_priority_queue.c: ccc_fpq_push, ccc_fpq_heapify, ccc_fpq_copy, ccc_fpq_clear_and_free", "src/flat_hash_map.c: maybe_resize, ccc_fhm_copy, ccc_fhm_clear_and_free", "src/flat_ordered_map.c: alloc_back, ccc_fom_copy, ccc_fom_clear_and_free", "src/flat_realtime_ordered_map.c: alloc_back, ccc_frm_copy, ccc_frm_clear_and_free"]}
{"id": "C77", "title": "The status of an entry tells what the search found", "statement": "After entry(map, key): unwrap shows the stored element, or nothing; occupied is true exactly if the key is stored; insert_error exactly if an insertion would be refused for lack of room; and the message for the entry's status says that the entry is occupied if the key is stored, that the insertion met an error if the key is absent and there is no room for it, and that the entry is vacant otherwise.", "quantifier": "every reachable map of each kind, every key, every answer of the allocation function", "why_tests_cant": "a status is a combination of flags that depends on the history, on the position the search ends at and on the allocator", "anchors": ["ccc/types.h: ccc_entry_status_msg, ccc_get_entry_status", "src/types.c: ccc_entry_status_msg", "src/ordered_map.c: ccc_om_entry, ccc_om_entry_status", "src/flat_ordered_map.c: ccc_fom_entry_status", "src/ordered_multimap.c: ccc_omm_entry_status", "src/realtime_ordered_map.c: ccc_rom_entry_status", "src/flat_realtime_ordered_map.c: ccc_frm_entry_status", "src/flat_hash_map.c: ccc_fhm_entry_status"]}
{"id": "C78", "title": "Splay tree maps adapt to the lookups", "statement": "Looking up stored keys (get, contains, entry and occupied) in an ordered map, a flat ordered map or an ordered multimap costs, over any sequence of lookups, at most a constant times the comparisons of the same lookups in any fixed search tree, the best one for the sequence included, plus a cost that depends on the stored elements only. A lookup costs on average the logarithm of the number of other keys looked up since the same key was looked up last. A second lookup of the same key takes two comparisons.", "quantifier": "every reachable map of each kind, every sequence of lookups of stored keys, every fixed search tree with these keys", "why_tests_cant": "the best fixed tree is different for every sequence of lookups, and the bound is about every sequence from every shape of the tree", "anchors": ["ccc/ordered_map.h: header comment", "ccc/flat_ordered_map.h: header comment", "src/ordered_map.c: splay, find, contains", "src/flat_ordered_map.c: splay, find, contains", "src/ordered_multimap.c: splay, find, contains"]}
{"id": "C79", "title": "A shortest path search written with the priority queue is correct", "statement": "In the graph sample, which keeps one struct per vertex in a priority queue and lowers distances with decrease, the search ends without touching memory it must not and without a failed assertion. If the destination can be reached the path shown last is a cheapest one; otherwise the answer is INT_MAX and no path is shown.", "quantifier": "every graph with any number of vertices, every choice of edges with at most one from a vertex to another, every costs whose sums fit into int, every source and destination", "why_tests_cant": "ranges over all graphs and over all shapes the heap takes during the search", "anchors": ["samples/graph.c: dijkstra_shortest_path, cmp_pq_costs, map_pq_at", "ccc/priority_queue.h: pq_decrease_w, push, front, pop"]}
{"id": "C80", "title": "Machine arithmetic does not change what a container does", "statement": "The flat double-ended queue, the flat priority queue, the flat hash map and the flat ordered maps compute indices, sizes and capacities in size_t, which wraps around, and the hash map tests its load in floating point. With this arithmetic every history of calls gives the answers and the contents that exact arithmetic gives, up to a stated number of slots or calls far beyond what memory and time allow; a sequence, a queue and a map are what the user sees.", "quantifier": "every history of calls, every content, capacity and hash value, every answer of the allocation function", "why_tests_cant": "overflow and rounding show only at particular sizes; all sums, differences, products and quotients over all sizes and capacities have to be considered", "anchors": ["src/flat_double_ended_queue.c: increment, decrement, distance, back_free_slot, front_free_slot, maybe_resize, push_back_range, push_front_range, push_range", "src/flat_priority_queue.c: bubble_up, bubble_down, ccc_fpq_push, ccc_fpq_pop, ccc_fpq_erase, ccc_fpq_heapify", "src/flat_hash_map.c: to_i, distance, increment, decrement, maybe_resize, load_factor, next_prime, ccc_fhm_size", "src/flat_realtime_ordered_map.c: maybe_alloc_insert, swap_and_pop, ccc_frm_size, recursive_size", "src/flat_ordered_map.c: maybe_alloc_insert, swap_and_pop, ccc_fom_size, recursive_size", "src/buffer.c: ccc_buf_alloc_back, ccc_buf_size_plus, ccc_buf_size_minus"]}
{"id": "C81", "title": "A bad comparison function costs only the order", "statement": "The functions the user passes may obey no rule at all: a comparison may call a less than b and b less than a, call nothing equal to itself, answer differently from one call of the library to the next; a hash function may change from call to call and a key equality may hold for everything or nothing; and the program may overwrite a stored element, key and all, at any time. As long as a comparison answers less, equal or greater, no call of a container runs into undefined behaviour or fails to return for that reason; no element is lost, duplicated or altered other than by the caller; a search answers a stored element only if the function called it equal to the key; sizes, capacities, statuses and returned references are those of the specification with the questions of order and of equality left open; forward iteration visits every stored element exactly once, backward iteration the same in reverse, and the balanced trees stay balanced.", "quantifier": "every history of calls, each with its own arbitrary comparison, hash and equality functions, interleaved with overwriting stored elements", "why_tests_cant": "ranges over every comparison function, including the ones no test author would write, and every history", "anchors": ["src/flat_priority_queue.c: bubble_up, bubble_down, in_place_heapify", "src/priority_queue.c: merge, delete_node, update_fixup", "src/realtime_ordered_map.c: find, insert, remove_fixup", "src/flat_realtime_ordered_map.c: find, insert, remove_fixup", "src/flat_hash_map.c: find, insert, erase, maybe_resize", "src/ordered_map.c: splay, remove_from_tree", "src/flat_ordered_map.c: splay, remove_from_tree", "src/ordered_multimap.c: splay, remove_from_tree, multimap_erase_node"]}
{"id": "C82", "title": "The five maps are interchangeable", "statement": "A program that talks to a map by keys and user data only cannot tell whether it uses the ordered map, the realtime ordered map, the flat ordered map, the flat realtime ordered map or the flat hash map (the last for the calls it has): statuses, values, sizes, least and greatest elements and ends of ranges are those of one and the same dictionary, whatever the memory under the map, the addresses of the user's structs and the answers of the allocation function, as long as no insertion runs out of memory.", "quantifier": "every history of calls, every lawful comparison function, every lawful hash function with the same equality, every pair of kinds of maps, every memory and allocator", "why_tests_cant": "relates all histories on five different data structures; agreement on tested histories says nothing about others", "anchors": ["ccc/ordered_map.h", "ccc/realtime_ordered_map.h", "ccc/flat_ordered_map.h", "ccc/flat_realtime_ordered_map.h", "ccc/flat_hash_map.h", "ccc/traits.h"]}
{"id": "C83", "title": "The maze sample builds a perfect maze", "statement": "For every number of rows and columns it accepts and every sequence of random numbers, the maze sample, which keeps its cells in an ordered map over an arena and in a priority queue at once, ends without a failed assertion and without an access outside of its array or its arena, and the maze it built is perfect: every room is open, the border is closed, and there is exactly one way that visits no square twice between any two open squares.", "quantifier": "every number of rows and columns of at least 7, every sequence of answers of rand, every content of the memory of the arena", "why_tests_cant": "the random numbers decide the history of calls on both containers and the shape of the maze; a run shows one maze of one size", "anchors": ["samples/maze.c:animate_maze", "samples/maze.c:join_squares_animated", "samples/maze.c:arena_bump_alloc", "util/random.c:rand_range", "src/priority_queue.c:ccc_pq_push", "src/priority_queue.c:ccc_pq_pop", "ccc/ordered_map.h:ccc_om_or_insert_w", "ccc/ordered_map.h:ccc_om_insert_entry_w"]}
{"id": "C84", "title": "The word count sample reports the words of the text", "statement": "For every text and every request, the word count sample, which keeps the strings in an arena and counts them in a flat ordered map, ends without a failed assertion and without an access outside of its arena, its line buffer or its array, and prints every word of the text once, in lower case and with the number of its occurrences: in the order of a dictionary or backwards, or by count through a flat priority queue, greatest or least first with ties in the order of a dictionary, all of them or the first n; the request for one word prints its count, or nothing if it does not occur. A text without words is refused.", "quantifier": "every text, every request, every content of fresh memory", "why_tests_cant": "the text decides the history of calls on the map, the moves of the arena and of the map while offsets into them are kept, and the ties in the queue; a run shows one text", "anchors": ["samples/words.c:create_frequency_map", "samples/words.c:clean_word", "samples/words.c:str_arena_push_back", "samples/words.c:str_arena_free_to_pos", "samples/words.c:print_top_n", "samples/words.c:print_alpha_n", "samples/words.c:print_found", "samples/words.c:cmp_freqs", "util/str_view.c:sv_begin_tok", "util/str_view.c:sv_next_tok", "ccc/flat_ordered_map.h:ccc_fom_or_insert_w", "ccc/flat_priority_queue.h:ccc_fpq_heapify_init"]}
{"id": "C85", "title": "The graph sample joins each vertex to the closest vertices by shortest ways", "statement": "On every board with an outline and its vertices inside, whatever the hash function of the cells, the breadth first search of the graph sample, which keeps the cells met in a flat hash map and the cells to look at in a flat double-ended queue, ends without an access outside the board, a failed assertion or an overflow. If some vertex that may still be joined (another one, with fewer than four edges, not joined yet) can be reached through cells that belong to no path, it joins one that can be reached in the fewest steps: the cells it draws are a way of that length, the cost is the length, and the edge is added to both ends and nowhere else. Otherwise it reports that there is none and changes nothing. The graph made from all vertices has no loops and no multiple edges, at most four edges at each vertex, every edge is known at both ends with the same positive cost, the ways of two edges share no cell but that of a vertex at their end and pass through no vertex, and no edge is missing: every vertex has four edges or no vertex that may be joined can be reached from it. On this graph the search for shortest paths of the sample answers every question correctly.", "quantifier": "every board whose number of cells fits into an int, every placement of vertices, every hash function, every content of fresh memory", "why_tests_cant": "the paths drawn so far decide which ways are left, and the shape of the board decides the history of calls on the map and the queue; a run shows one board", "anchors": ["samples/graph.c:found_dst", "samples/graph.c:edge_construct", "samples/graph.c:build_graph", "samples/graph.c:add_edge", "samples/graph.c:has_edge_with", "samples/graph.c:vertex_degree", "ccc/flat_hash_map.h:ccc_fhm_try_insert", "ccc/flat_hash_map.h:ccc_fhm_insert_or_assign", "ccc/flat_hash_map.h:ccc_fhm_get_key_val", "ccc/flat_double_ended_queue.h:ccc_fdeq_push_back", "ccc/flat_double_ended_queue.h:ccc_fdeq_pop_front"]}
{"id": "C86", "title": "The graph sample finds a place for every vertex", "statement": "On every board the program accepts (at least 9 rows and columns), whatever the answers of rand, the search for a place for the next vertex ends. If there is a cell at least three cells from the first row and column, and not among the last two, with no vertex on it or next to it, it answers such a cell; otherwise it reports that there is none. Once all vertices are placed each has a cell of its own inside the outline, and the making of the edges yields a simple graph without missing edges.", "quantifier": "every board from 9 by 9 whose number of cells fits into an int, every answers of rand, every number and placement of earlier vertices", "why_tests_cant": "whether the search ends depends on the row that rand picks and on the vertices already in it; a run shows one sequence of random numbers", "anchors": ["samples/graph.c:random_vertex_placement", "samples/graph.c:is_valid_vertex_pos", "samples/graph.c:build_path_outline", "samples/graph.c:build_graph", "util/random.c:rand_range"]}
{"id": "C87", "title": "The graph sample paints exactly the way of an edge", "statement": "To paint an edge the graph sample starts at one end and goes from neighbour to neighbour by the edge id stored in the cells, until it is next to the other end. On every graph the program makes, and for each edge in either direction, this walk ends, reads no cell outside the board, and paints the cell it starts from and the cells of the way of this edge, in order, and no other; as many cells as the edge costs. This holds although the cell of a vertex holds the ids of all edges made from it, one over the other. It also holds for the walk along an edge made when only some of the edges have been made.", "quantifier": "every board with an outline whose number of cells fits into an int, every placement of vertices, every edge, both directions, every hash function and content of fresh memory", "why_tests_cant": "a way that touches itself or a mixture of ids equal to the id of a way nearby would lead the walk astray or into an endless loop; that this cannot happen depends on the order in which all edges are made and on all ways being shortest", "anchors": ["samples/graph.c:paint_edge", "samples/graph.c:edge_construct", "samples/graph.c:make_edge", "samples/graph.c:sort_vertices", "samples/graph.c:build_graph"]}
{"id": "C88", "title": "The graph sample labels each edge with its cost on its own way", "statement": "After making an edge the graph sample looks along its way for a straight stretch and writes the cost there. On every graph the program makes this ends without an access outside the board, and it writes either nothing or the decimal digits of the cost, which read correctly from left to right or from top to bottom, each on its own cell of the way of this edge between its ends: never on a vertex, the outline or the way of another edge. If the way has, before its last cell, a straight stretch four cells longer than the label, the label is written.", "quantifier": "every board with an outline whose number of cells fits into an int, every placement of vertices, every edge at the time it is made", "why_tests_cant": "where the label goes depends on the shape of the way, in four directions and for any number of digits; a run shows a few ways", "anchors": ["samples/graph.c:add_edge_cost_label", "samples/graph.c:encode_digits", "samples/graph.c:get_direction", "samples/graph.c:count_digits", "samples/graph.c:edge_construct"]}
{"id": "C89", "title": "The graph sample answers every request and ends with its input", "statement": "The graph sample reads requests line by line. Each line without a q that names at least two vertices is answered with a cheapest way from the first to the last vertex it names, or with the answer that there is none, whatever other bytes the line has. A line with a q or with fewer than two vertices ends the session, and so does the end of the input.", "quantifier": "every sequence of lines of any bytes, every graph the program makes", "why_tests_cant": "the input is arbitrary text; the end of the input is seldom part of a test of an interactive program", "anchors": ["samples/graph.c:find_shortest_paths", "samples/graph.c:parse_path_request", "samples/graph.c:dijkstra_shortest_path"]}
{"id": "C90", "title": "The drawn way of an edge joins exactly its own cells", "statement": "On the graph the sample makes, each cell drawn for an edge between its two ends is printed with a shape that points to a neighbour if and only if that neighbour is on the way of the same edge, its ends included. Ways of different edges that run side by side are never joined in the picture.", "quantifier": "every placement of vertices on every board, every hash function, every memory, every edge, cell and neighbour", "why_tests_cant": "the shapes are made one cell at a time by looking at the neighbours drawn so far, and the marks of a vertex with many edges are mixed; whether that ever joins foreign cells depends on all edges made before", "anchors": ["samples/graph.c:build_path_cell", "samples/graph.c:is_valid_edge_cell", "samples/graph.c:is_edge_vertex", "samples/graph.c:edge_construct"]}
