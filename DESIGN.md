# A formal model of ccc (C Container Collection) in Lean 4

Source: `/repo` (C23, pinned commit).  Properties: `properties.jsonl`.  Model and proofs: `lean/Verif`.
Status of each property and the exact names of its theorems: `MANIFEST.json`.  Wrong programs the theorems were tried on:
`seeded/LOG.jsonl`.

| directory | contents |
|-----------|----------|
| `Verif/Spec`  | specifications: lists, bags, sorted association lists, histories of calls.  They mention nothing of the model. |
| `Verif/Model` | the code, function by function, each definition with the file and the lines it models |
| `Verif/Proof` | invariants, representation predicates, simulation proofs |
| `Verif/Props` | the theorems `Cxx_…` of the manifest, with a concrete case (`example`) beside each |

## 1. How the code is modelled

* Each C function is a Lean function of the same shape.  A function that writes memory through a pointer takes the state and
  returns the new one.
* **Undefined behaviour is an outcome.**  Operations live in `Option`.  `none` stands for undefined behaviour (following NULL,
  reading or writing memory that is not there, giving back memory that was not obtained, overlapping `memcpy`, `% 0`), for
  a failed assertion, and for a loop that does not end: loops are `partial_fixpoint` definitions, whose value is `none` if they
  diverge.  So `op s = some r` says that the call returns, that it does nothing undefined, and what it answers.
* Failures that are documented (NULL, `CCC_INPUT_ERR`, an entry with `INSERT_ERROR`, …) are ordinary values.
* Pointer containers are modelled at the level of pointers: memory is a function from addresses to link fields, with the
  information which addresses hold a struct and which came from the allocation function.  The sentinel is one of the
  addresses.  Fields the code overlays with a union (multimap nodes) are one field in the model, too.  Flat containers are
  modelled as slots of a buffer with explicit capacity.  The initial contents of memory are arbitrary.
* Callbacks.  The comparison is a parameter, assumed to be a total preorder (`LawfulCmp`, `Spec/Order.lean`) where a theorem says
  so.  The hash is any function of the key.  The allocator is an oracle: every answer it may give is quantified over at each call.
* `size_t` is `Nat`, except where wrap around is the point: C04 is about arithmetic modulo 2^64, and C80 models the deque, the flat
  priority queue, the hash map and the flat tree maps a second time with arithmetic modulo 2^64 and the load test in floating point, and proves that the
  two models agree.
* Structs are passed by address.  A user's pointer to a struct and the pointer to the intrusive element in it are the same
  number, except where the code confuses the two; there the offset is a parameter of the model (C55, C56, C58).

A statement about histories has the form: for every list of calls that the documentation allows (`ok…`), the run of the model
on the list exists and its answers are those of the specification on the list.  Reachable states are the ends of such runs.
Where the code is wrong for a documented call, the call is excluded by a separate predicate (`safe…`), the theorem has the suffix
`_partial`, and a theorem `…_violated…` proves that the code does go wrong there.

## 2. Properties

| id | modelled | proof |
|----|----------|-------|
| C01–C06, C61 | `src/buffer.c`: slots, capacity, allocator oracle; `Model/BufferWord.lean`: size arithmetic in 64 bits | invariant over histories, refinement to `List` |
| C07–C12, C48, C49 | `src/flat_double_ended_queue.c` over the buffer | refinement to `List` through the rotation of the ring |
| C13–C17 | `src/flat_priority_queue.c` over the buffer | heap order with one hole, permutation of the contents |
| C18, C19, C54, C55 | `src/priority_queue.c`, pointers | predicate relating the links to a multiway tree, heap order, permutation |
| C20, C56, C57 | `src/singly_linked_list.c`, pointers, any number of lists | ring predicate, refinement to a family of `List`s |
| C21, C22, C56, C57 | `src/doubly_linked_list.c`, pointers, any number of lists | ring predicate in which back links may be stale, refinement |
| C23–C27, C50–C52 | `src/ordered_map.c`, pointers | top-down splaying related to a tree, inorder preserved, refinement to a sorted association list |
| C25–C28, C50–C53 | `src/flat_ordered_map.c`, slots | the same with slots for addresses, and swap-with-last deletion |
| C29–C31, C33, C50–C52 | `src/realtime_ordered_map.c`, pointers | weak AVL rank rules by parity, height bound, refinement |
| C30–C33, C50–C53 | `src/flat_realtime_ordered_map.c`, slots | the same with slots, and swap-with-last deletion |
| C34–C36, C50, C51, C58–C60 | `src/ordered_multimap.c`, pointers with overlaid fields | splay tree with a ring of duplicates at each node, refinement to the list of elements in insertion order |
| C37–C44, C52, C53 | `src/flat_hash_map.c`, slots with stored hashes | Robin Hood invariant on the circular table, refinement to a finite map |
| C62 | the splay tree maps with every call of the comparison counted (`Model/Count.lean`, `Model/*Cost.lean`) | potential method: the sum of the logarithms of the subtree sizes pays for the comparisons |
| C63 | the realtime maps with every access to a node or slot counted (`Model/WavlCost.lean`, `Model/*RealtimeMapCost.lean`) | rank rules bound the height; each phase of a call is charged to the rank of the tree; moves of the buffer are paid by a potential; a lower bound for clearing |
| C64 | the flat priority queue with comparisons and copies counted (`Model/FlatPQCost.lean`) | logarithm of the slot number; the heights of a heap add up to its size; potential for the moves of the buffer |
| C65 | the pairing heap with comparisons and element accesses counted (`Model/PriorityQueueCost.lean`) | the potential of the heap (`Proof/PairingPotential.lean`): for each list of siblings, from oldest to youngest, the sum of the logarithms of its prefixes' weights |
| C45 | `src/types.c` | all status words |
| C26 | queries of the five ordered containers on empty states | directly; the comparison is arbitrary, so that no call to it can matter |
| C46, C57 | `ccc_*_validate` of all containers | C46 from the invariants; C57 for arbitrary memory, by induction over the run of the function (`Proof/ValidateSound.lean`); refuted for the multimap and the pairing heap, and proved for those memories in which their rings are in order (`Proof/MultiSound.lean`, `Proof/PriorityQueueSound.lean`) |
| C66 | `ccc_result_msg`, `ccc_entry_status_msg` (`Model/Messages.lean`) | cases |
| C67 | the multimap with comparisons counted (`Model/OrderedMultimapCost.lean`) | while the root has no child on the side of the end, a splay to that end is one comparison; histories of queries and pops by induction |
| C68 | as C67 | the cost of each branch of the extraction; a path shaped tree, reached by descending insertions, refutes the constant bound |
| C69 | the user's loop over `begin` and `next` with every access counted (`Model/Traverse.lean`) | potential of a position: the number of its ancestors already visited less those still to come; a step costs six accesses amortised.  In the multimap an element has the potential of the tree node its ring hangs at |
| C70 | as C69 | a path of ascending (descending) insertions, and the arms of a balanced tree, refute the constant bound; the potential gives the logarithmic bound for the realtime maps and the constant one inside a ring of the multimap |
| C71 | the growing calls of the buffer and the pushes of the double-ended queue with every element copy counted (`Model/FlatDequeCost.lean`) | potential 2·size − capacity; a growth to twice the capacity is paid for by the pushes since the last one |
| C72 | the ordered map and the realtime map with every call of the allocation function written down (`Model/Ledger.lean`, `Model/*MapLedger.lean`) | each call appends to the list exactly the calls `Calls` asks for (`Log`); the allocator's book is settled by induction over the history |
| C73 | the hash map with every slot inspected or wiped counted (`Model/FlatHashMapCost.lean`) | a probe ends at the next empty slot; that is at most as far as the number of windows around the home slot that are home to as many keys as they have slots (`crowd`); each such window is improbable (exponential moments, a geometric series), so the sum over all hash functions is bounded; potential 10·(n+2) − 5·capacity pays for growth |
| C74 | the linked lists with every read and write of a link counted (`Model/SinglyLinkedListCost.lean`, `Model/DoublyLinkedListCost.lean`) | straight line code is counted statement by statement; loops are bounded by their own assertions on the size, the search for a predecessor by its position in the list |
| C75 | the linked lists with every call of the allocation function written down (`Model/*LinkedListLedger.lean`) | each call appends to the list of calls exactly those `calls` asks for; the allocator's book, less what the user extracts, is settled by induction over the history |
| C76 | the flat containers with every call of the allocation function and the field `mem_` written down (`Model/FlatLedger.lean`, `Model/FlatMapLedger.lean`) | `Keeps`: a call does what the call without the record does and the allocator's book goes from the container's block before to its block after; composes over statements and histories |
| C77 | `entry` and the functions on entries of the six maps, `ccc_entry_status_msg` | from the cases of the search (`…find`, `entry_cases`) in the simulation proofs |
| C78 | the maps with comparisons counted | the access lemma of splay trees for arbitrary weights of the keys (`Proof/SplayWeights.lean`); weights 3^-depth in the fixed tree and Kraft's inequality for the first measure, weights 1/rank² by recency, kept up to date, for the second (`Proof/Adaptive.lean`) |
| C79 | the search of `samples/graph.c` as a client of the model of the priority queue | the usual invariant of Dijkstra's algorithm over the specification of the queue, and that `decrease` moves no other element to the front, so that the calls the queue gets wrong do not occur (`Proof/Graph.lean`) |
| C80 | the deque, the flat priority queue, the hash map and the flat tree maps with arithmetic modulo 2^64 (`Model/*Word.lean`); IEEE 754 division (`Spec/Double.lean`) | each call equals the call of the exact model while its bounds hold, by induction along the loops; the bounds are invariants of histories; for the load test, error bounds of rounding to nearest against the least distance of a quotient from 4/5 (`Proof/Double.lean`) |
| C81 | the specifications with the questions of order left open (`Spec/PtrMapAny.lean`, `Spec/FlatMapAny.lean`, `Spec/PriorityQueueAny.lean`, `Spec/HashMapAny.lean`, `SpecAny` in `Props/FlatPQAny.lean`), the same models | the structural part of each invariant kept without the order (the order invariant instantiated with the comparison that always says less, which makes every list sorted), by induction along a history in which every event brings its own comparison function; for the splay tree: the comparisons along one search path are always those of some order |
| C82 | a dictionary, i.e. a partial function from keys to data with a size (`Spec/Dictionary.lean`), and readings of the calls and answers of each map as those of a dictionary | the lists of the specifications of the maps are mapped to dictionaries call by call (`Proof/Dictionary.lean`, `Proof/DictionaryStep.lean`), on top of the history theorems; a dictionary answers in one way unless memory runs out |
| C83 | `samples/maze.c` as a client of the models of the ordered map and the priority queue at once, and `rand_range` of `util/random.c`; the answers of `rand` are a parameter | a perfect maze is specified by its ways (`Spec/Maze.lean`); the open squares form a tree that grows by a room and the square on the way to it (`Proof/MazeWays.lean`, `Proof/MazeLoop.lean`), over the specifications of the two containers (`Proof/Maze.lean`); the loop ends because twice the number of rooms to go plus the size of the queue decreases |
| C84 | `samples/words.c` as a client of the models of the flat ordered map and the flat priority queue, with its string arena byte by byte, and the tokens of `util/str_view.c` for a delimiter of one byte; `getline` gives lines with their ends | the words of a text are specified by cutting it at spaces and ends of lines (`Spec/Words.lean`); the strings of the map stay where they are in the arena (`Proof/WordsArena.lean`), the map is the count of the words so far (`Proof/Words.lean`), the tokens are the pieces (`Proof/WordsText.lean`), and the queue, which is told its capacity in bytes instead of elements, works as if it had been told the truth as long as nothing is pushed (`Proof/WordsQueue.lean`) |
| C85 | `found_dst`, the edge of `edge_construct` and the loop of `build_graph` in `samples/graph.c` as clients of the models of the flat hash map and the flat double-ended queue; a cell of the board is the vertex there and the path bit | ways are specified as walks over free cells (`Spec/Search.lean`); the queue is in the order of the number of steps and spans at most two numbers, every neighbour of a cell done has been met, hence a cell is met first by a shortest way (`Proof/SearchInv.lean`, `Proof/Search.lean`); an edge keeps the graph simple and only takes away possible edges (`Props/SearchGraph.lean`); the graph meets what C79 asks of it (`Props/SearchSolve.lean`) |
| C86 | `build_path_outline`, `random_vertex_placement` and the first loop of `build_graph` in `samples/graph.c`; the answers of `rand` are an arbitrary sequence | the loop over the columns goes once around the row, so it ends if and only if the row has a place; its test for the end is never met (`Props/SearchPlace.lean`) |
| C87 | `paint_edge` in `samples/graph.c`, and the ids `edge_construct` leaves in the cells: the bits of all edges whose way has the cell, one over the other; the colours are not modelled | a shortest way has no shortcuts, so no cell of it is next to another but the one before and after; an edge is made from the end of the lower number, because the others can get no more edges, so a mixture of ids has the name of its vertex in the first byte and is the id of no way that passes by (`Props/SearchPaint.lean`) |
| C88 | `add_edge_cost_label`, `encode_digits`, `get_direction`, `count_digits` in `samples/graph.c` | the walk is that of C87; the cells counted lie in a line behind the current one, so the digits fall on them (`Props/SearchLabel.lean`) |
| C89 | `find_shortest_paths` and `parse_path_request` in `samples/graph.c`; the input is a list of lines of bytes | induction over the lines with C85 and C79 for each answer; that the session does not end by partial correctness of the loop (`Props/SearchAsk.lean`) |
| C90 | `build_path_cell`, `is_valid_edge_cell` and `is_edge_vertex` in `samples/graph.c`, as `edge_construct` calls them | induction along the way with the marks of the cells as they are at each step, on top of the invariant of C87; neighbours on a shortest way follow one another (`Props/SearchShape.lean`) |
| C47, C51 | `clear`, `clear_and_free` of all containers | from the invariants |

No property is left out.  61 of the 90 are `partial`, in nearly all cases because the code does not have the property for every
input; section 3 lists what was found.

## 3. Where the code and its documentation disagree

Each line is a theorem (names in brackets), not an observation.

**Buffer.**  `insert` on a full buffer writes out of bounds [`C01_insert_full_undefined`]; `alloc` below the size leaves the size
[`C01_shrink_then_push_undefined`, `C03_size_exceeds_capacity`]; `erase` copies overlapping memory with `memcpy`
[`C01_erase_overlap_undefined`]; `insert` duplicates an element [`C05_insert_duplicates`]; reverse iteration starts one past the
last element [`C06_reverse_visits_extra`]; `size_plus` and `alloc` wrap around [`C04_size_plus_wraps`, `C04_explicit_alloc_overflows`].

**Deque.**  An empty front range breaks `front` [`C09_empty_front_range_breaks_front`]; a first range of more than eight elements is
truncated [`C07_first_range_truncated`]; capacity 0 divides by zero [`C08_zero_capacity_undefined`]; `clear` with a destructor keeps the
size and skips a full queue [`C11_clear_destructor_keeps_size`, `C11_clear_destructor_full`]; a refused `copy` changes the size
[`C12_copy_refused_corrupts`]; `insert_range` loses elements when it wraps, and uses a stale position after growth
[`C48_insert_range_…`]; the number of bytes requested for a range may wrap around [`C80_fdeq_request_wraps`]; the emplace macros always answer NULL [`C49_…`].

**Flat priority queue.**  `heapify_init` of a full array loses it [`C13_heapify_init_full_array_lost`]; a refused emplace changes the
queue [`C16_emplace_refused_not_unchanged`]; `clear_and_free` keeps the size, the next push writes through NULL
[`C47_fpq_clear_and_free_not_empty`, `C47_fpq_push_after_free_undefined`].

**Priority queue.**  Raising an element that was brought to the front by update/increase/decrease brings erased elements back and
writes to memory that was given away [`C18_pq_violated`, `C19_pq_violated`, `C46_pq_violated`], and loses elements even if none was ever removed [`C19_pq_violated_lost`], which would break the graph sample if its graphs had parallel edges [`C79_graph_violated_parallel`]; with an allocation function `push` links
the wrong struct and emplace leaks one [`C55_pq_violated`, `C55_pq_violated_offset`, `C55_pq_violated_emplace`]; a single `update` may take linear time [`C65_pq_update_violated`].

**Singly linked list.**  `splice` and `splice_range` work after the position instead of before it, ranges include their end,
`begin_elem` of an empty list is the sentinel, an extracted range does not end unless the handle is the first field [`C20_sll_violated_…`,
`C56_sll_violated`].

**Doubly linked list.**  `pop_front` and `clear` leave the sentinel's (or the new front's) back link stale: elements pushed at the back
are lost or written to freed memory, `pop_back`, `insert` and reverse iteration go wrong [`C21_dll_violated_…`, `C51_dll_violated`];
`erase` answers the erased element [`C22_dll_violated`]; `splice_range` asserts the wrong list's size [`C21_dll_violated_splice_range`];
`validate` does not see stale back links [`C57_dll_violated_reverse`].

**Both lists.**  An element spliced from a list without an allocation function into one with is freed there, although it is the user's
[`C75_sll_violated_splice`, `C75_dll_violated_splice`].

**Validation.**  The flat tree maps compare the size only if the tree is not empty, so they accept a map that lost its root
[`C57_fom_violated`, `C57_frm_violated`]; the hash map accepts an element standing right before its home slot, which no lookup finds
[`C57_fhm_lost_accepted`]; the realtime maps do not check balance [`C57_rom_unbalanced_accepted`]; the pairing heap accepts a root with siblings and
siblings shared by two elements [`C57_pq_violated`, `C57_pq_violated_shared`], the multimap a duplicate shared by two keys [`C57_omm_violated`]; the flat priority queue
accepts a queue without the free slot it swaps through, where a refused emplace leads [`C57_fpq_violated`].

**Splay maps.**  `contains` on an empty map compares the key with the sentinel, or with stale data in slot 0 [`C26_om_violated`,
`C26_fom_violated`, `C26_fom_violated_history`]; `begin` and `rbegin` are not amortised logarithmic [`C62_om_begin_violated`, `C62_fom_begin_violated`, `C62_omm_begin_violated`]; in the multimap `extract`, `remove_entry` and a pop after a query are documented as O(1) but splay [`C67_omm_pop_violated`, `C68_omm_extract_violated`, `C68_omm_remove_entry_violated`].  **All tree maps:** one step of an iteration is documented as O(1) but may climb or descend the whole height of the tree [`C70_om_rnext_violated`, `C70_fom_rnext_violated`, `C70_omm_rnext_violated`, `C70_rom_next_violated`, `C70_frm_next_violated`].  **Realtime map:** clearing is documented as O(N) but takes Ω(N log N) accesses [`C63_rom_clear_violated`].  **All tree maps with macros:** the lazy macros report an insertion error when they
succeed [`C50_om_violated`, `C50_rom_violated`, `C50_omm_violated`].  Removing an
element splays its left subtree for its key and then overwrites the right link of the new root, so an element whose key was overwritten in
place, or a comparison that lies, takes others with it when it is removed; they stay counted in the size [`C81_om_violated`,
`C81_om_liar_violated`, `C81_fom_violated`, `C81_fom_liar_violated`, `C81_omm_violated`, `C81_omm_liar_violated`].  In the multimap
`extract` and `update` of an element that its own key does not lead to leave it in the tree and drop it from the size
[`C81_omm_extract_violated`, `C81_omm_update_violated`].

**Flat maps.**  `clear` on a never used map with memory leaves it unusable [`C46_frm_violated`, `C51_fom_violated`, `C51_frm_violated`];
`clear_and_free` keeps the size [`C47_fom_violated`, `C47_frm_violated`]; `insert` answers the new value as the old one
[`C52_fom_violated`, `C52_frm_violated`]; a refused `copy` leaves a broken destination [`C53_…_violated`].

**Hash map.**  Small capacities do not terminate or fill up [`C40_fhm_violated`, `C40_fhm_violated_four`, `C40_fhm_violated_five`]; lookups before the first insertion read memory that was
never written [`C37_fhm_violated`]; `clear` [`C42_fhm_violated`, `C46_fhm_violated`], `copy` to a larger map [`C43_fhm_violated`], entries of
stored keys when the map cannot grow [`C44_fhm_violated`], `clear_and_free` [`C47_fhm_violated`].  After a `clear` the next call wipes the
whole memory, so calls are not amortised O(1) when a large map is cleared again and again [`C73_fhm_violated`].

**Entry statuses.**  The message of a vacant entry of a realtime map or a hash map does not say that it is vacant, and that of an occupied
entry of a hash map without room is “unknown combination of flags” [`C77_rom_status_violated`, `C77_frm_status_violated`, `C77_fhm_status_violated`].

**Multimap.**  `contains`, `max`, `min` of an empty multimap treat the sentinel as an element [`C26_omm_violated_contains`,
`C26_omm_violated_ends`]; extracting an element twice can fail an assertion [`C36_omm_violated`]; with an allocation function four inserting
calls link the caller's struct and later free it, and `pop_min` frees a wrong address [`C58_omm_violated_…`]; iteration and ranges run
against the documented direction [`C59_omm_violated`]; `insert_entry` adds a duplicate instead of overwriting [`C60_omm_violated`].

**Samples.**  The maze sample checks no upper limit of rows and columns: from 2^31 squares on an index overflows [`C83_maze_violated`].  The graph sample looks for a place for a vertex in one row only: if the row that `rand` picks has
no place left, the search never ends, though other rows have one and though there is a message for that case [`C86_place_violated`, `C86_place_endless`].
It accepts boards of more than 2^31 cells too, where an index overflows [`C86_outline_violated`].
Its loop over the requests never ends when the input does: `getline` fails and it asks again [`C89_session_violated`].  The word count
leaves out the last byte of every line, also of a last line that is not ended: the text `cat` has the word `ca`
[`C84_words_last_byte`, `C84_words_violated`]; it gives bytes of 128 and more to `isalpha` as negative numbers [`C84_words_violated`];
and it tells the queue the capacity of its array in bytes, which is harmless only because nothing is pushed.

## 4. Trusted base

* **Lean 4.33.0's kernel.**  No axioms of our own, no `sorry`, no `native_decide`, no `bv_decide`.
* **Axioms.**  Every theorem of the manifest depends on a subset of `propext`, `Classical.choice`, `Quot.sound`: most on all three,
  34 on `propext` and `Quot.sound`, 10 on `propext` alone, 2 on none (`#print axioms`; `vcheck` replays all modules).
* **The reading of the C code.**  Each definition cites the lines it models and states its simplifications.

Modelled: all functions of `src/*.c` and the macros of `ccc/impl/*.h` that contain logic (entry macros, emplace, lazy insertion,
initializers), for all twelve containers, `dijkstra_shortest_path`, the placement of vertices, the search and making of edges, the labels, the painting, the shapes and the requests of `samples/graph.c`,
the building of the maze of `samples/maze.c` with `rand_range` of `util/random.c`,
and the word count of `samples/words.c` with the tokens of `util/str_view.c`, except

* the `ccc_*_print` functions named in `ccc/impl/impl_traits.h`, which have no definition;
* NULL arguments: the tests at the beginning of each call that answer an error for them;
* `ccc/traits.h`, `ccc/impl/impl_traits.h`: `_Generic` tables that select the function of the same name by type;
* addresses: `struct_base`, `elem_in_slot`, `…_key_in_slot` and the like are offset arithmetic (offsets appear only where the code gets them
  wrong), as are layout, alignment and strict aliasing;
* side effects of callbacks: comparison and hash are functions, an update function changes only the user's data, a
  destructor does not touch the container;
* concurrency: the library has none;
* the rest of `samples/` (of the graph: the reading of the arguments, the shapes and colours of the cells; of the maze: the reading of the arguments and the drawing; of the word count: the reading of the arguments),
  and of `util/` (of `str_view.c` only what finds the tokens is modelled, for a delimiter of one byte).

The specifications follow the code, not the header, in a few points that are documented disagreements (C20: position of a splice; C35:
direction of iteration).  Each such point is stated in the property's note and proved as a `_violated` theorem.
