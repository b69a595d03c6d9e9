C01	`search` models `BAndB::search`, `apply` and `update` over the three diagram compilers, with an arbitrary oracle for the timer. Loop invariant: pool nodes are genuine paths and every emitted pair is a feasible label vector with its cost.
C02	Same run model; the trace of emitted primals is strictly improving and starts from the attached user primal.
C03	FALSE of the code (witness `f1`, width 2). Partial: optimal whenever the run meets none of the four lossy events that `okLoop` checks.
C04	Every queued node has a distinct state (cloneNode dedupes), so iterations are bounded by the number of reachable states.
C05	`Exact::compute` on an acyclic model (ranking measure); sink bound equals the optimum in both directions, via C18.
C06	Incumbent labels invariant through `computeBest`.
C07	FALSE of the code: bounds are read before they are computed. Counterexample; the value is a feasible cost only (partial).
C08	Invariant: every node bound is the cost of the node's label vector, which is a genuine path. No layering needed.
C09	Layered invariant: every improving completion from an expanded, unpruned node is covered by a child.
C10	Invariant on the work queue through the layer loop; counted on the finished diagram per rank.
C11	Covering invariant through expansion, merge and dominance redirection; then `tighten` picks the best parent of the sink.
C12	C11 plus: with no merge the sink path is genuine.
C13	Invariant preserved by makeNode and mergePair (merged nodes get exact=false).
C14	FALSE of the code: arcs from exact nodes straight to the sink are skipped. Counterexample, and the cover with that alternative spelled out.
C15	Backward sweep of C19 combined with the covering invariant.
C16	Induction on the merge loop, for merges that succeed exactly within classes of a layer; total merges are the case of one class.
C17	Pointer-level model of Edge `_fix`/`_tix`, `disconnect`, `addArc`, `transferArcs`; net-effect theorem.
C18	`computeBest` with the real Heap; a node is extracted only after all its parents.
C19	Same, mirrored.
C20	Coverage is preserved for valid dominance; FALSE when the dominated child is the sink node (counterexample).
C21	FALSE of the code: cloneNode returns nullptr for the root state. `widening_lost` holds for all models; `f2` is the witness.
C22	FALSE of the code: cloneNode ignores bounds. `dedup_drops` holds for all models; `f3` is the witness.
C23	Direct order laws over Int.
C24	Array model of Heap with locations; heap-order and position invariants; refinement to a bag of handles.
C25	Same model; heapify and refloat lemmas.
C26	FALSE of the code (scans capacity, stale slots). Counterexample; live elements are found.
C27	Ring-buffer model, refinement to List; initial capacity 0 refuted by witness.
C28	Same model.
C29	FALSE on order (front element moves into the hole); multiset part proved.
C30	Array model with auxiliary buffer; output is Perm and Sorted.
C31	FALSE for strict comparators (ties reversed); proved stable for non-strict comparators.
C32	Buffer, size and capacity model; refinement to List.
C33	FALSE of the code: the assigned value is truncated. Counterexample and exact effect.
C34	Segment list and (segment, top) model; live-block invariant by induction over operations.
C35	Same invariant, marks as part of the history.
C36	FALSE of the code: usage is not restored. Counterexample and exact formula.
C37	Bucket array with stamps; refinement to a finite map, arbitrary hash function.
C38	Stamp is 32-bit: proved for fewer than 2^32-1 clears, refuted at wrap-around.
C39	Binary search over the literal table; sizes 0 and 1 reach an out-of-range index (refuted).
C40	Parent and size maps, forest with a rank certificate; invariants by induction over operations.
C41	FALSE: `merge` returns r0 also when it attaches r0 under r1. Proved when r0 stays the root.
C42	Pointer-level doubly linked list model, refinement to List; removal of a non-member shown separately.
C43	Array with size, start and holes; refinement to List.
C44	Mixed-radix index function for any arity; injectivity and range; int overflow refutes it from 2^31 cells.
C45	List model; `int` loop counter refutes it at 2^32 elements.
C46	Int model with explicit iteration.
C47	FALSE at the end point and for backward ranges: counterexamples; exact characterisation.
C48	FALSE for backward ranges: counterexample; proved for forward ranges.
C49	Word-array model over BitVec 64; refinement to a membership predicate for every expression.
C50	Iterator model (count-trailing-zero loop) against the sorted member list.
C51	FALSE for different word counts: counterexample; proved up to a rotation.
C52	FALSE with stale size field and at capacity: counterexamples; proved when the size field is tight.
C53	FALSE for zero-capacity sets and huge values: non-termination theorem; proved otherwise.
C54	Word-vector model; refinement to membership.
C55	FALSE: words cleared too early, shift by 64. Counterexamples; proved outside these two families.
C56	BitVec model of the mask/shift reversal; `revBitsOfWord` leaves its top byte unset.
C57	Counter and free list model; invariant by induction.
C58	Bump allocator; invariant by induction.
C59	The lambdas as a `Mdl`; merge validity and layering; solutions are exactly the packings.
C60	FALSE as written across layers (ignores the item index); proved when item indices agree.
C61	The lambdas as a `Mdl`; merge and local bound by set monotonicity; solutions are the independent sets.
C62	The lambdas as a `Mdl`; merge validity by path simulation; solutions are the tours.
C63	FALSE: the intersection merge loses solutions. Counterexample; holds on the shipped instance.
C64	Ranks bound the number of rounds of every compiler; no model function returns the undefined outcome.
C65	FALSE: a dominated state stays in the node table at layer 0. Counterexample; C16 without dominance.
C66	Measure: unprocessed reachable states.
C67	Invariant of the exact compiler: node table in bijection with expanded reachable states.
C68	FALSE: byte count wraps, alignment ignored. Counterexamples; proved when neither applies.
C69	Pointer model of copy, move, assignment; FALSE for moved-from targets.
C70	`sum`, `min`, `max`, `foldl` of `util.hpp` over the iteration of C50.
C71	FALSE in IEEE double: witness instance. Valid in exact arithmetic.  The rounding used is shown to be to 53 bits and within half a unit (`rnd53_near`).
C72	`getUB` with out-of-range reads as undefined outcome.
C73	The `onSolution` checker of misp5 with out-of-range reads as undefined outcome.
C74	Compilers under `Room` keep `exact`; the root iteration then ends the search.
C75	FALSE: kids of a re-raised node keep the old bound. Counterexample `f7`; true when layered.
C76	mst() on the heap and union-find models; matroid exchange against the arcs of a completion.
C77	FALSE at the root: unwritten cell read. Elsewhere: sum of the smallest cheapest arcs by permutation.
C78	Paths are restricted-growth proper colourings; any colouring is renamed in order of first use.
C79	FALSE in its last clause for small widths. The search is proved over a family of models indexed by the primal bound (`Fam`).
C80	Bit-mask states track marks and distances of a ruler (`At`); forgetting either allows more (`GolS.Le`).
C81	The generator is a family indexed by the primal bound (`Fam`); counting distances and the table bound the marks.  Which losses remain: `shortcuts_only` (C129 and the value being the last mark).
C82	FALSE twice: shift by 64 bits at label 64; equal_to ignores distances. Counterexamples; true for labels up to 63 and unmerged states.
C83	Bit-mask states; paths characterised by induction on the label list; merged states by monotonicity of `extend1`.
C84	FALSE at small width (`misp1_search_false`); the engine theorems instantiated otherwise.
C85	FALSE at small width (`misp_search_false`, unit weights); the engine theorems instantiated otherwise.
C86	FALSE for misp.cpp; equivalence with independence for 0/1 vectors.
C87	Induction on the loops with an invariant on the visited array; fuel shown sufficient.
C88	Weak duality: each clique holds at most one chosen vertex, each multiplier is paid back at most once; induction on the multiplier list and on the subgradient loop.
C89	The calls of one run are replayed as a time-indexed family of pure bounds (`search_state`), to which the engine theorems apply.
C90	States projected from the misp5 model; the bounds are set bounds (C88), the Lagrangian one stateful (C89).  FALSE at small width (`misp4_search_false`).
C91	One shape (`Decides`) for both programs; paths against the reading function `Misp.read` by induction on the labels; merge by `read_onto`.
C92	Engine theorems through `Decides.layered`.  FALSE at width 2 (`misp2_search_false`, `misp3_search_false`).
C93	Solutions against the tours of `Tsp4`; tsp_test3 by a simulation (`Looser`: fewer cities on all ways, more on some) with the count of cities as invariant.
C94	The exchange and sorting arguments of C76/C77 for the loop without emptiness test, the truncating minimum and the `INF` minimum.  FALSE at the root.
C95	Engine theorems through `TspProg`; soundness and ending through `Shape` (C133), free of the undefined bounds.  FALSE at widths 3 and 5 (`tspv_search_false`, `tsp_search_false`).
C96	Both state forms (sets of open colours, colours given) read as one availability relation (`ColView`), completions against restricted-growth proper colourings.
C97	Engine theorems over the family indexed by the primal bound.  FALSE in its last clause at widths 1 and 2 (`colv_search_none`, `colv_search_false`).
C98	Paths against duplicate-free city lists by induction on the cities left; the merge test is any predicate.
C99	Engine theorems through `TspProg`.  FALSE at width 14 (`toy_search_false`).
C100	Refused merges (C101): every set of visited cities is reachable with each of its cities last, and two different sets of one size have fewer cities in common.
C101	Lockstep of the two compilations: while every node of a lower layer has all its children, the table holds every reachable open state of the lower layers.
C102	Mirror images: one of a ruler and its mirror image has its first half within half the length. The engine facts are used for the completions within that half (`FamV`).
C103	`searchT_*` and `searchV_*` for the family of C102.  Which losses remain: `shortcuts_only` (C129 and the value being the last mark).
C104	Projection to the states of gruler.cpp; lifting back uses that a ruler's state has no unused distance below `sm` (`Tight`); merged states by monotonicity of the search for the next unused distance.
C105	`searchT_*` and `searchV_*` for the family of C104.  Which losses remain: `shortcuts_only` (C129 and the value being the last mark).
C106	FALSE: shift by 64 bits at label 64; equal_to ignores distances and `sm`, the hash does not. Counterexamples; true for labels up to 63 and unmerged states.
C107	From the class form of C16: the class is the last city, mark or number of colours.
C108	The quotient is modelled in IEEE binary32 (round to nearest even) and the rounding bounded.
C109	Forgetting the ignored part commutes with every engine function, by induction over the loops.
C110	FALSE: evaluated counterexample (`gruler_equality_false`); the bound holds when whole states are compared (C81).
C111	Where no layer exceeds the width the relaxed diagram never calls the merge function, by induction; the search then is the search of the model that refuses to merge, where equal states are the same.
C112	Engine theorems under the program's own equality; invariant of the states merging and mixing can produce.
C113	`Knap.layered` and the engine theorems; a layer has one state per remaining capacity, so a width above the capacity is room.  FALSE in its last clause at widths 1 to 3 (`knap_search_false`, `knap_search_false3`).
C114	Soundness and ends ask nothing of the bound (no completion has to be kept); the checker is the profit and load loop.  FALSE in its last clause (C60, C71); it holds with exact rounding and a width above the capacity.
C115	`ifstream` as characters left, eofbit and failbit (`Istream.lean`); induction over the items against the words of the text.
C116	Same stream model, the array write before the count test kept.  FALSE: any character after the last digit, such as the final newline, makes it write behind the array (`knap2_reads`).
C117	`mergeSort` theorem for the comparator's total preorder; correctly rounded quotients of numbers below 2^26 compare as the quotients.  FALSE for larger numbers (`knap2_sorted_false`).
C118	The reader's loop against the lines of the text (`Shows`), by induction over the lines.  A missing file makes it switch on an unset character (`dimacs_missing`).  Lines ending in carriage return and newline read the same (`dimacs_crlf`).
C119	Layer n has at most 2^n states, one per sequence of choices, and at most 2^(top-n), one per set of vertices left; then `Room` holds and nothing is merged or cut.  Width 1 is too little for 3 vertices (`misp_search_false1`).
C120	`GNSet` and `FArray` models; induction over the edges.
C121	The reader's loops against the format (`PyShows`), by induction over its parts.  FALSE in its last clause: a file without N, E, K leaves the number of vertices unset (`py_quiet`), `c FILE: name` and an empty set of edges make it use unset end points (`py_no_edge`).
C122	`_nbp` of a fresh set is 64, one more than its last value: `NbpOk` over all insertions.  FALSE for every graph of at least 64 vertices where no neighbour of vertex 63 comes after it (`convert3_false`).
C123	The `GNSet` computation against the list in `Col.mdlA`.  FALSE when the least of the three is 63 and the bound at most 63 (`valid_false`), which every graph of at least 63 vertices with a bound of 62 or 63 can reach (`valid_reached`).
C124	A state is determined by the colours given so far, named in order of appearance: layer k has at most `parts k 0` states.
C125	The reader against the lines of the text (`Lines`, `TspHead`); the matrix as cells that are set or not, filled along a list of positions (`Fits`).  FALSE in its last clause: too few numbers leave distances unset (`tsp_short`), a file without section runs for ever or reads before a string (`tsp_unreadable`).
C126	The same with labelled lines (`Tsp4Head`, `Opts`) and the positions of the triangle.  FALSE in its last clause: another format prints distances nobody set (`tsp4_reads`), no section or no file runs for ever (`tsp4_unreadable`).
C127	An open state of layer k is a set of k cities and one of them; sets counted with Pascal's triangle, whose rows are largest in the middle.  FALSE for the programs that read an unwritten cell at the root (C94), proved if that value is harmless.
C128	C125/C126, C127 and the engine theorems joined.  The unwritten cell of C94 as in C127.
C129	The layers that never merge hold exact nodes only (`Kin`, induction over the merging loop), so no node above them is a cut-set node; then induction over the main loop.
C130	The search with its counters and lines (`searchR`); its state is that of `search` by induction, the counters are tallies of the ghost log.  Dual bounds by the invariant of C03; monotone if the local bound is consistent (`Cons`, shown for misp5.cpp).  When lines come: induction over the loop.  FALSE: a solution from an exact relaxed diagram gives no line, LIM? is 0 when the limit strikes on the last queued node, lost solutions make the dual no bound, an inconsistent bound lets it regress, a primal bound below 1 breaks the gap.
C131	The object with its callbacks (`Bnd`), reports fired one by one; a callback of an earlier search is a write to a dead variable.  Induction over callbacks, reports and searches.  FALSE for restarts: a second search that reports anything is undefined (`bounds_again_iff`), already the same search twice (`bounds_again_false`).
C132	Callbacks as folds over the incumbent; std::map as key-sorted list; int overflow and bad indices are none. Histogram by a tally invariant and Grow (colours enter in order); tour sum by prefix sums below the primal bound.
C133	`Shape`: the conditions on layers alone are `LayeredV` with no completion to keep, so the engine invariants apply; `setLoc` exchanges the local bound.
C134	Reader over the stream model with `get`, `unget`, `getline`, `>> double` (integer values); `skip` unfolds without fuel; text format as inductive relations; windows: two texts with one matrix give equal searches, and a file whose final tour is late (`tw_windows_false`).
C135	Heap loop with `find` over all slots; `Has.find`: live slots come first, so the location of a node still in the heap is found; order from the topological sequence; instantiated through `fin_wg` for relaxed and restricted diagrams with any bounds (`Shape`) and the exact invariant.
C136	Engine copied with a rounding `fl` after each addition (`Round.lean`); along the invariants of the compilations and the search every sum stays within `reach C L N`, so each step equals the integer one; `dbl` (53 bits, ties to even) as the concrete rounding; misp5 as an instance; two witnesses beyond 2^53. With additions that do not round the two engines are equal for every model (RoundId.lean).
C137	Engine copied with an arbitrary `P.add` in place of `+` (`Verif/Fl/Engine.lean`); `Run` (left-to-right machine sums of a label sequence) is the specification; invariant through visit, merge, restriction and re-pooling: the bound of every exact node is the machine sum of its labels. `double_order`: 0.1+0.2+0.3 against 0.6, width 2 and 3 give different answers. `exact_search`, `rnd_search`: the copied engine with exact (rounded) sums is the engine of the other properties (of C136).
C138	Same engine as C137 (arbitrary `P.add`). `Nr`/`Acc` state the accuracy; a potential argument: each node on the way of a solution has lost at most `E` per layer (`Sup`), every pruning, merge, dominance and re-pooling keeps some node for it or the primal bound matches it up to `(N+2)E+D` (`Fl/Near.lean`, `Fl/NearSearch.lean`). As in C03 the claim fails when cut-set nodes are dropped for a bad reason, hence `okLoop` in `search_near_partial`; `search_near_exact` needs no such condition when the root diagram is exact. `dbl_mono`, `dbl_acc`: binary64 rounding meets `Acc`. misp5 wholly in doubles, local bound included: `misp_near_double_partial`, with a concrete pentagon.
C139	Memory model (`Verif/GNMem.lean`): objects with a pointer, arrays allocated/deleted, every access checked. `run_values`: for every program memory and the value model of `Verif/GNSet.lean` agree, undefined behaviour included (invariant `R`: one owner per array, no leak). `gnset_program_partial`: against mathematical sets (`arun`), observed by reading memory (`Holds`). `gnset_memory` needs no rules. Witnesses for the three failures.
C140	The lambdas of misp5 are modelled again on GNSet words (MispW.lean). An invariant (word count, members, level) holds on every state met; on it each function is the mask function (GNMask.lean), so the refinement theorem state_equality_on, a version of C109 for states satisfying an invariant, carries the whole search over.
C141	The lambdas of tsp.cpp are modelled again on GNSet words (TspW.lean). The words are related to masks paired with a word count (state_equality_via), and these to masks alone by a projection (Pull.lean) that keeps paths, layers and widths though the table may hold equal states twice; soundness, end and optimum come from the theorems for arbitrary tables.
C142	Up to 64 cities every set of a run has one word, by induction over the states met. Beyond, a machine-checked pair of states of one run.
C143	Each function of the engine is shown to add nodes only through a failed lookup and to keep states (Ext, PExt), for arbitrary models. With that, induction over the nodes relates the table of Hash.lean, built by getLoc and insertAt, to the lookup by first match; doOnAll is a permutation of the nodes.
C144	The lambdas of misp4 modelled on GNSet words (Misp4W.lean); steps and merges are those of misp5 on the words (C140) without the last vertex, except past the last level; carried over by state_equality_on. The width comes from the layer count of misp5.
C145	Labels.lean models `getLabels` on a `Range` through `GNSet(Range)` with any bounds; the inserted values come out of the set sorted.  FALSE for backward ranges (`labels_order_false`); true part `labels_order_partial`.
C146	The rounded share is at most 1 below the exact one (`floorF_near`); a solution is followed through the root diagram with a local bound that is off by 1, and with room for every layer nothing else is explored.
C147	The lambdas of misp3 modelled on GNSet words (Misp3W.lean), with the neighbour sets built by the word-level filter. An invariant on every state met makes each function the mask function; carried over by state_equality_on. The layers are counted as for misp5: the next vertex is the smallest one left.
C148	The lambdas of misp2 modelled on GNSet words (Misp2W.lean). The invariant says that the number of words is the smallest power of two that holds the largest member; insertion, filtering, removal of the smallest member and union keep it, so equal sets have equally many words. Carried over by state_equality_on. Layers are counted by the set left together with the last vertex decided.
C149	The map of models of C109 is asked of merges only on states that are not final. The queue of the relaxed compilation holds only such nodes, or the root alone; carried through labels, nodes, merge loop, layers, expansions and search (Open.lean). The proviso is needed: witness merge_final_false.
C150	The lambdas of misp modelled on GNSet words (Misp1W.lean). The invariant sizes only sets that are not empty; transitions and merges of non-final states keep it. Carried over by state_equality_open, since the engine asks no merge of a final state (C149). Layers are counted by the set left together with the last vertex taken.
C151	A std::set<int> is its strictly increasing list (StdSet.lean). Folds that insert are characterised by membership; strictly increasing lists with the same members are equal. Partial sums by induction.
C152	Rotation and xor are injective, so one changed entry changes the hash; 22 shifts by 3 push 64 bits out. Digits read back to the number; texts split at separators give the elements back.
C153	As C141, once for the three programs (Tsp4W.lean, parameter TspK): the words are related to masks with a word count, and these to the mask models by Over. The local bounds are rewritten over the iterated set, which is shown to be the list of the mask model; size() is shown to count the ones of the mask. Soundness and end hold for every local bound (Shape.setLoc).
C154	As C153, with two sets and two word counts per state (Tsp3W.lean); each set is treated as the one set of a state of C153. A merge keeps the word count of the first A and the larger one of the two S.
C155	Vecs as sizes and array numbers in a pool of arrays (VecM.lean). Invariant: usable vectors have different arrays, all allocated. Each call is shown to be the call of Vec.lean on the view of the vector and to leave the other views alone; C32 then gives the lists.
