# Formal model of CODD: design

CODD is a C++ library that solves discrete optimisation problems with decision
diagrams and branch and bound. The model is a hand transcription of `/repo/src`
and some of `/repo/examples` into total Lean 4 functions. The code is read as
text; nothing from `/repo` is compiled or executed.

## Method

* One Lean module per component, model definitions first. Every definition cites
  the file and lines it models and says what it simplifies.
* Properties live in their own modules (`Verif/Props/*.lean`), stated against a
  small independent specification (lists, finite maps, sets, paths). The
  specification of a user problem is `Verif/Spec.lean`: steps, paths, solutions
  and their cost. It does not mention diagrams.
* Undefined behaviour (null dereference, out-of-bounds index, shift by the word
  width) is a distinct outcome, never a default value that looks normal.
* A property that the code does not satisfy is refuted by a concrete witness the
  kernel evaluates (`*_false`), and the part that does hold is proved under a
  name ending in `_partial` or as a separate exact characterisation.
* Each theorem has an example beside it showing that its hypotheses are
  satisfiable by a non-trivial input.
* `seeded/LOG.jsonl` records wrong programs tried against the theorems.

## Hypotheses on user models

Engine theorems hold for models that are `Layered` (`Verif/Spec.lean`): the sink
passes the sink test, the root does not, a step that does not end in a terminal
state raises the rank by one, values of reachable (also merged) states beat the
sentinel, merges cover both arguments and keep the rank, the local bound is
optimistic, and dominance within a layer covers. Terminal states may occur at
any rank. C08, C05, C06, C66 and C67 need less: acyclic or arbitrary models.
C75 shows that layering is needed for relaxed diagrams.

A label generator may read the current primal bound. Then the model is a family
`M p`, one per bound, over the problem `m`, and `Fam` (`Verif/Fam.lean`) asks that
only labels differ, that no label is invented, that completions improving on `p`
survive in `M p`, and that each `M p` is layered. The search theorems (`searchP_*`)
are proved for families; those for plain models (`search_*`) are their constant case.

A generator may also drop completions on purpose, such as one of two mirror images.
`LayeredV` and `FamV` say for which completions the engine has to answer: any family of
them that is closed under taking a step.  The facts about diagrams and searches (`…V`)
hold for those completions; `Layered` and `Fam` are the case of all completions.

## Properties

<!-- table -->
| id | property | status | model and proof | theorems |
|----|----------|--------|-----------------|----------|
| C01 | Every reported solution is real | proved | `search` models `BAndB::search`, `apply` and `update` over the three diagram compilers, with an arbitrary oracle for the timer. Loop invariant: pool nodes are genuine paths and every emitted pair is a feasible label vector with its cost. | `BB.search_sound`, `BB.searchP_sound` |
| C02 | The primal bound only ever improves | proved | Same run model; the trace of emitted primals is strictly improving and starts from the attached user primal. | `BB.primal_improves`, `BB.primalP_improves` |
| C03 | Search returns the optimum | partial | FALSE of the code (witness `f1`, width 2). Partial: optimal whenever the run meets none of the four lossy events that `okLoop` checks. | `BB.search_optimum_partial`, `BB.search_answer_partial`, `BB.search_optimum_false`, `BB.searchP_optimum_partial`, `BB.searchP_answer_partial` |
| C04 | Search terminates | proved | Every queued node has a distinct state (cloneNode dedupes), so iterations are bounded by the number of reachable states. | `BB.search_terminates`, `BB.searchP_terminates`, `BB.search_ends`, `BB.searchP_ends` |
| C05 | Exact diagram gives the optimum | proved | `Exact::compute` on an acyclic model (ranking measure); sink bound equals the optimum in both directions, via C18. | `DD.exact_optimum`, `DD.exact_root` |
| C06 | Exact diagram incumbent | proved | Incumbent labels invariant through `computeBest`. | `DD.exact_optimum`, `DD.exact_root` |
| C07 | A valid local bound does not change the exact diagram's value | partial | FALSE of the code: bounds are read before they are computed. Counterexample; the value is a feasible cost only (partial). | `DD.exact_local_false`, `DD.exact_local_partial` |
| C08 | Restricted diagram is a primal bound | proved | Invariant: every node bound is the cost of the node's label vector, which is a genuine path. No layering needed. | `DD.restricted_primal`, `DD.restricted_primal_root` |
| C09 | Restricted diagram that reports exact is optimal | proved | Layered invariant: every improving completion from an expanded, unpruned node is covered by a child. | `DD.restricted_exact` |
| C10 | Restricted diagram respects its width | proved | Invariant on the work queue through the layer loop; counted on the finished diagram per rank. | `DD.restricted_width` |
| C11 | Relaxed diagram is a dual bound | proved | Covering invariant through expansion, merge and dominance redirection; then `tighten` picks the best parent of the sink. | `DD.relaxed_dual` |
| C12 | Relaxed diagram that reports exact is optimal and feasible | proved | C11 plus: with no merge the sink path is genuine. | `DD.relaxed_exact` |
| C13 | Exact nodes of a relaxed diagram are genuine | proved | Invariant preserved by makeNode and mergePair (merged nodes get exact=false). | `DD.relaxed_exact_nodes` |
| C14 | The cut set covers every improving solution | partial | FALSE of the code: arcs from exact nodes straight to the sink are skipped. Counterexample, and the cover with that alternative spelled out. | `DD.cutset_covers_partial`, `DD.cutset_covers`, `DD.cutset_covers_false` |
| C15 | Backward bounds are valid | proved | Backward sweep of C19 combined with the covering invariant. | `DD.backward_valid` |
| C16 | Relaxed layers respect the width when merging never fails | proved | Induction on the merge loop, for merges that succeed exactly within classes of a layer; total merges are the case of one class. | `DD.relaxed_width`, `DD.relaxed_width_classes` |
| C17 | Merging keeps the diagram's arcs | proved | Pointer-level model of Edge `_fix`/`_tix`, `disconnect`, `addArc`, `transferArcs`; net-effect theorem. | `DD.merge_arcs` |
| C18 | Forward sweep is insertion-order independent | proved | `computeBest` with the real Heap; a node is extracted only after all its parents. | `DD.computeBest_correct` |
| C19 | Backward sweep is insertion-order independent | proved | Same, mirrored. | `DD.computeBestBackward_correct` |
| C20 | Dominance never breaks the diagram | partial | Coverage is preserved for valid dominance; FALSE when the dominated child is the sink node (counterexample). | `DD.dominance_safe_partial`, `DD.dominance_safe_false` |
| C21 | Widening makes progress | partial | FALSE of the code: cloneNode returns nullptr for the root state. `widening_lost` holds for all models; `f2` is the witness. | `BB.widening_false`, `BB.widening_lost` |
| C22 | A better way to reach a known state is not lost | partial | FALSE of the code: cloneNode ignores bounds. `dedup_drops` holds for all models; `f3` is the witness. | `BB.rereach_false`, `BB.dedup_drops` |
| C23 | Objective sense laws | proved | Direct order laws over Int. | `DD.sense_order`, `DD.sense_meaning`, `DD.sense_add`, `DD.sense_pick`, `DD.sense_sentinels`, `DD.sense_intmin` |
| C24 | Heap is a priority queue | proved | Array model of Heap with locations; heap-order and position invariants; refinement to a bag of handles. | `Heap.heap_refines_bag` |
| C25 | Heap decrease and buildHeap | proved | Same model; heapify and refloat lemmas. | `Heap.build_then_drain_sorts`, `Heap.build_then_run_refines`, `Heap.buildHeap_keeps`, `Heap.decrease_spec` |
| C26 | Heap find agrees with the content | partial | FALSE of the code (scans capacity, stale slots). Counterexample; live elements are found. | `Heap.find_partial`, `Heap.find_full_partial`, `Heap.find_stale_false`, `Heap.find_after_extract_false` |
| C27 | CQueue is FIFO across growth | partial | Ring-buffer model, refinement to List; initial capacity 0 refuted by witness. | `Queue.cqueue_fifo_partial`, `Queue.cqueue_fifo_reach`, `Queue.cqueue_size0_false` |
| C28 | CQueue traversals visit the queue in order | proved | Same model. | `Queue.doOnAll_visits`, `Queue.foldl_stops` |
| C29 | CQueue retract removes one element and keeps the rest | partial | FALSE on order (front element moves into the hole); multiset part proved. | `Queue.retract_removes_partial`, `Queue.retractVal_spec`, `Queue.retract_order_false` |
| C30 | mergeSort sorts | proved | Array model with auxiliary buffer; output is Perm and Sorted. | `MSort.mergeSort_sorts`, `MSort.mergeSort_perm`, `MSort.mergeSort_seg` |
| C31 | mergeSort is stable | partial | FALSE for strict comparators (ties reversed); proved stable for non-strict comparators. | `MSort.mergeSort_stable_partial`, `MSort.mergeSort_stable_false`, `MSort.mergeSort_strict_reverses` |
| C32 | Vec is a list | proved | Buffer, size and capacity model; refinement to List. | `Vec.vec_refines`, `Vec.vec_lists`, `Vec.dropAt_perm`, `Vec.push_diverges` |
| C33 | Writing through v[i] keeps the other elements | partial | FALSE of the code: the assigned value is truncated. Counterexample and exact effect. | `Vec.store_partial`, `Vec.store_false`, `Vec.store_truncates` |
| C34 | Pool blocks are disjoint and in bounds | proved | Segment list and (segment, top) model; live-block invariant by induction over operations. | `Pool.pool_blocks_disjoint`, `Pool.alloc_fresh` |
| C35 | Clearing to a mark protects older blocks | proved | Same invariant, marks as part of the history. | `Pool.clear_to_mark_protects` |
| C36 | Pool usage reflects live memory | partial | FALSE of the code: usage is not restored. Counterexample and exact formula. | `Pool.usage_restored_partial`, `Pool.usage_restored_false` |
| C37 | Hash tables are maps | proved | Bucket array with stamps; refinement to a finite map, arbitrary hash function. | `Hash.hash_map`, `Hash.run_refines`, `Hash.doOnAll_perm` |
| C38 | Clear forgets everything | partial | Stamp is 32-bit: proved for fewer than 2^32-1 clears, refuted at wrap-around. | `Hash.clear_partial`, `Hash.clear_false` |
| C39 | Hash table sizing | partial | Binary search over the literal table; sizes 0 and 1 reach an out-of-range index (refuted). | `Hash.tabSize_partial`, `Hash.bucket_lt`, `Hash.tabSize_false` |
| C40 | Union-find maintains the partition | proved | Parent and size maps, forest with a rank certificate; invariants by induction over operations. | `UF.uf_partition`, `UF.uf_compress` |
| C41 | Union-find merge returns the representative | partial | FALSE: `merge` returns r0 also when it attaches r0 under r1. Proved when r0 stays the root. | `UF.merge_partial`, `UF.merge_false` |
| C42 | Node list is a list | proved | Pointer-level doubly linked list model, refinement to List; removal of a non-member shown separately. | `ANList.anlist_lists`, `ANList.list_refines`, `ANList.remove_foreign` |
| C43 | NDArray is a list with erasure | proved | Array with size, start and holes; refinement to List. | `NDArray.nd_lists`, `NDArray.nd_refines`, `NDArray.pushFront_spec`, `NDArray.eraseSuffix_spec`, `NDArray.push_zero` |
| C44 | Matrix cells do not alias | partial | Mixed-radix index function for any arity; injectivity and range; int overflow refutes it from 2^31 cells. | `FArr.matrix_cells_partial`, `FArr.matrix_cells_false`, `FArr.matrix_print` |
| C45 | FArray equality and hash | partial | List model; `int` loop counter refutes it at 2^32 elements. | `FArr.farray_eq_partial`, `FArr.farray_eq_list`, `FArr.farray_hash`, `FArr.farray_eq_false` |
| C46 | Range iteration | proved | Int model with explicit iteration. | `Range.yields_forward`, `Range.yields_backward`, `Range.size_eq_length`, `Range.close_up`, `Range.close_down`, `Range.close_mem`, `Range.openInc_mem`, `Range.closeInc_mem`, `Range.largest_ub`, `Range.open_mem` |
| C47 | Range contains agrees with iteration | partial | FALSE at the end point and for backward ranges: counterexamples; exact characterisation. | `Range.contains_iff_yielded_partial`, `Range.contains_iff`, `Range.contains_iff_yielded_false`, `Range.contains_backward_false` |
| C48 | Range flip reverses | partial | FALSE for backward ranges: counterexample; proved for forward ranges. | `Range.flip_forward_partial`, `Range.flip_empty`, `Range.flip_reverse_false` |
| C49 | GNSet set algebra | proved | Word-array model over BitVec 64; refinement to a membership predicate for every expression. | `GNSet.gnset_mem`, `GNSet.gnset_queries`, `GNSet.gnset_eq` |
| C50 | GNSet iteration | partial | Iterator model (count-trailing-zero loop) against the sorted member list. | `GNSet.gnset_iter`, `GNSet.iter_copy_false`, `GNSet.iter_short` |
| C51 | GNSet equal sets hash equally | partial | FALSE for different word counts: counterexample; proved up to a rotation. | `GNSet.hash_partial`, `GNSet.hash_false` |
| C52 | GNSet removeAbove | partial | FALSE with stale size field and at capacity: counterexamples; proved when the size field is tight. | `GNSet.removeAbove_partial`, `GNSet.removeAbove_plain`, `GNSet.removeAbove_stale`, `GNSet.removeAbove_oob` |
| C53 | GNSet insert always terminates | partial | FALSE for zero-capacity sets and huge values: non-termination theorem; proved otherwise. | `GNSet.insert_partial`, `GNSet.insert_spec`, `GNSet.insert_false`, `GNSet.insert_large` |
| C54 | NatSet set algebra and hash | proved | Word-vector model; refinement to membership. | `NatSet.natset_mem`, `NatSet.natset_queries`, `NatSet.natset_eq`, `NatSet.iter_false` |
| C55 | NatSet difference-from-offset | partial | FALSE: words cleared too early, shift by 64. Counterexamples; proved outside these two families. | `NatSet.minus_partial`, `NatSet.minus_empty`, `NatSet.minus_false`, `NatSet.minus_shift` |
| C56 | Bit reversal | partial | BitVec model of the mask/shift reversal; `revBitsOfWord` leaves its top byte unset. | `Bits.revLong_bit`, `Bits.revByte_bit`, `Bits.revWord_partial`, `Bits.revWord_false` |
| C57 | Node allocator ids are unique | proved | Counter and free list model; invariant by induction. | `Alloc.lpool_ids`, `Alloc.lpool_nodes`, `Alloc.ids_wrap` |
| C58 | Stack allocator | proved | Bump allocator; invariant by induction. | `Alloc.core_alloc` |
| C59 | Knapsack relaxation is valid | proved | The lambdas as a `Mdl`; merge validity and layering; solutions are exactly the packings. | `Ex.Knap.layered`, `Ex.Knap.sol_iff` |
| C60 | Knapsack dominance is valid | partial | FALSE as written across layers (ignores the item index); proved when item indices agree. | `Ex.dominance2_partial`, `Ex.Knap.layered2`, `Ex.dominance2_false` |
| C61 | Independent-set relaxation and bound are valid | proved | The lambdas as a `Mdl`; merge and local bound by set monotonicity; solutions are the independent sets. | `Ex.misp_merge_valid`, `Ex.misp_local`, `Ex.Misp.layered`, `Ex.Misp.sol_ind`, `Ex.Misp.ind_sol`, `Ex.misp_dual` |
| C62 | TSP relaxation is valid | proved | The lambdas as a `Mdl`; merge validity by path simulation; solutions are the tours. | `Ex.tsp_merge_valid`, `Ex.Tsp.layered`, `Ex.Tsp.sol_iff`, `Ex.tsp_dual` |
| C63 | Toy example relaxation is valid | partial | FALSE: the intersection merge loses solutions. Counterexample; holds on the shipped instance. | `Ex.foo_merge_false`, `Ex.foo_dual_false`, `Ex.foo_ship_partial`, `Ex.foo_ship_answer` |
| C64 | Compilation terminates without undefined behaviour | proved | Ranks bound the number of rounds of every compiler; no model function returns the undefined outcome. | `DD.compile_terminates` |
| C65 | Relaxed layers respect the width also with dominance | partial | FALSE: a dominated state stays in the node table at layer 0. Counterexample; C16 without dominance. | `DD.relaxed_width_false`, `DD.relaxed_width` |
| C66 | Exact compilation terminates | proved | Measure: unprocessed reachable states. | `DD.exact_terminates` |
| C67 | Exact diagram has one node per reachable state | proved | Invariant of the exact compiler: node table in bijection with expanded reachable states. | `DD.exact_nodes` |
| C68 | Stack adapter gives room for the objects | partial | FALSE: byte count wraps, alignment ignored. Counterexamples; proved when neither applies. | `Alloc.adapt_partial`, `Alloc.adapt_room_false`, `Alloc.adapt_align_false` |
| C69 | FArray has value semantics | partial | Pointer model of copy, move, assignment; FALSE for moved-from targets. | `FArr.farray_copy`, `FArr.farray_assign_partial`, `FArr.farray_assign_false`, `FArr.farray_set`, `FArr.farray_moveSelf` |
| C70 | Folds over sets | proved | `sum`, `min`, `max`, `foldl` of `util.hpp` over the iteration of C50. | `GNSet.gnset_folds` |
| C71 | Second knapsack local bound is optimistic | partial | FALSE in IEEE double: witness instance. Valid in exact arithmetic.  The rounding used is shown to be to 53 bits and within half a unit (`rnd53_near`). | `Ex.local2_partial`, `Ex.local2_false`, `Ex.rne_half`, `Ex.rnd53_near` |
| C72 | Second knapsack initial bound is achievable | partial | `getUB` with out-of-range reads as undefined outcome. | `Ex.getUB_partial`, `Ex.getUB_none` |
| C73 | The independent-set checker totals the solution | partial | The `onSolution` checker of misp5 with out-of-range reads as undefined outcome. | `Ex.checker_partial`, `Ex.checker_oob`, `Ex.checker_false` |
| C74 | Enough width makes the search exact | proved | Compilers under `Room` keep `exact`; the root iteration then ends the search. | `BB.search_room`, `BB.searchP_room`, `DD.relaxed_room`, `DD.restricted_room` |
| C75 | States reached at several depths | partial | FALSE: kids of a re-raised node keep the old bound. Counterexample `f7`; true when layered. | `BB.stale_dual_false`, `BB.stale_search_false`, `DD.relaxed_dual`, `DD.exact_optimum` |
| C76 | The spanning-tree bound of tsp_test4 | proved | mst() on the heap and union-find models; matroid exchange against the arcs of a completion. | `Ex.tsp4_mst`, `Ex.tsp4_merge_valid` |
| C77 | The local bound of tsp_test4 | partial | FALSE at the root: unwritten cell read. Elsewhere: sum of the smallest cheapest arcs by permutation. | `Ex.tsp4_bound_partial`, `Ex.tsp4_greedy`, `Ex.tsp4_dual_partial`, `Ex.tsp4_greedy_false`, `Ex.tsp4_search_false` |
| C78 | The colouring example solves graph colouring | proved | Paths are restricted-growth proper colourings; any colouring is renamed in order of first use. | `Ex.coloring_chromatic`, `Ex.coloring_merge_valid`, `Ex.Col.sol_iff` |
| C79 | Search with labels that depend on the primal bound | partial | FALSE in its last clause for small widths. The search is proved over a family of models indexed by the primal bound (`Fam`). | `Ex.coloring_dual`, `Ex.coloring_search_sound`, `Ex.coloring_search_ends`, `Ex.coloring_search_room`, `Ex.coloring_search_partial`, `Ex.coloring_search_false` |
| C80 | The Golomb ruler example solves the Golomb ruler problem | proved | Bit-mask states track marks and distances of a ruler (`At`); forgetting either allows more (`GolS.Le`). | `Ex.gruler_sol`, `Ex.gruler_merge_valid` |
| C81 | Golomb ruler label generator and search | partial | The generator is a family indexed by the primal bound (`Fam`); counting distances and the table bound the marks.  Which losses remain: `shortcuts_only` (C129 and the value being the last mark). | `Ex.Gol.fam_ok`, `Ex.gruler_dual`, `Ex.gruler_search_sound`, `Ex.gruler_search_ends`, `Ex.gruler_search_room`, `Ex.gruler_search_partial`, `Ex.gruler_table`, `Ex.gruler_shortcut_partial` |
| C82 | State sets and state equality of the Golomb ruler example | partial | FALSE twice: shift by 64 bits at label 64; equal_to ignores distances. Counterexamples; true for labels up to 63 and unmerged states. | `Ex.gruler_sets`, `Ex.gruler_undefined`, `Ex.gruler_eq`, `Ex.gruler_eq_false`, `Ex.hash256_word` |
| C83 | First independent-set example: solutions, merge, dual bound | proved | Bit-mask states; paths characterised by induction on the label list; merged states by monotonicity of `extend1`. | `Ex.misp1_sol`, `Ex.misp1_covers`, `Ex.misp1_merge_valid`, `Ex.Misp.layered1`, `Ex.misp1_dual` |
| C84 | First independent-set example: the search | partial | FALSE at small width (`misp1_search_false`); the engine theorems instantiated otherwise. | `Ex.misp1_search_sound`, `Ex.misp1_search_ends`, `Ex.misp1_search_room`, `Ex.misp1_search_partial`, `Ex.misp1_search_false` |
| C85 | Include/exclude independent-set example: the search | partial | FALSE at small width (`misp_search_false`, unit weights); the engine theorems instantiated otherwise. | `Ex.misp_search_sound`, `Ex.misp_search_ends`, `Ex.misp_search_room`, `Ex.misp_search_partial`, `Ex.misp_search_false`, `Ex.misp_search_false1` |
| C86 | The edge loop of the independent-set checkers | partial | FALSE for misp.cpp; equivalence with independence for 0/1 vectors. | `Ex.misp_checker`, `Ex.misp_checker_ok`, `Ex.misp1_checker_false`, `Ex.misp23_checker_false` |
| C87 | Greedy clique partition | proved | Induction on the loops with an invariant on the visited array; fuel shown sufficient. | `Ex.clique_partition`, `Ex.cliqueOf_class`, `Ex.class_joined`, `Ex.argmax_best` |
| C88 | Clique and Lagrangian bounds | proved | Weak duality: each clique holds at most one chosen vertex, each multiplier is paid back at most once; induction on the multiplier list and on the subgradient loop. | `Ex.cliqueBound_valid`, `Ex.cliqueBound_whole`, `Ex.lagBound_valid`, `Ex.lagDual_valid`, `Ex.updMul_ok`, `Ex.floorEps_round` |
| C89 | Local bounds that keep state | partial | The calls of one run are replayed as a time-indexed family of pure bounds (`search_state`), to which the engine theorems apply. | `BB.searchS_sound`, `BB.searchS_ends`, `BB.searchS_room`, `BB.searchS_answer_partial`, `BB.search_state`, `DD.Layered.withLoc` |
| C90 | Independent-set examples with clique and Lagrangian bounds: the search | partial | States projected from the misp5 model; the bounds are set bounds (C88), the Lagrangian one stateful (C89).  FALSE at small width (`misp4_search_false`). | `Ex.misp4_search_sound`, `Ex.misp4_search_ends`, `Ex.misp4_search_room`, `Ex.misp4_search_partial`, `Ex.misp4_search_false`, `Ex.layered4`, `Ex.bound0_ok`, `Ex.bound1_ok`, `Ex.lagLoc_ok`, `Ex.misp4_search_width`, `Ex.Misp.room4` |
| C91 | Second and third independent-set examples: solutions, merge, bound, dual bound | proved | One shape (`Decides`) for both programs; paths against the reading function `Misp.read` by induction on the labels; merge by `read_onto`. | `Ex.misp23_sol`, `Ex.misp23_read`, `Ex.misp23_merge_valid`, `Ex.Misp.decides2`, `Ex.Misp.decides3`, `Ex.Misp.Decides.layered`, `Ex.misp23_dual` |
| C92 | Second and third independent-set examples: the search | partial | Engine theorems through `Decides.layered`.  FALSE at width 2 (`misp2_search_false`, `misp3_search_false`). | `Ex.misp23_search_sound`, `Ex.misp23_search_ends`, `Ex.misp2_search_room`, `Ex.misp3_search_room`, `Ex.misp2_search_partial`, `Ex.misp3_search_partial`, `Ex.misp2_search_false`, `Ex.misp3_search_false` |
| C93 | Three more TSP examples: solutions and merging | proved | Solutions against the tours of `Tsp4`; tsp_test3 by a simulation (`Looser`: fewer cities on all ways, more on some) with the count of cities as invariant. | `Ex.tspv_sol`, `Ex.tspv_merge_valid`, `Ex.tsp3_sol`, `Ex.tsp3_merge_valid` |
| C94 | Local bounds of the other TSP examples | partial | The exchange and sorting arguments of C76/C77 for the loop without emptiness test, the truncating minimum and the `INF` minimum.  FALSE at the root. | `Ex.tsp2_mst`, `Ex.tsptw_greedy`, `Ex.tsp3_greedy`, `Ex.tspv_dual_partial`, `Ex.tsp2_mst_false`, `Ex.tsptw3_greedy_false`, `Ex.tspv_root_false` |
| C95 | The searches of the TSP examples | partial | Engine theorems through `TspProg`; soundness and ending through `Shape` (C133), free of the undefined bounds.  FALSE at widths 3 and 5 (`tspv_search_false`, `tsp_search_false`). | `Ex.tspv_search_sound`, `Ex.tspv_search_ends`, `Ex.tspv_search_room_partial`, `Ex.tspv_search_partial`, `Ex.tsp_search_sound`, `Ex.tsp_search_ends`, `Ex.tsp_search_room`, `Ex.tsp_search_partial`, `Ex.tspv_search_false`, `Ex.tsp_search_false` |
| C96 | The colouring examples that read a file: solutions, merging, bounds | proved | Both state forms (sets of open colours, colours given) read as one availability relation (`ColView`), completions against restricted-growth proper colourings. | `Ex.colv_sol`, `Ex.colv_chromatic`, `Ex.colv_merge_valid`, `Ex.colv_dual` |
| C97 | The searches of the colouring examples that read a file | partial | Engine theorems over the family indexed by the primal bound.  FALSE in its last clause at widths 1 and 2 (`colv_search_none`, `colv_search_false`). | `Ex.colv_search_sound`, `Ex.colv_checker`, `Ex.colv_search_ends`, `Ex.colv_search_low`, `Ex.colv_search_room`, `Ex.colv_search_partial`, `Ex.colv_search_false`, `Ex.colv_search_none` |
| C98 | The first toy TSP example models the shortest tour | proved | Paths against duplicate-free city lists by induction on the cities left; the merge test is any predicate. | `Ex.Toy.sol_iff`, `Ex.toy_merge_valid`, `Ex.toy_dual`, `Ex.toy_arcs` |
| C99 | The searches of the first toy TSP example | partial | Engine theorems through `TspProg`.  FALSE at width 14 (`toy_search_false`). | `Ex.toy_search`, `Ex.toy_search_partial`, `Ex.toy_search_false` |
| C100 | The second toy TSP example answers right at every width | proved | Refused merges (C101): every set of visited cities is reachable with each of its cities last, and two different sets of one size have fewer cities in common. | `Ex.toy2_search`, `Ex.toy2_relaxed_exact`, `Ex.toy2_arcs`, `Ex.toy2_merge_invalid`, `Ex.Toy.sol2_iff` |
| C101 | A merge into a lower layer is refused and leaves the diagram exact | proved | Lockstep of the two compilations: while every node of a lower layer has all its children, the table holds every reachable open state of the lower layers. | `DD.relaxed_bare`, `BB.search_bare`, `BB.search_refused` |
| C102 | Bounding the middle mark loses no shortest ruler | proved | Mirror images: one of a ruler and its mirror image has its first half within half the length. The engine facts are used for the completions within that half (`FamV`). | `Ex.Gol.mid_ok`, `Ex.Gol.mid_covers`, `Ex.mirror_half`, `Ex.gruler_mid_dual`, `Ex.gruler_mid_hides` |
| C103 | Search of gruler_mid | partial | `searchT_*` and `searchV_*` for the family of C102.  Which losses remain: `shortcuts_only` (C129 and the value being the last mark). | `Ex.gruler_mid_sound`, `Ex.gruler_mid_ends`, `Ex.gruler_mid_room`, `Ex.gruler_mid_partial`, `Ex.gruler_mid_shortcut_partial` |
| C104 | Starting at the smallest unused distance loses no ruler | proved | Projection to the states of gruler.cpp; lifting back uses that a ruler's state has no unused distance below `sm` (`Tight`); merged states by monotonicity of the search for the next unused distance. | `Ex.midlb_sol`, `Ex.midlb_merge_valid`, `Ex.adv_spec`, `Ex.Gol.midB_ok`, `Ex.Gol.midB_covers`, `Ex.midlb_dual` |
| C105 | Search of gruler_midlb | partial | `searchT_*` and `searchV_*` for the family of C104.  Which losses remain: `shortcuts_only` (C129 and the value being the last mark). | `Ex.midlb_sound`, `Ex.midlb_ends`, `Ex.midlb_room`, `Ex.midlb_partial`, `Ex.midlb_shortcut_partial` |
| C106 | State sets, equality and hash of gruler_mid and gruler_midlb | partial | FALSE: shift by 64 bits at label 64; equal_to ignores distances and `sm`, the hash does not. Counterexamples; true for labels up to 63 and unmerged states. | `Ex.gruler_sets_words`, `Ex.mid_undefined`, `Ex.gruler_eq`, `Ex.midlb_eq`, `Ex.midlb_eq_false`, `Ex.midlb_hash_false`, `Ex.gruler_mid_eq_false` |
| C107 | How far relaxed layers of the examples exceed the width | proved | From the class form of C16: the class is the last city, mark or number of colours. | `Ex.tsp_width`, `Ex.gruler_width`, `Ex.coloring_width`, `Ex.misp5_width`, `Ex.misp4_width`, `DD.relaxed_width_classes` |
| C108 | The float test in the merge of tsptoy | proved | The quotient is modelled in IEEE binary32 (round to nearest even) and the rounding bounded. | `Ex.toy_merge_test`, `Ex.fdiv24_spec` |
| C109 | State equality that ignores part of a state | proved | Forgetting the ignored part commutes with every engine function, by induction over the loops. | `Ex.state_equality`, `Ex.state_equality_relaxed`, `Ex.tsp_lb_unused`, `BB.searchT_map`, `DD.relaxed_map`, `DD.restricted_map`, `DD.exactDD_map` |
| C110 | Dual bounds of gruler under its own state equality | partial | FALSE: evaluated counterexample (`gruler_equality_false`); the bound holds when whole states are compared (C81). | `Ex.gruler_equality_false`, `Ex.gruler_buckets`, `Ex.gruler_dual` |
| C111 | An equality that confuses merged states costs nothing when nothing is merged | proved | Where no layer exceeds the width the relaxed diagram never calls the merge function, by induction; the search then is the search of the model that refuses to merge, where equal states are the same. | `BB.searchP_ownEq`, `BB.searchV_ownEq`, `BB.searchT_noMerge`, `DD.relaxed_noMerge` |
| C112 | The ruler programs over their own tables | proved | Engine theorems under the program's own equality; invariant of the states merging and mixing can produce. | `Ex.gruler_ownEq_sound`, `Ex.gruler_ownEq_ends`, `Ex.gruler_ownEq_room`, `Ex.gruler_mid_ownEq_room`, `Ex.midlb_ownEq_sound`, `Ex.midlb_ownEq_ends`, `Ex.midlb_ownEq_room`, `Ex.gruSame_ok`, `Ex.midlbSame_ok` |
| C113 | The search of the knapsack example | partial | `Knap.layered` and the engine theorems; a layer has one state per remaining capacity, so a width above the capacity is room.  FALSE in its last clause at widths 1 to 3 (`knap_search_false`, `knap_search_false3`). | `Ex.knap_search_sound`, `Ex.knap_search_ends`, `Ex.knap_search_room`, `Ex.knap_search_partial`, `Ex.knap_search_false`, `Ex.knap_search_false3` |
| C114 | The search and the checker of the second knapsack example | partial | Soundness and ends ask nothing of the bound (no completion has to be kept); the checker is the profit and load loop.  FALSE in its last clause (C60, C71); it holds with exact rounding and a width above the capacity. | `Ex.knap2_search_sound`, `Ex.knap2_search_ends`, `Ex.knap2_search_checked`, `Ex.knap2_checker`, `Ex.knap2_search_room_partial`, `Ex.dominance2_false`, `Ex.local2_false` |
| C115 | The knapsack example reads its file | proved | `ifstream` as characters left, eofbit and failbit (`Istream.lean`); induction over the items against the words of the text. | `Ex.knap_reads`, `Ex.knap_program` |
| C116 | The second knapsack example reads its file | partial | Same stream model, the array write before the count test kept.  FALSE: any character after the last digit, such as the final newline, makes it write behind the array (`knap2_reads`). | `Ex.knap2_reads`, `Ex.knap2_reads_partial`, `Ex.knap2_short` |
| C117 | The second knapsack example sorts its items | partial | `mergeSort` theorem for the comparator's total preorder; correctly rounded quotients of numbers below 2^26 compare as the quotients.  FALSE for larger numbers (`knap2_sorted_false`). | `Ex.sortItems_spec`, `Ex.knap2_sorted_partial`, `Ex.knap2_sorted_false` |
| C118 | The independent-set examples read their DIMACS file | proved | The reader's loop against the lines of the text (`Shows`), by induction over the lines.  A missing file makes it switch on an unset character (`dimacs_missing`).  Lines ending in carriage return and newline read the same (`dimacs_crlf`). | `Ex.dimacs_reads`, `Ex.dimacs_missing`, `Ex.misp_program`, `IO.dimacs_crlf`, `IO.getNum_outside` |
| C119 | A width with which misp5.cpp is exact | proved | Layer n has at most 2^n states, one per sequence of choices, and at most 2^(top-n), one per set of vertices left; then `Room` holds and nothing is merged or cut.  Width 1 is too little for 3 vertices (`misp_search_false1`). | `Ex.misp_search_width`, `Ex.Misp.room` |
| C120 | From the list of edges to sets of neighbours | proved | `GNSet` and `FArray` models; induction over the edges. | `Ex.convert_ok`, `Ex.convert_bad`, `Ex.vertices_ok` |
| C121 | The colouring examples read their file | partial | The reader's loops against the format (`PyShows`), by induction over its parts.  FALSE in its last clause: a file without N, E, K leaves the number of vertices unset (`py_quiet`), `c FILE: name` and an empty set of edges make it use unset end points (`py_no_edge`). | `Ex.py_reads`, `Ex.geSet_spec`, `Ex.py_quiet`, `Ex.py_no_edge`, `Ex.py_missing`, `Ex.col_program` |
| C122 | coloring3 keeps the earlier neighbours | partial | `_nbp` of a fresh set is 64, one more than its last value: `NbpOk` over all insertions.  FALSE for every graph of at least 64 vertices where no neighbour of vertex 63 comes after it (`convert3_false`). | `Ex.convert3_partial`, `Ex.convert3_false` |
| C123 | The colours coloring2 and coloring3 try | partial | The `GNSet` computation against the list in `Col.mdlA`.  FALSE when the least of the three is 63 and the bound at most 63 (`valid_false`), which every graph of at least 63 vertices with a bound of 62 or 63 can reach (`valid_reached`). | `Ex.valid_model_partial`, `Ex.valid_partial`, `Ex.valid_false`, `Ex.valid_reached` |
| C124 | A width with which the colouring examples are exact | proved | A state is determined by the colours given so far, named in order of appearance: layer k has at most `parts k 0` states. | `Ex.colv_search_width`, `Ex.ColView.room`, `Ex.col_program` |
| C125 | tsp.cpp, tsp_test2 and tsp_test3 read a full matrix | partial | The reader against the lines of the text (`Lines`, `TspHead`); the matrix as cells that are set or not, filled along a list of positions (`Fits`).  FALSE in its last clause: too few numbers leave distances unset (`tsp_short`), a file without section runs for ever or reads before a string (`tsp_unreadable`). | `Ex.tsp_reads`, `Ex.tsp_short`, `Ex.tsp_unreadable`, `Ex.tsp_negative` |
| C126 | tsp_test4 reads full matrices and lower triangles | partial | The same with labelled lines (`Tsp4Head`, `Opts`) and the positions of the triangle.  FALSE in its last clause: another format prints distances nobody set (`tsp4_reads`), no section or no file runs for ever (`tsp4_unreadable`). | `Ex.tsp4_reads`, `Ex.tsp4_unreadable` |
| C127 | A width with which the TSP examples are exact | partial | An open state of layer k is a set of k cities and one of them; sets counted with Pascal's triangle, whose rows are largest in the middle.  FALSE for the programs that read an unwritten cell at the root (C94), proved if that value is harmless. | `Ex.tsp_room`, `Ex.tspv_room`, `Ex.tsp_search_width`, `Ex.tspv_search_width_partial` |
| C128 | The TSP programs from text to tour | partial | C125/C126, C127 and the engine theorems joined.  The unwritten cell of C94 as in C127. | `Ex.tsp_program`, `Ex.tsp23_program_partial`, `Ex.tsp4_program_partial` |
| C129 | Where siblings do not merge the search stays at its width | proved | The layers that never merge hold exact nodes only (`Kin`, induction over the merging loop), so no node above them is a cut-set node; then induction over the main loop. | `BB.search_width`, `BB.cut_root`, `DD.cut_deep`, `Ex.tsp_width_stays`, `Ex.tsp_deeper`, `Ex.gruler_width_stays`, `Ex.gruler_mid_width_stays`, `Ex.midlb_width_stays`, `Ex.tsp4_width_stays` |
| C130 | The search's report tells the truth | partial | The search with its counters and lines (`searchR`); its state is that of `search` by induction, the counters are tallies of the ghost log.  Dual bounds by the invariant of C03; monotone if the local bound is consistent (`Cons`, shown for misp5.cpp).  When lines come: induction over the loop.  FALSE: a solution from an exact relaxed diagram gives no line, LIM? is 0 when the limit strikes on the last queued node, lost solutions make the dual no bound, an inconsistent bound lets it regress, a primal bound below 1 breaks the gap. | `BB.report_search`, `BB.report_some`, `BB.report_counts`, `BB.report_limit_partial`, `BB.report_limit_false`, `BB.report_dual_partial`, `BB.report_dual_false`, `BB.report_mono_partial`, `BB.report_mono_false`, `BB.gap_pos`, `BB.gap_zero`, `BB.gap_false`, `Ex.misp5_dual`, `BB.report_prints`, `BB.report_improves`, `Ex.report_lines_false` |
| C131 | A Bounds object can be used again | partial | The object with its callbacks (`Bnd`), reports fired one by one; a callback of an earlier search is a write to a dead variable.  Induction over callbacks, reports and searches.  FALSE for restarts: a second search that reports anything is undefined (`bounds_again_iff`), already the same search twice (`bounds_again_false`). | `BB.bounds_first`, `BB.bounds_again_iff`, `BB.bounds_again_optimal`, `BB.bounds_again_better`, `BB.bounds_session`, `BB.bounds_again_false` |
| C132 | The totals printed for each solution are right | proved | Callbacks as folds over the incumbent; std::map as key-sorted list; int overflow and bad indices are none. Histogram by a tally invariant and Grow (colours enter in order); tour sum by prefix sums below the primal bound. | `Ex.tsp4_checker`, `Ex.tsp4_checker_search`, `Ex.hist_spec`, `Ex.colv_hist` |
| C133 | A wrong bound or merge never makes the search report a wrong solution | proved | `Shape`: the conditions on layers alone are `LayeredV` with no completion to keep, so the engine invariants apply; `setLoc` exchanges the local bound. | `BB.shape_sound`, `BB.shape_ends`, `BB.anyloc_sound`, `BB.anyloc_ends`, `Ex.tspv_search_sound`, `Ex.tspv_search_ends` |
| C134 | tsptw from the text of an instance to the tour, and its time windows | partial | Reader over the stream model with `get`, `unget`, `getline`, `>> double` (integer values); `skip` unfolds without fuel; text format as inductive relations; windows: two texts with one matrix give equal searches, and a file whose final tour is late (`tw_windows_false`). | `Ex.skip_unfold`, `Ex.skip_gap`, `Ex.tw_reads`, `Ex.tw_short`, `Ex.tw_ignores`, `Ex.tw_sound`, `Ex.tw_program_partial`, `Ex.tw_windows_false`, `Ex.decInt_exact` |
| C135 | The graphviz file shows the diagram | proved | Heap loop with `find` over all slots; `Has.find`: live slots come first, so the location of a node still in the heap is found; order from the topological sequence; instantiated through `fin_wg` for relaxed and restricted diagrams with any bounds (`Shape`) and the exact invariant. | `DD.relaxed_saved`, `DD.restricted_saved`, `DD.exact_saved`, `DD.save_pictured` |
| C136 | Costs in double behave as integers | proved | Engine copied with a rounding `fl` after each addition (`Round.lean`); along the invariants of the compilations and the search every sum stays within `reach C L N`, so each step equals the integer one; `dbl` (53 bits, ties to even) as the concrete rounding; misp5 as an instance; two witnesses beyond 2^53. With additions that do not round the two engines are equal for every model (RoundId.lean). | `DD.relaxed_round`, `DD.restricted_round`, `BB.searchT_round`, `BB.searchFl_eq`, `BB.searchFl_sound`, `BB.searchFl_ends`, `BB.searchFl_room`, `Ex.misp_round`, `Ex.misp_round_sound`, `dbl_exact`, `dblNat_near`, `BB.round_matters`, `BB.searchT_id`, `BB.searchFl_id` |
| C137 | Reported solutions and values with any machine addition | proved | Engine copied with an arbitrary `P.add` in place of `+` (`Verif/Fl/Engine.lean`); `Run` (left-to-right machine sums of a label sequence) is the specification; invariant through visit, merge, restriction and re-pooling: the bound of every exact node is the machine sum of its labels. `double_order`: 0.1+0.2+0.3 against 0.6, width 2 and 3 give different answers. `exact_search`, `rnd_search`: the copied engine with exact (rounded) sums is the engine of the other properties (of C136). | `Fl.searchT_sound`, `Fl.search_sound`, `Fl.search_feasible`, `Fl.searchT_improves`, `Fl.search_improves`, `Fl.searchT_ends`, `Fl.search_ends`, `Fl.search_error`, `Fl.dbl_off`, `Ex.misp_fl_sound`, `Ex.misp_fl_ends`, `Fl.d60_order`, `Fl.double_order`, `Fl.rnd_search`, `Fl.exact_search` |
| C138 | Answers with rounded sums are nearly optimal | partial | Same engine as C137 (arbitrary `P.add`). `Nr`/`Acc` state the accuracy; a potential argument: each node on the way of a solution has lost at most `E` per layer (`Sup`), every pruning, merge, dominance and re-pooling keeps some node for it or the primal bound matches it up to `(N+2)E+D` (`Fl/Near.lean`, `Fl/NearSearch.lean`). As in C03 the claim fails when cut-set nodes are dropped for a bad reason, hence `okLoop` in `search_near_partial`; `search_near_exact` needs no such condition when the root diagram is exact. `dbl_mono`, `dbl_acc`: binary64 rounding meets `Acc`. misp5 wholly in doubles, local bound included: `misp_near_double_partial`, with a concrete pentagon. | `Fl.search_nearV_partial`, `Fl.search_near_partial`, `Fl.search_near_exact`, `Fl.run_near`, `Fl.okLoop_exact`, `dbl_mono`, `Fl.dbl_acc`, `Ex.Misp.nr`, `Ex.misp_near_partial`, `Ex.misp_near_double_partial` |
| C139 | GNSet objects are values | partial | Memory model (`Verif/GNMem.lean`): objects with a pointer, arrays allocated/deleted, every access checked. `run_values`: for every program memory and the value model of `Verif/GNSet.lean` agree, undefined behaviour included (invariant `R`: one owner per array, no leak). `gnset_program_partial`: against mathematical sets (`arun`), observed by reading memory (`Holds`). `gnset_memory` needs no rules. Witnesses for the three failures. | `GNMem.gnset_program_partial`, `GNMem.gnset_memory`, `GNMem.run_values`, `GNMem.ofNatSet_spec`, `GNMem.ofNatSet_removeAbove`, `GNMem.assign_moved_false`, `GNMem.self_move_false`, `GNMem.ofNatSet_empty_false` |
| C140 | The independent-set program on its stored words | proved | The lambdas of misp5 are modelled again on GNSet words (MispW.lean). An invariant (word count, members, level) holds on every state met; on it each function is the mask function (GNMask.lean), so the refinement theorem state_equality_on, a version of C109 for states satisfying an invariant, carries the whole search over. | `Ex.misp_words_defined`, `Ex.misp_words_equal`, `Ex.misp_words_search`, `Ex.misp_words_sound`, `Ex.misp_words_width`, `Ex.misp_words_ends`, `Ex.misp_words_false`, `Ex.state_equality_on`, `Ex.state_equality_relaxed_on`, `GNSet.eq_mask`, `GNSet.hash_mask`, `Ex.wpath_fit`, `Ex.wpath_words` |
| C141 | The TSP program on its stored words | proved | The lambdas of tsp.cpp are modelled again on GNSet words (TspW.lean). The words are related to masks paired with a word count (state_equality_via), and these to masks alone by a projection (Pull.lean) that keeps paths, layers and widths though the table may hold equal states twice; soundness, end and optimum come from the theorems for arbitrary tables. | `Ex.tsp_words_defined`, `Ex.tsp_words_search`, `Ex.tsp_words_sound`, `Ex.tsp_words_ends`, `Ex.tsp_words_width`, `Ex.TspW.same`, `Ex.state_equality_via`, `DD.Over.layered`, `DD.Over.room` |
| C142 | Equal TSP states have equal hashes | partial | Up to 64 cities every set of a run has one word, by induction over the states met. Beyond, a machine-checked pair of states of one run. | `Ex.tsp_words_hash_partial`, `Ex.tsp_words_hash_false` |
| C143 | The node tables behind diagrams and search | proved | Each function of the engine is shown to add nodes only through a failed lookup and to keep states (Ext, PExt), for arbitrary models. With that, induction over the nodes relates the table of Hash.lean, built by getLoc and insertAt, to the lookup by first match; doOnAll is a permutation of the nodes. | `Ex.node_table`, `Ex.pool_table`, `Ex.plain_table`, `Ex.tsp_eqOK`, `Ex.misp_eqOK`, `Ex.gru_eqOK`, `Ex.midlb_eqOK`, `Hash.build_spec`, `Hash.life_empty`, `DD.ext_relaxed`, `DD.ext_restricted`, `DD.ext_exactDD`, `BB.pext_search` |
| C144 | The independent-set program without the last vertex on its stored words | proved | The lambdas of misp4 modelled on GNSet words (Misp4W.lean); steps and merges are those of misp5 on the words (C140) without the last vertex, except past the last level; carried over by state_equality_on. The width comes from the layer count of misp5. | `Ex.misp4_words_defined`, `Ex.misp4_words_equal`, `Ex.misp4_words_search`, `Ex.misp4_words_sound`, `Ex.misp4_words_width`, `Ex.misp4_words_ends`, `Ex.wpath4_words` |
| C145 | Labels of a generator that returns a range | partial | Labels.lean models `getLabels` on a `Range` through `GNSet(Range)` with any bounds; the inserted values come out of the set sorted.  FALSE for backward ranges (`labels_order_false`); true part `labels_order_partial`. | `Labels.labels_order_partial`, `Labels.labels_order_false`, `Labels.labels_negative`, `Labels.labels_zero_hangs`, `Labels.labels_knapsack`, `Labels.labels_knapsack2`, `Labels.labels_misp`, `Labels.labels_foo`, `Labels.labels_coloring`, `Labels.labels_coloringtoy`, `Labels.labels_gruler`, `Labels.labels_gruler_mid` |
| C146 | The second knapsack program in doubles is at most 1 below the best | proved | The rounded share is at most 1 below the exact one (`floorF_near`); a solution is followed through the root diagram with a local bound that is off by 1, and with room for every layer nothing else is explored. | `Ex.knap2_search_near`, `Ex.knap2_program_near`, `Ex.local2_near`, `Ex.floorF_near`, `BB.search_exact_near` |
| C147 | The third independent-set program on its stored words | proved | The lambdas of misp3 modelled on GNSet words (Misp3W.lean), with the neighbour sets built by the word-level filter. An invariant on every state met makes each function the mask function; carried over by state_equality_on. The layers are counted as for misp5: the next vertex is the smallest one left. | `Ex.misp3_words_defined`, `Ex.misp3_words_equal`, `Ex.misp3_words_search`, `Ex.misp3_words_sound`, `Ex.misp3_words_width`, `Ex.misp3_words_ends`, `Ex.misp3_words_false`, `Ex.Misp.Fit.nb3`, `Ex.Misp.room3`, `GNSet.filterS_mask`, `Ex.wpath3_words` |
| C148 | The second independent-set program on its stored words | proved | The lambdas of misp2 modelled on GNSet words (Misp2W.lean). The invariant says that the number of words is the smallest power of two that holds the largest member; insertion, filtering, removal of the smallest member and union keep it, so equal sets have equally many words. Carried over by state_equality_on. Layers are counted by the set left together with the last vertex decided. | `Ex.misp2_words_defined`, `Ex.misp2_words_equal`, `Ex.misp2_words_search`, `Ex.misp2_words_sound`, `Ex.misp2_words_width`, `Ex.misp2_words_ends`, `Ex.misp2_words_cost_false`, `Ex.Misp.room2`, `GNSet.Fitted.uniq`, `Ex.wstar_words` |
| C149 | The merge function need not treat final states | proved | The map of models of C109 is asked of merges only on states that are not final. The queue of the relaxed compilation holds only such nodes, or the root alone; carried through labels, nodes, merge loop, layers, expansions and search (Open.lean). The proviso is needed: witness merge_final_false. | `Ex.merge_final_search`, `Ex.merge_final_relaxed`, `Ex.merge_final_false` |
| C150 | The first independent-set program on its stored words | proved | The lambdas of misp modelled on GNSet words (Misp1W.lean). The invariant sizes only sets that are not empty; transitions and merges of non-final states keep it. Carried over by state_equality_open, since the engine asks no merge of a final state (C149). Layers are counted by the set left together with the last vertex taken. | `Ex.misp1_words_defined`, `Ex.misp1_words_equal`, `Ex.misp1_words_search`, `Ex.misp1_words_sound`, `Ex.misp1_words_ends`, `Ex.misp1_words_width`, `Ex.wstar_words1` |
| C151 | The helpers over std::set and std::vector | proved | A std::set<int> is its strictly increasing list (StdSet.lean). Folds that insert are characterised by membership; strictly increasing lists with the same members are equal. Partial sums by induction. | `StdSet.set_ops`, `StdSet.set_laws`, `StdSet.set_minmax`, `StdSet.member_iff`, `StdSet.sum_spec`, `StdSet.sum_order_false`, `StdSet.foldl_spec`, `StdSet.foldl_any` |
| C152 | Hashes and printing of sets and vectors | proved | Rotation and xor are injective, so one changed entry changes the hash; 22 shifts by 3 push 64 bits out. Digits read back to the number; texts split at separators give the elements back. | `StdSet.vec_hash_one`, `StdSet.vec_hash_false`, `StdSet.set_hash_same`, `StdSet.set_hash_tail`, `StdSet.set_hash_tail_sharp`, `StdSet.set_print`, `StdSet.set_print_inj`, `StdSet.vec_print_inj`, `StdSet.put_numeral` |
| C153 | tsp_test4, tsptw and tsp_test2 on their stored words | partial | As C141, once for the three programs (Tsp4W.lean, parameter TspK): the words are related to masks with a word count, and these to the mask models by Over. The local bounds are rewritten over the iterated set, which is shown to be the list of the mask model; size() is shown to count the ones of the mask. Soundness and end hold for every local bound (Shape.setLoc). | `Ex.tsp4_words_defined`, `Ex.tsp4_words_search`, `Ex.tsp4_words_sound`, `Ex.tsp4_words_ends`, `Ex.tsp4_words_width_partial`, `Ex.tsp4_words_hash_partial`, `Ex.tsp4_words_hash_false`, `Ex.Tsp4W.same`, `GNSet.size_count` |
| C154 | tsp_test3 on its stored words | partial | As C153, with two sets and two word counts per state (Tsp3W.lean); each set is treated as the one set of a state of C153. A merge keeps the word count of the first A and the larger one of the two S. | `Ex.tsp3_words_defined`, `Ex.tsp3_words_search`, `Ex.tsp3_words_sound`, `Ex.tsp3_words_ends`, `Ex.tsp3_words_width_partial`, `Ex.tsp3_words_hash_partial`, `Ex.tsp3_words_hash_false`, `Ex.Tsp3W.same` |
| C155 | Copying, assigning and moving Vecs | partial | Vecs as sizes and array numbers in a pool of arrays (VecM.lean). Invariant: usable vectors have different arrays, all allocated. Each call is shown to be the call of Vec.lean on the view of the vector and to leave the other views alone; C32 then gives the lists. | `VecM.vec_moves_partial`, `VecM.vec_move_false`, `VecM.vec_moved_full`, `VecM.vec_self_move_false` |
<!-- end -->

## Defects found in the code

Each is a theorem about the model; the name is given.

* Arcs from exact nodes into the sink are not covered by the cut set, so the
  search can miss the optimum: `cutset_covers_false`, `search_optimum_false`.
* Widening is lost, because cloneNode drops the root: `widening_lost`.
* A state reached again with a better bound is dropped: `rereach_false`.
* A valid local bound makes the exact diagram lose every solution: `exact_local_false`.
* Dominance can discard the sink node: `dominance_safe_false`.
* Dominance can keep a layer wider than the width: `relaxed_width_false`.
* Kids of a node reached again later keep the old bound: `stale_dual_false`.
* Width 0 of a restricted diagram means 2^32 - 1 (example in `Props/Width.lean`).
* Heap `find` reports removed elements; CQueue of capacity 0 loses elements;
  `retract` reorders; mergeSort reverses ties under strict comparators.
* Vec: assignment through `v[i]` truncates; growth never ends past half the
  range of the size type.
* Pool usage is not restored by a clear to a mark.
* Hashtable: stamps wrap after 2^32 clears; sizes below 2 index out of range.
* Union-find `merge` may return a node that is no representative.
* Node list: removing a non-member empties the list. NDArray: capacity 0 cannot
  grow, `push_front` at the start appends.
* FMatrix and FArray index with `int`: wrong from 2^31 cells; FArray equality is
  always true at 2^32 elements; assigning to a moved-from FArray writes through null.
* Stack adapter: byte count wraps, alignment ignored.
* GNSet: insert hangs on sets without words and from 2^21; equal sets may hash
  differently; `removeAbove` is wrong after a union and out of bounds at the
  capacity; iteration of a copied set without words; values wrap from 32768; assigning
  to a moved-from set of the same capacity writes through null; moving a set onto itself
  loses its members; an empty NatSet converts to a set with size field 65535.
* NatSet: `ofs - S` loses elements or shifts by 64; `revBitsOfWord` leaves a byte unset.
* knapsack2: dominance ignores the item index (answer 219, optimum 224); the
  local bound is wrong in floating point (48 against 49); `getUB` reads past the
  end when every item fits.
* foo: the intersection merge is no relaxation; the program as shipped answers
  10 where 11 is optimal.
* misp5: the solution checker reads past the end of short incumbents. With width 2
  the search ends with 6 on a forest whose answer is 7: `misp_search_false`.
* misp4, misp4_lag: at width 1 every bound gives 1 on three vertices and one edge, at
  width 2 the sum bound 6 instead of 7 and the clique bound 7 instead of 8:
  `misp4_search_false`.
* misp: with width 2 the search ends with 3 where 4 vertices are independent:
  `misp1_search_false`. The checker reads the list of vertices as a 0/1 vector and
  reports right answers as wrong: `misp1_checker_false`.
* misp2, misp3: with width 2 the searches end with 3 where 4 vertices are independent:
  `misp2_search_false`, `misp3_search_false`. Decisions skip vertices, but the checker
  takes the position of a decision for a vertex and rejects right answers (`assert(false)`
  in a debug build): `misp23_checker_false`.
* A second search with one `Bounds` object that finds anything better calls the first search's callback, which writes to a variable of a
  finished call: `bounds_again_iff`, `bounds_again_false`.
* The search's report: LIM? is 0 when the time limit strikes on the last queued node (`report_limit_false`), the Dual column may pass the
  optimum and may fall back (`report_dual_false`, `report_mono_false`), and a primal bound below 1 breaks the gap (`gap_false`).
* tsp_test4: the local bound of the root sums a cell never written; a large value
  there ends the search without a tour: `tsp4_greedy_false`, `tsp4_search_false`.
* tsptw and tsp_test3 read the same unwritten cell at the root; tsp_test2 extracts an arc
  from the empty heap at the root, on every instance: `tsptw3_greedy_false`, `tsp2_mst_false`,
  `tspv_root_false`.
* tsptw reads its time windows and ignores them; its tours may miss them: `tw_ignores`, `tw_windows_false`.
* With a harmless root value tsptw and tsp_test3, and tsp.cpp without a bound, can end
  with a tour that is not shortest: `tspv_search_false` (width 3), `tsp_search_false` (width 5).
* The readers of tsp.cpp, tsp_test2 and tsp_test3 take a triangle (data/tsp/gr17.tsp) for a matrix and store values
  nobody set (`tsp_short`); a file of coordinates with tight colons makes them run for ever, a missing one read before a string
  (`tsp_unreadable`).  tsp_test4 runs for ever on a missing file and on coordinates (`tsp4_unreadable`) and prints unset distances for
  every format but two, such as that of data/tsp/si175.tsp (`tsp4_reads`).
* coloringtoy: with width 2 the search ends with 3 colours on a graph that needs 2:
  `coloring_search_false`.  So do coloring, coloring2 and coloring3; with width 1 and the right
  bound in the file they end without a colouring: `colv_search_false`, `colv_search_none`.
* A label generator that returns a backward range, as knapsack.cpp's `Range::close(1,0)` does to try an item before leaving it
  out, has its labels tried in ascending order all the same: `labels_order_false`.  `Range(0,-1)` never returns
  (`labels_zero_hangs`), a negative label is written before the array (`labels_negative`).
* knapsack: with width 1 the search ends with 16 where three items allow 46: `knap_search_false`.
* knapsack2: `readFile` writes behind its array unless the file ends with its last digit, so on every
  file whose last line is ended and on the data files of /repo that add a solution row: `knap2_reads`.
  Rates that `double` cannot tell apart are sorted by profit, and the search can then miss the
  optimum: `knap2_sorted_false`.
* tsptoy: on six cities, at width 14, the search can end with a tour that is not shortest:
  `toy_search_false`.
* tsptoy2: the merge would be no relaxation (`toy2_merge_invalid`), but every merged state is
  already held by a lower layer, so every merge is refused: the width is never kept
  (`toy2_relaxed_exact`) and the answer is right at every width (`toy2_search`).
* `Instance(Instance&&)` in coloring*.cpp and misp*.cpp (all nine) leaves `adj` behind.  The
  models assume the copy in `return i` is elided, which the standard allows but does not require.
* misp5: with 32769 vertices the bound of the root reads `weight[-32768]`, as the iterator of `GNSet` returns a `short`:
  `misp_words_false`; up to 32768 vertices the stored words behave as sets: `misp_words_search`.
* tsp: from 65 cities on, equal states of one run can have different hashes, as an intersection keeps the
  number of words of its left side and the hash depends on it: `tsp_words_hash_false`.  The table then keeps
  both; what the program reports is still right: `tsp_words_sound`, `tsp_words_width`.
* gruler: a first mark at 64 shifts by 64 bits: `gruler_undefined`. States whose
  distances differ compare equal: `gruler_eq_false`.  The same in gruler_mid and gruler_midlb
  (`mid_undefined`, `gruler_mid_eq_false`, `midlb_eq_false`); in gruler_midlb merged states that
  compare equal can also differ in their hash: `midlb_hash_false`.  With that equality a relaxed
  diagram of gruler can claim that no ruler is left where one is: `gruler_equality_false`.  The
  search properties of the three (C81, C103, C105) are about the engine comparing whole states; C112 says
  what holds with the programs' own equality.
* With fractional costs the answer of a finished search can depend on the width: bounds of cut nodes are added from the other end, so
  a route of value 0.1 + 0.2 + 0.3 = 0.6000000000000001 is dropped against one of 0.6 at width 2 and found at width 3: `double_order`.

## Code modelled

| code | model |
|------|-------|
| `src/dd.cpp`, `src/dd.hpp`, `src/node.cpp`, `src/node.hpp` (nodes, arcs, strategies, sweeps, cut set, `saveGraph`) | `DD.lean`, `Save.lean` |
| `src/dd.hpp` NDArray; `src/node.hpp` ANList | `NDArray.lean`, `ANList.lean` |
| `src/search.cpp` | `BB.lean`, `Report.lean` (counters, progress lines, final report), `Bounds.lean` (one `Bounds` object in several searches), `BBState.lean` (local bounds with state), `Short.lean` (what a search without merging siblings can lose), `Round.lean` and `Fl/*.lean` (rounded sums) |
| `src/heap.hpp`, `src/queue.hpp`, `src/msort.hpp`, `src/vec.hpp`, `src/uf.hpp` | `Heap`, `Queue`, `MSort`, `Vec`, `VecM`, `UF` |
| `src/hashtable.hpp`, `src/lighthash.hpp` | `Hash.lean`, `Same.lean` (lookup by the examples' own equality; linked by `Props/NodeTable.lean`) |
| `src/store.cpp`, `src/store.hpp`, `src/pool.hpp`, `src/stlAllocAdapter.hpp` | `Pool.lean`, `Alloc.lean` |
| `src/util.hpp` (GNSet, NatSet, Range, FArray, Matrix, folds, helpers over `std::set` and `std::vector`) | `Bits`, `GNSet`, `NatSet`, `Range`, `FArr`, `StdSet` |
| `examples/knapsack.cpp`, `knapsack2.cpp`, `tsp.cpp`, `tsptoy.cpp`, `tsptoy2.cpp`, `tsp_test4.cpp`, `tsptw.cpp`, `tsp_test2.cpp`, `tsp_test3.cpp`, `misp.cpp`, `misp2.cpp`, `misp3.cpp`, `misp5.cpp`, `misp4.cpp`, `misp4_lag.cpp`, `foo.cpp`, `coloringtoy.cpp`, `coloring.cpp`, `coloring2.cpp`, `coloring3.cpp`, `gruler.cpp`, `gruler_mid.cpp`, `gruler_midlb.cpp` | `Knapsack`, `Knapsack2`, `KnapRead`, `Dimacs`, `TspRead`, `TwRead`, `Tsp`, `TspToy`, `Tsp4`, `TspV`, `Misp1`, `Misp2`, `Misp5`, `Misp1W`, `Misp2W`, `Misp3W`, `MispW`, `Misp4W`, `TspW`, `Tsp4W` and `Tsp3W` (on words), `Misp4`, `Foo`, `Coloring`, `ColoringV`, `Gruler`, `GrulerMid` |

Not modelled: `display` and `print` of a diagram, printing other than the search's numbers and `saveGraph`, timing (an arbitrary oracle instead,
`RuntimeMonitor.*`), memory reclamation,
`src/handle.hpp` (plain pointers).

## Trusted base

* The Lean 4.33.0 kernel. The only axioms used are `propext`,
  `Classical.choice` and `Quot.sound`; `#print axioms` over the theorems of the
  manifest shows no other. No Mathlib module is imported.
* The hand transcription: that each definition says what the cited lines say.
* C++ semantics as used in the comments: `int` values are mathematical integers
  unless a width is part of the property, allocation does not fail, `assert` is
  compiled out (the CMake default is `-DNDEBUG`).
* The values of user functions (`double` costs and local bounds) are integers. That the engine's additions of such values are exact
  is proved under a bound on their size (C136), so it is no assumption there; what holds with no such bound, and for fractional
  costs, is C137, where an integer only stands for a `double` other than NaN by its place in the order; C138 counts doubles in units small enough that all of them are integers. The two places where rounding inside a user function
  matters to a property, the local bound of knapsack2 (C71) and the merge test of tsptoy (C108),
  are modelled in IEEE arithmetic.
* The C++ library's formatted input is modelled in `Istream.lean` (characters left, eofbit, failbit) for the
  operations the readers use; what it says of the library is assumed.
* An unset `double` of a distance matrix may be copied with the matrix, and is undefined only when printed or used; every cell is printed.
* `return i` in the graph readers builds the result in place, as compilers do; the move constructor of `Instance` would drop `adj`.
* User-supplied lambdas are pure total functions, except that the local bound may keep
  state (C89) and the label generator may read the primal bound (C79).
* The engine definitions take the state equality as a parameter (`Same`), and so do the engine theorems: `Fair`, part of
  `LayeredV`, says what they need of it.  Equality of whole states with a hash that agrees always meets it (`Fair.ofEq`), and the
  theorems about examples use that one unless they say otherwise.  C109 carries them to an
  equality that ignores what the functions do not read, C110 shows what gruler's does, C111 and C112 what remains true of it.
* In the engine the node table is "a node with that state exists", the queues
  are lists and the node list is a list. C24, C27, C37 and C42 tie these
  abstractions to the container code.
