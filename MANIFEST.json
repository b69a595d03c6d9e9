{
 "claims": [
  {
   "property": "C01",
   "status": "proved",
   "theorems": [
    "Verif.BB.search_sound",
    "Verif.BB.searchP_sound"
   ],
   "note": "every callback vector is a solution of cost = primal at that moment; layered models with in-range values and valid merges (Layered), any widths, time limit, fuel, user primal; searchP: also with labels that depend on the primal bound (Fam)"
  },
  {
   "property": "C02",
   "status": "proved",
   "theorems": [
    "Verif.BB.primal_improves",
    "Verif.BB.primalP_improves"
   ],
   "note": "same hypotheses as C01"
  },
  {
   "property": "C03",
   "status": "partial",
   "theorems": [
    "Verif.BB.search_optimum_partial",
    "Verif.BB.search_answer_partial",
    "Verif.BB.search_optimum_false",
    "Verif.BB.searchP_optimum_partial",
    "Verif.BB.searchP_answer_partial"
   ],
   "note": "The statement is false (witness f1, width 2). Proved: optimal when the run never meets the four lossy events checked by okLoop"
  },
  {
   "property": "C04",
   "status": "proved",
   "theorems": [
    "Verif.BB.search_terminates",
    "Verif.BB.searchP_terminates",
    "Verif.BB.search_ends",
    "Verif.BB.searchP_ends"
   ],
   "note": "at most one iteration per reachable state plus the final test; bounded rank alone suffices (search_ends)"
  },
  {
   "property": "C05",
   "status": "proved",
   "theorems": [
    "Verif.DD.exact_optimum",
    "Verif.DD.exact_root"
   ],
   "note": "any measure growing along reachable steps; costs within the sentinel range"
  },
  {
   "property": "C06",
   "status": "proved",
   "theorems": [
    "Verif.DD.exact_optimum",
    "Verif.DD.exact_root"
   ],
   "note": "second conjunct: labels at the sink"
  },
  {
   "property": "C07",
   "status": "partial",
   "theorems": [
    "Verif.DD.exact_local_false",
    "Verif.DD.exact_local_partial"
   ],
   "note": "false as stated: refuted by a two-step model; what holds is that a non-sentinel value is a real solution"
  },
  {
   "property": "C08",
   "status": "proved",
   "theorems": [
    "Verif.DD.restricted_primal",
    "Verif.DD.restricted_primal_root"
   ],
   "note": "No layering, merge or dominance hypothesis; needs path costs inside the sentinel range."
  },
  {
   "property": "C09",
   "status": "proved",
   "theorems": [
    "Verif.DD.restricted_exact"
   ],
   "note": "Layered models (every non-terminal step goes one rank deeper), valid merge, local bound and dominance."
  },
  {
   "property": "C10",
   "status": "proved",
   "theorems": [
    "Verif.DD.restricted_width"
   ],
   "note": "Counted on the finished diagram, per rank."
  },
  {
   "property": "C11",
   "status": "proved",
   "theorems": [
    "Verif.DD.relaxed_dual"
   ],
   "note": "Layered models with valid merge, local bound and dominance."
  },
  {
   "property": "C12",
   "status": "proved",
   "theorems": [
    "Verif.DD.relaxed_exact"
   ],
   "note": ""
  },
  {
   "property": "C13",
   "status": "proved",
   "theorems": [
    "Verif.DD.relaxed_exact_nodes"
   ],
   "note": ""
  },
  {
   "property": "C14",
   "status": "partial",
   "theorems": [
    "Verif.DD.cutset_covers_partial",
    "Verif.DD.cutset_covers",
    "Verif.DD.cutset_covers_false"
   ],
   "note": "False of the code: arcs from exact nodes straight into the sink are not covered. Proved with that alternative spelled out, and in full when no such arc exists."
  },
  {
   "property": "C15",
   "status": "proved",
   "theorems": [
    "Verif.DD.backward_valid"
   ],
   "note": ""
  },
  {
   "property": "C16",
   "status": "proved",
   "theorems": [
    "Verif.DD.relaxed_width",
    "Verif.DD.relaxed_width_classes"
   ],
   "note": ""
  },
  {
   "property": "C17",
   "status": "proved",
   "theorems": [
    "Verif.DD.merge_arcs"
   ],
   "note": "Pointer level: arc positions, swap-removal, transferArcs."
  },
  {
   "property": "C18",
   "status": "proved",
   "theorems": [
    "Verif.DD.computeBest_correct"
   ],
   "note": "Any acyclic arena and any node list order."
  },
  {
   "property": "C19",
   "status": "proved",
   "theorems": [
    "Verif.DD.computeBestBackward_correct"
   ],
   "note": "Any acyclic arena and any node list order."
  },
  {
   "property": "C20",
   "status": "partial",
   "theorems": [
    "Verif.DD.dominance_safe_partial",
    "Verif.DD.dominance_safe_false"
   ],
   "note": "False of the code when the dominated child is the sink node. Proved when dominance never discards a terminal state."
  },
  {
   "property": "C21",
   "status": "partial",
   "theorems": [
    "Verif.BB.widening_false",
    "Verif.BB.widening_lost"
   ],
   "note": "False: witness f2; and widening_lost shows the root is never queued again, in any run"
  },
  {
   "property": "C22",
   "status": "partial",
   "theorems": [
    "Verif.BB.rereach_false",
    "Verif.BB.dedup_drops"
   ],
   "note": "False: witness f3; dedup_drops shows a node whose state is pooled is never queued, whatever its bound"
  },
  {
   "property": "C23",
   "status": "proved",
   "theorems": [
    "Verif.DD.sense_order",
    "Verif.DD.sense_meaning",
    "Verif.DD.sense_add",
    "Verif.DD.sense_pick",
    "Verif.DD.sense_sentinels",
    "Verif.DD.sense_intmin"
   ],
   "note": ""
  },
  {
   "property": "C24",
   "status": "proved",
   "theorems": [
    "Verif.Heap.heap_refines_bag"
   ],
   "note": "Legal calls: extractMax on a non-empty heap, handles still in the heap."
  },
  {
   "property": "C25",
   "status": "proved",
   "theorems": [
    "Verif.Heap.build_then_drain_sorts",
    "Verif.Heap.build_then_run_refines",
    "Verif.Heap.buildHeap_keeps",
    "Verif.Heap.decrease_spec"
   ],
   "note": ""
  },
  {
   "property": "C26",
   "status": "partial",
   "theorems": [
    "Verif.Heap.find_partial",
    "Verif.Heap.find_full_partial",
    "Verif.Heap.find_stale_false",
    "Verif.Heap.find_after_extract_false"
   ],
   "note": "False as stated: find scans unused slots; counterexamples proved. Completeness and value correctness proved; exact on a full heap."
  },
  {
   "property": "C27",
   "status": "partial",
   "theorems": [
    "Verif.Queue.cqueue_fifo_partial",
    "Verif.Queue.cqueue_fifo_reach",
    "Verif.Queue.cqueue_size0_false"
   ],
   "note": "Holds for every initial capacity >= 1; false for capacity 0 (counterexample proved)."
  },
  {
   "property": "C28",
   "status": "proved",
   "theorems": [
    "Verif.Queue.doOnAll_visits",
    "Verif.Queue.foldl_stops"
   ],
   "note": ""
  },
  {
   "property": "C29",
   "status": "partial",
   "theorems": [
    "Verif.Queue.retract_removes_partial",
    "Verif.Queue.retractVal_spec",
    "Verif.Queue.retract_order_false"
   ],
   "note": "Removal proved; the order claim is false (counterexample proved)."
  },
  {
   "property": "C30",
   "status": "proved",
   "theorems": [
    "Verif.MSort.mergeSort_sorts",
    "Verif.MSort.mergeSort_perm",
    "Verif.MSort.mergeSort_seg"
   ],
   "note": ""
  },
  {
   "property": "C31",
   "status": "partial",
   "theorems": [
    "Verif.MSort.mergeSort_stable_partial",
    "Verif.MSort.mergeSort_stable_false",
    "Verif.MSort.mergeSort_strict_reverses"
   ],
   "note": "Stable for reflexive comparators; false for strict ones, as used by the engine."
  },
  {
   "property": "C32",
   "status": "proved",
   "theorems": [
    "Verif.Vec.vec_refines",
    "Verif.Vec.vec_lists",
    "Verif.Vec.dropAt_perm",
    "Verif.Vec.push_diverges"
   ],
   "note": "histories up to half the range of the size type; push_diverges shows the bound is needed"
  },
  {
   "property": "C33",
   "status": "partial",
   "theorems": [
    "Verif.Vec.store_partial",
    "Verif.Vec.store_false",
    "Verif.Vec.store_truncates"
   ],
   "note": "false in general (the assigned value is truncated); store_partial is what holds"
  },
  {
   "property": "C34",
   "status": "proved",
   "theorems": [
    "Verif.Pool.pool_blocks_disjoint",
    "Verif.Pool.alloc_fresh"
   ],
   "note": ""
  },
  {
   "property": "C35",
   "status": "proved",
   "theorems": [
    "Verif.Pool.clear_to_mark_protects"
   ],
   "note": ""
  },
  {
   "property": "C36",
   "status": "partial",
   "theorems": [
    "Verif.Pool.usage_restored_partial",
    "Verif.Pool.usage_restored_false"
   ],
   "note": "False in general (counterexample); holds when no segment was added since the mark."
  },
  {
   "property": "C37",
   "status": "proved",
   "theorems": [
    "Verif.Hash.hash_map",
    "Verif.Hash.run_refines",
    "Verif.Hash.doOnAll_perm"
   ],
   "note": "every history of insert/get/getLoc/clear, arbitrary hash function"
  },
  {
   "property": "C38",
   "status": "partial",
   "theorems": [
    "Verif.Hash.clear_partial",
    "Verif.Hash.clear_false"
   ],
   "note": "holds for fewer than 2^32 clears; clear_false is the wrap-around"
  },
  {
   "property": "C39",
   "status": "partial",
   "theorems": [
    "Verif.Hash.tabSize_partial",
    "Verif.Hash.bucket_lt",
    "Verif.Hash.tabSize_false"
   ],
   "note": "false below 2 and above the last prime"
  },
  {
   "property": "C40",
   "status": "proved",
   "theorems": [
    "Verif.UF.uf_partition",
    "Verif.UF.uf_compress"
   ],
   "note": ""
  },
  {
   "property": "C41",
   "status": "partial",
   "theorems": [
    "Verif.UF.merge_partial",
    "Verif.UF.merge_false"
   ],
   "note": "merge does not return the representative when it attaches r0 under r1"
  },
  {
   "property": "C42",
   "status": "proved",
   "theorems": [
    "Verif.ANList.anlist_lists",
    "Verif.ANList.list_refines",
    "Verif.ANList.remove_foreign"
   ],
   "note": "members only; remove_foreign shows what happens otherwise"
  },
  {
   "property": "C43",
   "status": "proved",
   "theorems": [
    "Verif.NDArray.nd_lists",
    "Verif.NDArray.nd_refines",
    "Verif.NDArray.pushFront_spec",
    "Verif.NDArray.eraseSuffix_spec",
    "Verif.NDArray.push_zero"
   ],
   "note": "initial capacity at least 1"
  },
  {
   "property": "C44",
   "status": "partial",
   "theorems": [
    "Verif.FArr.matrix_cells_partial",
    "Verif.FArr.matrix_cells_false",
    "Verif.FArr.matrix_print"
   ],
   "note": "fewer than 2^31 cells; beyond, the int index overflows"
  },
  {
   "property": "C45",
   "status": "partial",
   "theorems": [
    "Verif.FArr.farray_eq_partial",
    "Verif.FArr.farray_eq_list",
    "Verif.FArr.farray_hash",
    "Verif.FArr.farray_eq_false"
   ],
   "note": "fewer than 2^31 elements; at 2^32 all arrays compare equal"
  },
  {
   "property": "C46",
   "status": "proved",
   "theorems": [
    "Verif.Range.yields_forward",
    "Verif.Range.yields_backward",
    "Verif.Range.size_eq_length",
    "Verif.Range.close_up",
    "Verif.Range.close_down",
    "Verif.Range.close_mem",
    "Verif.Range.openInc_mem",
    "Verif.Range.closeInc_mem",
    "Verif.Range.largest_ub",
    "Verif.Range.open_mem"
   ],
   "note": ""
  },
  {
   "property": "C47",
   "status": "partial",
   "theorems": [
    "Verif.Range.contains_iff_yielded_partial",
    "Verif.Range.contains_iff",
    "Verif.Range.contains_iff_yielded_false",
    "Verif.Range.contains_backward_false"
   ],
   "note": "False in general (counterexamples); holds for forward ranges as stated."
  },
  {
   "property": "C48",
   "status": "partial",
   "theorems": [
    "Verif.Range.flip_forward_partial",
    "Verif.Range.flip_empty",
    "Verif.Range.flip_reverse_false"
   ],
   "note": "False for backward ranges (counterexample)."
  },
  {
   "property": "C49",
   "status": "proved",
   "theorems": [
    "Verif.GNSet.gnset_mem",
    "Verif.GNSet.gnset_queries",
    "Verif.GNSet.gnset_eq"
   ],
   "note": "every expression over the constructors and operations, below 2^15 words and never inserting into a set without words"
  },
  {
   "property": "C50",
   "status": "partial",
   "theorems": [
    "Verif.GNSet.gnset_iter",
    "Verif.GNSet.iter_copy_false",
    "Verif.GNSet.iter_short"
   ],
   "note": "holds up to 512 words; false for members from 32768 on (short) and for a copy of a set without words"
  },
  {
   "property": "C51",
   "status": "partial",
   "theorems": [
    "Verif.GNSet.hash_partial",
    "Verif.GNSet.hash_false"
   ],
   "note": "equal sets hash alike up to a rotation by the word difference; false in general"
  },
  {
   "property": "C52",
   "status": "partial",
   "theorems": [
    "Verif.GNSet.removeAbove_partial",
    "Verif.GNSet.removeAbove_plain",
    "Verif.GNSet.removeAbove_stale",
    "Verif.GNSet.removeAbove_oob"
   ],
   "note": "holds on sets built without union and complement except at the last value of the capacity; false after a union and at the capacity"
  },
  {
   "property": "C53",
   "status": "partial",
   "theorems": [
    "Verif.GNSet.insert_partial",
    "Verif.GNSet.insert_spec",
    "Verif.GNSet.insert_false",
    "Verif.GNSet.insert_large"
   ],
   "note": "terminates below 2^21 on sets with a word; never ends on a set without words or for 2^21 in a default set"
  },
  {
   "property": "C54",
   "status": "proved",
   "theorems": [
    "Verif.NatSet.natset_mem",
    "Verif.NatSet.natset_queries",
    "Verif.NatSet.natset_eq",
    "Verif.NatSet.iter_false"
   ],
   "note": "word counts below 2^15; iteration up to 512 words, refuted beyond"
  },
  {
   "property": "C55",
   "status": "partial",
   "theorems": [
    "Verif.NatSet.minus_partial",
    "Verif.NatSet.minus_empty",
    "Verif.NatSet.minus_false",
    "Verif.NatSet.minus_shift"
   ],
   "note": "holds under the stated shift condition; false in general (lost elements, shift by 64)"
  },
  {
   "property": "C56",
   "status": "partial",
   "theorems": [
    "Verif.Bits.revLong_bit",
    "Verif.Bits.revByte_bit",
    "Verif.Bits.revWord_partial",
    "Verif.Bits.revWord_false"
   ],
   "note": "revBitsOfWord leaves its top byte unset"
  },
  {
   "property": "C57",
   "status": "proved",
   "theorems": [
    "Verif.Alloc.lpool_ids",
    "Verif.Alloc.lpool_nodes",
    "Verif.Alloc.ids_wrap"
   ],
   "note": "up to 2^32 ids; nodes: client releases no node twice"
  },
  {
   "property": "C58",
   "status": "proved",
   "theorems": [
    "Verif.Alloc.core_alloc"
   ],
   "note": ""
  },
  {
   "property": "C59",
   "status": "proved",
   "theorems": [
    "Verif.Ex.Knap.layered",
    "Verif.Ex.Knap.sol_iff"
   ],
   "note": "Merge and layering of the knapsack model, and solutions are exactly the packings."
  },
  {
   "property": "C60",
   "status": "partial",
   "theorems": [
    "Verif.Ex.dominance2_partial",
    "Verif.Ex.Knap.layered2",
    "Verif.Ex.dominance2_false"
   ],
   "note": "valid among states of one layer; false as written since the rule ignores the item index: machine-checked instance answers 219 where 224 is optimal"
  },
  {
   "property": "C61",
   "status": "proved",
   "theorems": [
    "Verif.Ex.misp_merge_valid",
    "Verif.Ex.misp_local",
    "Verif.Ex.Misp.layered",
    "Verif.Ex.Misp.sol_ind",
    "Verif.Ex.Misp.ind_sol",
    "Verif.Ex.misp_dual"
   ],
   "note": ""
  },
  {
   "property": "C62",
   "status": "proved",
   "theorems": [
    "Verif.Ex.tsp_merge_valid",
    "Verif.Ex.Tsp.layered",
    "Verif.Ex.Tsp.sol_iff",
    "Verif.Ex.tsp_dual"
   ],
   "note": "the engine corollary needs distances small enough that sums stay below the sentinel"
  },
  {
   "property": "C63",
   "status": "partial",
   "theorems": [
    "Verif.Ex.foo_merge_false",
    "Verif.Ex.foo_dual_false",
    "Verif.Ex.foo_ship_partial",
    "Verif.Ex.foo_ship_answer"
   ],
   "note": "false in general (intersection is no relaxation); holds on the instance in the program, where the search still answers 10 and 11 is optimal"
  },
  {
   "property": "C64",
   "status": "proved",
   "theorems": [
    "Verif.DD.compile_terminates"
   ],
   "note": ""
  },
  {
   "property": "C65",
   "status": "partial",
   "theorems": [
    "Verif.DD.relaxed_width_false",
    "Verif.DD.relaxed_width"
   ],
   "note": "False of the code: a dominated state stays in the node table at layer 0 and a merge that yields it is refused. Holds without dominance (C16)."
  },
  {
   "property": "C66",
   "status": "proved",
   "theorems": [
    "Verif.DD.exact_terminates"
   ],
   "note": ""
  },
  {
   "property": "C67",
   "status": "proved",
   "theorems": [
    "Verif.DD.exact_nodes"
   ],
   "note": ""
  },
  {
   "property": "C68",
   "status": "partial",
   "theorems": [
    "Verif.Alloc.adapt_partial",
    "Verif.Alloc.adapt_room_false",
    "Verif.Alloc.adapt_align_false"
   ],
   "note": "false: byte count wraps, alignment ignored"
  },
  {
   "property": "C69",
   "status": "partial",
   "theorems": [
    "Verif.FArr.farray_copy",
    "Verif.FArr.farray_assign_partial",
    "Verif.FArr.farray_assign_false",
    "Verif.FArr.farray_set",
    "Verif.FArr.farray_moveSelf"
   ],
   "note": "false for a moved-from target of the same size"
  },
  {
   "property": "C70",
   "status": "proved",
   "theorems": [
    "Verif.GNSet.gnset_folds"
   ],
   "note": "sets with one to 512 words; int overflow of sum not modelled"
  },
  {
   "property": "C71",
   "status": "partial",
   "theorems": [
    "Verif.Ex.local2_partial",
    "Verif.Ex.local2_false",
    "Verif.Ex.rne_half",
    "Verif.Ex.rnd53_near"
   ],
   "note": "valid in exact arithmetic; false in IEEE double: machine-checked instance where the search answers 48 and 49 is optimal"
  },
  {
   "property": "C72",
   "status": "partial",
   "theorems": [
    "Verif.Ex.getUB_partial",
    "Verif.Ex.getUB_none"
   ],
   "note": "holds whenever getUB returns; when every item fits it reads past the end of the weights"
  },
  {
   "property": "C73",
   "status": "partial",
   "theorems": [
    "Verif.Ex.checker_partial",
    "Verif.Ex.checker_oob",
    "Verif.Ex.checker_false"
   ],
   "note": "solutions end early when no vertex is left; the checker then reads past the end"
  },
  {
   "property": "C74",
   "status": "proved",
   "theorems": [
    "Verif.BB.search_room",
    "Verif.BB.searchP_room",
    "Verif.DD.relaxed_room",
    "Verif.DD.restricted_room"
   ],
   "note": "Layered models; Room says no layer has more than w reachable open states. Witness: f3 at width 6 against rereach_false at width 2."
  },
  {
   "property": "C75",
   "status": "partial",
   "theorems": [
    "Verif.BB.stale_dual_false",
    "Verif.BB.stale_search_false",
    "Verif.DD.relaxed_dual",
    "Verif.DD.exact_optimum"
   ],
   "note": "False: a node raised after its expansion leaves its kids at the old bound (f7: 1 against 15). True for layered models (relaxed_dual) and for exact diagrams (exact_optimum)."
  },
  {
   "property": "C76",
   "status": "proved",
   "theorems": [
    "Verif.Ex.tsp4_mst",
    "Verif.Ex.tsp4_merge_valid"
   ],
   "note": "the heap, union-find and loop of mst() are the library models; exact arithmetic"
  },
  {
   "property": "C77",
   "status": "partial",
   "theorems": [
    "Verif.Ex.tsp4_bound_partial",
    "Verif.Ex.tsp4_greedy",
    "Verif.Ex.tsp4_dual_partial",
    "Verif.Ex.tsp4_greedy_false",
    "Verif.Ex.tsp4_search_false"
   ],
   "note": "false: greedy() reads an unwritten cell at the root of every instance; true at every other state, and for the engine when the value read is harmless"
  },
  {
   "property": "C78",
   "status": "proved",
   "theorems": [
    "Verif.Ex.coloring_chromatic",
    "Verif.Ex.coloring_merge_valid",
    "Verif.Ex.Col.sol_iff"
   ],
   "note": "all graphs; colour sets are bit masks"
  },
  {
   "property": "C79",
   "status": "partial",
   "theorems": [
    "Verif.Ex.coloring_dual",
    "Verif.Ex.coloring_search_sound",
    "Verif.Ex.coloring_search_ends",
    "Verif.Ex.coloring_search_room",
    "Verif.Ex.coloring_search_partial",
    "Verif.Ex.coloring_search_false"
   ],
   "note": "All but the last clause proved for every width; the last is false for small widths (witness h5, width 2: 3 instead of 2) and proved when no layer exceeds the width or the run meets none of the lossy events of C03."
  },
  {
   "property": "C80",
   "status": "proved",
   "theorems": [
    "Verif.Ex.gruler_sol",
    "Verif.Ex.gruler_merge_valid"
   ],
   "note": "n at least 2; sets as bit masks, see C82 for the sets of the code"
  },
  {
   "property": "C81",
   "status": "partial",
   "theorems": [
    "Verif.Ex.Gol.fam_ok",
    "Verif.Ex.gruler_dual",
    "Verif.Ex.gruler_search_sound",
    "Verif.Ex.gruler_search_ends",
    "Verif.Ex.gruler_search_room",
    "Verif.Ex.gruler_search_partial",
    "Verif.Ex.gruler_table",
    "Verif.Ex.gruler_shortcut_partial"
   ],
   "note": "All clauses but the last proved for any width and table of lower bounds; the shipped table proved to hold lower bounds up to 6 marks. The last clause is proved when no layer exceeds the width or the run loses no better ruler on an arc from an exact node straight to the sink, which is proved to be the only thing that can lose one; no run that loses a shortest ruler is known. The engine model compares whole states here; C112 is about the program's own equality."
  },
  {
   "property": "C82",
   "status": "partial",
   "theorems": [
    "Verif.Ex.gruler_sets",
    "Verif.Ex.gruler_undefined",
    "Verif.Ex.gruler_eq",
    "Verif.Ex.gruler_eq_false",
    "Verif.Ex.hash256_word"
   ],
   "note": "Sets: true for labels up to 63, undefined at label 64 from the root whenever the generator shows it. Equality: true without merging, false for merged states because the distances are not compared."
  },
  {
   "property": "C83",
   "status": "proved",
   "theorems": [
    "Verif.Ex.misp1_sol",
    "Verif.Ex.misp1_covers",
    "Verif.Ex.misp1_merge_valid",
    "Verif.Ex.Misp.layered1",
    "Verif.Ex.misp1_dual"
   ],
   "note": "Full statement, for every graph and every state the relaxation can reach."
  },
  {
   "property": "C84",
   "status": "partial",
   "theorems": [
    "Verif.Ex.misp1_search_sound",
    "Verif.Ex.misp1_search_ends",
    "Verif.Ex.misp1_search_room",
    "Verif.Ex.misp1_search_partial",
    "Verif.Ex.misp1_search_false"
   ],
   "note": "Optimality is false: six vertices, width 2, answer 3 instead of 4. Sound and ending for every width; optimal when no layer exceeds the width or when the run drops nothing."
  },
  {
   "property": "C85",
   "status": "partial",
   "theorems": [
    "Verif.Ex.misp_search_sound",
    "Verif.Ex.misp_search_ends",
    "Verif.Ex.misp_search_room",
    "Verif.Ex.misp_search_partial",
    "Verif.Ex.misp_search_false",
    "Verif.Ex.misp_search_false1"
   ],
   "note": "Optimality is false: a forest of twelve vertices at width 2 gives 6 instead of 7. Sound and ending for every width; optimal when no layer exceeds the width or when the run drops nothing."
  },
  {
   "property": "C86",
   "status": "partial",
   "theorems": [
    "Verif.Ex.misp_checker",
    "Verif.Ex.misp_checker_ok",
    "Verif.Ex.misp1_checker_false",
    "Verif.Ex.misp23_checker_false"
   ],
   "note": "True for 0/1 incumbents (misp5); false for misp.cpp, whose incumbents list vertices."
  },
  {
   "property": "C87",
   "status": "proved",
   "theorems": [
    "Verif.Ex.clique_partition",
    "Verif.Ex.cliqueOf_class",
    "Verif.Ex.class_joined",
    "Verif.Ex.argmax_best"
   ],
   "note": "All graphs."
  },
  {
   "property": "C88",
   "status": "proved",
   "theorems": [
    "Verif.Ex.cliqueBound_valid",
    "Verif.Ex.cliqueBound_whole",
    "Verif.Ex.lagBound_valid",
    "Verif.Ex.lagDual_valid",
    "Verif.Ex.updMul_ok",
    "Verif.Ex.floorEps_round"
   ],
   "note": "Doubles are rationals; floorEps_round: a rounding error of at most 1e-5 in the sum does not make the floor invalid."
  },
  {
   "property": "C89",
   "status": "partial",
   "theorems": [
    "Verif.BB.searchS_sound",
    "Verif.BB.searchS_ends",
    "Verif.BB.searchS_room",
    "Verif.BB.searchS_answer_partial",
    "Verif.BB.search_state",
    "Verif.DD.Layered.withLoc"
   ],
   "note": "Optimality as in C03 and C81: when no layer exceeds the width or the run drops nothing."
  },
  {
   "property": "C90",
   "status": "partial",
   "theorems": [
    "Verif.Ex.misp4_search_sound",
    "Verif.Ex.misp4_search_ends",
    "Verif.Ex.misp4_search_room",
    "Verif.Ex.misp4_search_partial",
    "Verif.Ex.misp4_search_false",
    "Verif.Ex.layered4",
    "Verif.Ex.bound0_ok",
    "Verif.Ex.bound1_ok",
    "Verif.Ex.lagLoc_ok",
    "Verif.Ex.misp4_search_width",
    "Verif.Ex.Misp.room4"
   ],
   "note": "Optimality is false at width 1 with every bound and at width 2 with the sum bound. Sound and ending for every width; optimal when no layer exceeds the width or when the run drops nothing. A width of 2^(n/2) for n vertices is always enough (misp4_search_width)."
  },
  {
   "property": "C91",
   "status": "proved",
   "theorems": [
    "Verif.Ex.misp23_sol",
    "Verif.Ex.misp23_read",
    "Verif.Ex.misp23_merge_valid",
    "Verif.Ex.Misp.decides2",
    "Verif.Ex.Misp.decides3",
    "Verif.Ex.Misp.Decides.layered",
    "Verif.Ex.misp23_dual"
   ],
   "note": "Both programs proved to be instances of one shape (Decides)."
  },
  {
   "property": "C92",
   "status": "partial",
   "theorems": [
    "Verif.Ex.misp23_search_sound",
    "Verif.Ex.misp23_search_ends",
    "Verif.Ex.misp2_search_room",
    "Verif.Ex.misp3_search_room",
    "Verif.Ex.misp2_search_partial",
    "Verif.Ex.misp3_search_partial",
    "Verif.Ex.misp2_search_false",
    "Verif.Ex.misp3_search_false"
   ],
   "note": "Optimality is false at width 2 (misp2_search_false, misp3_search_false); proved with room and for runs that drop nothing for a bad reason."
  },
  {
   "property": "C93",
   "status": "proved",
   "theorems": [
    "Verif.Ex.tspv_sol",
    "Verif.Ex.tspv_merge_valid",
    "Verif.Ex.tsp3_sol",
    "Verif.Ex.tsp3_merge_valid"
   ],
   "note": "Distances are integers (tsptw: multiples of 1/u); no hypothesis but at least one city."
  },
  {
   "property": "C94",
   "status": "partial",
   "theorems": [
    "Verif.Ex.tsp2_mst",
    "Verif.Ex.tsptw_greedy",
    "Verif.Ex.tsp3_greedy",
    "Verif.Ex.tspv_dual_partial",
    "Verif.Ex.tsp2_mst_false",
    "Verif.Ex.tsptw3_greedy_false",
    "Verif.Ex.tspv_root_false"
   ],
   "note": "Proved at every state but the root; false at the root on every instance."
  },
  {
   "property": "C95",
   "status": "partial",
   "theorems": [
    "Verif.Ex.tspv_search_sound",
    "Verif.Ex.tspv_search_ends",
    "Verif.Ex.tspv_search_room_partial",
    "Verif.Ex.tspv_search_partial",
    "Verif.Ex.tsp_search_sound",
    "Verif.Ex.tsp_search_ends",
    "Verif.Ex.tsp_search_room",
    "Verif.Ex.tsp_search_partial",
    "Verif.Ex.tspv_search_false",
    "Verif.Ex.tsp_search_false"
   ],
   "note": "Sound and ending proved for all five programs, whatever the undefined bounds give. Optimality with wide layers or a run that drops nothing wrongly, false otherwise; for the four others than tsp.cpp it needs a harmless value at the root."
  },
  {
   "property": "C96",
   "status": "proved",
   "theorems": [
    "Verif.Ex.colv_sol",
    "Verif.Ex.colv_chromatic",
    "Verif.Ex.colv_merge_valid",
    "Verif.Ex.colv_dual"
   ],
   "note": "At least one vertex; fewer than 2^31-1 vertices (coloring) or 2^16 (coloring2, coloring3: 16-bit colours)."
  },
  {
   "property": "C97",
   "status": "partial",
   "theorems": [
    "Verif.Ex.colv_search_sound",
    "Verif.Ex.colv_checker",
    "Verif.Ex.colv_search_ends",
    "Verif.Ex.colv_search_low",
    "Verif.Ex.colv_search_room",
    "Verif.Ex.colv_search_partial",
    "Verif.Ex.colv_search_false",
    "Verif.Ex.colv_search_none"
   ],
   "note": "All but the last clause proved; the last with wide layers or a run that drops nothing wrongly, false at small widths."
  },
  {
   "property": "C98",
   "status": "proved",
   "theorems": [
    "Verif.Ex.Toy.sol_iff",
    "Verif.Ex.toy_merge_valid",
    "Verif.Ex.toy_dual",
    "Verif.Ex.toy_arcs"
   ],
   "note": "Distances bounded so that no tour reaches 2^31-1."
  },
  {
   "property": "C99",
   "status": "partial",
   "theorems": [
    "Verif.Ex.toy_search",
    "Verif.Ex.toy_search_partial",
    "Verif.Ex.toy_search_false"
   ],
   "note": "Sound and ending proved; optimality with wide layers or a run that drops nothing wrongly, false at width 14."
  },
  {
   "property": "C100",
   "status": "proved",
   "theorems": [
    "Verif.Ex.toy2_search",
    "Verif.Ex.toy2_relaxed_exact",
    "Verif.Ex.toy2_arcs",
    "Verif.Ex.toy2_merge_invalid",
    "Verif.Ex.Toy.sol2_iff"
   ],
   "note": "Distances bounded so that tours stay within the initial bounds."
  },
  {
   "property": "C101",
   "status": "proved",
   "theorems": [
    "Verif.DD.relaxed_bare",
    "Verif.BB.search_bare",
    "Verif.BB.search_refused"
   ],
   "note": ""
  },
  {
   "property": "C102",
   "status": "proved",
   "theorems": [
    "Verif.Ex.Gol.mid_ok",
    "Verif.Ex.Gol.mid_covers",
    "Verif.Ex.mirror_half",
    "Verif.Ex.gruler_mid_dual",
    "Verif.Ex.gruler_mid_hides"
   ],
   "note": "n at least 2, L below 2^31 - 2; gruler_mid_hides shows that single rulers are hidden at every bound."
  },
  {
   "property": "C103",
   "status": "partial",
   "theorems": [
    "Verif.Ex.gruler_mid_sound",
    "Verif.Ex.gruler_mid_ends",
    "Verif.Ex.gruler_mid_room",
    "Verif.Ex.gruler_mid_partial",
    "Verif.Ex.gruler_mid_shortcut_partial"
   ],
   "note": "Optimality is proved when no layer exceeds the width or the run loses no better ruler on an arc from an exact node straight to the sink, which is proved to be the only thing that can lose one; no run that loses a shortest ruler is known. The engine model compares whole states here; C112 is about the program's own equality."
  },
  {
   "property": "C104",
   "status": "proved",
   "theorems": [
    "Verif.Ex.midlb_sol",
    "Verif.Ex.midlb_merge_valid",
    "Verif.Ex.adv_spec",
    "Verif.Ex.Gol.midB_ok",
    "Verif.Ex.Gol.midB_covers",
    "Verif.Ex.midlb_dual"
   ],
   "note": "n at least 2, L below 2^31 - 2; sets as bit masks, see C106. Merging is asked of open states; the engine merges no others."
  },
  {
   "property": "C105",
   "status": "partial",
   "theorems": [
    "Verif.Ex.midlb_sound",
    "Verif.Ex.midlb_ends",
    "Verif.Ex.midlb_room",
    "Verif.Ex.midlb_partial",
    "Verif.Ex.midlb_shortcut_partial"
   ],
   "note": "Optimality is proved when no layer exceeds the width or the run loses no better ruler on an arc from an exact node straight to the sink, which is proved to be the only thing that can lose one; no run that loses a shortest ruler is known. The engine model compares whole states here; C112 is about the program's own equality."
  },
  {
   "property": "C106",
   "status": "partial",
   "theorems": [
    "Verif.Ex.gruler_sets_words",
    "Verif.Ex.mid_undefined",
    "Verif.Ex.gruler_eq",
    "Verif.Ex.midlb_eq",
    "Verif.Ex.midlb_eq_false",
    "Verif.Ex.midlb_hash_false",
    "Verif.Ex.gruler_mid_eq_false"
   ],
   "note": "False for labels of 64 and beyond and for merged states, with witnesses; proved for labels up to 63 and for states reached without merging."
  },
  {
   "property": "C107",
   "status": "proved",
   "theorems": [
    "Verif.Ex.tsp_width",
    "Verif.Ex.gruler_width",
    "Verif.Ex.coloring_width",
    "Verif.Ex.misp5_width",
    "Verif.Ex.misp4_width",
    "Verif.DD.relaxed_width_classes"
   ],
   "note": ""
  },
  {
   "property": "C108",
   "status": "proved",
   "theorems": [
    "Verif.Ex.toy_merge_test",
    "Verif.Ex.fdiv24_spec"
   ],
   "note": "Above 5592405 hops rounding makes the test fail just above seven tenths; an example shows it."
  },
  {
   "property": "C109",
   "status": "proved",
   "theorems": [
    "Verif.Ex.state_equality",
    "Verif.Ex.state_equality_relaxed",
    "Verif.Ex.tsp_lb_unused",
    "Verif.BB.searchT_map",
    "Verif.DD.relaxed_map",
    "Verif.DD.restricted_map",
    "Verif.DD.exactDD_map"
   ],
   "note": "Local bounds that keep state between calls are outside (BBState)."
  },
  {
   "property": "C110",
   "status": "partial",
   "theorems": [
    "Verif.Ex.gruler_equality_false",
    "Verif.Ex.gruler_buckets",
    "Verif.Ex.gruler_dual"
   ],
   "note": "FALSE: below the marks 0, 1, 5, 17, 25 of an 8-mark ruler the diagram reports no completion although one of length 40 exists. The bound does hold when whole states are compared (gruler_dual)."
  },
  {
   "property": "C111",
   "status": "proved",
   "theorems": [
    "Verif.BB.searchP_ownEq",
    "Verif.BB.searchV_ownEq",
    "Verif.BB.searchT_noMerge",
    "Verif.DD.relaxed_noMerge"
   ],
   "note": "The other hypotheses (LayP, FamP) are those of the engine theorems, asked only of states that decisions reach."
  },
  {
   "property": "C112",
   "status": "proved",
   "theorems": [
    "Verif.Ex.gruler_ownEq_sound",
    "Verif.Ex.gruler_ownEq_ends",
    "Verif.Ex.gruler_ownEq_room",
    "Verif.Ex.gruler_mid_ownEq_room",
    "Verif.Ex.midlb_ownEq_sound",
    "Verif.Ex.midlb_ownEq_ends",
    "Verif.Ex.midlb_ownEq_room",
    "Verif.Ex.gruSame_ok",
    "Verif.Ex.midlbSame_ok"
   ],
   "note": "Labels below 64, as in C82. Sound and ends cover gruler_mid through Gol.gen_mid. Whether a shortest ruler can be lost when layers exceed the width is open: the dual bounds are wrong there (C110), but no wrong answer is known."
  },
  {
   "property": "C113",
   "status": "partial",
   "theorems": [
    "Verif.Ex.knap_search_sound",
    "Verif.Ex.knap_search_ends",
    "Verif.Ex.knap_search_room",
    "Verif.Ex.knap_search_partial",
    "Verif.Ex.knap_search_false",
    "Verif.Ex.knap_search_false3"
   ],
   "note": "Sound and ends proved for all widths. Optimum proved when the width exceeds the capacity or the run meets no lossy event; refuted at widths 1 and 3."
  },
  {
   "property": "C114",
   "status": "partial",
   "theorems": [
    "Verif.Ex.knap2_search_sound",
    "Verif.Ex.knap2_search_ends",
    "Verif.Ex.knap2_search_checked",
    "Verif.Ex.knap2_checker",
    "Verif.Ex.knap2_search_room_partial",
    "Verif.Ex.dominance2_false",
    "Verif.Ex.local2_false"
   ],
   "note": "Sound, checked and ends proved for all widths and any rounding. Optimum only with exact rounding and a width above the capacity; refuted otherwise (C60, C71)."
  },
  {
   "property": "C115",
   "status": "proved",
   "theorems": [
    "Verif.Ex.knap_reads",
    "Verif.Ex.knap_program"
   ],
   "note": "The stream operations are a model of the C++ standard library, part of the trusted base."
  },
  {
   "property": "C116",
   "status": "partial",
   "theorems": [
    "Verif.Ex.knap2_reads",
    "Verif.Ex.knap2_reads_partial",
    "Verif.Ex.knap2_short"
   ],
   "note": "False: knap2_reads characterises when it writes behind its array. It reads exactly the files that end with the last digit."
  },
  {
   "property": "C117",
   "status": "partial",
   "theorems": [
    "Verif.Ex.sortItems_spec",
    "Verif.Ex.knap2_sorted_partial",
    "Verif.Ex.knap2_sorted_false"
   ],
   "note": "Proved for positive weights and numbers below 2^26; false for larger ones."
  },
  {
   "property": "C118",
   "status": "proved",
   "theorems": [
    "Verif.Ex.dimacs_reads",
    "Verif.Ex.dimacs_missing",
    "Verif.Ex.misp_program",
    "Verif.IO.dimacs_crlf",
    "Verif.IO.getNum_outside"
   ],
   "note": "The stream operations are a model of the C++ standard library, part of the trusted base."
  },
  {
   "property": "C119",
   "status": "proved",
   "theorems": [
    "Verif.Ex.misp_search_width",
    "Verif.Ex.Misp.room"
   ],
   "note": ""
  },
  {
   "property": "C120",
   "status": "proved",
   "theorems": [
    "Verif.Ex.convert_ok",
    "Verif.Ex.convert_bad",
    "Verif.Ex.vertices_ok"
   ],
   "note": ""
  },
  {
   "property": "C121",
   "status": "partial",
   "theorems": [
    "Verif.Ex.py_reads",
    "Verif.Ex.geSet_spec",
    "Verif.Ex.py_quiet",
    "Verif.Ex.py_no_edge",
    "Verif.Ex.py_missing",
    "Verif.Ex.col_program"
   ],
   "note": "Reading the N/E/K format is proved. The last clause is false: DIMACS graphs are misread."
  },
  {
   "property": "C122",
   "status": "partial",
   "theorems": [
    "Verif.Ex.convert3_partial",
    "Verif.Ex.convert3_false"
   ],
   "note": "Proved when there is no vertex 63 or it has a later neighbour; refuted in all other cases up to 2^16 vertices."
  },
  {
   "property": "C123",
   "status": "partial",
   "theorems": [
    "Verif.Ex.valid_model_partial",
    "Verif.Ex.valid_partial",
    "Verif.Ex.valid_false",
    "Verif.Ex.valid_reached"
   ],
   "note": "Proved except where the least bound is 63 and the file's bound is at most 63; refuted there."
  },
  {
   "property": "C124",
   "status": "proved",
   "theorems": [
    "Verif.Ex.colv_search_width",
    "Verif.Ex.ColView.room",
    "Verif.Ex.col_program"
   ],
   "note": "For coloring2 and coloring3 the search theorems are about the generator without the overrun of C122 and C123."
  },
  {
   "property": "C125",
   "status": "partial",
   "theorems": [
    "Verif.Ex.tsp_reads",
    "Verif.Ex.tsp_short",
    "Verif.Ex.tsp_unreadable",
    "Verif.Ex.tsp_negative"
   ],
   "note": "The matrix read is proved. The last clause is false: unreadable files give unset distances or an endless loop. A dimension with a minus sign is undefined behaviour (tsp_negative)."
  },
  {
   "property": "C126",
   "status": "partial",
   "theorems": [
    "Verif.Ex.tsp4_reads",
    "Verif.Ex.tsp4_unreadable"
   ],
   "note": "The matrix read is proved. The last clause is false: other formats give unset distances, files without section an endless loop."
  },
  {
   "property": "C127",
   "status": "partial",
   "theorems": [
    "Verif.Ex.tsp_room",
    "Verif.Ex.tspv_room",
    "Verif.Ex.tsp_search_width",
    "Verif.Ex.tspv_search_width_partial"
   ],
   "note": "Layers proved for all five programs, the answer for tsp.cpp. The others need the value read at the root to be at most every tour (C94)."
  },
  {
   "property": "C128",
   "status": "partial",
   "theorems": [
    "Verif.Ex.tsp_program",
    "Verif.Ex.tsp23_program_partial",
    "Verif.Ex.tsp4_program_partial"
   ],
   "note": "Proved for tsp.cpp. The others need the value read at the root to be at most every tour (C94)."
  },
  {
   "property": "C129",
   "status": "proved",
   "theorems": [
    "Verif.BB.search_width",
    "Verif.BB.cut_root",
    "Verif.DD.cut_deep",
    "Verif.Ex.tsp_width_stays",
    "Verif.Ex.tsp_deeper",
    "Verif.Ex.gruler_width_stays",
    "Verif.Ex.gruler_mid_width_stays",
    "Verif.Ex.midlb_width_stays",
    "Verif.Ex.tsp4_width_stays"
   ],
   "note": "For tsp_test4 the value read at the root must be at most every tour (C94); that is the engine's condition on local bounds."
  },
  {
   "property": "C130",
   "status": "partial",
   "theorems": [
    "Verif.BB.report_search",
    "Verif.BB.report_some",
    "Verif.BB.report_counts",
    "Verif.BB.report_limit_partial",
    "Verif.BB.report_limit_false",
    "Verif.BB.report_dual_partial",
    "Verif.BB.report_dual_false",
    "Verif.BB.report_mono_partial",
    "Verif.BB.report_mono_false",
    "Verif.BB.gap_pos",
    "Verif.BB.gap_zero",
    "Verif.BB.gap_false",
    "Verif.Ex.misp5_dual",
    "Verif.BB.report_prints",
    "Verif.BB.report_improves",
    "Verif.Ex.report_lines_false"
   ],
   "note": "Counts and the independence of printing hold for all runs. LIM? is false on the last queued node. The dual column bounds all solutions only for runs that lose none (as C03) and is monotone for consistent local bounds; witnesses refute the rest. Lines come when a restricted diagram or the clock says so and show improving values; not every solution gives one. The gap holds for positive primal bounds. Times and number formatting are not modelled."
  },
  {
   "property": "C131",
   "status": "partial",
   "theorems": [
    "Verif.BB.bounds_first",
    "Verif.BB.bounds_again_iff",
    "Verif.BB.bounds_again_optimal",
    "Verif.BB.bounds_again_better",
    "Verif.BB.bounds_session",
    "Verif.BB.bounds_again_false"
   ],
   "note": "The first search and searches with nothing to report behave as stated. A second search that improves the bound calls the first search's callback, which refers to a local variable of a finished call: undefined, for every model."
  },
  {
   "property": "C132",
   "status": "proved",
   "theorems": [
    "Verif.Ex.tsp4_checker",
    "Verif.Ex.tsp4_checker_search",
    "Verif.Ex.hist_spec",
    "Verif.Ex.colv_hist"
   ],
   "note": "Distances not negative and paths within int, as in C95. Printing itself (streams, formatting) is not modelled."
  },
  {
   "property": "C133",
   "status": "proved",
   "theorems": [
    "Verif.BB.shape_sound",
    "Verif.BB.shape_ends",
    "Verif.BB.anyloc_sound",
    "Verif.BB.anyloc_ends",
    "Verif.Ex.tspv_search_sound",
    "Verif.Ex.tspv_search_ends"
   ],
   "note": "Conditions on the layers (ranks, sink, range of costs, equality) remain; nothing is asked of bounds, completions of merged states or the worth of dominating states."
  },
  {
   "property": "C134",
   "status": "partial",
   "theorems": [
    "Verif.Ex.skip_unfold",
    "Verif.Ex.skip_gap",
    "Verif.Ex.tw_reads",
    "Verif.Ex.tw_short",
    "Verif.Ex.tw_ignores",
    "Verif.Ex.tw_sound",
    "Verif.Ex.tw_program_partial",
    "Verif.Ex.tw_windows_false",
    "Verif.Ex.decInt_exact"
   ],
   "note": "Reading, soundness and ending are proved; optimality under the width of C127 and a harmless value at the root; respecting the windows is false (tw_windows_false), the program ignores them (tw_ignores). Distances with fractions and exponents are not covered."
  },
  {
   "property": "C135",
   "status": "proved",
   "theorems": [
    "Verif.DD.relaxed_saved",
    "Verif.DD.restricted_saved",
    "Verif.DD.exact_saved",
    "Verif.DD.save_pictured"
   ],
   "note": "Lines without the fixed header and footer; of a node's text only its identifier and style."
  },
  {
   "property": "C136",
   "status": "proved",
   "theorems": [
    "Verif.DD.relaxed_round",
    "Verif.DD.restricted_round",
    "Verif.BB.searchT_round",
    "Verif.BB.searchFl_eq",
    "Verif.BB.searchFl_sound",
    "Verif.BB.searchFl_ends",
    "Verif.BB.searchFl_room",
    "Verif.Ex.misp_round",
    "Verif.Ex.misp_round_sound",
    "Verif.dbl_exact",
    "Verif.dblNat_near",
    "Verif.BB.round_matters",
    "Verif.BB.searchT_id",
    "Verif.BB.searchFl_id"
   ],
   "note": "Integer costs. Local bounds are values of the user's function, not themselves recomputed in double."
  },
  {
   "property": "C137",
   "status": "proved",
   "theorems": [
    "Verif.Fl.searchT_sound",
    "Verif.Fl.search_sound",
    "Verif.Fl.search_feasible",
    "Verif.Fl.searchT_improves",
    "Verif.Fl.search_improves",
    "Verif.Fl.searchT_ends",
    "Verif.Fl.search_ends",
    "Verif.Fl.search_error",
    "Verif.Fl.dbl_off",
    "Verif.Ex.misp_fl_sound",
    "Verif.Ex.misp_fl_ends",
    "Verif.Fl.d60_order",
    "Verif.Fl.double_order",
    "Verif.Fl.rnd_search",
    "Verif.Fl.exact_search"
   ],
   "note": "Range condition: every left-to-right sum is better than the sentinel INT_MAX; NaN is excluded. double_order is the machine-checked witness that the answer depends on the width."
  },
  {
   "property": "C138",
   "status": "partial",
   "theorems": [
    "Verif.Fl.search_nearV_partial",
    "Verif.Fl.search_near_partial",
    "Verif.Fl.search_near_exact",
    "Verif.Fl.run_near",
    "Verif.Fl.okLoop_exact",
    "Verif.dbl_mono",
    "Verif.Fl.dbl_acc",
    "Verif.Ex.Misp.nr",
    "Verif.Ex.misp_near_partial",
    "Verif.Ex.misp_near_double_partial"
   ],
   "note": "False in general for the same reason as C03 (cut-set nodes dropped because of a short arc to the sink, of a pooled state, or of the root); proved for every run where that does not happen, and for every run whose root diagram is exact."
  },
  {
   "property": "C139",
   "status": "partial",
   "theorems": [
    "Verif.GNMem.gnset_program_partial",
    "Verif.GNMem.gnset_memory",
    "Verif.GNMem.run_values",
    "Verif.GNMem.ofNatSet_spec",
    "Verif.GNMem.ofNatSet_removeAbove",
    "Verif.GNMem.assign_moved_false",
    "Verif.GNMem.self_move_false",
    "Verif.GNMem.ofNatSet_empty_false"
   ],
   "note": "Holds for all programs that keep the stated rules. Fails beyond them: copy assignment to a moved-from set of the same capacity writes through null (assign_moved_false), self move assignment loses the members (self_move_false), an empty NatSet converts to a set on which removeAbove goes out of bounds (ofNatSet_empty_false)."
  },
  {
   "property": "C140",
   "status": "proved",
   "theorems": [
    "Verif.Ex.misp_words_defined",
    "Verif.Ex.misp_words_equal",
    "Verif.Ex.misp_words_search",
    "Verif.Ex.misp_words_sound",
    "Verif.Ex.misp_words_width",
    "Verif.Ex.misp_words_ends",
    "Verif.Ex.misp_words_false",
    "Verif.Ex.state_equality_on",
    "Verif.Ex.state_equality_relaxed_on",
    "Verif.GNSet.eq_mask",
    "Verif.GNSet.hash_mask",
    "Verif.Ex.wpath_fit",
    "Verif.Ex.wpath_words"
   ],
   "note": "Integer weights, no int overflow. std::hash of int is the identity (libstdc++). misp_words_false shows the vertex limit is sharp."
  },
  {
   "property": "C141",
   "status": "proved",
   "theorems": [
    "Verif.Ex.tsp_words_defined",
    "Verif.Ex.tsp_words_search",
    "Verif.Ex.tsp_words_sound",
    "Verif.Ex.tsp_words_ends",
    "Verif.Ex.tsp_words_width",
    "Verif.Ex.TspW.same",
    "Verif.Ex.state_equality_via",
    "Verif.DD.Over.layered",
    "Verif.DD.Over.room"
   ],
   "note": "Words, equality and hash as in the code; labels are those lgf offers. The optimum needs the width of C127, as for the mask model: tsp.cpp's merge loses solutions at small widths (C95)."
  },
  {
   "property": "C142",
   "status": "partial",
   "theorems": [
    "Verif.Ex.tsp_words_hash_partial",
    "Verif.Ex.tsp_words_hash_false"
   ],
   "note": "Proved up to 64 cities. False from 65 on: an intersection keeps the words of its left side, so two merges with the same cities can have 2 and 1 words and different hashes (70 cities, buckets 110399 and 175953)."
  },
  {
   "property": "C143",
   "status": "proved",
   "theorems": [
    "Verif.Ex.node_table",
    "Verif.Ex.pool_table",
    "Verif.Ex.plain_table",
    "Verif.Ex.tsp_eqOK",
    "Verif.Ex.misp_eqOK",
    "Verif.Ex.gru_eqOK",
    "Verif.Ex.midlb_eqOK",
    "Verif.Hash.build_spec",
    "Verif.Hash.life_empty",
    "Verif.DD.ext_relaxed",
    "Verif.DD.ext_restricted",
    "Verif.DD.ext_exactDD",
    "Verif.BB.pext_search"
   ],
   "note": "Links the table of C37 to the lookup the engine model uses. Nothing is assumed about the model; std::equal_to must be an equivalence, which is shown for the examples with their own. After 2^32 resets old chains come back (C38)."
  },
  {
   "property": "C144",
   "status": "proved",
   "theorems": [
    "Verif.Ex.misp4_words_defined",
    "Verif.Ex.misp4_words_equal",
    "Verif.Ex.misp4_words_search",
    "Verif.Ex.misp4_words_sound",
    "Verif.Ex.misp4_words_width",
    "Verif.Ex.misp4_words_ends",
    "Verif.Ex.wpath4_words"
   ],
   "note": "Integer weights, no int overflow. std::hash of int is the identity (libstdc++)."
  },
  {
   "property": "C145",
   "status": "partial",
   "theorems": [
    "Verif.Labels.labels_order_partial",
    "Verif.Labels.labels_order_false",
    "Verif.Labels.labels_negative",
    "Verif.Labels.labels_zero_hangs",
    "Verif.Labels.labels_knapsack",
    "Verif.Labels.labels_knapsack2",
    "Verif.Labels.labels_misp",
    "Verif.Labels.labels_foo",
    "Verif.Labels.labels_coloring",
    "Verif.Labels.labels_coloringtoy",
    "Verif.Labels.labels_gruler",
    "Verif.Labels.labels_gruler_mid"
   ],
   "note": "False for backward ranges with two or more values: labels_order_false.  labels_order_partial: every range has each value tried once, ascending, so forward ranges in their order and backward ones reversed.  Range(0,-1) never returns and negative labels are undefined.  The generators of the examples that return a range are linked to the label lists of their models."
  },
  {
   "property": "C146",
   "status": "proved",
   "theorems": [
    "Verif.Ex.knap2_search_near",
    "Verif.Ex.knap2_program_near",
    "Verif.Ex.local2_near",
    "Verif.Ex.floorF_near",
    "Verif.BB.search_exact_near"
   ],
   "note": "IEEE double division and product modelled exactly (fdiv, rnd53). The loss of 1 is reached (local2_false). Smaller widths can lose more (C60)."
  },
  {
   "property": "C147",
   "status": "proved",
   "theorems": [
    "Verif.Ex.misp3_words_defined",
    "Verif.Ex.misp3_words_equal",
    "Verif.Ex.misp3_words_search",
    "Verif.Ex.misp3_words_sound",
    "Verif.Ex.misp3_words_width",
    "Verif.Ex.misp3_words_ends",
    "Verif.Ex.misp3_words_false",
    "Verif.Ex.Misp.Fit.nb3",
    "Verif.Ex.Misp.room3",
    "Verif.GNSet.filterS_mask",
    "Verif.Ex.wpath3_words"
   ],
   "note": "The search on the stored words is the search of the mask model of C91. Exact sums (below 2^53) as in C91."
  },
  {
   "property": "C148",
   "status": "proved",
   "theorems": [
    "Verif.Ex.misp2_words_defined",
    "Verif.Ex.misp2_words_equal",
    "Verif.Ex.misp2_words_search",
    "Verif.Ex.misp2_words_sound",
    "Verif.Ex.misp2_words_width",
    "Verif.Ex.misp2_words_ends",
    "Verif.Ex.misp2_words_cost_false",
    "Verif.Ex.Misp.room2",
    "Verif.GNSet.Fitted.uniq",
    "Verif.Ex.wstar_words"
   ],
   "note": "The search on the stored words is the search of the mask model of C91. scf is defined on the states that are not terminal, the only ones the engine asks it about; on the others it would read behind weight (misp2_words_cost_false)."
  },
  {
   "property": "C149",
   "status": "proved",
   "theorems": [
    "Verif.Ex.merge_final_search",
    "Verif.Ex.merge_final_relaxed",
    "Verif.Ex.merge_final_false"
   ],
   "note": "Full statement. merge_final_false is the witness for the proviso."
  },
  {
   "property": "C150",
   "status": "proved",
   "theorems": [
    "Verif.Ex.misp1_words_defined",
    "Verif.Ex.misp1_words_equal",
    "Verif.Ex.misp1_words_search",
    "Verif.Ex.misp1_words_sound",
    "Verif.Ex.misp1_words_ends",
    "Verif.Ex.misp1_words_width",
    "Verif.Ex.wstar_words1"
   ],
   "note": "Carried over from the mask model by state_equality_open; weights nonnegative for soundness, end and width, and their sum below the initial bound for the width."
  },
  {
   "property": "C151",
   "status": "proved",
   "theorems": [
    "Verif.StdSet.set_ops",
    "Verif.StdSet.set_laws",
    "Verif.StdSet.set_minmax",
    "Verif.StdSet.member_iff",
    "Verif.StdSet.sum_spec",
    "Verif.StdSet.sum_order_false",
    "Verif.StdSet.foldl_spec",
    "Verif.StdSet.foldl_any"
   ],
   "note": "Element type int only: for double, max of an empty set is the smallest positive number (numeric_limits::min). The standard containers themselves are trusted."
  },
  {
   "property": "C152",
   "status": "proved",
   "theorems": [
    "Verif.StdSet.vec_hash_one",
    "Verif.StdSet.vec_hash_false",
    "Verif.StdSet.set_hash_same",
    "Verif.StdSet.set_hash_tail",
    "Verif.StdSet.set_hash_tail_sharp",
    "Verif.StdSet.set_print",
    "Verif.StdSet.set_print_inj",
    "Verif.StdSet.vec_print_inj",
    "Verif.StdSet.put_numeral"
   ],
   "note": "Element type int, whose std::hash is the conversion to size_t."
  },
  {
   "property": "C153",
   "status": "partial",
   "theorems": [
    "Verif.Ex.tsp4_words_defined",
    "Verif.Ex.tsp4_words_search",
    "Verif.Ex.tsp4_words_sound",
    "Verif.Ex.tsp4_words_ends",
    "Verif.Ex.tsp4_words_width_partial",
    "Verif.Ex.tsp4_words_hash_partial",
    "Verif.Ex.tsp4_words_hash_false",
    "Verif.Ex.Tsp4W.same",
    "Verif.GNSet.size_count"
   ],
   "note": "The equality of hashes fails from 65 cities on (tsp4_words_hash_false); the optimum depends on the uninitialised cells that the local bounds read at the root (tspv_root_false). Definedness, soundness and end hold without these conditions."
  },
  {
   "property": "C154",
   "status": "partial",
   "theorems": [
    "Verif.Ex.tsp3_words_defined",
    "Verif.Ex.tsp3_words_search",
    "Verif.Ex.tsp3_words_sound",
    "Verif.Ex.tsp3_words_ends",
    "Verif.Ex.tsp3_words_width_partial",
    "Verif.Ex.tsp3_words_hash_partial",
    "Verif.Ex.tsp3_words_hash_false",
    "Verif.Ex.Tsp3W.same"
   ],
   "note": "The equality of hashes fails from 65 cities on (tsp3_words_hash_false); the optimum depends on the uninitialised cells that the local bound reads at the root (tspv_root_false). Definedness, soundness and end hold without these conditions."
  },
  {
   "property": "C155",
   "status": "partial",
   "theorems": [
    "Verif.VecM.vec_moves_partial",
    "Verif.VecM.vec_move_false",
    "Verif.VecM.vec_moved_full",
    "Verif.VecM.vec_self_move_false"
   ],
   "note": "Proved for all histories that do not use the source of a move construction before it gets a new value and do not move-assign a vector to itself; both refuted otherwise. Sources of move assignments are empty and usable, as stated."
  }
 ]
}
