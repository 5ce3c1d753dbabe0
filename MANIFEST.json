{
 "claims": [
  {
   "property": "C01",
   "status": "partial",
   "theorems": [
    "Yask.C01_ranks_given_regions_partial",
    "Yask.C01_ranks_executions_exist",
    "Yask.C01_ranks_partial",
    "Yask.C01_order_independence",
    "Yask.C01_run_equals_reference_partial",
    "Yask.C01_deterministic_partial",
    "Yask.C01_tuning_irrelevant_partial",
    "Yask.C01_executions_exist",
    "Yask.C01_short_remainder_differs"
   ],
   "note": "Order independence for every stencil is proved in full. run_solution = run_ref is proved for every legal setting and every interleaving on one rank (C01_partial) and on any number of ranks with halo exchange, wave-front extensions and overlap of computation and communication (C01_ranks_partial, from the placement of ranks, pads and buffers that prepare_solution() makes). Excluded: temporal blocking with a short remainder block, where it is false (C01_short_remainder_differs), ranks that begin at an index that is not a multiple of the fold length, where the regions exchanged are wrong (C29_misaligned_wrong). On several ranks written vars have all domain dims; the compiler rejects others (C75_meaning_partial)."
  },
  {
   "property": "C02",
   "status": "proved",
   "theorems": [
    "Yask.C02_wavefront_coverage",
    "Yask.C02_single_rank",
    "Yask.C02_contains_rank"
   ],
   "note": "Stated for whole traces of one wave-front: the evaluations are exactly the required ones, once each."
  },
  {
   "property": "C03",
   "status": "proved",
   "theorems": [
    "Yask.C03_wavefront_order",
    "Yask.C03_wavefront_positions",
    "Yask.C03_extension_suffices"
   ],
   "note": "Includes that the wave-front extensions contain what later shifts read (C03_extension_suffices)."
  },
  {
   "property": "C04",
   "status": "proved",
   "theorems": [
    "Yask.C04_temporal_coverage"
   ],
   "note": "Including short remainder blocks."
  },
  {
   "property": "C05",
   "status": "partial",
   "theorems": [
    "Yask.C05_temporal_order_partial",
    "Yask.C05_short_remainder_race"
   ],
   "note": "Proved when no dimension with a single mega-block ends in a remainder block shorter than 2*angle*shifts; without that the code is wrong: C05_short_remainder_race gives a legal configuration and an execution that violates the order."
  },
  {
   "property": "C06",
   "status": "proved",
   "theorems": [
    "Yask.C06_micro_partition"
   ],
   "note": ""
  },
  {
   "property": "C07",
   "status": "partial",
   "theorems": [
    "Yask.C07_conditional_part_partial",
    "Yask.C07_nano_block_partial",
    "Yask.C07_fold_64_wrong",
    "Yask.C07_micro_block_partial"
   ],
   "note": "Proved for nano-blocks and whole micro-blocks with any residues, folds of at most 63 points in total and at most 8 dimensions (limits of the mask building and of the combination functions). Finding: a fold of 64 points writes outside the block."
  },
  {
   "property": "C08",
   "status": "proved",
   "theorems": [
    "Yask.C08_overlap_same_points"
   ],
   "note": ""
  },
  {
   "property": "C09",
   "status": "partial",
   "theorems": [
    "Yask.C09_steps_exactly_once",
    "Yask.C09_steps_in_order_partial"
   ],
   "note": "Each requested step exactly once, no other step: proved in full. The order at each point is proved except for the short-remainder configurations of C05."
  },
  {
   "property": "C10",
   "status": "proved",
   "theorems": [
    "Yask.C10_rectangles_exact",
    "Yask.C10_num_points_exact",
    "Yask.C10_overall_box_least",
    "Yask.C10_unconditional"
   ],
   "note": "Every condition, every overall box (at least one dimension), every positive number of scanning threads: the search terminates, rectangles cover exactly, number of points exact, overall box least. idx_t unbounded."
  },
  {
   "property": "C11",
   "status": "proved",
   "theorems": [
    "Yask.C11_thread_binding",
    "Yask.C11_one_thread"
   ],
   "note": "Proved for every slab width, thread count, alignment and position."
  },
  {
   "property": "C12",
   "status": "proved",
   "theorems": [
    "Yask.C12_loops_cover",
    "Yask.C12_indices_once",
    "Yask.C12_piece_bounds",
    "Yask.C12_increasing_order",
    "Yask.C12_inverted_region_runs",
    "Yask.C12_manual_threads",
    "Yask.C12_manual_empty_undefined"
   ],
   "note": "All modifiers (nested, flattened, tiled, serpentine, square_wave, manual), any number of dimensions and loops. Hypotheses: positive stride/alignment/tile size and begin <= end per dimension; C12_inverted_region_runs shows the flattened loops do run for doubly inverted regions, C12_manual_empty_undefined that manual loops divide by zero on empty inner dimensions."
  },
  {
   "property": "C13",
   "status": "proved",
   "theorems": [
    "Yask.C13_layout_value",
    "Yask.C13_unlayout_layout",
    "Yask.C13_layout_unlayout",
    "Yask.C13_unit_stride"
   ],
   "note": ""
  },
  {
   "property": "C14",
   "status": "proved",
   "theorems": [
    "Yask.C14_address_in_storage",
    "Yask.C14_addresses_distinct",
    "Yask.C14_elements_fill_storage"
   ],
   "note": "Every reachable var geometry: any number and kinds of dimensions, folds, layouts, pads, offsets."
  },
  {
   "property": "C15",
   "status": "proved",
   "theorems": [
    "Yask.C15_get_returns_last_set",
    "Yask.C15_set_reports",
    "Yask.C15_without_storage",
    "Yask.C15_add_reports"
   ],
   "note": ""
  },
  {
   "property": "C16",
   "status": "partial",
   "theorems": [
    "Yask.C16_local_iff_in_range",
    "Yask.C16_get_iff_local",
    "Yask.C16_fails_after_throwing_call"
   ],
   "note": "Proved for every var on which no setting call threw. A throwing set_alloc_size leaves the new size recorded, after which the claim is false (C16_fails_after_throwing_call)."
  },
  {
   "property": "C17",
   "status": "partial",
   "theorems": [
    "Yask.C17_window_size",
    "Yask.C17_moves_least",
    "Yask.C17_slice_moves_window",
    "Yask.C17_history",
    "Yask.C17_fails_for_set_element"
   ],
   "note": "Proved for the writes of the solution (kernel steps), any history. set_element at a new step does not move the window, contrary to the documentation (C17_fails_for_set_element)."
  },
  {
   "property": "C18",
   "status": "partial",
   "theorems": [
    "Yask.C18_set_then_get",
    "Yask.C18_get_slice",
    "Yask.C18_positions",
    "Yask.C18_refused",
    "Yask.C18_fails_for_more_steps_than_stored"
   ],
   "note": "Proved for every slice, buffer, thread count and order of accesses, if the slice has at most as many steps as are stored (automatic unless step indices are wrapped); false beyond (C18_fails_for_more_steps_than_stored)."
  },
  {
   "property": "C19",
   "status": "partial",
   "theorems": [
    "Yask.C19_vec_copy",
    "Yask.C19_fails_after_set_first_misc_index"
   ],
   "note": "Proved for every pair of vars of the same folding (any sizes, offsets, pads, layouts), every non-empty slice of whole vectors, every number of threads and order of copies. False after set_first_misc_index, which does not update the offset used by the vector copies (C19_fails_after_set_first_misc_index)."
  },
  {
   "property": "C20",
   "status": "partial",
   "theorems": [
    "Yask.C20_sum_product",
    "Yask.C20_min_partial",
    "Yask.C20_max_partial",
    "Yask.C20_max_wrong",
    "Yask.C20_sum_squares_wrong",
    "Yask.C20_min_wrong",
    "Yask.C20_fails"
   ],
   "note": "Exact arithmetic. Sum, product and element count proved in full; the minimum if the sum is requested too; the maximum if some value is at least DBL_MIN. The code is wrong otherwise: C20_max_wrong, C20_sum_squares_wrong, C20_min_wrong, C20_fails. Thread numbers below the number of threads are a hypothesis (a call from inside a parallel region can violate it)."
  },
  {
   "property": "C21",
   "status": "partial",
   "theorems": [
    "Yask.C21_call_effect",
    "Yask.C21_room_for_padding",
    "Yask.C21_no_other_padding",
    "Yask.C21_storage_kept",
    "Yask.C21_fails_after_throwing_call"
   ],
   "note": "Proved for every var on which no setting call threw. A throwing halo call leaves the halo larger than the padding (C21_fails_after_throwing_call)."
  },
  {
   "property": "C22",
   "status": "proved",
   "theorems": [
    "Yask.C22_no_reference",
    "Yask.C22_count_of_mismatches",
    "Yask.C22_zero_iff_equal",
    "Yask.C22_tolerance"
   ],
   "note": "Reference of the same geometry, non-empty dimensions, no local offset in domain dimensions (as for every var of a solution that is not scratch). Messages not modelled; tolerance in exact arithmetic."
  },
  {
   "property": "C23",
   "status": "partial",
   "theorems": [
    "Yask.C23_clean_halo_is_current",
    "Yask.C23_after_exchange",
    "Yask.C23_fails_for_halo_write",
    "Yask.C23_flag_exists"
   ],
   "note": "Any number of ranks, slots and points, any history of API writes, runs and (overlapped) exchanges. Hypothesis: a call of a single rank writes only points that this rank owns; false otherwise (C23_fails_for_halo_write). That both sides use the same region is C29."
  },
  {
   "property": "C24",
   "status": "proved",
   "theorems": [
    "Yask.C24_messages_in_order",
    "Yask.C24_no_deadlock",
    "Yask.C24_finishes",
    "Yask.C24_all_delivered"
   ],
   "note": "Any number of ranks and channels, all interleavings of the atomic operations of the lock, any number of messages; sequentially consistent memory."
  },
  {
   "property": "C25",
   "status": "partial",
   "theorems": [
    "Yask.C25_reads_latest",
    "Yask.C25_some_copy_current",
    "Yask.C25_accepted_events",
    "Yask.C25_lost_update_refused",
    "Yask.C25_set_all_fails_with_assertions",
    "Yask.C25_fails_after_reference_run"
   ],
   "note": "Every sequence of API accesses, runs, packs and unpacks in a build without assertions and without run_ref. With assertions set_all_elements_same aborts (C25_set_all_fails_with_assertions); after run_ref the device data is stale (C25_fails_after_reference_run)."
  },
  {
   "property": "C26",
   "status": "partial",
   "theorems": [
    "Yask.C26_accepted",
    "Yask.C26_rejected_partial",
    "Yask.C26_history",
    "Yask.C26_duplicate_accepted",
    "Yask.C26_duplicate_wrong",
    "Yask.C26_failed_call_leaves_dims"
   ],
   "note": "All rejections but one, the accepted lists, and any history of calls. A dim named twice is accepted: C26_duplicate_accepted (for every such list), C26_duplicate_wrong. A failing call can add misc dims: C26_failed_call_leaves_dims."
  },
  {
   "property": "C27",
   "status": "proved",
   "theorems": [
    "Yask.C27_tiles",
    "Yask.C27_requests_kept",
    "Yask.C27_automatic",
    "Yask.C27_not_empty",
    "Yask.C27_no_mpi"
   ],
   "note": "setup_rank (MPI build) run by all ranks together plus the minimum-size check of update_var_info: whenever it succeeds, every overall point is in exactly one rank domain, ranks contain no other points, all agree on the overall size; requested sizes are kept; with only global sizes it succeeds with the documented split."
  },
  {
   "property": "C28",
   "status": "partial",
   "theorems": [
    "Yask.C28_neighbor_iff_partial",
    "Yask.C28_symmetric_partial",
    "Yask.C28_unambiguous_partial",
    "Yask.C28_second_prepare_wrong"
   ],
   "note": "For the first prepare_solution(): table entries mean exactly 'indices differ by this offset', symmetric, one place per offset. False for a second prepare_solution() with another arrangement (C28_second_prepare_wrong): the tables keep stale neighbours."
  },
  {
   "property": "C29",
   "status": "partial",
   "theorems": [
    "Yask.C29_match",
    "Yask.C29_allocated",
    "Yask.C29_received_outside",
    "Yask.C29_sent_partial",
    "Yask.C29_covered",
    "Yask.C29_disjoint_partial",
    "Yask.C29_vectors_partial",
    "Yask.C29_aligned",
    "Yask.C29_misaligned_wrong"
   ],
   "note": "Proved for all settings accepted by prepare_solution(): matching regions and copy modes on both sides, everything inside the allocation, nothing received into the own domain, the whole halo covered. That only own points are sent, that regions do not overlap and that vector copies use whole vectors is proved if every rank begins at a multiple of the fold length, which holds if all ranks but the last in a dim have such sizes (C29_aligned; always with automatic sizes). Otherwise false: C29_misaligned_wrong."
  },
  {
   "property": "C30",
   "status": "partial",
   "theorems": [
    "Yask.C30_vars_partial",
    "Yask.C30_fused_vars_overflow",
    "Yask.C30_scratch_partial",
    "Yask.C30_scratch_sizes",
    "Yask.C30_scratch_overlap",
    "Yask.C30_buffers",
    "Yask.C30_shared_buffer"
   ],
   "note": "Proved for all lists of vars (bundled allocation, or no fused vars), for all scratch vars whose slot's first var is the largest (always so without wave-fronts, C30_scratch_sizes) and for all lists of MPI buffers, including shared-memory buffers. Two disagreements with the code: after fuse_vars without bundled allocation, a var can be given memory allocated for another (C30_fused_vars_overflow); with wave-fronts or temporal blocks, scratch vars sharing a slot but with different halos overlap the next thread's scratch memory (C30_scratch_overlap)."
  },
  {
   "property": "C31",
   "status": "proved",
   "theorems": [
    "Yask.C31_nest",
    "Yask.C31_fits",
    "Yask.C31_steps",
    "Yask.C31_legal",
    "Yask.C31_stable",
    "Yask.C31_second_prepare_wrong"
   ],
   "note": "For every requested size: positive, nested, least whole number of vectors or the enclosing size; step counts; stable under a second adjustment; gives the legality condition used by C01-C08. C31_second_prepare_wrong: sizes limited by a small rank domain stay limited after the domain is enlarged and prepared again. CPU build, idx_t unbounded."
  },
  {
   "property": "C32",
   "status": "proved",
   "theorems": [
    "Yask.C32_threads",
    "Yask.C32_requests_kept",
    "Yask.C32_binding_dim"
   ],
   "note": "For all integer settings; requests that fit are used as given."
  },
  {
   "property": "C33",
   "status": "partial",
   "theorems": [
    "Yask.C33_keeps_request",
    "Yask.C33_valid_grid_partial",
    "Yask.C33_one_rank_empty"
   ],
   "note": "Proved for more than one rank: user-given factors are kept and the result multiplies to the number of ranks. With one rank the function returns an empty tuple (C33_one_rank_empty)."
  },
  {
   "property": "C34",
   "status": "proved",
   "theorems": [
    "Yask.C34_idiv_flr",
    "Yask.C34_div_mod",
    "Yask.C34_round_down",
    "Yask.C34_round_up",
    "Yask.C34_macros_nonneg",
    "Yask.C34_macro_round_down_negative"
   ],
   "note": "Floor division, rounding and modulo for all integers; the macros ROUND_UP/ROUND_DOWN/CEIL_DIV are proved for nonnegative operands (their documented domain) and the behaviour on negatives is shown by C34_macro_round_down_negative."
  },
  {
   "property": "C35",
   "status": "proved",
   "theorems": [
    "Yask.C35_parts_cover",
    "Yask.C35_parts_even",
    "Yask.C35_all_sizes"
   ],
   "note": ""
  },
  {
   "property": "C36",
   "status": "partial",
   "theorems": [
    "Yask.C36_parallel_for_partial",
    "Yask.C36_parallel_for_chunks",
    "Yask.C36_parallel_for_nested_begin_ignored"
   ],
   "note": "Holds for begin=0 or without nested parallelism (every call in the code base has begin=0). In the nested branch the code ignores begin: C36_parallel_for_nested_begin_ignored proves the violation."
  },
  {
   "property": "C37",
   "status": "proved",
   "theorems": [
    "Yask.C37_layout_value",
    "Yask.C37_unlayout_layout",
    "Yask.C37_layout_unlayout",
    "Yask.C37_layout_injective",
    "Yask.C37_layout_nonstrict"
   ],
   "note": ""
  },
  {
   "property": "C38",
   "status": "partial",
   "theorems": [
    "Yask.C38_visit_indices",
    "Yask.C38_visit_indices_empty",
    "Yask.C38_visit_tuple_partial",
    "Yask.C38_visit_tuple_empty_space_visited",
    "Yask.C38_points_complete",
    "Yask.C38_points_in_layout_order",
    "Yask.C38_visit_parallel"
   ],
   "note": "Indices version (used by the kernel) proved in full, sequential and parallel. Tuple version proved for nonempty spaces; it calls the visitor once on an empty space (C38_visit_tuple_empty_space_visited)."
  },
  {
   "property": "C39",
   "status": "proved",
   "theorems": [
    "Yask.C39_eq_iff",
    "Yask.C39_lt_iff",
    "Yask.C39_strict_total_order",
    "Yask.C39_derived"
   ],
   "note": ""
  },
  {
   "property": "C40",
   "status": "partial",
   "theorems": [
    "Yask.C40_arbitrary_exact_partial",
    "Yask.C40_center_exact_partial",
    "Yask.C40_forward_exact_partial",
    "Yask.C40_backward_exact_partial",
    "Yask.C40_too_few_points_undefined",
    "Yask.C40_bad_arguments_throw"
   ],
   "note": "Exactness over every field, for distinct points and more points than the derivative order (all four APIs). With fewer points the code reads outside its work array: C40_too_few_points_undefined. Floating-point rounding is not modelled."
  },
  {
   "property": "C41",
   "status": "partial",
   "theorems": [
    "Yask.C41_choose",
    "Yask.C41_set_members",
    "Yask.C41_set_bijection",
    "Yask.C41_set_array_overflow",
    "Yask.C41_choose_overflow"
   ],
   "note": "choose(n,k) proved for n <= 29 (int overflow beyond: C41_choose_overflow), subset enumeration for k <= 8 (a fixed-size array is overrun beyond: C41_set_array_overflow). YASK calls it with n = number of domain dimensions."
  },
  {
   "property": "C42",
   "status": "partial",
   "theorems": [
    "Yask.C42_ordered_set_partial",
    "Yask.C42_first_erase_correct_partial",
    "Yask.C42_second_erase_wrong",
    "Yask.C42_add_remove_two_undefined"
   ],
   "note": "Proved for every operation sequence in which erased items are the last or absent, and for the first erase of any item. The position map is not repaired after an erase: C42_second_erase_wrong, C42_add_remove_two_undefined."
  },
  {
   "property": "C43",
   "status": "partial",
   "theorems": [
    "Yask.C43_split_iff",
    "Yask.C43_unbalanced_rejected",
    "Yask.C43_requote_roundtrip_partial",
    "Yask.C43_requote_apostrophe",
    "Yask.C43_requote_double_quotes",
    "Yask.C43_requote_empty_lost",
    "Yask.C43_options_applied",
    "Yask.C43_bad_value_throws"
   ],
   "note": "Splitting is proved equivalent to a grammar, option handling is proved for every well-formed command line. Re-quoting unused arguments is proved for arguments without quotes; quote_whitespace picks the wrong kind of quotes otherwise (C43_requote_apostrophe, C43_requote_double_quotes)."
  },
  {
   "property": "C44",
   "status": "proved",
   "theorems": [
    "Yask.C44_closure",
    "Yask.C44_rejects_exactly_cycles",
    "Yask.C44_total",
    "Yask.C44_equations"
   ],
   "note": "Any history of add/record/clear/close operations, and the analysis of the equations of a solution (clashes, reads, user dependences); iteration order of the sets arbitrary."
  },
  {
   "property": "C45",
   "status": "partial",
   "theorems": [
    "Yask.C45_topo_sort",
    "Yask.C45_topo_sort_circular",
    "Yask.C45_stages",
    "Yask.C45_total",
    "Yask.C45_accepts_partial",
    "Yask.C45_valid_equations_rejected",
    "Yask.C45_user_dependences_rejected"
   ],
   "note": "Ordering: proved for topo_sort and for the whole division of the equations into parts and stages, for every accepted solution and every iteration order. Acceptance of every acyclic solution: proved up to the parts without user dependences; the grouping into stages and user dependences can reject acyclic solutions (C45_valid_equations_rejected, C45_user_dependences_rejected)."
  },
  {
   "property": "C46",
   "status": "proved",
   "theorems": [
    "Yask.C46_needed",
    "Yask.C46_compiled"
   ],
   "note": "Every set of stages as established by C44 and C45 (Staged), any offsets and chains of scratch vars; for legal equations with scratch vars, from the output of the compiler model alone (C46_compiled). Vars in conditions are not modelled (domain conditions use indices only)."
  },
  {
   "property": "C47",
   "status": "partial",
   "theorems": [
    "Yask.C47_alloc_partial",
    "Yask.C47_stages_wrong",
    "Yask.C47_writeback_wrong",
    "Yask.C47_explicit_wrong"
   ],
   "note": "Both directions, any number of stages, any offsets, if each stage that reads the var also accesses the written offset (and only the writing equation reads the oldest step), or precedes all writers and also accesses offset 0. False otherwise (C47_stages_wrong, C47_writeback_wrong); explicit allocations are ignored (C47_explicit_wrong)."
  },
  {
   "property": "C48",
   "status": "partial",
   "theorems": [
    "Yask.C48_slots_partial",
    "Yask.C48_values_partial",
    "Yask.C48_one_part_partial",
    "Yask.C48_reuse_wrong"
   ],
   "note": "Slot assignment never throws and never gives one slot to vars whose stage ranges overlap (any sizes, any order of vars); a sequence of parts in stage order reads exactly the values of the named vars for every value type, function and initial memory. False for micro-blocks with several non-scratch parts in a stage: C48_reuse_wrong shows T3 overwriting T1's shared memory before T5 reads T1. Missing: that case."
  },
  {
   "property": "C49",
   "status": "partial",
   "theorems": [
    "Yask.C49_forward_partial",
    "Yask.C49_rejects_partial",
    "Yask.C49_direction_partial",
    "Yask.C49_accepts",
    "Yask.C49_reverse_wrong",
    "Yask.C49_scratch_wrong"
   ],
   "note": "Forward stepping, non-scratch equations: proved, and legal solutions are accepted in both directions. False for reverse stepping (C49_reverse_wrong) and for the reads of scratch equations (C49_scratch_wrong)."
  },
  {
   "property": "C50",
   "status": "partial",
   "theorems": [
    "Yask.C50_combine",
    "Yask.C50_new_add_node",
    "Yask.C50_new_multiply_node",
    "Yask.C50_reorder",
    "Yask.C50_same_partial",
    "Yask.C50_cse_partial",
    "Yask.C50_same_wrong",
    "Yask.C50_cse_wrong",
    "Yask.C50_cse_cycle"
   ],
   "note": "Flattening, merging by the node factory and reordering: proved for every expression over any commutative ring and any interpretation. Equality test and CSE: proved for equations without negation or without subtraction; with both the property is false (C50_same_wrong, C50_cse_wrong, C50_cse_cycle). Exact arithmetic, i.e. no floating-point rounding."
  },
  {
   "property": "C51",
   "status": "proved",
   "theorems": [
    "Yask.C51_offset",
    "Yask.C51_const",
    "Yask.C51_normal_form"
   ],
   "note": "For every index expression and every value of the indices; int overflow and out-of-range conversion are the outcome undefined."
  },
  {
   "property": "C52",
   "status": "proved",
   "theorems": [
    "Yask.C52_elements",
    "Yask.C52_assembled",
    "Yask.C52_blocks",
    "Yask.C52_align_avx"
   ],
   "note": "Every fold, offset, printer (plain C++, AVX/AVX2, AVX-512), list of available blocks and set of control variables already defined; also that only blocks read before are used, and that the AVX and AVX2 forms of real_vec_align equal the generic one. That the intrinsics behave as documented is assumed."
  },
  {
   "property": "C53",
   "status": "partial",
   "theorems": [
    "Yask.C53_nonstrict_reduces_part_in_range_partial",
    "Yask.C53_nonstrict_sets_part_in_range_partial",
    "Yask.C53_fails_outside",
    "Yask.C53_fails_for_new_steps"
   ],
   "note": "Proved if at least one element of the slice is in range and its steps are valid, for setting and for reductions. Otherwise an element outside the slice is set (C53_fails_outside) or the valid steps move without being written (C53_fails_for_new_steps)."
  },
  {
   "property": "C54",
   "status": "partial",
   "theorems": [
    "Yask.C54_only_user_dependences_partial",
    "Yask.C54_disabled_checker_rejects"
   ],
   "note": "The dependences used are exactly those of the user. But the analysis of the vars is not switched off: C54_disabled_checker_rejects."
  },
  {
   "property": "C55",
   "status": "partial",
   "theorems": [
    "Yask.C55_scratch_parts_partial",
    "Yask.C55_two_parts_wrong"
   ],
   "note": "Proved if no scratch var is updated in two parts (i.e. under two conditions); false otherwise (C55_two_parts_wrong)."
  },
  {
   "property": "C56",
   "status": "partial",
   "theorems": [
    "Yask.C56_direct_partial",
    "Yask.C56_scratch_partial",
    "Yask.C56_wavefront_partial",
    "Yask.C56_corner_wrong"
   ],
   "note": "Proved for direct reads, and for reads through scratch vars if the rank is on one side in all dims or one read on the way has offsets in all those dims; and for all reads with wave-fronts. Otherwise false (C56_corner_wrong)."
  },
  {
   "property": "C57",
   "status": "partial",
   "theorems": [
    "Yask.C57_unique_partial",
    "Yask.C57_explicit_ignored",
    "Yask.C57_explicit_wrong"
   ],
   "note": "Automatic placement is a bijection between ranks and grid locations. Explicit indices are never used: C57_explicit_ignored (for all inputs) and C57_explicit_wrong (concrete)."
  },
  {
   "property": "C58",
   "status": "partial",
   "theorems": [
    "Yask.C58_kept_partial",
    "Yask.C58_ignored_wrong",
    "Yask.C58_one_rank_undefined"
   ],
   "note": "A request that can be completed to a grid is kept. A request that cannot is silently replaced (C58_ignored_wrong), or, with one rank, leads to a null-pointer read (C58_one_rank_undefined)."
  },
  {
   "property": "C59",
   "status": "partial",
   "theorems": [
    "Yask.C59_ends",
    "Yask.C59_sizes_legal",
    "Yask.C59_step",
    "Yask.C59_done_stays",
    "Yask.C59_mega_stale_angles"
   ],
   "note": "Termination with an explicit bound, legality of all sizes tried, and that the fastest trial wins, for every sequence of positive measurements; rates are rationals instead of double. The sizes are legal, but with mega-blocks as target the run with them is not: C59_mega_stale_angles."
  },
  {
   "property": "C60",
   "status": "partial",
   "theorems": [
    "Yask.C60_scratch_ranks_partial",
    "Yask.C60_scratch_values_exist",
    "Yask.C60_scratch_reference",
    "Yask.C60_scratch_arranged_partial",
    "Yask.C60_scratch_stages",
    "Yask.C60_scratch_slots",
    "Yask.C60_scratch_run_partial",
    "Yask.C60_values_exist",
    "Yask.C60_stages",
    "Yask.C60_slots",
    "Yask.C60_reference",
    "Yask.C60_run_partial",
    "Yask.C60_ranks_partial"
   ],
   "note": "Proved end to end for solutions without misc dims, with domain conditions on indices and step conditions on the step index: dependency analysis, parts, stages (C44, C45), halos and exchange distance (C46, C56), step slots (C47) and the run (C01); with or without scratch vars on any number of ranks; with scratch vars (C60_scratch_...) from the compiler's parts, stages, required scratch parts and write halos through the evaluation of scratch parts in micro-blocks (C69). That values satisfying the equations exist for every initial memory is proved, too (C60_values_exist, C60_scratch_values_exist). Taken as given: that at most one equation of a var applies at a point (the compiler checks only clashing conditions), that some equation applies where a scratch value is used (C69_undefined_element_wrong), that scratch vars and what their equations read have all domain dims, that ranks from which values are read through scratch vars are among those that are exchanged with (always so if values lie on one side in all dims; not in general, C56_corner_wrong), that no value is overwritten before it is read (C47 says when, and that it is not always so), and what C01 excludes."
  },
  {
   "property": "C61",
   "status": "partial",
   "theorems": [
    "Yask.C61_partial",
    "Yask.C61_wrong"
   ],
   "note": "Proved for all sets of equations that set different points and read none of them, all sharing of nodes, all size limits, and arbitrary real arithmetic, down to the tokens of the C++ text. The property is false for negated negations and negative constants (printed as --), for operators on integer constants (computed in int arithmetic: 1/2 = 0, overflow) and for % of real values (C61_wrong). Loads of points are one statement here."
  },
  {
   "property": "C62",
   "status": "partial",
   "theorems": [
    "Yask.C62_int_partial",
    "Yask.C62_real_partial",
    "Yask.C62_inexact",
    "Yask.C62_large"
   ],
   "note": "Integers in the range of int are exact, other constants in that range have a relative error of at most 1/(2*10^15). Not exact in general: C62_inexact; undefined for constants outside the range of int: C62_large."
  },
  {
   "property": "C63",
   "status": "proved",
   "theorems": [
    "Yask.C63_read",
    "Yask.C63_age",
    "Yask.C63_write"
   ],
   "note": "For folded vars with the inner-loop dim, simple offsets in domain dims and constants in misc dims, at any pointer, offset and buffer settings. Scalar and partially folded reads, prefetches and the text of the expressions are not part of it (see C61 for the text of equations)."
  },
  {
   "property": "C64",
   "status": "partial",
   "theorems": [
    "Yask.C64_consecutive_partial",
    "Yask.C64_wrong"
   ],
   "note": "False: the option makes the compiler stop at an assertion, or, if it was built without assertions, generate addresses from vector numbers instead of element indices (C64_wrong). Proved: what the option relies on, i.e. that elements along the only folded dim are consecutive in memory if this dim is last in the layout."
  },
  {
   "property": "C65",
   "status": "partial",
   "theorems": [
    "Yask.C65_vectors",
    "Yask.C65_prepared",
    "Yask.C65_in_storage",
    "Yask.C65_part_in_storage",
    "Yask.C65_equation_in_storage",
    "Yask.C65_scratch_equation_in_storage_partial"
   ],
   "note": "Proved for the vars of the solution that are not scratch vars: the vectors on which the code of a part runs, the allocation that prepare_solution() makes for them, and the accesses of equations and of scratch equations (if each scratch var is updated in one part) at halos computed by the compiler. Taken as given: indices in misc dims are in range. Missing: the storage of scratch vars, see C68; vars added with fuse_vars(), see C67."
  },
  {
   "property": "C66",
   "status": "partial",
   "theorems": [
    "Yask.C66_layout_iff",
    "Yask.C66_same_offset_partial",
    "Yask.C66_same_index_partial",
    "Yask.C66_wrong"
   ],
   "note": "The documented conditions are exactly what is tested, and then elements equally far from the first indices are at the same offset. The claim for equal indices is false if first indices differ (C66_wrong: first misc index; also rank offsets of fixed-size vars), which is not tested."
  },
  {
   "property": "C67",
   "status": "partial",
   "theorems": [
    "Yask.C67_same_var",
    "Yask.C67_data",
    "Yask.C67_rejects_partial",
    "Yask.C67_incompatible_accepted",
    "Yask.C67_incompatible_wrong",
    "Yask.C67_halo_lost",
    "Yask.C67_fixed_size_wrong",
    "Yask.C67_before_prepare",
    "Yask.C67_after_prepare_undefined"
   ],
   "note": "For every sequence of API calls the two references are interchangeable, and other vars are untouched. The rejection of different dims or folds is done for vars made by new_var() only, not for those of the solution: C67_incompatible_accepted. Fusing a var of the solution with one made by new_var() loses its halos and its share in the wave-front angle: C67_halo_lost; too small fixed-size vars are accepted: C67_fixed_size_wrong; fusing after prepare_solution() leaves the kernels with freed core data: C67_after_prepare_undefined."
  },
  {
   "property": "C68",
   "status": "partial",
   "theorems": [
    "Yask.C68_micro_block_width",
    "Yask.C68_moves",
    "Yask.C68_written",
    "Yask.C68_touched",
    "Yask.C68_writes_partial",
    "Yask.C68_scratch_reads_partial",
    "Yask.C68_reads_partial",
    "Yask.C68_long_shift_wrong",
    "Yask.C68_misaligned_wrong"
   ],
   "note": "The size of micro-blocks is bounded by the setting and the temporal-block extension if the total shift in a block is not more than the domain size; then all written elements are in the storage, for every trace of a run. Unused lanes are in the storage if there are no temporal blocks and areas begin on vectors. Both conditions are needed: C68_long_shift_wrong (written elements outside of the storage), C68_misaligned_wrong (unused lanes are read outside of the storage). Taken as given: each scratch var is updated in one part (see C55), misc and step indices are in range."
  },
  {
   "property": "C69",
   "status": "partial",
   "theorems": [
    "Yask.C69_ranks_substitution_partial",
    "Yask.C69_ranks_equal_reference_partial",
    "Yask.C69_ranks_executions_exist",
    "Yask.C69_substitution_partial",
    "Yask.C69_reference",
    "Yask.C69_run_equals_reference_partial",
    "Yask.C69_executions_exist",
    "Yask.C69_undefined_element_wrong"
   ],
   "note": "Proved for every trace of a run on one rank or on any number of ranks, also with wave-fronts and temporal blocks, and for run_ref, under the conditions that each needed scratch element is defined by exactly one required scratch part within its write halos, and that scratch parts are listed after those whose scratch vars they read; C60_scratch_run_partial and C60_scratch_ranks_partial derive these conditions from the compiler model for legal equations. Elements that no equation defines: C69_undefined_element_wrong (run_ref reads zero there, run_solution what happens to be in the storage). Missing: what C01 misses; the storage of scratch vars (C68)."
  },
  {
   "property": "C70",
   "status": "partial",
   "theorems": [
    "Yask.C70_steps",
    "Yask.C70_elements",
    "Yask.C70_work_partial",
    "Yask.C70_work_at_most_partial",
    "Yask.C70_step_conditions_counted",
    "Yask.C70_extensions_counted"
   ],
   "note": "Steps and elements for every history of calls. Elements written and floating-point operations equal what every execution did, evaluation by evaluation, if there are no scratch vars, no step conditions and no wave-front extensions; with step conditions and extensions they are an upper bound. The equality is false with step conditions (C70_step_conditions_counted) and with wave-fronts on several ranks (C70_extensions_counted). Scratch vars are counted without halos and repetitions (TODO in the code), not covered. Elapsed times and rates are not modelled."
  },
  {
   "property": "C71",
   "status": "partial",
   "theorems": [
    "Yask.C71_ready_runs",
    "Yask.C71_never_prepared",
    "Yask.C71_sizes_changed",
    "Yask.C71_tracked_partial",
    "Yask.C71_after_end_undefined",
    "Yask.C71_failed_prepare_wrong",
    "Yask.C71_failed_alloc_undefined",
    "Yask.C71_options_wrong"
   ],
   "note": "Proved for every history that a ready solution runs on what was prepared, that a run throws if the solution was never prepared and after every change of sizes; and readiness is tracked exactly if end_solution() and apply_command_line_options() are not used after preparing and no call of prepare_solution() throws. False otherwise: C71_after_end_undefined, C71_failed_prepare_wrong, C71_failed_alloc_undefined, C71_options_wrong."
  },
  {
   "property": "C72",
   "status": "partial",
   "theorems": [
    "Yask.C72_unchanged",
    "Yask.C72_resized",
    "Yask.C72_overall_size_only",
    "Yask.C72_no_mpi"
   ],
   "note": "Proved: preparing again without changes changes nothing; with both kinds of sizes specified anew (zero for unspecified) the outcome is that of a new solution. False if only the overall size is set anew: the next call always throws, because the rank size computed by the first call is kept as if it was specified (C72_overall_size_only, C72_no_mpi). Changing the numbers of ranks: C28_second_prepare_wrong. Block sizes: C31."
  },
  {
   "property": "C73",
   "status": "partial",
   "theorems": [
    "Yask.C73_covers",
    "Yask.C73_accepted_partial",
    "Yask.C73_inner_loop_wrong",
    "Yask.C73_exact_request",
    "Yask.C73_requests_kept_partial",
    "Yask.C73_completable_wrong"
   ],
   "note": "Proved: accepted settings always give a vector with the SIMD length; exact requests are used; with efficient folding nothing is rejected and requests that can be completed outside the inner-loop dim are kept. False: without efficient folding, an inner loop in the last but one dim is always rejected as an internal fault unless the request is exact (C73_inner_loop_wrong); a request that can be completed only in the inner-loop dim is discarded (C73_completable_wrong)."
  },
  {
   "property": "C74",
   "status": "partial",
   "theorems": [
    "Yask.C74_accepted",
    "Yask.C74_dims",
    "Yask.C74_layout",
    "Yask.C74_memory_domain_order",
    "Yask.C74_kinds_wrong"
   ],
   "note": "Proved: the exact condition of acceptance, the dims and their order, and the order in memory, for names that are not used for two kinds of dims. False: a name used for a domain dim of one var and a misc dim of another is accepted (C74_kinds_wrong)."
  },
  {
   "property": "C75",
   "status": "partial",
   "theorems": [
    "Yask.C75_meaning_partial",
    "Yask.C75_accepts",
    "Yask.C75_repeated_dim_wrong"
   ],
   "note": "Proved for all vars whose dims have different names, by the value of the index expressions in every interpretation. False for a var that names a dim twice, which nothing in the compiler rejects: v(x+1, x+2) becomes v(x+2, x+2) (C75_repeated_dim_wrong). That domain conditions use only domain indices and step conditions no domain indices is not checked by the code and not claimed."
  },
  {
   "property": "C76",
   "status": "partial",
   "theorems": [
    "Yask.C76_number_iff",
    "Yask.C76_applied",
    "Yask.C76_shortcut",
    "Yask.C76_bad_number_partial",
    "Yask.C76_failed_call_wrong",
    "Yask.C76_failed_list_wrong",
    "Yask.C76_int_wraps_wrong",
    "Yask.C76_clash_wrong"
   ],
   "note": "Proved for every well-formed line and all names of dims except three that clash with other options (C76_clash_wrong). False for calls that throw: the settings in use are changed, the requested ones are not (C76_failed_call_wrong, C76_bad_number_partial), and a list is cleared (C76_failed_list_wrong). False for options of type int with large values, which are reduced modulo 2^32 (C76_int_wraps_wrong). The value of strtod is a parameter."
  },
  {
   "property": "C77",
   "status": "partial",
   "theorems": [
    "Yask.C77_misc_in_storage_partial",
    "Yask.C77_condition_in_storage_partial",
    "Yask.C77_tight",
    "Yask.C77_no_misc_offset",
    "Yask.C77_reachable",
    "Yask.C77_constructs",
    "Yask.C77_shrunk_wrong",
    "Yask.C77_range_overflow_wrong"
   ],
   "note": "Proved if sizes of misc dims are not made smaller than at construction, and for constant indices in conditions. False otherwise: set_alloc_size() accepts smaller sizes (C77_shrunk_wrong). The number of indices may overflow in the compiler (C77_range_overflow_wrong). Indices in conditions that are not constants are not covered. Calls that throw are left out (see C21)."
  },
  {
   "property": "C78",
   "status": "partial",
   "theorems": [
    "Yask.C78_valid_steps",
    "Yask.C78_steps_agree",
    "Yask.C78_after_exchange_partial",
    "Yask.C78_by_position",
    "Yask.C78_right_iff",
    "Yask.C78_run_aligns",
    "Yask.C78_after_tuning_wrong",
    "Yask.C78_after_slice_wrong"
   ],
   "note": "Proved as long as no rank moves the valid steps of a var alone: then the exchange by steps of the code is the exchange by slots of C23. C78_by_position says exactly what is exchanged otherwise, C78_right_iff when this is right. False after run_auto_tuner_now(), which runs a different number of steps in each rank, if the data are then set with set_all_elements_same() (C78_after_tuning_wrong), and after a slice of a new step is set in one rank only (C78_after_slice_wrong)."
  },
  {
   "property": "C79",
   "status": "partial",
   "theorems": [
    "Yask.C79_ends_partial",
    "Yask.C79_no_deadlock_partial",
    "Yask.C79_disagree",
    "Yask.C79_trials",
    "Yask.C79_validates",
    "Yask.C79_validates_time",
    "Yask.C79_warmup_wrong",
    "Yask.C79_many_steps_wrong",
    "Yask.C79_best",
    "Yask.C79_mid",
    "Yask.C79_mid_odd_partial",
    "Yask.C79_mid_even_wrong",
    "Yask.C79_variance",
    "Yask.C79_two_trials_wrong",
    "Yask.C79_max",
    "Yask.C79_min_partial",
    "Yask.C79_min_zero_wrong"
   ],
   "note": "Proved for all schedules and times if the ranks have the same -warmup, -auto_tune, block size in the step dim, and sign of -trial_time, which are not checked. False otherwise (C79_warmup_wrong: deadlock). The number of steps is kept in an int (C79_many_steps_wrong). The trial said to be the 50th percentile by the nearest-rank method is the next one for even numbers of trials (C79_mid_even_wrong), the standard deviation of two trials is printed as 0 (C79_two_trials_wrong), and a throughput of 0 is lost (C79_min_zero_wrong). What runs do to data is a parameter."
  },
  {
   "property": "C80",
   "status": "partial",
   "theorems": [
    "Yask.C80_lanes_partial",
    "Yask.C80_overwritten_wrong"
   ],
   "note": "Proved for all folds, printers, options, masks, vars and iteration counts if no equation reads an element that has been set before it is read (in-place updates are allowed); without that it is false (C80_overwritten_wrong). Vars that are not folded are read element by element (example in Props/InnerLoopElem.lean). Missing: points with other args than offsets in domain dims, equations that set vars that are not folded (refused by the compiler), early loads, unaligned loads, and the restrictions of C61."
  },
  {
   "property": "C81",
   "status": "partial",
   "theorems": [
    "Yask.C81_nano_block_partial",
    "Yask.C81_micro_block_partial",
    "Yask.C81_other_point_wrong"
   ],
   "note": "Composition of C07 and C80: proved for all bounds, folds, paths and orders of the runs if different equations and points of the block set different elements and no element that is set is read at another point or by a later equation (in-place updates are allowed); without that it is false (C81_other_point_wrong). Missing: what is missing in C80; the runs of the inner loop are taken as atomic, so threads within a run are not interleaved."
  },
  {
   "property": "C82",
   "status": "partial",
   "theorems": [
    "Yask.C82_defined",
    "Yask.C82_step_partial",
    "Yask.C82_program_partial",
    "Yask.C82_vars",
    "Yask.C82_sub",
    "Yask.C82_div",
    "Yask.C82_mod",
    "Yask.C82_neg",
    "Yask.C82_equation",
    "Yask.C82_add",
    "Yask.C82_mul",
    "Yask.C82_func",
    "Yask.C82_clone",
    "Yask.C82_set_value",
    "Yask.C82_add_operand",
    "Yask.C82_others",
    "Yask.C82_const_idx",
    "Yask.C82_operand_partial",
    "Yask.C82_well_formed_partial",
    "Yask.C82_rhs",
    "Yask.C82_shared_wrong",
    "Yask.C82_operand_wrong"
   ],
   "note": "Refinement for all call sequences: each building call agrees with a specification in terms of values in every reachable state (values, failures and undefined outcomes), differences, quotients, moduli, negations and equations follow later changes of their operands, sums, products, functions and copies do not, set_value and add_operand have the stated effects, and the equations meet the hypotheses of C50 unless add_operand is used. False in part: integer operands above 2^53 are rounded silently (C82_operand_wrong), and the same constant changed later counts in a difference but not in a sum (C82_shared_wrong). Missing: calls that return parts of nodes, index expressions inside var points, clone_ast of conditions and equations."
  },
  {
   "property": "C83",
   "status": "partial",
   "theorems": [
    "Yask.C83_refines_partial",
    "Yask.C83_run_partial",
    "Yask.C83_threads_partial",
    "Yask.C83_settings_partial",
    "Yask.C83_slots"
   ],
   "note": "Composition of C01, C10, C80 and C81 down to the storage of the vars: on any rank each schedule of the generated inner loops is defined and has the effect of a trace of C01 evaluated with read_elem and write_elem (C83_refines_partial), all schedules of a rank leave the same storage (C83_threads_partial), on one rank it is that of the reference (C83_run_partial), and settings do not matter (C83_settings_partial). Each var uses the slot of the step that it has itself (C83_slots). False in part: with temporal tiles and a short remainder (C05_short_remainder_race), and if what is set at a point is read at another in the same stage (C81_other_point_wrong). Missing: scratch vars, interleaving within a run of the inner loop, halo exchanges between the ranks, and the limits of C80."
  },
  {
   "property": "C84",
   "status": "partial",
   "theorems": [
    "Yask.C84_values_exist",
    "Yask.C84_independent",
    "Yask.C84_history_partial",
    "Yask.C84_compiled_partial"
   ],
   "note": "Joins C60 (the equations and their history) with C83 (the storage): on one rank, with the stages of the compiler and enough slots, every schedule of the generated code takes a storage that holds the stored steps of a history to one that holds those at the end of the run (C84_history_partial, C84_compiled_partial), the equations of legal solutions meet what C83 asks (C84_independent), and every storage is the start of a history (C84_values_exist). Vars with misc dims are covered, as one var per combination of misc indices. Missing: scratch vars, several ranks, and the limits of C80 and C83."
  },
  {
   "property": "C85",
   "status": "partial",
   "theorems": [
    "Yask.C85_partial",
    "Yask.C85_step_partial",
    "Yask.C85_none",
    "Yask.C85_interval",
    "Yask.C85_period",
    "Yask.C85_output",
    "Yask.C85_wrong"
   ],
   "note": "Proved for all conditions of any depth that have none of the cases excluded by Cd.Plain at the point (C85_partial, C85_step_partial), and without such a hypothesis for intervals relative to the first and last index (C85_interval), periodic steps (C85_period), output steps (C85_output) and equations without conditions (C85_none). The property is false in general (C85_wrong): remainders of negative numbers, quotients of integers, two adjacent minus signs, digits of constants of sub-domain conditions, constants that are not in the range of int. Missing: functions of numbers in conditions, and a right operand of && or || that is only plain where the left operand does not decide."
  },
  {
   "property": "C86",
   "status": "partial",
   "theorems": [
    "Yask.C86_in_storage",
    "Yask.C86_ranks_partial",
    "Yask.C86_executions_exist"
   ],
   "note": "Proved for any number of ranks, tile sizes and orders of the inner loops in the threads (C86_ranks_partial), there are executions (C86_executions_exist), and all elements that are accessed exist (C86_in_storage; the misc indices are assumed to be in the storage, see C77). Missing: scratch vars, what C80 and C83 miss in the generated code, and what C01 misses: ranks that do not begin at multiples of the vector lengths, and temporal blocks that are too short."
  },
  {
   "property": "C87",
   "status": "partial",
   "theorems": [
    "Yask.C87_elements",
    "Yask.C87_legal",
    "Yask.C87_values",
    "Yask.C87_values_exist",
    "Yask.C87_ranks_partial",
    "Yask.C87_late_read_accepted"
   ],
   "note": "Proved from the index expressions of the source (each access is to one element, C87_elements; accepted equations are legal for the analysis, C87_legal; the values of the source are those of the analyzed equations, C87_values, and exist, C87_values_exist) to the elements in storage on every rank (C87_ranks_partial). Missing: scratch vars and what C86 misses. For solutions that step backward, equations that read a step not yet computed are accepted by the compiler (C87_late_read_accepted) and are excluded by a hypothesis."
  },
  {
   "property": "C88",
   "status": "partial",
   "theorems": [
    "Yask.C88_made",
    "Yask.C88_ranks_partial",
    "Yask.C88_values_exist"
   ],
   "note": "Proved: what C87 assumes of the code and the vars of the kernel follows from how they are made (C88_made), so the run gives the values of the source expressions (C88_ranks_partial), and such values exist (C88_values_exist). Missing: scratch vars and what C86 misses. That enough step slots are stored is a hypothesis: the compiler's number is not always enough (C47, C60_slots)."
  },
  {
   "property": "C89",
   "status": "partial",
   "theorems": [
    "Yask.C89_first",
    "Yask.C89_again_partial",
    "Yask.C89_halos_partial",
    "Yask.C89_bundle_false",
    "Yask.C89_inner_false",
    "Yask.C89_dir_false",
    "Yask.C89_deps_false",
    "Yask.C89_halos_false"
   ],
   "note": "Proved: after any number of successful outputs for any targets, the next output gives, for its target, what the user's input alone defines (C89_again_partial; C89_first for the first output), if scratch vars may be bundled; without scratch vars, the halos, distances and written steps are those of the first output (C89_halos_partial). Missing: outputs after one that has failed. False in general: with -no-bundle-scratch the stages may change (C89_bundle_false), halos may grow if a scratch var is written in two parts (C89_halos_false); if the solution is changed between outputs, the inner-loop dim (C89_inner_false), step direction (C89_dir_false) and dependences (C89_deps_false) of the earlier output stay."
  },
  {
   "property": "C90",
   "status": "partial",
   "theorems": [
    "Yask.C90_last",
    "Yask.C90_sizes_partial",
    "Yask.C90_meta_partial",
    "Yask.C90_throws",
    "Yask.C90_refused_stays",
    "Yask.C90_storage_false"
   ],
   "note": "Proved for vars without storage, any sequences, also with calls that throw: settings have their last values (C90_last), sizes, padding and all other meta-data except offsets are determined by them (C90_sizes_partial, C90_meta_partial), and a call throws exactly if the setting does not exist or a halo or padding is then negative (C90_throws). False: a refused negative value stays and makes later legal calls fail (C90_refused_stays); with storage, padding never shrinks, so a size that was reduced cannot be set again (C90_storage_false)."
  },
  {
   "property": "C91",
   "status": "partial",
   "theorems": [
    "Yask.C91_registered",
    "Yask.C91_kept",
    "Yask.C91_answered",
    "Yask.C91_prepare",
    "Yask.C91_run",
    "Yask.C91_prepare_part",
    "Yask.C91_run_part",
    "Yask.C91_defined_partial",
    "Yask.C91_register_undefined",
    "Yask.C91_tuner_calls",
    "Yask.C91_refused_run_calls"
   ],
   "note": "Proved for all behaviours of the functions, nested to any depth: order of registration (C91_registered, C91_kept), what prepare_solution() and run_solution() do when they return (C91_prepare, C91_run) or fail (C91_prepare_part, C91_run_part); defined if no function registers functions (C91_defined_partial). False: a function that registers another one for the same place makes the call undefined (C91_register_undefined); the auto-tuner calls the functions with steps that were passed to no run_solution() call of the user (C91_tuner_calls); a run refused because the solution is not prepared has already called the functions (C91_refused_run_calls)."
  },
  {
   "property": "C92",
   "status": "proved",
   "theorems": [
    "Yask.C92_received",
    "Yask.C92_no_deadlock",
    "Yask.C92_finishes",
    "Yask.C92_all_received",
    "Yask.C92_as_together",
    "Yask.C92_same_result"
   ],
   "note": "Safety (C92_received), absence of deadlock (C92_no_deadlock), a bound on the steps (C92_finishes) and complete delivery at the end (C92_all_received), for all interleavings of ranks, MPI and progress tests; with data that each rank computes from what it has received, the result is that of ranks that go through the exchanges together (C92_as_together, C92_same_result). MPI is modelled by its standard: messages with the same source, destination and tag do not overtake each other. Premises: the ranks exchange the same vars (C23, C78) and both ends have buffers of the same size (C29)."
  },
  {
   "property": "C93",
   "status": "partial",
   "theorems": [
    "Yask.C93_last",
    "Yask.C93_is_set",
    "Yask.C93_accepted",
    "Yask.C93_wraps",
    "Yask.C93_not_all_or_nothing"
   ],
   "note": "Proved for all histories with values that fit int, with the exact language accepted by -fold. False as stated in two ways: a value outside int is accepted and another value is requested (C93_wraps), and an option that throws keeps the lengths before the string at fault (C93_not_all_or_nothing). How the requests determine the fold is C73."
  },
  {
   "property": "C94",
   "status": "proved",
   "theorems": [
    "Yask.C94_kinds",
    "Yask.C94_invariant",
    "Yask.C94_dependent",
    "Yask.C94_offset",
    "Yask.C94_read",
    "Yask.C94_loaded_once"
   ],
   "note": "For all args of any nesting: an access is found invariant exactly if no domain index is mentioned in it (C94_kinds, C94_loaded_once), and then names the same element at all points (C94_invariant, C94_read); C94_dependent and C94_offset are the kinds used for the inner loop. Premises: args have no CodeExpr, which only the compiler makes, after the analysis; the elements read before the loops do not change during them."
  },
  {
   "property": "C95",
   "status": "proved",
   "theorems": [
    "Yask.C95_same",
    "Yask.C95_same_effect",
    "Yask.C95_seq",
    "Yask.C95_bounds",
    "Yask.C95_determined",
    "Yask.C95_without_storage",
    "Yask.C95_seeds",
    "Yask.C95_init",
    "Yask.C95_reference",
    "Yask.C95_pad_changes_values"
   ],
   "note": "For all vars with storage, all schedules of the writes. The values have the operations of any type with a multiplication (C95_seq, C95_determined), so rounding is covered there; the bounds and the seeds as multiples are for exact arithmetic (C95_bounds, C95_seeds, C95_reference). Sizes include the padding: with other padding the same indices get other values (C95_pad_changes_values). The loops on an offload device are not modelled."
  },
  {
   "property": "C96",
   "status": "partial",
   "theorems": [
    "Yask.C96_throws",
    "Yask.C96_undefined",
    "Yask.C96_relative",
    "Yask.C96_written",
    "Yask.C96_point",
    "Yask.C96_repeated_dim"
   ],
   "note": "Proved for all vars whose dims have different names, in exact arithmetic. False if a dim is given twice, which new_var() accepts: the offsets are all put in the first of the two (C96_repeated_dim). The least int as an offset is undefined behaviour in the code (C96_undefined)."
  },
  {
   "property": "C97",
   "status": "partial",
   "theorems": [
    "Yask.C97_by_name_partial",
    "Yask.C97_by_name_throws",
    "Yask.C97_vec_partial",
    "Yask.C97_relations",
    "Yask.C97_steps",
    "Yask.C97_repeated_dim"
   ],
   "note": "Proved for all vars whose dims have different names; throwing, the values by position and the relations also for others. False if a dim is given twice, which new_var() accepts although it means to check for it (C97_repeated_dim). Masks are natural numbers in the model, so the shift is defined for any number of dims; in the code it is for up to 63. A position that is out of range is undefined in the model, as in the code."
  },
  {
   "property": "C98",
   "status": "partial",
   "theorems": [
    "Yask.C98_requested_partial",
    "Yask.C98_option_repairs",
    "Yask.C98_tuning",
    "Yask.C98_tuner_throws"
   ],
   "note": "Proved for all executions in which run_auto_tuner_now() does not throw after it has begun. False otherwise: the exchange stays switched off, and later runs leave values computed from old halos without a message (C98_tuner_throws); preparing the solution again does not help, giving the option again does (C98_option_repairs)."
  },
  {
   "property": "C99",
   "status": "partial",
   "theorems": [
    "Yask.C99_found",
    "Yask.C99_unique",
    "Yask.C99_not_found_partial",
    "Yask.C99_refused",
    "Yask.C99_deleted",
    "Yask.C99_unfinished"
   ],
   "note": "Objects that exist are found, and nothing else is returned, for all histories. That nothing is found, and nothing refused, for names of no object is proved for programs that delete no objects and whose constructors do not throw, such as yask_compiler; it is false for others, because objects are never taken out of the registry (C99_deleted, C99_unfinished)."
  },
  {
   "property": "C100",
   "status": "partial",
   "theorems": [
    "Yask.C100_overrides_partial",
    "Yask.C100_accepted",
    "Yask.C100_target_needed",
    "Yask.C100_help",
    "Yask.C100_extraneous",
    "Yask.C100_stencil_needed",
    "Yask.C100_known",
    "Yask.C100_fold",
    "Yask.C100_value_taken"
   ],
   "note": "Proved for all command lines whose values for library options have no quotes and do not read like options of the program; for these it is false (C100_value_taken, and C43). -fold, whose value is changed instead of replaced, is treated apart from the other options (C100_fold). Not included: the second names -h and -fus."
  },
  {
   "property": "C101",
   "status": "proved",
   "theorems": [
    "Yask.C101_get",
    "Yask.C101_set_throws",
    "Yask.C101_set_throws_unchanged",
    "Yask.C101_prefetches",
    "Yask.C101_negative_option"
   ],
   "note": "Of print_prefetches, only which prefetches are made and how far ahead, not the text of the pointers. Negative distances are refused by the call but not by the options (C101_negative_option)."
  }
 ]
}