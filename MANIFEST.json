{
 "claims": [
  {
   "property": "C01",
   "status": "proved",
   "theorems": [
    "Dashmm.C01_index_child_then_parent",
    "Dashmm.C01_index_parent_then_child",
    "Dashmm.C01_index_parent_composes",
    "Dashmm.C01_index_child_injective",
    "Dashmm.C01_index_names_one_path",
    "Dashmm.C01_index_coordinates_bounded"
   ],
   "note": ""
  },
  {
   "property": "C02",
   "status": "proved",
   "theorems": [
    "Dashmm.C02_box_is_union_of_children",
    "Dashmm.C02_boxes_of_a_level_disjoint",
    "Dashmm.C02_root_box_and_centre",
    "Dashmm.C02_level_tiles_domain"
   ],
   "note": ""
  },
  {
   "property": "C03",
   "status": "proved",
   "theorems": [
    "Dashmm.C03_cubify_contains_rectangle"
   ],
   "note": ""
  },
  {
   "property": "C04",
   "status": "proved",
   "theorems": [
    "Dashmm.C04_buffer_never_leaves_its_memory",
    "Dashmm.C04_buffer_success_iff_fits",
    "Dashmm.C04_buffer_round_trip",
    "Dashmm.C04_buffer_write_readbuffer"
   ],
   "note": ""
  },
  {
   "property": "C05",
   "status": "partial",
   "theorems": [
    "Dashmm.C05_empty_request_can_fail",
    "Dashmm.C05_empty_request_partial"
   ],
   "note": "The full statement is false of the code: C05_empty_request_can_fail gives an exhausted buffer on which a zero-byte request reports failure; C05_empty_request_partial proves it whenever bytes remain."
  },
  {
   "property": "C06",
   "status": "proved",
   "theorems": [
    "Dashmm.C06_viewset_bytes_exact"
   ],
   "note": ""
  },
  {
   "property": "C07",
   "status": "partial",
   "theorems": [
    "Dashmm.C07_viewset_round_trip_fails_for_empty_tail",
    "Dashmm.C07_viewset_round_trip_partial"
   ],
   "note": "False in general: a view set ending in an empty view at the exact end of the buffer fails (C07_viewset_round_trip_fails_for_empty_tail); proved for all others."
  },
  {
   "property": "C08",
   "status": "partial",
   "theorems": [
    "Dashmm.C08_slice_partial",
    "Dashmm.C08_slice_in_range",
    "Dashmm.C08_slice_wraps"
   ],
   "note": "False for requests whose offset + n wraps around in size_t (C08_slice_wraps); proved for all others, and every in-range request succeeds without restriction."
  },
  {
   "property": "C09",
   "status": "proved",
   "theorems": [
    "Dashmm.C09_allocate",
    "Dashmm.C09_allocate_twice",
    "Dashmm.C09_allocate_no_metadata"
   ],
   "note": "size_t sums modelled modulo 2^64, the total assumed representable. A failed rank-local allocation leaves the object allocated (second call gives a domain error)."
  },
  {
   "property": "C10",
   "status": "proved",
   "theorems": [
    "Dashmm.C10_get"
   ],
   "note": "The code is combined over ranks: one bad range makes every rank report a domain error while good ranks still receive their records. This is what the theorem states."
  },
  {
   "property": "C11",
   "status": "partial",
   "theorems": [
    "Dashmm.C11_put_partial",
    "Dashmm.C11_put_bad_range",
    "Dashmm.C11_put_first_positive_undefined",
    "Dashmm.C11_put_overwrites_too_much"
   ],
   "note": "put is wrong for first > 0 (copies `last` records instead of `last - first`): C11_put_first_positive_undefined proves undefined behaviour for every good range with first > 0 and an exact-size buffer; C11_put_partial proves the property for first = 0."
  },
  {
   "property": "C12",
   "status": "partial",
   "theorems": [
    "Dashmm.C12_get_after_put_partial",
    "Dashmm.C12_neighbour_lost"
   ],
   "note": "Same defect as C11; proved for first = 0, C12_neighbour_lost is the counterexample."
  },
  {
   "property": "C13",
   "status": "proved",
   "theorems": [
    "Dashmm.C13_collect",
    "Dashmm.C13_collect_progress",
    "Dashmm.C13_collect_terminates"
   ],
   "note": "Receive handlers interleave record by record. HPX-5 delivery of each parcel exactly once and of its continuation is assumed."
  },
  {
   "property": "C14",
   "status": "proved",
   "theorems": [
    "Dashmm.C14_calls_disjoint",
    "Dashmm.C14_map_complete",
    "Dashmm.C14_map_terminates",
    "Dashmm.C14_map_progress",
    "Dashmm.C14_no_division_by_zero",
    "Dashmm.C14_single_chunk"
   ],
   "note": ""
  },
  {
   "property": "C15",
   "status": "proved",
   "theorems": [
    "Dashmm.C15_key_lt",
    "Dashmm.C15_key_injective",
    "Dashmm.C15_key_surjective"
   ],
   "note": "Indices are natural numbers (no int overflow); all k."
  },
  {
   "property": "C16",
   "status": "proved",
   "theorems": [
    "Dashmm.C16_consecutive_adjacent"
   ],
   "note": ""
  },
  {
   "property": "C17",
   "status": "proved",
   "theorems": [
    "Dashmm.C17_morton_bits",
    "Dashmm.C17_morton_injective"
   ],
   "note": "64-bit arithmetic modelled exactly with BitVec."
  },
  {
   "property": "C18",
   "status": "partial",
   "theorems": [
    "Dashmm.C18_distribute_partial",
    "Dashmm.C18_distribute_fails"
   ],
   "note": "False in general: C18_distribute_fails shows the code reads before its array or trips an assertion exactly when there are fewer points than ranks or the first cell holds at least two shares. Proved for all other inputs."
  },
  {
   "property": "C19",
   "status": "proved",
   "theorems": [
    "Dashmm.C19_key_lt",
    "Dashmm.C19_key_injective",
    "Dashmm.C19_key_surjective",
    "Dashmm.C19_descendants",
    "Dashmm.C19_coarse"
   ],
   "note": ""
  },
  {
   "property": "C20",
   "status": "proved",
   "theorems": [
    "Dashmm.C20_domain_contains",
    "Dashmm.C20_domain_positive",
    "Dashmm.C20_cell_contains",
    "Dashmm.C20_coords_in_range",
    "Dashmm.C20_cell_unique",
    "Dashmm.C20_counts"
   ],
   "note": "Exact arithmetic (any linearly ordered field with floor); domain of positive size, which C20_domain_positive derives from two distinct points; a degenerate (single point) domain divides by zero in the code and is outside the theorem. For any combination order of the ranks' contributions."
  },
  {
   "property": "C21",
   "status": "proved",
   "theorems": [
    "Dashmm.C21_group",
    "Dashmm.C21_offsets"
   ],
   "note": "The in-place rearrangement loop is modelled assignment by assignment; termination is part of the theorem."
  },
  {
   "property": "C22",
   "status": "proved",
   "theorems": [
    "Dashmm.C22_records",
    "Dashmm.C22_slices",
    "Dashmm.C22_unique",
    "Dashmm.C22_children_in_order",
    "Dashmm.C22_leaves_tile",
    "Dashmm.C22_nodes",
    "Dashmm.C22_tree"
   ],
   "note": "One cell of the uniform grid, tasks interleaved arbitrarily (atomic tasks, exact arithmetic). C22_tree characterises the finished tree independently of the schedule."
  },
  {
   "property": "C23",
   "status": "partial",
   "theorems": [
    "Dashmm.C23_bound_partial",
    "Dashmm.C23_terminates_partial",
    "Dashmm.C23_coincident_never_ends"
   ],
   "note": "False in general: C23_coincident_never_ends (more coincident records than the threshold: no execution ends). C23_terminates_partial / C23_bound_partial prove termination with an explicit bound when no place has more records than the threshold (exact arithmetic, Archimedean field)."
  },
  {
   "property": "C24",
   "status": "proved",
   "theorems": [
    "Dashmm.C24_count",
    "Dashmm.C24_copy",
    "Dashmm.C24_paths"
   ],
   "note": "message is what send_node_handler sends, receive is recv_node_handler; the memory of a rank is a function from addresses to nodes. Hypotheses: the cell has no children yet and is not in the newly allocated block."
  },
  {
   "property": "C25",
   "status": "proved",
   "theorems": [
    "Dashmm.C25_paths",
    "Dashmm.C25_once",
    "Dashmm.C25_cells"
   ],
   "note": "setup_basics on the memory model; the uniform level is at least 1 (as set in create)."
  },
  {
   "property": "C26",
   "status": "proved",
   "theorems": [
    "Dashmm.C26_lookup",
    "Dashmm.C26_received"
   ],
   "note": "The walk of lookup_lco_addx for every node reachable from the root; C26_received composes it with setup_basics and a received branch."
  },
  {
   "property": "C27",
   "status": "proved",
   "theorems": [
    "Dashmm.C27_prune",
    "Dashmm.C27_connected"
   ],
   "note": "pruneTopnodes on the memory model, for any memory that still has the top made by setup_basics; np = 0 for the nodes above the grid."
  },
  {
   "property": "C28",
   "status": "proved",
   "theorems": [
    "Dashmm.C28_merge",
    "Dashmm.C28_started"
   ],
   "note": "Merge of the messages of one uniform cell at the granularity of lock, read, copy, count, spawn, unlock; every interleaving."
  },
  {
   "property": "C29",
   "status": "proved",
   "theorems": [
    "Dashmm.C29_fits",
    "Dashmm.C29_decode"
   ],
   "note": "Byte-level model of the message; receiver may hold it at any address."
  },
  {
   "property": "C30",
   "status": "proved",
   "theorems": [
    "Dashmm.C30_inputs",
    "Dashmm.C30_not_early",
    "Dashmm.C30_completes"
   ],
   "note": "Event system of tree creation over all ranks; every schedule and message order; any distribution of points."
  },
  {
   "property": "C31",
   "status": "partial",
   "theorems": [
    "Dashmm.C31_sends_partial",
    "Dashmm.C31_send_after_free"
   ],
   "note": "The full statement is false of the code: C31_send_after_free shows that a send without points may run after the arrays were freed. Proved: sends with points have been done."
  },
  {
   "property": "C32",
   "status": "proved",
   "theorems": [
    "Dashmm.C32_links",
    "Dashmm.C32_progress"
   ],
   "note": "link_nodes at the granularity of lock, read, write, unlock by any number of tasks."
  },
  {
   "property": "C33",
   "status": "proved",
   "theorems": [
    "Dashmm.C33_direct_evaluation_delivers",
    "Dashmm.C33_direct_delivers_every_source_once",
    "Dashmm.C33_direct_evaluation_exists"
   ],
   "note": ""
  },
  {
   "property": "C34",
   "status": "proved",
   "theorems": [
    "Dashmm.C34_bh_evaluation_delivers",
    "Dashmm.C34_bh_delivers_every_source_once",
    "Dashmm.C34_bh_evaluation_exists"
   ],
   "note": ""
  },
  {
   "property": "C35",
   "status": "proved",
   "theorems": [
    "Dashmm.C35_fmm_evaluation_delivers",
    "Dashmm.C35_fmm_delivers_every_source_once",
    "Dashmm.C35_fmm_evaluation_exists"
   ],
   "note": ""
  },
  {
   "property": "C36",
   "status": "proved",
   "theorems": [
    "Dashmm.C36_fmm97_evaluation_delivers",
    "Dashmm.C36_fmm97_delivers_every_source_once",
    "Dashmm.C36_fmm97_evaluation_exists",
    "Dashmm.C36_fmm97_every_target_leaf"
   ],
   "note": ""
  },
  {
   "property": "C37",
   "status": "proved",
   "theorems": [
    "Dashmm.C37_fmm_separation",
    "Dashmm.C37_fmm97_separation",
    "Dashmm.C37_fmm97_plane_waves"
   ],
   "note": ""
  },
  {
   "property": "C38",
   "status": "proved",
   "theorems": [
    "Dashmm.C38_direct_no_assertion_fails",
    "Dashmm.C38_bh_no_assertion_fails",
    "Dashmm.C38_fmm_no_assertion_fails",
    "Dashmm.C38_fmm97_no_assertion_fails"
   ],
   "note": ""
  },
  {
   "property": "C39",
   "status": "proved",
   "theorems": [
    "Dashmm.C39_direct_targets_partitioned",
    "Dashmm.C39_bh_targets_partitioned",
    "Dashmm.C39_fmm_targets_partitioned",
    "Dashmm.C39_fmm97_targets_partitioned"
   ],
   "note": "Stated for target leaves at or below the uniform level (leaves above it hold no points, see C27)."
  },
  {
   "property": "C40",
   "status": "partial",
   "theorems": [
    "Dashmm.C40_acceptance_unsound",
    "Dashmm.C40_acceptance_sound_partial"
   ],
   "note": "The full statement is false of the code: C40_acceptance_unsound exhibits an accepted pair and a target point violating the angle (nearest() returns the far face when the source lies on the low side). C40_acceptance_sound_partial proves it when the source centre is not below the target box's low face in any dimension. Exact real arithmetic."
  },
  {
   "property": "C41",
   "status": "proved",
   "theorems": [
    "Dashmm.C41_offsets_in_range",
    "Dashmm.C41_translation_exact"
   ],
   "note": "Laplace code; the Yukawa tables were compared textually and are identical. The finite table check is exhaustive over the 6^3*8 entries the theorem C41_offsets_in_range shows are the only ones used."
  },
  {
   "property": "C42",
   "status": "proved",
   "theorems": [
    "Dashmm.C42_at_most_once",
    "Dashmm.C42_only_after_inputs",
    "Dashmm.C42_source_final",
    "Dashmm.C42_value_sent",
    "Dashmm.C42_never_too_many",
    "Dashmm.C42_exactly_once",
    "Dashmm.C42_trigger_once"
   ],
   "note": "Schedules are arbitrary interleavings of the model's runtime steps; HPX-5 itself is an assumption (exactly-once delivery, call_when after trigger)."
  },
  {
   "property": "C43",
   "status": "proved",
   "theorems": [
    "Dashmm.C43_schedule_independent",
    "Dashmm.C43_result",
    "Dashmm.C43_placement_independent"
   ],
   "note": ""
  },
  {
   "property": "C44",
   "status": "partial",
   "theorems": [
    "Dashmm.C44_terminates",
    "Dashmm.C44_completes_iff",
    "Dashmm.C44_direct_completes",
    "Dashmm.C44_bh_completes",
    "Dashmm.C44_fmm_completes_iff_partial",
    "Dashmm.C44_fmm97_completes_iff_partial",
    "Dashmm.C44_fmm97_can_hang",
    "Dashmm.C44_fmm_can_hang"
   ],
   "note": "The property is false for FMM and FMM97 (C44_fmm_can_hang, C44_fmm97_can_hang: concrete trees for which a local expansion without inputs never triggers and evaluate() hangs). Proved: every schedule is finite (C44_terminates); for any DAG it completes on all ranks iff every node other than a source leaf has an input; Direct and Barnes-Hut always complete; exact geometric criteria for FMM and FMM97."
  },
  {
   "property": "C45",
   "status": "proved",
   "theorems": [
    "Dashmm.C45_done_means_triggered",
    "Dashmm.C45_done_means_accumulated",
    "Dashmm.C45_never_too_many",
    "Dashmm.C45_done_when_triggered"
   ],
   "note": ""
  },
  {
   "property": "C46",
   "status": "proved",
   "theorems": [
    "Dashmm.C46_edges_routed",
    "Dashmm.C46_one_message_per_rank"
   ],
   "note": ""
  },
  {
   "property": "C47",
   "status": "proved",
   "theorems": [
    "Dashmm.C47_bh_policy",
    "Dashmm.C47_fmm97_policy",
    "Dashmm.C47_single_policy",
    "Dashmm.C47_random_policy"
   ],
   "note": "All four policies on the DAGs of the four methods, for every schedule, every sort result, every weight. int overflow of weights not modelled. Source leaves above the uniform level (an empty source set) make source_apply assert; excluded by hypothesis."
  },
  {
   "property": "C48",
   "status": "proved",
   "theorems": [
    "Dashmm.C48_start_chunks",
    "Dashmm.C48_every_local_leaf_started",
    "Dashmm.C48_reset_chunks",
    "Dashmm.C48_every_local_node_reset",
    "Dashmm.C48_reset_completions"
   ],
   "note": ""
  },
  {
   "property": "C49",
   "status": "partial",
   "theorems": [
    "Dashmm.C49_reset_then_same_partial",
    "Dashmm.C49_same_results_partial",
    "Dashmm.C49_race_doubles"
   ],
   "note": "Proved when every spawn_out_edges task has come to its end before the reset; the code does not wait for them, and C49_race_doubles shows what a pending one would do."
  },
  {
   "property": "C50",
   "status": "proved",
   "theorems": [
    "Dashmm.C50_int_sum",
    "Dashmm.C50_size_sum",
    "Dashmm.C50_int_max",
    "Dashmm.C50_lco_any_order"
   ],
   "note": ""
  },
  {
   "property": "C51",
   "status": "proved",
   "theorems": [
    "Dashmm.C51_com_aggregates",
    "Dashmm.C51_com_order_irrelevant",
    "Dashmm.C51_com_positive",
    "Dashmm.C51_acc_aggregates",
    "Dashmm.C51_com_zero_leaf_poisons"
   ],
   "note": "Any tree and arrival order, exact field arithmetic. LaplaceCOM: any charges when finite (C51_com_aggregates), always finite and right for positive charges (C51_com_positive); LaplaceCOMAcc for non-negative charges. A leaf of zero total charge makes every LaplaceCOM ancestor non-finite (C51_com_zero_leaf_poisons): add_expansion lacks the guard LaplaceCOMAcc has."
  },
  {
   "property": "C52",
   "status": "proved",
   "theorems": [
    "Dashmm.C52_midx_packs",
    "Dashmm.C52_lidx_packs",
    "Dashmm.C52_didx_packs",
    "Dashmm.C52_hidx_packs",
    "Dashmm.C52_sidx_packs"
   ],
   "note": "all expansion orders p; int modelled without overflow"
  },
  {
   "property": "C53",
   "status": "proved",
   "theorems": [
    "Dashmm.C53_strict_weak_order",
    "Dashmm.C53_m_to_l_matrix_found",
    "Dashmm.C53_laplace_shift_matrices_found",
    "Dashmm.C53_yukawa_helmholtz_matrices_found"
   ],
   "note": "comparison for arbitrary rounding; additionally every key requested by FMM M->L / M->M / L->L is found"
  },
  {
   "property": "C54",
   "status": "proved",
   "theorems": [
    "Dashmm.C54_freed"
   ],
   "note": "Also shows that nothing is freed for a branch without nodes (new node_t[0] is leaked in that case)."
  },
  {
   "property": "C55",
   "status": "partial",
   "theorems": [
    "Dashmm.C55_direct_unaffected_partial",
    "Dashmm.C55_no_expansions",
    "Dashmm.C55_bh_breaks",
    "Dashmm.C55_fmm_breaks",
    "Dashmm.C55_fmm97_breaks"
   ],
   "note": "false as stated: BH, FMM and FMM97 create their expansion nodes inside assert(); proved for Direct, counterexamples for all trees of the others"
  },
  {
   "property": "C56",
   "status": "proved",
   "theorems": [
    "Dashmm.C56_bh_policy",
    "Dashmm.C56_fmm97_policy",
    "Dashmm.C56_other_policies"
   ],
   "note": "Uniqueness of the placement for any two runs; the random policy assumes the same seed and generator on all ranks."
  },
  {
   "property": "C57",
   "status": "partial",
   "theorems": [
    "Dashmm.C57_balanced_partial"
   ],
   "note": "Proved whenever distribute_points does not fail (condition of C18)."
  },
  {
   "property": "C58",
   "status": "proved",
   "theorems": [
    "Dashmm.C58_same"
   ],
   "note": "Target tree started from the records of a completed source tree, as merge_points_same_s_and_t does."
  },
  {
   "property": "C59",
   "status": "proved",
   "theorems": [
    "Dashmm.C59_never_too_many",
    "Dashmm.C59_not_early",
    "Dashmm.C59_completes"
   ],
   "note": "Completion under the hypothesis that nothing else can happen; C23 gives when that state is reached."
  },
  {
   "property": "C60",
   "status": "partial",
   "theorems": [
    "Dashmm.C60_com_not_second_order",
    "Dashmm.C60_com_worse_than_monopole",
    "Dashmm.C60_right_sign",
    "Dashmm.C60_com_error_partial",
    "Dashmm.C60_com_targets"
   ],
   "note": "FALSE of the code: quadrupole term has the wrong sign (C60_com_not_second_order, C60_com_worse_than_monopole). Proved: with the opposite sign the claim holds with constant 6 (C60_right_sign), and the error of the code is of monopole order (C60_com_error_partial)."
  },
  {
   "property": "C61",
   "status": "proved",
   "theorems": [
    "Dashmm.C61_acc_error",
    "Dashmm.C61_acc_targets"
   ],
   "note": "Real arithmetic; hypotheses are that the expansion holds the moments of the sources (C51) and that the target is outside the ball."
  },
  {
   "property": "C62",
   "status": "proved",
   "theorems": [
    "Dashmm.C62_com_direct",
    "Dashmm.C62_acc_direct",
    "Dashmm.C62_com_direct_pieces"
   ],
   "note": "Real arithmetic."
  },
  {
   "property": "C63",
   "status": "proved",
   "theorems": [
    "Dashmm.C63_source_at_centre_spoils_multipole",
    "Dashmm.C63_source_at_centre_spoils_local",
    "Dashmm.C63_target_at_centre_spoiled",
    "Dashmm.C63_defined_elsewhere"
   ],
   "note": "Defect shown: source or target exactly at the box centre gives NaN; defined everywhere else. Real arithmetic, NaN = none."
  },
  {
   "property": "C64",
   "status": "proved",
   "theorems": [
    "Dashmm.C64_m_to_m_exact",
    "Dashmm.C64_parent_is_sum_of_children"
   ],
   "note": "Exact arithmetic; sources regular (farther than 1e-14 from the centre, and exactly on or more than 1e-14 rad off the vertical) because the code snaps others."
  },
  {
   "property": "C65",
   "status": "proved",
   "theorems": [
    "Dashmm.C65_l_to_l_exact",
    "Dashmm.C65_locals_are_proper"
   ],
   "note": "Exact arithmetic; target regular for both centres."
  },
  {
   "property": "C66",
   "status": "proved",
   "theorems": [
    "Dashmm.C66_multipole_error"
   ],
   "note": "Exact arithmetic, regular positions."
  },
  {
   "property": "C67",
   "status": "proved",
   "theorems": [
    "Dashmm.C67_local_error"
   ],
   "note": "Exact arithmetic, regular positions."
  },
  {
   "property": "C68",
   "status": "proved",
   "theorems": [
    "Dashmm.C68_translation_error"
   ],
   "note": "Exact arithmetic, regular positions; any offset between boxes of equal level."
  },
  {
   "property": "C69",
   "status": "proved",
   "theorems": [
    "Dashmm.C69_shifts_do_not_add_error",
    "Dashmm.C69_multipole_after_shifts",
    "Dashmm.C69_local_before_shifts"
   ],
   "note": "Regularity only at the two leaf centres."
  },
  {
   "property": "C70",
   "status": "proved",
   "theorems": [
    "Dashmm.C70_s_to_t_exact",
    "Dashmm.C70_order_and_division",
    "Dashmm.C70_self_excluded"
   ],
   "note": "Exact arithmetic."
  },
  {
   "property": "C71",
   "status": "proved",
   "theorems": [
    "Dashmm.C71_tables",
    "Dashmm.C71_rotation_turns_the_sources",
    "Dashmm.C71_rotation_undone"
   ],
   "note": "Exact arithmetic; beta in [0, pi] through its cosine."
  },
  {
   "property": "C72",
   "status": "proved",
   "theorems": [
    "Dashmm.C72_fmm_accuracy",
    "Dashmm.C72_error_vanishes"
   ],
   "note": "Exact real arithmetic; the trees are arbitrary, the sources and targets are in the boxes of their leaves and not at a centre (C63 shows what happens otherwise)."
  },
  {
   "property": "C73",
   "status": "proved",
   "theorems": [
    "Dashmm.C73_direct_exact"
   ],
   "note": "Exact real arithmetic."
  },
  {
   "property": "C74",
   "status": "proved",
   "theorems": [
    "Dashmm.C74_bh_accuracy"
   ],
   "note": "For every acceptance criterion with the stated geometric property; C40 shows that the one in the code does not always have it."
  },
  {
   "property": "C75",
   "status": "proved",
   "theorems": [
    "Dashmm.C75_plane_waves_apply_the_rule",
    "Dashmm.C75_frames_keep_distances",
    "Dashmm.C75_translation_error"
   ],
   "note": "Real arithmetic. The rule is a parameter (Model/Plane: Rule); the tables of the code are instances (C76)."
  },
  {
   "property": "C76",
   "status": "proved",
   "theorems": [
    "Dashmm.C76_tables_consistent",
    "Dashmm.C76_places",
    "Dashmm.C76_shift_on_arrays",
    "Dashmm.C76_construct",
    "Dashmm.C76_six_digits_is_nine"
   ],
   "note": "BUG: case 6 of the switch has no break, so six digits give the table for nine and leak the other; other numbers of digits leave the members uninitialised."
  },
  {
   "property": "C77",
   "status": "proved",
   "theorems": [
    "Dashmm.C77_fmm97_accuracy"
   ],
   "note": "Real arithmetic. The relative error of the quadrature rule for boxes two or three apart is a hypothesis (Rule.Accurate); every rule has one (exists_accurate), its numerical value for the tables of the code is not proved."
  },
  {
   "property": "C78",
   "status": "proved",
   "theorems": [
    "Dashmm.C78_tree",
    "Dashmm.C78_same_tree",
    "Dashmm.C78_received",
    "Dashmm.C78_hold",
    "Dashmm.C78_exists",
    "Dashmm.C78_leaves"
   ],
   "note": "C78_tree, _same_tree, _received, _hold, _exists, _leaves: composes C20-C29 into one statement about the tree that hangs at the root after pruning. The pointers inside branches that a rank built itself are assumed to form copies of the nodes the tasks made (Construction.Ok.shape, copy); for received branches this is proved (C78_received)."
  },
  {
   "property": "C79",
   "status": "proved",
   "theorems": [
    "Dashmm.C79_direct",
    "Dashmm.C79_bh",
    "Dashmm.C79_fmm",
    "Dashmm.C79_fmm97",
    "Dashmm.C79_input"
   ],
   "note": "C79_input: from the input arrays of the ranks (Input) through domain, trees, DAG and execution to the results, for Direct, BH, FMM, FMM97 with the Laplace kernel over the reals; C79_direct/bh/fmm/fmm97 are the parts from trees on. Concrete example exRun."
  },
  {
   "property": "C80",
   "status": "proved",
   "theorems": [
    "Dashmm.C80_one_tree",
    "Dashmm.C80_hold",
    "Dashmm.C80_never_stuck",
    "Dashmm.C80_ends",
    "Dashmm.C80_exists",
    "Dashmm.C80_same_trees",
    "Dashmm.C80_same_hold",
    "Dashmm.C80_same_never_stuck",
    "Dashmm.C80_evaluation"
   ],
   "note": "All interleavings of tasks, sends and receives of all ranks, with other allocations in between. Records arrive as `Arrived`, which C81 proves of the exchange."
  },
  {
   "property": "C81",
   "status": "proved",
   "theorems": [
    "Dashmm.C81_sources",
    "Dashmm.C81_targets",
    "Dashmm.C81_counts",
    "Dashmm.C81_offsets",
    "Dashmm.C81_sorted",
    "Dashmm.C81_arrived",
    "Dashmm.C81_exists"
   ],
   "note": "Sorting, counting, messages and merges of all ranks joined; all interleavings of the merge tasks of a cell."
  },
  {
   "property": "C82",
   "status": "proved",
   "theorems": [
    "Dashmm.C82_once",
    "Dashmm.C82_arrays",
    "Dashmm.C82_collect",
    "Dashmm.C82_answered",
    "Dashmm.C82_evaluation",
    "Dashmm.C82_same"
   ],
   "note": "End to end from the arrays of the ranks to what collect returns, also with targets = sources; exact arithmetic as in C72-C79."
  },
  {
   "property": "C83",
   "status": "proved",
   "theorems": [
    "Dashmm.C83_create_succeeds",
    "Dashmm.C83_all_nodes",
    "Dashmm.C83_lcos",
    "Dashmm.C83_destroyed"
   ],
   "note": ""
  },
  {
   "property": "C84",
   "status": "partial",
   "theorems": [
    "Dashmm.C84_second_dag_fails",
    "Dashmm.C84_reuse_partial"
   ],
   "note": "False of the code: C84_second_dag_fails proves that every second create_DAG on a tree trips the assertion in add_parts. C84_reuse_partial: had destroy_DAG nulled the pointers, the next DAG would have everything proved in C83."
  },
  {
   "property": "C85",
   "status": "partial",
   "theorems": [
    "Dashmm.C85_kn_exact",
    "Dashmm.C85_kn_returns",
    "Dashmm.C85_kn_aborts",
    "Dashmm.C85_in_error_partial",
    "Dashmm.C85_in_large_wrong",
    "Dashmm.C85_jn_small",
    "Dashmm.C85_jn_zero_wrong",
    "Dashmm.C85_hn_error_partial",
    "Dashmm.C85_hn_small_wrong"
   ],
   "note": "k_n exact, i_n with error bound for all arguments, j_n and h_n where they are right. Missing: the tables filled by bessel_In, bessel_Jn, bessel_Yn (Cody's algorithms) are parameters with a stated accuracy. False of the code: h_n for x < 1e-4 (C85_hn_small_wrong), i_n = 0 for x > 100 (C85_in_large_wrong), j_n after a zero in exact arithmetic (C85_jn_zero_wrong)."
  },
  {
   "property": "C86",
   "status": "proved",
   "theorems": [
    "Dashmm.C86_direct_exact",
    "Dashmm.C86_multipole_error",
    "Dashmm.C86_local_error",
    "Dashmm.C86_multipole_returns",
    "Dashmm.C86_local_returns",
    "Dashmm.C86_other_digits_abort",
    "Dashmm.C86_far_target_aborts",
    "Dashmm.C86_scale"
   ],
   "note": "Relative accuracy of the table of I_{n+1/2} is a hypothesis (AccurateI). M_to_M, L_to_L and the plane-wave operators of Yukawa are not covered by this property. Defects proved: other digits abort, lambda r >= 1e8 aborts."
  },
  {
   "property": "C87",
   "status": "proved",
   "theorems": [
    "Dashmm.C87_compatible_served",
    "Dashmm.C87_direct_operations",
    "Dashmm.C87_bh_operations",
    "Dashmm.C87_fmm_operations",
    "Dashmm.C87_fmm97_operations",
    "Dashmm.C87_fmm_needs_MtoL",
    "Dashmm.C87_bh_helmholtz_aborts",
    "Dashmm.C87_too_deep",
    "Dashmm.C87_helmholtz_small_scale",
    "Dashmm.C87_operations_needed",
    "Dashmm.C87_fmm_only_laplace",
    "Dashmm.C87_fmm97_not_com"
   ],
   "note": "Positive part for all compatible pairs, all runs and all trees of at most 21 levels (Yukawa, Helmholtz); the operation lists are minimal; negative parts: FMM with Yukawa, Helmholtz, COM and FMM97 with COM on a concrete pair of trees for every schedule and for every DAG with an MtoL edge; BH with Helmholtz, trees deeper than 21 levels and Helmholtz with omega*size <= 1/2 for every run."
  },
  {
   "property": "C88",
   "status": "proved",
   "theorems": [
    "Dashmm.C88_direct_exact",
    "Dashmm.C88_multipole_error",
    "Dashmm.C88_local_error",
    "Dashmm.C88_multipole_small_box",
    "Dashmm.C88_scale",
    "Dashmm.C88_truncation_le",
    "Dashmm.C88_near_target_wrong"
   ],
   "note": "The errors of the arrays of j_n and h_n are parameters of the bound (C88_multipole_small_box: none for j_n when the box is small, the tables for h_n). Defect proved: no accuracy for w r < 1e-4 (C88_near_target_wrong). Shifts and plane waves are not covered."
  },
  {
   "property": "C89",
   "status": "partial",
   "theorems": [
    "Dashmm.C89_call_partial",
    "Dashmm.C89_history_partial",
    "Dashmm.C89_allocate_result",
    "Dashmm.C89_allocate_twice",
    "Dashmm.C89_failed_allocate_leaves_array",
    "Dashmm.C89_reducer_failure_leaks"
   ],
   "note": "Nothing is freed twice or lost in any history, unless the allocation of the first LCO fails; results of allocate. False of the code, with counterexample theorems: a failed segment leaves the array allocated (so allocate cannot be retried), and a failed first LCO leaks the second one or frees a null address."
  },
  {
   "property": "C90",
   "status": "proved",
   "theorems": [
    "Dashmm.C90_angles",
    "Dashmm.C90_yukawa_layout",
    "Dashmm.C90_helmholtz_layout",
    "Dashmm.C90_propagating_layout",
    "Dashmm.C90_yukawa_shrinks",
    "Dashmm.C90_helmholtz_shrinks",
    "Dashmm.C90_yukawa_gather",
    "Dashmm.C90_evanescent_gather",
    "Dashmm.C90_propagating_gather",
    "Dashmm.C90_direction",
    "Dashmm.C90_yukawa_equation",
    "Dashmm.C90_helmholtz_equation",
    "Dashmm.C90_helmholtz_levels",
    "Dashmm.C90_yukawa_levels",
    "Dashmm.C90_other_digits"
   ],
   "note": "For all parameters, levels, lists of source boxes; M_to_I and e_to_l are not part of the claim. C90_other_digits: for digits other than 3 and 6 the expansions are empty."
  },
  {
   "property": "C91",
   "status": "partial",
   "theorems": [
    "Dashmm.C91_units_partial",
    "Dashmm.C91_helmholtz_exit",
    "Dashmm.C91_helmholtz_units_matter"
   ],
   "note": "Holds for Yukawa. False of the code for Helmholtz: the constructor compares omega, not omega times the size, with the limits, so it ends the program in one unit of length and not in another (C91_helmholtz_units_matter)."
  },
  {
   "property": "C92",
   "status": "partial",
   "theorems": [
    "Dashmm.C92_never_bad",
    "Dashmm.C92_delete",
    "Dashmm.C92_all_returned_partial",
    "Dashmm.C92_leaks_one",
    "Dashmm.C92_every_run",
    "Dashmm.C92_leaks"
   ],
   "note": "No double free and no read of freed nodes in any run; the deletion leaves exactly the completion LCOs of other ranks empty cells and the arrays of length zero (C92_delete). That nothing is left is false (C92_leaks); it is proved if other ranks cells are all divided or there is one rank."
  },
  {
   "property": "C93",
   "status": "proved",
   "theorems": [
    "Dashmm.C93_addresses_exist",
    "Dashmm.C93_lookup",
    "Dashmm.C93_leaf_edges",
    "Dashmm.C93_expansion_edges",
    "Dashmm.C93_count_overflow",
    "Dashmm.C93_StoM_needs_locality",
    "Dashmm.C93_setting_exists"
   ],
   "note": "C93_leaf_edges, C93_expansion_edges: each edge once, on the right rank, with the same data, to the LCO of the target; C93_lookup is the resolution by index. Limits by theorem: C93_count_overflow (2^31/40 edges), C93_StoM_needs_locality (handler looks only in the target tree)."
  },
  {
   "property": "C94",
   "status": "partial",
   "theorems": [
    "Dashmm.C94_operation_partial",
    "Dashmm.C94_target_operation_partial",
    "Dashmm.C94_no_leak",
    "Dashmm.C94_ItoI_tags",
    "Dashmm.C94_result_fits",
    "Dashmm.C94_add",
    "Dashmm.C94_yukawa_leak",
    "Dashmm.C94_helmholtz_leak",
    "Dashmm.C94_null"
   ],
   "note": "All operations of all built-in expansions: no invalid use or free, result owns its views, exact number of blocks lost (C94_operation_partial, C94_target_operation_partial); no loss for Laplace and COM (C94_no_leak, C94_ItoI_tags), results fit their targets (C94_result_fits, C94_add). The full claim is false of the code: Yukawa I_to_L loses 6s blocks (C94_yukawa_leak), Helmholtz S_to_L and M_to_T lose 2 per point (C94_helmholtz_leak)."
  },
  {
   "property": "C95",
   "status": "partial",
   "theorems": [
    "Dashmm.C95_never_wrong",
    "Dashmm.C95_runs_to_the_end",
    "Dashmm.C95_end_exists",
    "Dashmm.C95_memory_at_end_partial",
    "Dashmm.C95_no_leak",
    "Dashmm.C95_yukawa_leaks",
    "Dashmm.C95_refines",
    "Dashmm.C95_result",
    "Dashmm.C95_destroy_race"
   ],
   "note": "Full claim false of the code: C95_destroy_race (double free when the LCOs are destroyed before the last task has ended) and leaks of Yukawa/Helmholtz operations (C95_yukawa_leaks). Proved for all schedules: no action goes wrong, every run ends within 3N+8E actions, the contents are those of Model/Exec, and at the end the heap is as before up to the leaks of the operations (none for Laplace and centre of mass). The memory model has no table lookups (C87) and no contents of arrays."
  },
  {
   "property": "C96",
   "status": "partial",
   "theorems": [
    "Dashmm.C96_direct_com",
    "Dashmm.C96_direct_acc",
    "Dashmm.C96_bh_com_partial",
    "Dashmm.C96_bh_acc_partial",
    "Dashmm.C96_strength_is_potential",
    "Dashmm.C96_bounds_vanish",
    "Dashmm.C96_zero_leaf"
   ],
   "note": "Direct: proved for all charges. Barnes-Hut: proved for positive charges; for charges of both signs the claim is false of the code (C96_zero_leaf). The acceptance ratio is a hypothesis (the code's own criterion does not guarantee one, C40)."
  },
  {
   "property": "C97",
   "status": "partial",
   "theorems": [
    "Dashmm.C97_success_iff",
    "Dashmm.C97_reports_partial",
    "Dashmm.C97_leftovers",
    "Dashmm.C97_unreported",
    "Dashmm.C97_crash_iff",
    "Dashmm.C97_create_leaks",
    "Dashmm.C97_calls",
    "Dashmm.C97_history"
   ],
   "note": "The full claim is false of the code: errors of create_tree and create_DAG are not looked at, and the next call crashes (C97_unreported, C97_crash_iff). Proved: kSuccess exactly if no error is reported, with nothing left (C97_success_iff); every error of the other three calls is reported (C97_reports_partial); what exactly is left behind after an error (C97_leftovers); all histories of the public calls (C97_calls, C97_history)."
  },
  {
   "property": "C98",
   "status": "proved",
   "theorems": [
    "Dashmm.C98_m_to_m",
    "Dashmm.C98_l_to_l",
    "Dashmm.C98_sources",
    "Dashmm.C98_shift_distance",
    "Dashmm.C98_multipole_error",
    "Dashmm.C98_local_error",
    "Dashmm.C98_truncation_vanishes",
    "Dashmm.C98_too_deep"
   ],
   "note": "M_to_M and L_to_L of the Yukawa kernel with explicit error bounds for every expansion of bounded size, growth of the size, and both chains from charges to targets; accuracy of the tabulated Bessel functions is a parameter (AccurateI), rounding is not modelled."
  },
  {
   "property": "C99",
   "status": "proved",
   "theorems": [
    "Dashmm.C99_bh_accuracy",
    "Dashmm.C99_direct_exact",
    "Dashmm.C99_ratio",
    "Dashmm.C99_translation_small"
   ],
   "note": "C99_bh_accuracy (Barnes-Hut, all schedules), C99_direct_exact, C99_ratio and C99_translation_small (when the bounds are small). As for C86 the table of Bessel functions is a parameter with relative error delta; orders up to 18 and distances within the range of bessel_kn_scaled are hypotheses because the code aborts outside them (C86). The examples run both methods on concrete trees."
  },
  {
   "property": "C100",
   "status": "proved",
   "theorems": [
    "Dashmm.C100_in_range",
    "Dashmm.C100_laplace",
    "Dashmm.C100_count_lost",
    "Dashmm.C100_fmm97_majority",
    "Dashmm.C100_bh_majority",
    "Dashmm.C100_same_for_all_kernels"
   ],
   "note": "Exactly the code, with the finding that Yukawa and Helmholtz lose the count of an I->I edge (C100_count_lost), and the proof that this changes no placement."
  },
  {
   "property": "C101",
   "status": "proved",
   "theorems": [
    "Dashmm.C101_plane_rule",
    "Dashmm.C101_accuracy",
    "Dashmm.C101_reads",
    "Dashmm.C101_rule_has_accuracy"
   ],
   "note": "C101_plane_rule, C101_accuracy, C101_reads for all tables, levels, boxes and charges; the accuracy of the literals of the tables enters as RuleAccurate (C101_rule_has_accuracy: it holds for some accuracy at every level)."
  },
  {
   "property": "C102",
   "status": "proved",
   "theorems": [
    "Dashmm.C102_fmm97_accuracy",
    "Dashmm.C102_waves_have_accuracy"
   ],
   "note": "The accuracy and the growth of the plane waves per level are hypotheses (WavesAccurate), which C102_waves_have_accuracy shows can be met at every level for every table; rounding is not modelled."
  },
  {
   "property": "C103",
   "status": "proved",
   "theorems": [
    "Dashmm.C103_m_to_m",
    "Dashmm.C103_l_to_l",
    "Dashmm.C103_sources",
    "Dashmm.C103_multipole_error",
    "Dashmm.C103_local_error",
    "Dashmm.C103_truncation_vanishes",
    "Dashmm.C103_small_box",
    "Dashmm.C103_range",
    "Dashmm.C103_fmm97_levels"
   ],
   "note": "The accuracy of the Bessel functions is a hypothesis (GoodTab, NearJ, NearH); C103_small_box discharges GoodTab in boxes small compared to the wavelength. Rounding is not modelled. The plane waves of the Helmholtz kernel (M_to_I, I_to_L) are not modelled."
  },
  {
   "property": "C104",
   "status": "proved",
   "theorems": [
    "Dashmm.C104_direct_any",
    "Dashmm.C104_helmholtz_exact"
   ],
   "note": "Rounding is not modelled."
  },
  {
   "property": "C105",
   "status": "proved",
   "theorems": [
    "Dashmm.C105_plane_rule",
    "Dashmm.C105_accuracy",
    "Dashmm.C105_reads",
    "Dashmm.C105_rule_has_accuracy"
   ],
   "note": "The nodes and weights that gaussq computes are parameters (any rule with angles in [0, pi]); the accuracy of the quadrature for given nodes is the hypothesis RuleAccurate of C105_accuracy, met by some eps for every rule (C105_rule_has_accuracy)."
  },
  {
   "property": "C106",
   "status": "proved",
   "theorems": [
    "Dashmm.C106_fmm97_accuracy",
    "Dashmm.C106_waves_have_accuracy",
    "Dashmm.C106_functions_have_accuracy"
   ],
   "note": "The relative error of the spherical Bessel and Hankel functions per edge (InRange) and the accuracy and growth of the plane waves per level (WavesAccurate) are hypotheses, which C106_functions_have_accuracy and C106_waves_have_accuracy show can be met for every input and every table; rounding is not modelled."
  },
  {
   "property": "C107",
   "status": "proved",
   "theorems": [
    "Dashmm.C107_recurrence",
    "Dashmm.C107_factorials",
    "Dashmm.C107_positive",
    "Dashmm.C107_overflow",
    "Dashmm.C107_reflection",
    "Dashmm.C107_same_error",
    "Dashmm.C107_accuracy",
    "Dashmm.C107_accuracy_left",
    "Dashmm.C107_half_integers",
    "Dashmm.C107_far_left",
    "Dashmm.C107_far_left_value"
   ],
   "note": "Exact identities for the code over the reals; accuracy at the half integers against Mathlib Real.Gamma. Between 1 and 2 the accuracy at other arguments is a hypothesis of C107_accuracy; the accuracy of the Stirling branch is not claimed. C107_far_left: below -170.624 the result is the largest double although the function nearly vanishes there."
  },
  {
   "property": "C108",
   "status": "proved",
   "theorems": [
    "Dashmm.C108_report",
    "Dashmm.C108_total",
    "Dashmm.C108_out_of_range"
   ],
   "note": "The file system is not modelled: the result is the list of lines."
  },
  {
   "property": "C109",
   "status": "proved",
   "theorems": [
    "Dashmm.C109_defined",
    "Dashmm.C109_released",
    "Dashmm.C109_assign_leaks",
    "Dashmm.C109_here",
    "Dashmm.C109_there",
    "Dashmm.C109_write",
    "Dashmm.C109_moved",
    "Dashmm.C109_moved_from"
   ],
   "note": "C109_assign_leaks is the negative half: move assignment onto an object that holds something leaks. operator=(RankLocal&&) has no return statement (undefined behaviour); its effect on the members is what is modelled."
  },
  {
   "property": "C110",
   "status": "partial",
   "theorems": [
    "Dashmm.C110_defined",
    "Dashmm.C110_empty",
    "Dashmm.C110_window",
    "Dashmm.C110_window_partial",
    "Dashmm.C110_latest_lost",
    "Dashmm.C110_adjacent",
    "Dashmm.C110_bounds",
    "Dashmm.C110_ids",
    "Dashmm.C110_count",
    "Dashmm.C110_locked",
    "Dashmm.C110_inverted"
   ],
   "note": "Windows of the trace reader are exactly the records of the interval for workers with a record at its end or later (C110_window gives the exact content in all cases); the records at the latest instant of a worker are in no window (C110_latest_lost), so the full statement is false of the code. Files without records: C110_empty."
  },
  {
   "property": "C111",
   "status": "partial",
   "theorems": [
    "Dashmm.C111_cover_partial",
    "Dashmm.C111_inside_zero",
    "Dashmm.C111_last_too_long",
    "Dashmm.C111_touching_aborts"
   ],
   "note": "Exact coverage if the worker has a record at the end of the window or later and no segment contains the window; otherwise false of the code (C111_inside_zero, C111_last_too_long, C111_touching_aborts)."
  },
  {
   "property": "C112",
   "status": "partial",
   "theorems": [
    "Dashmm.C112_defined",
    "Dashmm.C112_relative_partial",
    "Dashmm.C112_early_becomes_late",
    "Dashmm.C112_not_first",
    "Dashmm.C112_order_matters"
   ],
   "note": "Times relative to the origin if it is the first record read for its worker and the earliest; otherwise false of the code (C112_early_becomes_late, C112_not_first, C112_order_matters)."
  },
  {
   "property": "C113",
   "status": "proved",
   "theorems": [
    "Dashmm.C113_events",
    "Dashmm.C113_types",
    "Dashmm.C113_segments",
    "Dashmm.C113_no_others",
    "Dashmm.C113_written",
    "Dashmm.C113_tie"
   ],
   "note": "Findings: with begin and end of a segment at the same stamp the unspecified order of std::sort decides whether the database is written (C113_tie); unfinished segments have no row."
  },
  {
   "property": "C114",
   "status": "proved",
   "theorems": [
    "Dashmm.C114_split",
    "Dashmm.C114_split_joined",
    "Dashmm.C114_name",
    "Dashmm.C114_name_parts",
    "Dashmm.C114_kinds",
    "Dashmm.C114_regular",
    "Dashmm.C114_read",
    "Dashmm.C114_cut_off",
    "Dashmm.C114_magic",
    "Dashmm.C114_header_cut_off"
   ],
   "note": "Finding: a file that ends inside of its header is accepted as one without records (C114_header_cut_off), which is undefined behaviour later (C110_empty)."
  },
  {
   "property": "C115",
   "status": "proved",
   "theorems": [
    "Dashmm.C115_localities",
    "Dashmm.C115_workers",
    "Dashmm.C115_segment_types",
    "Dashmm.C115_class_names",
    "Dashmm.C115_classes",
    "Dashmm.C115_types",
    "Dashmm.C115_references",
    "Dashmm.C115_negative",
    "Dashmm.C115_transactions",
    "Dashmm.C115_crash"
   ],
   "note": "Finding: negative localities are accepted in names of files, and have no row in Locality (C115_negative); the property is for localities that are not negative."
  },
  {
   "property": "C116",
   "status": "partial",
   "theorems": [
    "Dashmm.C116_samples",
    "Dashmm.C116_windows",
    "Dashmm.C116_height",
    "Dashmm.C116_bars",
    "Dashmm.C116_white_inside",
    "Dashmm.C116_colour_partial",
    "Dashmm.C116_mean",
    "Dashmm.C116_utilization_undefined"
   ],
   "note": "False of the code: columns wholly inside of a segment are drawn white (C116_white_inside); every utilization with a sample is undefined behaviour, since the rows are only reserved (C116_utilization_undefined). C116_colour_partial has the conditions under which the colours are right."
  },
  {
   "property": "C117",
   "status": "partial",
   "theorems": [
    "Dashmm.C117_update",
    "Dashmm.C117_update_parallel",
    "Dashmm.C117_first_step_partial",
    "Dashmm.C117_accumulates",
    "Dashmm.C117_later_steps",
    "Dashmm.C117_second_step_wrong",
    "Dashmm.C117_single_leaf_field",
    "Dashmm.C117_momentum"
   ],
   "note": "Proved: the update of a particle, under every schedule of forEach; the first step; that step k moves with the sum of all fields so far; constant momentum with one leaf. False from the second step on (C117_later_steps, C117_second_step_wrong): acceleration is never reset."
  },
  {
   "property": "C118",
   "status": "partial",
   "theorems": [
    "Dashmm.C118_read_back",
    "Dashmm.C118_cut_off",
    "Dashmm.C118_read_consistent",
    "Dashmm.C118_combine",
    "Dashmm.C118_half_done",
    "Dashmm.C118_no_data",
    "Dashmm.C118_three",
    "Dashmm.C118_only_first",
    "Dashmm.C118_second_file_ignored",
    "Dashmm.C118_always_success",
    "Dashmm.C118_main_partial",
    "Dashmm.C118_saved",
    "Dashmm.C118_unknown_kernel"
   ],
   "note": "Proved: read back, cut-off files refused, when Combine succeeds and exactly what it changes, three files by two calls, files of makepoints. False: the program ignores its second file (C118_second_file_ignored), claims success in any case (C118_always_success), Combine can stop half way (C118_half_done), takes only the first kernel (C118_only_first)."
  },
  {
   "property": "C119",
   "status": "partial",
   "theorems": [
    "Dashmm.C119_accepted_partial",
    "Dashmm.C119_unknown_kernel",
    "Dashmm.C119_run_partial",
    "Dashmm.C119_no_data",
    "Dashmm.C119_ranks_disagree",
    "Dashmm.C119_error",
    "Dashmm.C119_error_zero",
    "Dashmm.C119_max",
    "Dashmm.C119_error_le_max",
    "Dashmm.C119_max_blind"
   ],
   "note": "Proved: accepted combinations for known kernels, the calls of rank 0, the numbers reported. False: unknown kernels are accepted and nothing is evaluated (C119_unknown_kernel), other ranks leave early (C119_ranks_disagree)."
  },
  {
   "property": "C120",
   "status": "partial",
   "theorems": [
    "Dashmm.C120_counts",
    "Dashmm.C120_indices_partial",
    "Dashmm.C120_index_twice",
    "Dashmm.C120_indices_iff",
    "Dashmm.C120_samples",
    "Dashmm.C120_sampled",
    "Dashmm.C120_error",
    "Dashmm.C120_collision_wrong"
   ],
   "note": "False of the code when ranks do not divide the number of targets and there are at least as many targets as ranks (C120_index_twice, C120_collision_wrong); all else proved, distinctness characterised exactly (C120_indices_iff)."
  },
  {
   "property": "C121",
   "status": "proved",
   "theorems": [
    "Dashmm.C121_cube_sphere",
    "Dashmm.C121_plummer",
    "Dashmm.C121_plummer_division",
    "Dashmm.C121_charge",
    "Dashmm.C121_plummer_total",
    "Dashmm.C121_ball"
   ],
   "note": "Exact arithmetic. Deviations from the comments of the code are stated as theorems: total Plummer mass is 100 per rank with sources, stepping positions have uniform radius, greatest random number divides by zero."
  },
  {
   "property": "C122",
   "status": "proved",
   "theorems": [
    "Dashmm.C122_eigenvalues",
    "Dashmm.C122_rule",
    "Dashmm.C122_weights",
    "Dashmm.C122_linear",
    "Dashmm.C122_angles",
    "Dashmm.C122_initialised",
    "Dashmm.C122_error",
    "Dashmm.C122_two"
   ],
   "note": "Exact real arithmetic. Convergence in 30 turns is the assertion of the code (otherwise no rule, none); C122_two shows a complete run. Error of the deflation test is in the statements."
  },
  {
   "property": "C123",
   "status": "proved",
   "theorems": [
    "Dashmm.C123_powers",
    "Dashmm.C123_polynomials",
    "Dashmm.C123_error"
   ],
   "note": "Exact real arithmetic; the error of the deflation tests is in the statement. The number of nodes is arbitrary; runs that end are those the assertion of the code accepts."
  },
  {
   "property": "C124",
   "status": "partial",
   "theorems": [
    "Dashmm.C124_options",
    "Dashmm.C124_accepted_partial",
    "Dashmm.C124_unknown_kernel",
    "Dashmm.C124_evaluations_partial",
    "Dashmm.C124_order",
    "Dashmm.C124_arrays",
    "Dashmm.C124_ranks",
    "Dashmm.C124_records",
    "Dashmm.C124_usage"
   ],
   "note": "Known kernels: all proved. Missing: other kernel names, where the claim is false of the code (C124_unknown_kernel: accepted with every method and accuracy, and nothing is evaluated)."
  },
  {
   "property": "C125",
   "status": "proved",
   "theorems": [
    "Dashmm.C125_options",
    "Dashmm.C125_calls",
    "Dashmm.C125_usage",
    "Dashmm.C125_dt",
    "Dashmm.C125_dt_pos"
   ],
   "note": "All of it, in real arithmetic, with the masses drawn as parameters."
  },
  {
   "property": "C126",
   "status": "proved",
   "theorems": [
    "Dashmm.C126_output",
    "Dashmm.C126_same_output",
    "Dashmm.C126_additions",
    "Dashmm.C126_run",
    "Dashmm.C126_order"
   ],
   "note": "For runs that finish on all ranks (which runs do is C44); leaves have particles, as the trees make them."
  }
 ]
}