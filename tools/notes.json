{
 "C05": {
  "status": "partial",
  "note": "The full statement is false of the code: C05_empty_request_can_fail gives an exhausted buffer on which a zero-byte request reports failure; C05_empty_request_partial proves it whenever bytes remain."
 },
 "C07": {
  "status": "partial",
  "note": "False in general: a view set ending in an empty view at the exact end of the buffer fails (C07_viewset_round_trip_fails_for_empty_tail); proved for all others."
 },
 "C40": {
  "status": "partial",
  "note": "The full statement is false of the code: C40_acceptance_unsound exhibits an accepted pair and a target point violating the angle (nearest() returns the far face when the source lies on the low side). C40_acceptance_sound_partial proves it when the source centre is not below the target box's low face in any dimension. Exact real arithmetic."
 },
 "C41": {
  "note": "Laplace code; the Yukawa tables were compared textually and are identical. The finite table check is exhaustive over the 6^3*8 entries the theorem C41_offsets_in_range shows are the only ones used."
 },
 "C39": {
  "note": "Stated for target leaves at or below the uniform level (leaves above it hold no points, see C27)."
 },
 "C44": {
  "status": "partial",
  "note": "The property is false for FMM and FMM97 (C44_fmm_can_hang, C44_fmm97_can_hang: concrete trees for which a local expansion without inputs never triggers and evaluate() hangs). Proved: every schedule is finite (C44_terminates); for any DAG it completes on all ranks iff every node other than a source leaf has an input; Direct and Barnes-Hut always complete; exact geometric criteria for FMM and FMM97."
 },
 "C49": {
  "status": "partial",
  "note": "Proved when every spawn_out_edges task has come to its end before the reset; the code does not wait for them, and C49_race_doubles shows what a pending one would do."
 },
 "C42": {
  "note": "Schedules are arbitrary interleavings of the model's runtime steps; HPX-5 itself is an assumption (exactly-once delivery, call_when after trigger)."
 },
 "C08": {
  "status": "partial",
  "note": "False for requests whose offset + n wraps around in size_t (C08_slice_wraps); proved for all others, and every in-range request succeeds without restriction."
 },
 "C09": {
  "note": "size_t sums modelled modulo 2^64, the total assumed representable. A failed rank-local allocation leaves the object allocated (second call gives a domain error)."
 },
 "C10": {
  "note": "The code is combined over ranks: one bad range makes every rank report a domain error while good ranks still receive their records. This is what the theorem states."
 },
 "C11": {
  "status": "partial",
  "note": "put is wrong for first > 0 (copies `last` records instead of `last - first`): C11_put_first_positive_undefined proves undefined behaviour for every good range with first > 0 and an exact-size buffer; C11_put_partial proves the property for first = 0."
 },
 "C12": {
  "status": "partial",
  "note": "Same defect as C11; proved for first = 0, C12_neighbour_lost is the counterexample."
 },
 "C13": {
  "note": "Receive handlers interleave record by record. HPX-5 delivery of each parcel exactly once and of its continuation is assumed."
 },
 "C15": {
  "status": "proved",
  "note": "Indices are natural numbers (no int overflow); all k."
 },
 "C17": {
  "status": "proved",
  "note": "64-bit arithmetic modelled exactly with BitVec."
 },
 "C18": {
  "status": "partial",
  "note": "False in general: C18_distribute_fails shows the code reads before its array or trips an assertion exactly when there are fewer points than ranks or the first cell holds at least two shares. Proved for all other inputs."
 },
 "C57": {
  "status": "partial",
  "note": "Proved whenever distribute_points does not fail (condition of C18)."
 },
 "C20": {
  "status": "proved",
  "note": "Exact arithmetic (any linearly ordered field with floor); domain of positive size, which C20_domain_positive derives from two distinct points; a degenerate (single point) domain divides by zero in the code and is outside the theorem. For any combination order of the ranks' contributions."
 },
 "C21": {
  "status": "proved",
  "note": "The in-place rearrangement loop is modelled assignment by assignment; termination is part of the theorem."
 },
 "C22": {
  "status": "proved",
  "note": "One cell of the uniform grid, tasks interleaved arbitrarily (atomic tasks, exact arithmetic). C22_tree characterises the finished tree independently of the schedule."
 },
 "C23": {
  "status": "partial",
  "note": "False in general: C23_coincident_never_ends (more coincident records than the threshold: no execution ends). C23_terminates_partial / C23_bound_partial prove termination with an explicit bound when no place has more records than the threshold (exact arithmetic, Archimedean field)."
 },
 "C58": {
  "status": "proved",
  "note": "Target tree started from the records of a completed source tree, as merge_points_same_s_and_t does."
 },
 "C59": {
  "status": "proved",
  "note": "Completion under the hypothesis that nothing else can happen; C23 gives when that state is reached."
 },
 "C24": {
  "status": "proved",
  "note": "message is what send_node_handler sends, receive is recv_node_handler; the memory of a rank is a function from addresses to nodes. Hypotheses: the cell has no children yet and is not in the newly allocated block."
 },
 "C25": {
  "status": "proved",
  "note": "setup_basics on the memory model; the uniform level is at least 1 (as set in create)."
 },
 "C26": {
  "status": "proved",
  "note": "The walk of lookup_lco_addx for every node reachable from the root; C26_received composes it with setup_basics and a received branch."
 },
 "C27": {
  "status": "proved",
  "note": "pruneTopnodes on the memory model, for any memory that still has the top made by setup_basics; np = 0 for the nodes above the grid."
 },
 "C54": {
  "status": "proved",
  "note": "Also shows that nothing is freed for a branch without nodes (new node_t[0] is leaked in that case)."
 },
 "C28": {
  "status": "proved",
  "note": "Merge of the messages of one uniform cell at the granularity of lock, read, copy, count, spawn, unlock; every interleaving."
 },
 "C29": {
  "status": "proved",
  "note": "Byte-level model of the message; receiver may hold it at any address."
 },
 "C30": {
  "status": "proved",
  "note": "Event system of tree creation over all ranks; every schedule and message order; any distribution of points."
 },
 "C31": {
  "status": "partial",
  "note": "The full statement is false of the code: C31_send_after_free shows that a send without points may run after the arrays were freed. Proved: sends with points have been done."
 },
 "C32": {
  "status": "proved",
  "note": "link_nodes at the granularity of lock, read, write, unlock by any number of tasks."
 },
 "C47": {
  "status": "proved",
  "note": "All four policies on the DAGs of the four methods, for every schedule, every sort result, every weight. int overflow of weights not modelled. Source leaves above the uniform level (an empty source set) make source_apply assert; excluded by hypothesis."
 },
 "C56": {
  "status": "proved",
  "note": "Uniqueness of the placement for any two runs; the random policy assumes the same seed and generator on all ranks."
 },
 "C51": {
  "status": "proved",
  "note": "Any tree and arrival order, exact field arithmetic. LaplaceCOM: any charges when finite (C51_com_aggregates), always finite and right for positive charges (C51_com_positive); LaplaceCOMAcc for non-negative charges. A leaf of zero total charge makes every LaplaceCOM ancestor non-finite (C51_com_zero_leaf_poisons): add_expansion lacks the guard LaplaceCOMAcc has."
 },
 "C60": {
  "status": "partial",
  "note": "FALSE of the code: quadrupole term has the wrong sign (C60_com_not_second_order, C60_com_worse_than_monopole). Proved: with the opposite sign the claim holds with constant 6 (C60_right_sign), and the error of the code is of monopole order (C60_com_error_partial)."
 },
 "C61": {
  "status": "proved",
  "note": "Real arithmetic; hypotheses are that the expansion holds the moments of the sources (C51) and that the target is outside the ball."
 },
 "C62": {
  "status": "proved",
  "note": "Real arithmetic."
 },
 "C52": {
  "status": "proved",
  "note": "all expansion orders p; int modelled without overflow"
 },
 "C53": {
  "status": "proved",
  "note": "comparison for arbitrary rounding; additionally every key requested by FMM M->L / M->M / L->L is found"
 },
 "C55": {
  "status": "partial",
  "note": "false as stated: BH, FMM and FMM97 create their expansion nodes inside assert(); proved for Direct, counterexamples for all trees of the others"
 },
 "C63": {
  "status": "proved",
  "note": "Defect shown: source or target exactly at the box centre gives NaN; defined everywhere else. Real arithmetic, NaN = none."
 },
 "C64": {
  "status": "proved",
  "note": "Exact arithmetic; sources regular (farther than 1e-14 from the centre, and exactly on or more than 1e-14 rad off the vertical) because the code snaps others."
 },
 "C65": {
  "status": "proved",
  "note": "Exact arithmetic; target regular for both centres."
 },
 "C66": {
  "status": "proved",
  "note": "Exact arithmetic, regular positions."
 },
 "C67": {
  "status": "proved",
  "note": "Exact arithmetic, regular positions."
 },
 "C68": {
  "status": "proved",
  "note": "Exact arithmetic, regular positions; any offset between boxes of equal level."
 },
 "C69": {
  "status": "proved",
  "note": "Regularity only at the two leaf centres."
 },
 "C70": {
  "status": "proved",
  "note": "Exact arithmetic."
 },
 "C71": {
  "status": "proved",
  "note": "Exact arithmetic; beta in [0, pi] through its cosine."
 },
 "C72": {
  "status": "proved",
  "note": "Exact real arithmetic; the trees are arbitrary, the sources and targets are in the boxes of their leaves and not at a centre (C63 shows what happens otherwise)."
 },
 "C73": {
  "status": "proved",
  "note": "Exact real arithmetic."
 },
 "C74": {
  "status": "proved",
  "note": "For every acceptance criterion with the stated geometric property; C40 shows that the one in the code does not always have it."
 },
 "C75": {
  "status": "proved",
  "note": "Real arithmetic. The rule is a parameter (Model/Plane: Rule); the tables of the code are instances (C76)."
 },
 "C76": {
  "status": "proved",
  "note": "BUG: case 6 of the switch has no break, so six digits give the table for nine and leak the other; other numbers of digits leave the members uninitialised."
 },
 "C77": {
  "status": "proved",
  "note": "Real arithmetic. The relative error of the quadrature rule for boxes two or three apart is a hypothesis (Rule.Accurate); every rule has one (exists_accurate), its numerical value for the tables of the code is not proved."
 },
 "C78": {
  "status": "proved",
  "note": "C78_tree, _same_tree, _received, _hold, _exists, _leaves: composes C20-C29 into one statement about the tree that hangs at the root after pruning. The pointers inside branches that a rank built itself are assumed to form copies of the nodes the tasks made (Construction.Ok.shape, copy); for received branches this is proved (C78_received)."
 },
 "C79": {
  "status": "proved",
  "note": "C79_input: from the input arrays of the ranks (Input) through domain, trees, DAG and execution to the results, for Direct, BH, FMM, FMM97 with the Laplace kernel over the reals; C79_direct/bh/fmm/fmm97 are the parts from trees on. Concrete example exRun."
 },
 "C80": {
  "status": "proved",
  "note": "All interleavings of tasks, sends and receives of all ranks, with other allocations in between. Records arrive as `Arrived`, which C81 proves of the exchange."
 },
 "C81": {
  "status": "proved",
  "note": "Sorting, counting, messages and merges of all ranks joined; all interleavings of the merge tasks of a cell."
 },
 "C82": {
  "status": "proved",
  "note": "End to end from the arrays of the ranks to what collect returns, also with targets = sources; exact arithmetic as in C72-C79."
 },
 "C83": {
  "status": "proved",
  "note": ""
 },
 "C84": {
  "status": "partial",
  "note": "False of the code: C84_second_dag_fails proves that every second create_DAG on a tree trips the assertion in add_parts. C84_reuse_partial: had destroy_DAG nulled the pointers, the next DAG would have everything proved in C83."
 },
 "C85": {
  "status": "partial",
  "note": "k_n exact, i_n with error bound for all arguments, j_n and h_n where they are right. Missing: the tables filled by bessel_In, bessel_Jn, bessel_Yn (Cody's algorithms) are parameters with a stated accuracy. False of the code: h_n for x < 1e-4 (C85_hn_small_wrong), i_n = 0 for x > 100 (C85_in_large_wrong), j_n after a zero in exact arithmetic (C85_jn_zero_wrong)."
 },
 "C86": {
  "status": "proved",
  "note": "Relative accuracy of the table of I_{n+1/2} is a hypothesis (AccurateI). M_to_M, L_to_L and the plane-wave operators of Yukawa are not covered by this property. Defects proved: other digits abort, lambda r >= 1e8 aborts."
 },
 "C87": {
  "status": "proved",
  "note": "Positive part for all compatible pairs, all runs and all trees of at most 21 levels (Yukawa, Helmholtz); the operation lists are minimal; negative parts: FMM with Yukawa, Helmholtz, COM and FMM97 with COM on a concrete pair of trees for every schedule and for every DAG with an MtoL edge; BH with Helmholtz, trees deeper than 21 levels and Helmholtz with omega*size <= 1/2 for every run."
 },
 "C88": {
  "status": "proved",
  "note": "The errors of the arrays of j_n and h_n are parameters of the bound (C88_multipole_small_box: none for j_n when the box is small, the tables for h_n). Defect proved: no accuracy for w r < 1e-4 (C88_near_target_wrong). Shifts and plane waves are not covered."
 },
 "C89": {
  "status": "partial",
  "note": "Nothing is freed twice or lost in any history, unless the allocation of the first LCO fails; results of allocate. False of the code, with counterexample theorems: a failed segment leaves the array allocated (so allocate cannot be retried), and a failed first LCO leaks the second one or frees a null address."
 },
 "C90": {
  "status": "proved",
  "note": "For all parameters, levels, lists of source boxes; M_to_I and e_to_l are not part of the claim. C90_other_digits: for digits other than 3 and 6 the expansions are empty."
 },
 "C91": {
  "status": "partial",
  "note": "Holds for Yukawa. False of the code for Helmholtz: the constructor compares omega, not omega times the size, with the limits, so it ends the program in one unit of length and not in another (C91_helmholtz_units_matter)."
 },
 "C92": {
  "status": "partial",
  "note": "No double free and no read of freed nodes in any run; the deletion leaves exactly the completion LCOs of other ranks empty cells and the arrays of length zero (C92_delete). That nothing is left is false (C92_leaks); it is proved if other ranks cells are all divided or there is one rank."
 },
 "C93": {
  "status": "proved",
  "note": "C93_leaf_edges, C93_expansion_edges: each edge once, on the right rank, with the same data, to the LCO of the target; C93_lookup is the resolution by index. Limits by theorem: C93_count_overflow (2^31/40 edges), C93_StoM_needs_locality (handler looks only in the target tree)."
 },
 "C94": {
  "status": "partial",
  "note": "All operations of all built-in expansions: no invalid use or free, result owns its views, exact number of blocks lost (C94_operation_partial, C94_target_operation_partial); no loss for Laplace and COM (C94_no_leak, C94_ItoI_tags), results fit their targets (C94_result_fits, C94_add). The full claim is false of the code: Yukawa I_to_L loses 6s blocks (C94_yukawa_leak), Helmholtz S_to_L and M_to_T lose 2 per point (C94_helmholtz_leak)."
 },
 "C95": {
  "status": "partial",
  "note": "Full claim false of the code: C95_destroy_race (double free when the LCOs are destroyed before the last task has ended) and leaks of Yukawa/Helmholtz operations (C95_yukawa_leaks). Proved for all schedules: no action goes wrong, every run ends within 3N+8E actions, the contents are those of Model/Exec, and at the end the heap is as before up to the leaks of the operations (none for Laplace and centre of mass). The memory model has no table lookups (C87) and no contents of arrays."
 },
 "C96": {
  "status": "partial",
  "note": "Direct: proved for all charges. Barnes-Hut: proved for positive charges; for charges of both signs the claim is false of the code (C96_zero_leaf). The acceptance ratio is a hypothesis (the code's own criterion does not guarantee one, C40)."
 },
 "C97": {
  "status": "partial",
  "note": "The full claim is false of the code: errors of create_tree and create_DAG are not looked at, and the next call crashes (C97_unreported, C97_crash_iff). Proved: kSuccess exactly if no error is reported, with nothing left (C97_success_iff); every error of the other three calls is reported (C97_reports_partial); what exactly is left behind after an error (C97_leftovers); all histories of the public calls (C97_calls, C97_history)."
 },
 "C98": {
  "status": "proved",
  "note": "M_to_M and L_to_L of the Yukawa kernel with explicit error bounds for every expansion of bounded size, growth of the size, and both chains from charges to targets; accuracy of the tabulated Bessel functions is a parameter (AccurateI), rounding is not modelled."
 },
 "C99": {
  "status": "proved",
  "note": "C99_bh_accuracy (Barnes-Hut, all schedules), C99_direct_exact, C99_ratio and C99_translation_small (when the bounds are small). As for C86 the table of Bessel functions is a parameter with relative error delta; orders up to 18 and distances within the range of bessel_kn_scaled are hypotheses because the code aborts outside them (C86). The examples run both methods on concrete trees."
 },
 "C100": {
  "status": "proved",
  "note": "Exactly the code, with the finding that Yukawa and Helmholtz lose the count of an I->I edge (C100_count_lost), and the proof that this changes no placement."
 },
 "C101": {
  "status": "proved",
  "note": "C101_plane_rule, C101_accuracy, C101_reads for all tables, levels, boxes and charges; the accuracy of the literals of the tables enters as RuleAccurate (C101_rule_has_accuracy: it holds for some accuracy at every level)."
 },
 "C102": {
  "status": "proved",
  "note": "The accuracy and the growth of the plane waves per level are hypotheses (WavesAccurate), which C102_waves_have_accuracy shows can be met at every level for every table; rounding is not modelled."
 },
 "C103": {
  "status": "proved",
  "note": "The accuracy of the Bessel functions is a hypothesis (GoodTab, NearJ, NearH); C103_small_box discharges GoodTab in boxes small compared to the wavelength. Rounding is not modelled. The plane waves of the Helmholtz kernel (M_to_I, I_to_L) are not modelled."
 },
 "C104": {
  "status": "proved",
  "note": "Rounding is not modelled."
 },
 "C105": {
  "status": "proved",
  "note": "The nodes and weights that gaussq computes are parameters (any rule with angles in [0, pi]); the accuracy of the quadrature for given nodes is the hypothesis RuleAccurate of C105_accuracy, met by some eps for every rule (C105_rule_has_accuracy)."
 },
 "C106": {
  "status": "proved",
  "note": "The relative error of the spherical Bessel and Hankel functions per edge (InRange) and the accuracy and growth of the plane waves per level (WavesAccurate) are hypotheses, which C106_functions_have_accuracy and C106_waves_have_accuracy show can be met for every input and every table; rounding is not modelled."
 },
 "C107": {
  "status": "proved",
  "note": "Exact identities for the code over the reals; accuracy at the half integers against Mathlib Real.Gamma. Between 1 and 2 the accuracy at other arguments is a hypothesis of C107_accuracy; the accuracy of the Stirling branch is not claimed. C107_far_left: below -170.624 the result is the largest double although the function nearly vanishes there."
 },
 "C108": {
  "status": "proved",
  "note": "The file system is not modelled: the result is the list of lines."
 },
 "C109": {
  "status": "proved",
  "note": "C109_assign_leaks is the negative half: move assignment onto an object that holds something leaks. operator=(RankLocal&&) has no return statement (undefined behaviour); its effect on the members is what is modelled."
 },
 "C110": {
  "status": "partial",
  "note": "Windows of the trace reader are exactly the records of the interval for workers with a record at its end or later (C110_window gives the exact content in all cases); the records at the latest instant of a worker are in no window (C110_latest_lost), so the full statement is false of the code. Files without records: C110_empty."
 },
 "C111": {
  "status": "partial",
  "note": "Exact coverage if the worker has a record at the end of the window or later and no segment contains the window; otherwise false of the code (C111_inside_zero, C111_last_too_long, C111_touching_aborts)."
 },
 "C112": {
  "status": "partial",
  "note": "Times relative to the origin if it is the first record read for its worker and the earliest; otherwise false of the code (C112_early_becomes_late, C112_not_first, C112_order_matters)."
 },
 "C113": {
  "status": "proved",
  "note": "Findings: with begin and end of a segment at the same stamp the unspecified order of std::sort decides whether the database is written (C113_tie); unfinished segments have no row."
 },
 "C114": {
  "status": "proved",
  "note": "Finding: a file that ends inside of its header is accepted as one without records (C114_header_cut_off), which is undefined behaviour later (C110_empty)."
 },
 "C115": {
  "status": "proved",
  "note": "Finding: negative localities are accepted in names of files, and have no row in Locality (C115_negative); the property is for localities that are not negative."
 },
 "C116": {
  "status": "partial",
  "note": "False of the code: columns wholly inside of a segment are drawn white (C116_white_inside); every utilization with a sample is undefined behaviour, since the rows are only reserved (C116_utilization_undefined). C116_colour_partial has the conditions under which the colours are right."
 },
 "C117": {
  "status": "partial",
  "note": "Proved: the update of a particle, under every schedule of forEach; the first step; that step k moves with the sum of all fields so far; constant momentum with one leaf. False from the second step on (C117_later_steps, C117_second_step_wrong): acceleration is never reset."
 },
 "C118": {
  "status": "partial",
  "note": "Proved: read back, cut-off files refused, when Combine succeeds and exactly what it changes, three files by two calls, files of makepoints. False: the program ignores its second file (C118_second_file_ignored), claims success in any case (C118_always_success), Combine can stop half way (C118_half_done), takes only the first kernel (C118_only_first)."
 },
 "C119": {
  "status": "partial",
  "note": "Proved: accepted combinations for known kernels, the calls of rank 0, the numbers reported. False: unknown kernels are accepted and nothing is evaluated (C119_unknown_kernel), other ranks leave early (C119_ranks_disagree)."
 },
 "C120": {
  "status": "partial",
  "note": "False of the code when ranks do not divide the number of targets and there are at least as many targets as ranks (C120_index_twice, C120_collision_wrong); all else proved, distinctness characterised exactly (C120_indices_iff)."
 },
 "C121": {
  "status": "proved",
  "note": "Exact arithmetic. Deviations from the comments of the code are stated as theorems: total Plummer mass is 100 per rank with sources, stepping positions have uniform radius, greatest random number divides by zero."
 },
 "C122": {
  "status": "proved",
  "note": "Exact real arithmetic. Convergence in 30 turns is the assertion of the code (otherwise no rule, none); C122_two shows a complete run. Error of the deflation test is in the statements."
 },
 "C123": {
  "status": "proved",
  "note": "Exact real arithmetic; the error of the deflation tests is in the statement. The number of nodes is arbitrary; runs that end are those the assertion of the code accepts."
 },
 "C124": {
  "status": "partial",
  "note": "Known kernels: all proved. Missing: other kernel names, where the claim is false of the code (C124_unknown_kernel: accepted with every method and accuracy, and nothing is evaluated)."
 },
 "C125": {
  "status": "proved",
  "note": "All of it, in real arithmetic, with the masses drawn as parameters."
 },
 "C126": {
  "status": "proved",
  "note": "For runs that finish on all ranks (which runs do is C44); leaves have particles, as the trees make them."
 }
}