{
 "claims": [
  {
   "property": "C01",
   "status": "proved",
   "theorems": [
    "Walky.Props.C01_next_permutation"
   ],
   "note": "lexicographic successor, every list, also with repeated entries"
  },
  {
   "property": "C02",
   "status": "proved",
   "theorems": [
    "Walky.Props.C02_enumeration_complete"
   ],
   "note": ""
  },
  {
   "property": "C03",
   "status": "partial",
   "theorems": [
    "Walky.Props.C03_v0_exact_partial",
    "Walky.Props.C03_v0_single_city"
   ],
   "note": "exact for n>=2; for n<=1 nothing is evaluated and the cost is infinite (negation theorem)"
  },
  {
   "property": "C04",
   "status": "partial",
   "theorems": [
    "Walky.Props.C04_v1_exact_partial",
    "Walky.Props.C04_v1_small",
    "Walky.Props.C04_v1_needs_symmetry"
   ],
   "note": "exact for n>=3; for n=1, 2 the cost is infinite, for n=0 it panics (negation theorem); C04_v1_needs_symmetry shows that the symmetry of the costs is needed"
  },
  {
   "property": "C05",
   "status": "proved",
   "theorems": [
    "Walky.Props.C05_v2_exact"
   ],
   "note": ""
  },
  {
   "property": "C06",
   "status": "proved",
   "theorems": [
    "Walky.Props.C06_v3_exact",
    "Walky.Props.C06_needs_nonneg"
   ],
   "note": "non-negative costs as in the statement; C06_needs_nonneg shows the hypothesis is needed"
  },
  {
   "property": "C07",
   "status": "partial",
   "theorems": [
    "Walky.Props.C07_v4_not_exact",
    "Walky.Props.C07_v4_hill_partial",
    "Walky.Props.C07_v4_exact_partial"
   ],
   "note": "false in general (negation with witness); exact for n<=5"
  },
  {
   "property": "C08",
   "status": "partial",
   "theorems": [
    "Walky.Props.C08_v5_not_exact",
    "Walky.Props.C08_v5_within_twice_partial",
    "Walky.Props.C08_v5_exact_partial"
   ],
   "note": "false in general (negation with witness); within a factor 2, exact for n<=5"
  },
  {
   "property": "C09",
   "status": "proved",
   "theorems": [
    "Walky.Props.C09_v6_eq_v5",
    "Walky.Props.C09_needs_injective"
   ],
   "note": "hash function assumed injective on the cached sets; C09_needs_injective shows why"
  },
  {
   "property": "C10",
   "status": "proved",
   "theorems": [
    "Walky.Props.C10_truthful"
   ],
   "note": ""
  },
  {
   "property": "C11",
   "status": "proved",
   "theorems": [
    "Walky.Props.C11_solvers_agree"
   ],
   "note": ""
  },
  {
   "property": "C12",
   "status": "proved",
   "theorems": [
    "Walky.Props.C12_well_formed"
   ],
   "note": "law-free: every arithmetic including IEEE doubles"
  },
  {
   "property": "C13",
   "status": "partial",
   "theorems": [
    "Walky.Props.C13_v2_misses_tour",
    "Walky.Props.C13_missing_edges_partial"
   ],
   "note": "false in general (negation with witness)"
  },
  {
   "property": "C14",
   "status": "proved",
   "theorems": [
    "Walky.Props.C14_digits",
    "Walky.Props.C14_chunk_digits"
   ],
   "note": ""
  },
  {
   "property": "C15",
   "status": "proved",
   "theorems": [
    "Walky.Props.C15_next_value"
   ],
   "note": ""
  },
  {
   "property": "C16",
   "status": "partial",
   "theorems": [
    "Walky.Props.C16_chunks_partial",
    "Walky.Props.C16_remainder_lost"
   ],
   "note": "consecutive and disjoint; the remainder of the division is in no chunk (negation theorem)"
  },
  {
   "property": "C17",
   "status": "partial",
   "theorems": [
    "Walky.Props.C17_schedule_independent_partial",
    "Walky.Props.C17_progress",
    "Walky.Props.C17_result_exists"
   ],
   "note": "every interleaving; excludes two cities with one thread, where the path is empty (C19_threaded_two_cities)"
  },
  {
   "property": "C18",
   "status": "partial",
   "theorems": [
    "Walky.Props.C18_prefix_searched_partial"
   ],
   "note": "every n>=3, every number of threads below n, every complete execution; tours of two cities have no three-city prefix"
  },
  {
   "property": "C19",
   "status": "partial",
   "theorems": [
    "Walky.Props.C19_threaded_tour_partial",
    "Walky.Props.C19_threaded_two_cities"
   ],
   "note": "false for two cities and one thread (negation theorem), otherwise proved"
  },
  {
   "property": "C20",
   "status": "partial",
   "theorems": [
    "Walky.Props.C20_threaded_exact_partial",
    "Walky.Props.C20_threaded_within_twice_partial",
    "Walky.Props.C20_not_exact"
   ],
   "note": "exact for n<=5, within a factor 2 for every n; false in general (negation with witness)"
  },
  {
   "property": "C28",
   "status": "proved",
   "theorems": [
    "Walky.Props.C28_prim_spanning_tree"
   ],
   "note": ""
  },
  {
   "property": "C29",
   "status": "proved",
   "theorems": [
    "Walky.Props.C29_prim_minimum"
   ],
   "note": ""
  },
  {
   "property": "C30",
   "status": "proved",
   "theorems": [
    "Walky.Props.C30_par_eq_seq",
    "Walky.Props.C30_order_exact"
   ],
   "note": "every reduction tree and update order"
  },
  {
   "property": "C31",
   "status": "partial",
   "theorems": [
    "Walky.Props.C31_queue_weight_partial",
    "Walky.Props.C31_queue_wrong_edges"
   ],
   "note": "weight equal for every heap tie-breaking; edges are wrong (negation with witness)"
  },
  {
   "property": "C32",
   "status": "proved",
   "theorems": [
    "Walky.Props.C32_mst_lower_bound"
   ],
   "note": ""
  },
  {
   "property": "C33",
   "status": "proved",
   "theorems": [
    "Walky.Props.C33_one_tree"
   ],
   "note": ""
  },
  {
   "property": "C34",
   "status": "partial",
   "theorems": [
    "Walky.Props.C34_one_tree_bound_partial",
    "Walky.Props.C34_two_cities"
   ],
   "note": "valid lower bound for n>=3; for n=2 the computed bound is infinite (negation theorem)"
  },
  {
   "property": "C35",
   "status": "partial",
   "theorems": [
    "Walky.Props.C35_par_eq_seq",
    "Walky.Props.C35_mpi_partial",
    "Walky.Props.C35_mpi_too_many_ranks"
   ],
   "note": "rayon equals sequential for every reduction tree; MPI equals it for every world size up to n; more ranks than cities panic (negation theorem)"
  },
  {
   "property": "C36",
   "status": "proved",
   "theorems": [
    "Walky.Props.C36_one_tree_ge_mst"
   ],
   "note": ""
  },
  {
   "property": "C37",
   "status": "proved",
   "theorems": [
    "Walky.Props.C37_single_truthful"
   ],
   "note": ""
  },
  {
   "property": "C38",
   "status": "proved",
   "theorems": [
    "Walky.Props.C38_greedy"
   ],
   "note": ""
  },
  {
   "property": "C39",
   "status": "proved",
   "theorems": [
    "Walky.Props.C39_n_nearest_neighbour",
    "Walky.Props.C39_nearest_neighbour",
    "Walky.Props.C39_par_eq_seq",
    "Walky.Props.C39_nearest_neighbour_par"
   ],
   "note": ""
  },
  {
   "property": "C40",
   "status": "partial",
   "theorems": [
    "Walky.Props.C40_mpi_partial",
    "Walky.Props.C40_too_many_ranks"
   ],
   "note": "every world size up to n and every reduction; more ranks than cities panic (negation theorem)"
  },
  {
   "property": "C21",
   "status": "partial",
   "theorems": [
    "Walky.Props.C21_static_no_deadlock_partial",
    "Walky.Props.C21_too_many_workers"
   ],
   "note": "every message order, 1 <= workers < n^3; n^3 or more workers panic while splitting the work (negation theorem)"
  },
  {
   "property": "C22",
   "status": "partial",
   "theorems": [
    "Walky.Props.C22_static_winner_partial",
    "Walky.Props.C23_single_process",
    "Walky.Props.C23_no_work"
   ],
   "note": "if no worker has anything to search the winner is (infinity, rank 0) and there is no local path"
  },
  {
   "property": "C23",
   "status": "partial",
   "theorems": [
    "Walky.Props.C23_static_tour_partial",
    "Walky.Props.C23_static_few_workers_partial",
    "Walky.Props.C23_single_process",
    "Walky.Props.C23_no_work",
    "Walky.Props.C21_too_many_workers"
   ],
   "note": "proved whenever every worker has a prefix to search, in particular fewer workers than cities; false for a single process and for chunk size 2 (negation theorems)"
  },
  {
   "property": "C24",
   "status": "proved",
   "theorems": [
    "Walky.Props.C24_dynamic_handout"
   ],
   "note": ""
  },
  {
   "property": "C25",
   "status": "partial",
   "theorems": [
    "Walky.Props.C25_dynamic_covers_partial",
    "Walky.Props.C25_small_panic",
    "Walky.Props.C25_small_no_result",
    "Walky.Props.C25_single_process"
   ],
   "note": "n >= 4; for n <= 3 the first prefix is invalid and the worker panics (negation theorem)"
  },
  {
   "property": "C26",
   "status": "partial",
   "theorems": [
    "Walky.Props.C26_dynamic_winner_partial",
    "Walky.Props.C26_negative"
   ],
   "note": "non-negative costs and n >= 4; negative costs are ignored by the coordinator (negation theorem)"
  },
  {
   "property": "C27",
   "status": "partial",
   "theorems": [
    "Walky.Props.C23_static_tour_partial",
    "Walky.Props.C27_static_mismatch",
    "Walky.Props.C27_dynamic_partial",
    "Walky.Props.C27_dynamic_one_worker_partial",
    "Walky.Props.C27_dynamic_mismatch"
   ],
   "note": "static: equal buffers if every worker has work, mismatch otherwise; dynamic: equal buffers if every worker found a tour, and for every matrix with two or more workers there is a message order with a mismatch"
  },
  {
   "property": "C60",
   "status": "proved",
   "theorems": [
    "Walky.Props.C60_static_quality"
   ],
   "note": ""
  },
  {
   "property": "C61",
   "status": "proved",
   "theorems": [
    "Walky.Props.C61_dynamic_quality"
   ],
   "note": ""
  },
  {
   "property": "C41",
   "status": "partial",
   "theorems": [
    "Walky.Props.C41_christofides_seq",
    "Walky.Props.C41_christofides_par_partial",
    "Walky.Props.C41_christofides_par_noThree_partial",
    "Walky.Props.C41_christofides_par_returned_partial",
    "Walky.Props.C41_christofides_par_walk_partial",
    "Walky.Props.C41_par_can_hang",
    "Walky.Props.C41_par_release_wrong",
    "Walky.Props.C41_debug_not_metric"
   ],
   "note": "SEQ is proved for every finite matrix (in debug builds: every matrix passing is_metric). PAR is proved when the computed matching repeats no edge (in particular under NoThree); in debug builds every solution that PAR returns, for any interleaving, is a truthful tour; in release builds it is a truthful closed walk without repeated cities, but can leave out cities, because the subtractions of find_cycle wrap around after a lost increment (C41_par_release_wrong). PAR can also hang (C41_par_can_hang)."
  },
  {
   "property": "C42",
   "status": "proved",
   "theorems": [
    "Walky.Props.C42_christofides_bound"
   ],
   "note": "SEQ and every outcome of PAR."
  },
  {
   "property": "C43",
   "status": "proved",
   "theorems": [
    "Walky.Props.C43_three_halves"
   ],
   "note": "SEQ and every outcome of PAR."
  },
  {
   "property": "C44",
   "status": "partial",
   "theorems": [
    "Walky.Props.C44_matching_shape_partial",
    "Walky.Props.C44_matching_perfect_partial",
    "Walky.Props.noThree_of_fourPoint",
    "Walky.Props.C44_not_perfect"
   ],
   "note": "False in general: optimize_two_matching stores [v0, v2] instead of [v0, v3] (C44_not_perfect); for exactly which shuffles and instances is C112. Proved: number of edges and where their ends are, for all matrices; perfect when no four cities have three pairings of three different costs, or with at most three odd vertices."
  },
  {
   "property": "C45",
   "status": "partial",
   "theorems": [
    "Walky.Props.C45_local_search_partial",
    "Walky.Props.C45_can_worsen"
   ],
   "note": "False in general for the same reason (C45_can_worsen). Proved under NoThree, with PAR equal to SEQ for every order of the chunks."
  },
  {
   "property": "C46",
   "status": "partial",
   "theorems": [
    "Walky.Props.C46_fill_seq",
    "Walky.Props.C46_fill_par_partial",
    "Walky.Props.C46_lost_update"
   ],
   "note": "SEQ for every matching; PAR for every matching without repeated edges and every interleaving; with a repeated edge an increment can be lost (C46_lost_update)."
  },
  {
   "property": "C47",
   "status": "proved",
   "theorems": [
    "Walky.Props.C47_euler",
    "Walky.Props.C47_asymmetric"
   ],
   "note": "For every number type (no arithmetic laws used)."
  },
  {
   "property": "C48",
   "status": "partial",
   "theorems": [
    "Walky.Props.C48_shortcut_partial",
    "Walky.Props.C48_open_walk"
   ],
   "note": "First visits for every walk. The length claim holds for closed walks, and for open walks compared with the closed-up walk; it is false for open walks as such (C48_open_walk)."
  },
  {
   "property": "C49",
   "status": "proved",
   "theorems": [
    "Walky.Props.C49_is_hamiltonian_cycle"
   ],
   "note": ""
  },
  {
   "property": "C50",
   "status": "partial",
   "theorems": [
    "Walky.Props.C50_approximations_partial"
   ],
   "note": "christofides SEQ always; PAR: every solution it returns if the build is a debug build or the matching repeats no edge. Otherwise false in release builds (C41_par_release_wrong)."
  },
  {
   "property": "C51",
   "status": "partial",
   "theorems": [
    "Walky.Props.C51_mpi_matching_partial",
    "Walky.Props.C51_empty_matching"
   ],
   "note": "Every non-empty matching; the empty matching panics (C51_empty_matching)."
  },
  {
   "property": "C62",
   "status": "partial",
   "theorems": [
    "Walky.Props.C62_christofides_mpi_partial",
    "Walky.Props.C62_one_city"
   ],
   "note": "At least two cities; with one city the MPI version panics (C62_one_city)."
  },
  {
   "property": "C52",
   "status": "partial",
   "theorems": [
    "Walky.Props.C52_no_violation",
    "Walky.Props.C52_is_metric_partial",
    "Walky.Props.C52_is_metric_finite",
    "Walky.Props.C52_metric_passes",
    "Walky.Props.C52_nan",
    "Walky.Props.C52_asymmetric"
   ],
   "note": "Every symmetric matrix of finite or +infinite costs; with NaN entries is_metric only says that no inequality is violated (C52_no_violation, C52_nan)."
  },
  {
   "property": "C53",
   "status": "proved",
   "theorems": [
    "Walky.Props.C53_closing_edge",
    "Walky.Props.C53_rotation",
    "Walky.Props.C53_reversal"
   ],
   "note": ""
  },
  {
   "property": "C54",
   "status": "partial",
   "theorems": [
    "Walky.Props.C54_conversions_partial",
    "Walky.Props.C54_self_loop"
   ],
   "note": "Accepted graphs without self loops; with self loops the matrices can differ (C54_self_loop)."
  },
  {
   "property": "C55",
   "status": "partial",
   "theorems": [
    "Walky.Props.C55_conditions_partial",
    "Walky.Props.C55_complete_accepted",
    "Walky.Props.C55_parse",
    "Walky.Props.C55_self_loop"
   ],
   "note": "Equivalence for graphs without self loops; a graph of self loops is accepted (C55_self_loop)."
  },
  {
   "property": "C56",
   "status": "partial",
   "theorems": [
    "Walky.Props.C56_from_points",
    "Walky.Props.C56_par_eq_seq",
    "Walky.Props.C56_points_partial",
    "Walky.Props.C56_infinite"
   ],
   "note": "All finite points; with infinite coordinates the diagonals differ (C56_infinite)."
  },
  {
   "property": "C57",
   "status": "partial",
   "theorems": [
    "Walky.Props.C57_generated",
    "Walky.Props.C57_generated_partial",
    "Walky.Props.C57_equal_points"
   ],
   "note": "Accepted exactly if the points are pairwise different; equal points give a rejected instance (C57_equal_points). For the text of the file see C92."
  },
  {
   "property": "C58",
   "status": "partial",
   "theorems": [
    "Walky.Props.C58_weight",
    "Walky.Props.C58_degrees_partial",
    "Walky.Props.C58_loop"
   ],
   "note": "The degree claim needs different end points (C58_loop)."
  },
  {
   "property": "C59",
   "status": "partial",
   "theorems": [
    "Walky.Props.C59_bounds_partial",
    "Walky.Props.C59_threaded",
    "Walky.Props.C59_christofides_below_bound"
   ],
   "note": "All commands without MPI on accepted instances without self loops: lower bounds <= optimum <= printed tours (for multi-threaded Christofides in release builds: if the matching repeats no edge), and v0-v3 on one thread print the optimum. The multi-threaded exact solver can print more than an approximation (C59_threaded); multi-threaded Christofides can print less than the optimum (C59_christofides_below_bound)."
  },
  {
   "property": "C63",
   "status": "proved",
   "theorems": [
    "Walky.Props.C63_same_output",
    "Walky.Props.C63_integer_costs"
   ],
   "note": "Costs that are multiples of 2^q with -32 <= q <= 960 and (4n+8) M <= 2^53 2^q."
  },
  {
   "property": "C64",
   "status": "proved",
   "theorems": [
    "Walky.Props.C64_mpi_same"
   ],
   "note": "Same condition."
  },
  {
   "property": "C65",
   "status": "proved",
   "theorems": [
    "Walky.Props.C65_accuracy"
   ],
   "note": "v0-v3 in IEEE double precision (round to nearest even), n <= 2^25 cities and 2 n M <= 2^k, -1021 <= k <= 1023: absolute errors n 2^(k-54) and (2 n^2+1) 2^(k-54); v1 on symmetric, v3 on nonnegative costs."
  },
  {
   "property": "C66",
   "status": "partial",
   "theorems": [
    "Walky.Props.C66_relative_partial",
    "Walky.Props.C66_v2_rounding"
   ],
   "note": "The relative bound (1+2^-53)^n - 1 holds for v0 and v1; it is false for v2-v6, whose running cost is updated by subtraction (C66_v2_rounding: reports 3 for a tour of length 104)."
  },
  {
   "property": "C67",
   "status": "partial",
   "theorems": [
    "Walky.Props.C67_mpi_bounds_partial",
    "Walky.Props.C67_unimplemented",
    "Walky.Props.C67_single_process"
   ],
   "note": "All commands with MPI on accepted instances without self loops. The exact solvers are only within a factor 2 (optimal up to five cities), v2-v6 are not implemented (C67_unimplemented) and a single process prints infinity (C67_single_process)."
  },
  {
   "property": "C68",
   "status": "partial",
   "theorems": [
    "Walky.Props.C68_bound_after_approx_partial",
    "Walky.Props.C68_one_tree_fails"
   ],
   "note": "Holds for mst and mst-queue; with one-tree the program always panics because MPI is initialised twice (C68_one_tree_fails)."
  },
  {
   "property": "C69",
   "status": "partial",
   "theorems": [
    "Walky.Props.C69_only_root_partial",
    "Walky.Props.C69_everyone_prints"
   ],
   "note": "Holds for Christofides and the 1-tree bound; in all other commands every rank prints the result (C69_everyone_prints)."
  },
  {
   "property": "C70",
   "status": "proved",
   "theorems": [
    "Walky.Props.C70_one_tree_job",
    "Walky.Props.C70_sequential_value",
    "Walky.Props.C70_too_many_ranks"
   ],
   "note": "Every rank has its own program; the result of every execution is that of the joint description oneTreeLbMpi (law-free), hence the sequential value in exact arithmetic. More ranks than cities: no execution succeeds."
  },
  {
   "property": "C71",
   "status": "proved",
   "theorems": [
    "Walky.Props.C71_nearest_neighbour_job",
    "Walky.Props.C71_sequential_value",
    "Walky.Props.C71_too_many_ranks"
   ],
   "note": "As C70, for nnMpi. More ranks than cities: no execution succeeds."
  },
  {
   "property": "C72",
   "status": "proved",
   "theorems": [
    "Walky.Props.C72_matching_job",
    "Walky.Props.C72_best_matching"
   ],
   "note": "Includes the bootstrap broadcast of graph and matching and point-to-point messages. The empty matching (no execution succeeds) is covered by the second half of C72_matching_job. Whether the command line reaches this code is the subject of C62, C67."
  },
  {
   "property": "C73",
   "status": "partial",
   "theorems": [
    "Walky.Props.C73_static_synchronous",
    "Walky.Props.C73_dynamic_synchronous",
    "Walky.Props.C73_static_negative"
   ],
   "note": "Static solver for non-negative costs, dynamic solver for all finite costs. The static coordinator takes a negative cost for the message that a worker has finished: if all tours have negative length it deadlocks (C73_static_negative)."
  },
  {
   "property": "C74",
   "status": "proved",
   "theorems": [
    "Walky.Props.C74_mst",
    "Walky.Props.C74_one_tree"
   ],
   "note": "Symmetric costs that are doubles between 0 and M, no overflow (2nM(1+2^-53)^(3n+6) <= 2^1023); 1-tree: at least three cities, MPI on at most n processes. The exact 1-tree bound is characterised by C33-C36."
  },
  {
   "property": "C75",
   "status": "proved",
   "theorems": [
    "Walky.Props.C75_nearest_neighbour"
   ],
   "note": "Costs that are doubles between 0 and M, no overflow; MPI on at most n processes."
  },
  {
   "property": "C76",
   "status": "partial",
   "theorems": [
    "Walky.Props.C76_christofides_partial"
   ],
   "note": "SEQ, and MPI with at least two cities, always return; debug builds under the hypothesis that is_metric holds. PAR only if it returns (C41_par_can_hang), and in release builds only if the matching repeats no edge (C41_par_release_wrong)."
  },
  {
   "property": "C77",
   "status": "partial",
   "theorems": [
    "Walky.Props.C77_double_precision_partial"
   ],
   "note": "All lower bounds and approximations (multi-threaded Christofides in release builds: if the matching repeats no edge, otherwise false by C59_christofides_below_bound), and walky exact with v0 and v1 on a single thread. For v2-v6 the claim is false (C66_v2_rounding); several threads always run such a search."
  },
  {
   "property": "C78",
   "status": "proved",
   "theorems": [
    "Walky.Props.C78_exact_double",
    "Walky.Props.C78_threaded_double"
   ],
   "note": "Absolute errors. That the result need not be a shortest tour, and that two cities with one thread have no tour, is the subject of C08, C19, C20."
  },
  {
   "property": "C79",
   "status": "proved",
   "theorems": [
    "Walky.Props.C79_static_no_deadlock",
    "Walky.Props.C79_static_winner",
    "Walky.Props.C79_static_result",
    "Walky.Props.C79_static_mismatch",
    "Walky.Props.C79_dynamic_handout",
    "Walky.Props.C79_dynamic_winner",
    "Walky.Props.C79_dynamic_one_worker",
    "Walky.Props.C79_dynamic_mismatch"
   ],
   "note": "Costs that are doubles and not negative. C79_static_mismatch and C79_dynamic_mismatch are the failing broadcasts of C27."
  },
  {
   "property": "C80",
   "status": "proved",
   "theorems": [
    "Walky.Props.C80_exact_double"
   ],
   "note": "Absolute errors. That v4 - v6 and several threads need not find a shortest tour is the subject of C07, C08, C59."
  },
  {
   "property": "C81",
   "status": "partial",
   "theorems": [
    "Walky.Props.C81_mpi_double_partial"
   ],
   "note": "Missing as in C67: v2 - v6 and single processes, more processes than cities, a shortest tour; the failing broadcast of v1 with three or more processes."
  },
  {
   "property": "C82",
   "status": "proved",
   "theorems": [
    "Walky.Props.C82_bounds_half",
    "Walky.Props.C82_not_metric",
    "Walky.Props.C82_half_is_tight",
    "Walky.Props.C82_no_better_factor"
   ],
   "note": ""
  },
  {
   "property": "C83",
   "status": "proved",
   "theorems": [
    "Walky.Props.C83_nearest_neighbour_ratio",
    "Walky.Props.C83_log",
    "Walky.Props.C83_log_double",
    "Walky.Props.C83_unbounded"
   ],
   "note": "C83_log_double is stated for families up to k = 20 (about four million cities), where all sums are exact in double precision."
  },
  {
   "property": "C84",
   "status": "partial",
   "theorems": [
    "Walky.Props.C84_cli_quality_partial"
   ],
   "note": "Lines of runs that succeed, and lines that ranks of an MPI job print. Which commands succeed is the subject of C59 and C67. Lengths of Christofides tours on several threads in release builds only if the matching repeats no edge, otherwise false (C59_christofides_below_bound)."
  },
  {
   "property": "C85",
   "status": "partial",
   "theorems": [
    "Walky.Props.C85_sqrt",
    "Walky.Props.C85_distance_partial",
    "Walky.Props.C85_overflow",
    "Walky.Props.C85_underflow"
   ],
   "note": "Coordinates of size up to 2^500; the two negations show why a bound on the size and an absolute error are needed."
  },
  {
   "property": "C86",
   "status": "partial",
   "theorems": [
    "Walky.Props.C86_points_metric_partial",
    "Walky.Props.C86_large"
   ],
   "note": "Coordinates of size up to 10000; false for larger coordinates (C86_large)."
  },
  {
   "property": "C87",
   "status": "partial",
   "theorems": [
    "Walky.Props.C87_generated_partial",
    "Walky.Props.C87_close_points",
    "Walky.Props.C87_generator_partial"
   ],
   "note": "Acceptance is equivalent to pairwise different points; equal points can be drawn. For the printed text see C92."
  },
  {
   "property": "C88",
   "status": "partial",
   "theorems": [
    "Walky.Props.C88_near_metric_partial",
    "Walky.Props.C88_generated_partial"
   ],
   "note": "Relative errors; exact solving only for v0 and v1 on one thread (absolute errors for all: C98). Christofides on several threads in release builds only if the matching repeats no edge."
  },
  {
   "property": "C89",
   "status": "partial",
   "theorems": [
    "Walky.Props.C89_half_n",
    "Walky.Props.C89_perfect_partial",
    "Walky.Props.C89_no_guarantee",
    "Walky.Props.C89_linear",
    "Walky.Props.C89_unbounded"
   ],
   "note": "False as stated: with unlucky shuffles the tour is more than 5/2 times the optimum on 20 cities (C89_no_guarantee), and no factor at all is guaranteed: the ratio grows linearly with the number of cities in SEQ, in every outcome of PAR and in MPI (C89_linear, C89_unbounded). Proved: at most n/2 times for every metric (PAR in release builds: if the matching repeats no edge); at most 1+k/4 times under NoThree, with k vertices of odd degree in the tree; at most 3/2 times if the tree is a path."
  },
  {
   "property": "C90",
   "status": "proved",
   "theorems": [
    "Walky.Props.C90_layout",
    "Walky.Props.C90_round_trip",
    "Walky.Props.C90_incomplete"
   ],
   "note": "Documents without comments, CDATA, entities and name spaces."
  },
  {
   "property": "C91",
   "status": "proved",
   "theorems": [
    "Walky.Props.C91_parse",
    "Walky.Props.C91_texts",
    "Walky.Props.C91_truncated"
   ],
   "note": "Every text; Err only for texts that are not outside of the model (comments, CDATA, entities, prefixes, text next to elements)."
  },
  {
   "property": "C92",
   "status": "proved",
   "theorems": [
    "Walky.Props.C92_text",
    "Walky.Props.C92_double",
    "Walky.Props.C92_generator"
   ],
   "note": "C92_text: any matrix and arithmetic. Display of f64 by contract."
  },
  {
   "property": "C93",
   "status": "proved",
   "theorems": [
    "Walky.Props.C93_from_str",
    "Walky.Props.C93_exactly",
    "Walky.Props.C93_display",
    "Walky.Props.C93_closest"
   ],
   "note": "f64::from_str by the contract that it rounds correctly; Display by the contract that it rounds to the number."
  },
  {
   "property": "C94",
   "status": "proved",
   "theorems": [
    "Walky.Props.C94_python"
   ],
   "note": "Python's {:.15e} by contract."
  },
  {
   "property": "C95",
   "status": "partial",
   "theorems": [
    "Walky.Props.C95_program",
    "Walky.Props.C95_generated_partial"
   ],
   "note": "Missing: approx christofides on several threads, which can hang (C41_par_can_hang) or print the length of an incomplete tour (C41_par_release_wrong); texts outside of the model of the parser."
  },
  {
   "property": "C96",
   "status": "proved",
   "theorems": [
    "Walky.Props.C96_arguments",
    "Walky.Props.C96_unique"
   ],
   "note": "clap's grammar by contract; requests for help are left out."
  },
  {
   "property": "C97",
   "status": "proved",
   "theorems": [
    "Walky.Props.C97_output",
    "Walky.Props.C97_numbers"
   ],
   "note": ""
  },
  {
   "property": "C98",
   "status": "proved",
   "theorems": [
    "Walky.Props.C98_exact_generated",
    "Walky.Props.C98_success_generated"
   ],
   "note": ""
  },
  {
   "property": "C99",
   "status": "proved",
   "theorems": [
    "Walky.Props.C99_arguments",
    "Walky.Props.C99_without_mpi",
    "Walky.Props.C99_own",
    "Walky.Props.C99_job",
    "Walky.Props.C99_numbers",
    "Walky.Props.C99_mpi_generated",
    "Walky.Props.C99_generated"
   ],
   "note": "walky exact with v0 or v1 and other numbers of processes or cities: C21, C25, C67; the printed tour need not be optimal (C07, C67)."
  },
  {
   "property": "C100",
   "status": "partial",
   "theorems": [
    "Walky.Props.C100_exact",
    "Walky.Props.C100_threads",
    "Walky.Props.C100_mst",
    "Walky.Props.C100_one_tree_partial",
    "Walky.Props.C100_one_tree_panics",
    "Walky.Props.C100_nearest_neighbour_partial",
    "Walky.Props.C100_nearest_neighbour_panics",
    "Walky.Props.C100_christofides_partial",
    "Walky.Props.C100_christofides_wrong",
    "Walky.Props.C100_no_nan",
    "Walky.Props.C100_outcome",
    "Walky.Props.C100_program"
   ],
   "note": "Exact solving and spanning trees without restriction; the 1-tree bound, nearest neighbour and Christofides under the stated conditions on the costs, the three negations show why. Christofides on several threads only has an outcome (C41_par_can_hang)."
  },
  {
   "property": "C101",
   "status": "partial",
   "theorems": [
    "Walky.Props.C101_files",
    "Walky.Props.C101_benchmark_partial"
   ],
   "note": "Missing: christofides on several threads with three cities or more, which can hang or print a wrong number (C41)."
  },
  {
   "property": "C102",
   "status": "proved",
   "theorems": [
    "Walky.Props.C102_any_order",
    "Walky.Props.C102_reference",
    "Walky.Props.C102_order_matters"
   ],
   "note": "C102_order_matters: the agreement depends on the iteration order of sets, which Python does not fix. convert_to_rust_code prints integer costs without a decimal point, which rustc rejects for f64; the model is the graph that is meant."
  },
  {
   "property": "C103",
   "status": "proved",
   "theorems": [
    "Walky.Props.C103_results",
    "Walky.Props.C103_lines",
    "Walky.Props.C103_lines_bound",
    "Walky.Props.C103_printed",
    "Walky.Props.C103_program",
    "Walky.Props.C103_collect",
    "Walky.Props.C103_summary",
    "Walky.Props.C103_without",
    "Walky.Props.C103_weights",
    "Walky.Props.C103_no_weights"
   ],
   "note": "Contracts: Display of f64, Python's float and sorted. The mean is a parameter. The theorems about run_often.py exclude runs that panic; see C125 for these."
  },
  {
   "property": "C104",
   "status": "proved",
   "theorems": [
    "Walky.Props.C104_results",
    "Walky.Props.C104_ranks",
    "Walky.Props.C104_measurements",
    "Walky.Props.C104_weights"
   ],
   "note": "The outputs of the ranks are assumed to be mixed line by line. Contracts as in C103."
  },
  {
   "property": "C105",
   "status": "proved",
   "theorems": [
    "Walky.Props.C105_v5_upper",
    "Walky.Props.C105_v5_tight",
    "Walky.Props.C105_v6_tight",
    "Walky.Props.C105_v5_no_smaller_factor",
    "Walky.Props.C105_threads_tight",
    "Walky.Props.C105_mpi_tight",
    "Walky.Props.C105_v4_metric",
    "Walky.Props.C105_v4_log",
    "Walky.Props.C105_v4_no_constant",
    "Walky.Props.C105_v4_no_factor",
    "Walky.Props.C105_v4_ring"
   ],
   "note": "Exact arithmetic."
  },
  {
   "property": "C106",
   "status": "proved",
   "theorems": [
    "Walky.Props.C106_record",
    "Walky.Props.C106_tested",
    "Walky.Props.C106_at_most",
    "Walky.Props.C106_v2",
    "Walky.Props.C106_v0",
    "Walky.Props.C106_v1",
    "Walky.Props.C106_v6_eager",
    "Walky.Props.C106_v6",
    "Walky.Props.C106_no_saving"
   ],
   "note": "Counts evaluations and tests, not machine time."
  },
  {
   "property": "C107",
   "status": "proved",
   "theorems": [
    "Walky.Props.C107_exact",
    "Walky.Props.C107_mst",
    "Walky.Props.C107_one_tree",
    "Walky.Props.C107_nearest_neighbour",
    "Walky.Props.C107_nearest_neighbour_ties",
    "Walky.Props.C107_v4_v5"
   ],
   "note": "Exact arithmetic; in double precision the sums may be added in another order."
  },
  {
   "property": "C108",
   "status": "proved",
   "theorems": [
    "Walky.Props.C108_exact",
    "Walky.Props.C108_threads",
    "Walky.Props.C108_bounds",
    "Walky.Props.C108_nearest_neighbour",
    "Walky.Props.C108_christofides",
    "Walky.Props.C108_par",
    "Walky.Props.C108_christofides_par",
    "Walky.Props.C108_mpi_exact",
    "Walky.Props.C108_mpi",
    "Walky.Props.C108_christofides_mpi",
    "Walky.Props.C108_tolerance",
    "Walky.Props.C108_doubles"
   ],
   "note": "Exact arithmetic; false in double precision (C108_doubles). Debug builds of Christofides only if is_metric gives the same answer, which it need not (C108_tolerance). Christofides on several threads: same order of chunks and columns. MPI reductions: combined in the same way in both runs."
  },
  {
   "property": "C109",
   "status": "proved",
   "theorems": [
    "Walky.Props.C109_exact",
    "Walky.Props.C109_mst",
    "Walky.Props.C109_one_tree",
    "Walky.Props.C109_nearest_neighbour_not",
    "Walky.Props.C109_christofides_not",
    "Walky.Props.C109_v4_v5_not"
   ],
   "note": "Exact arithmetic. True for v0 - v3 and the lower bounds; false for nearest neighbour, Christofides, v4 and v5 (negation theorems)."
  },
  {
   "property": "C110",
   "status": "proved",
   "theorems": [
    "Walky.Props.C110_split",
    "Walky.Props.C110_next",
    "Walky.Props.C110_threads",
    "Walky.Props.C110_limits",
    "Walky.Props.C110_debug",
    "Walky.Props.C110_release",
    "Walky.Props.C110_release_loses",
    "Walky.Props.C110_nn",
    "Walky.Props.C110_nn_local"
   ],
   "note": "usize::pow by contract (panics or wraps exactly if the power does not fit). The MPI workers use the same two functions (C110_split, C110_next)."
  },
  {
   "property": "C111",
   "status": "proved",
   "theorems": [
    "Walky.Props.C111_stable",
    "Walky.Props.C111_min_stable",
    "Walky.Props.C111_lucky",
    "Walky.Props.C111_chance",
    "Walky.Props.C111_share"
   ],
   "note": "Exact arithmetic. MPI with at least two cities. For other shuffles: C89."
  },
  {
   "property": "C112",
   "status": "proved",
   "theorems": [
    "Walky.Props.C112_perfect_iff",
    "Walky.Props.C112_lost",
    "Walky.Props.C112_always_iff",
    "Walky.Props.C112_tour",
    "Walky.Props.C112_more_processes"
   ],
   "note": "C112_perfect_iff and C112_lost for every arithmetic, the others for exact arithmetic. C112_more_processes is a negation."
  },
  {
   "property": "C113",
   "status": "proved",
   "theorems": [
    "Walky.Props.C113_v0",
    "Walky.Props.C113_v1",
    "Walky.Props.C113_v2",
    "Walky.Props.C113_v3",
    "Walky.Props.C113_v0_v1",
    "Walky.Props.C113_v0_v2",
    "Walky.Props.C113_v5_differs"
   ],
   "note": "Exact arithmetic. C113_v5_differs is a negation."
  },
  {
   "property": "C114",
   "status": "proved",
   "theorems": [
    "Walky.Props.C114_exact",
    "Walky.Props.C114_bounds",
    "Walky.Props.C114_mst_not",
    "Walky.Props.C114_one_tree_not",
    "Walky.Props.C114_nearest_neighbour_not",
    "Walky.Props.C114_no_triangle_not"
   ],
   "note": "Exact arithmetic. The four theorems that end in _not are negations."
  },
  {
   "property": "C115",
   "status": "proved",
   "theorems": [
    "Walky.Props.C115_inputs",
    "Walky.Props.C115_output",
    "Walky.Props.C115_optimum",
    "Walky.Props.C115_mpi"
   ],
   "note": ""
  },
  {
   "property": "C116",
   "status": "proved",
   "theorems": [
    "Walky.Props.C116_exact",
    "Walky.Props.C116_bounds",
    "Walky.Props.C116_nearest_neighbour",
    "Walky.Props.C116_star",
    "Walky.Props.C116_three_cities",
    "Walky.Props.C116_v4_v5_not",
    "Walky.Props.C116_nearest_neighbour_not"
   ],
   "note": "Exact arithmetic. The two theorems that end in _not are negations."
  },
  {
   "property": "C117",
   "status": "proved",
   "theorems": [
    "Walky.Props.C117_exact",
    "Walky.Props.C117_mst",
    "Walky.Props.C117_nearest_neighbour",
    "Walky.Props.C117_one_tree_not",
    "Walky.Props.C117_v5_not"
   ],
   "note": "Exact arithmetic. The two theorems that end in _not are negations."
  },
  {
   "property": "C118",
   "status": "proved",
   "theorems": [
    "Walky.Props.C118_compare",
    "Walky.Props.C118_renumber",
    "Walky.Props.C118_longer_roads",
    "Walky.Props.C118_leave_out",
    "Walky.Props.C118_charges",
    "Walky.Props.C118_not_equal"
   ],
   "note": "IEEE double precision; the distances in the matrix may be any rational numbers. C118_not_equal is a negation of exact equality."
  },
  {
   "property": "C119",
   "status": "proved",
   "theorems": [
    "Walky.Props.C119_names",
    "Walky.Props.C119_name_of_job",
    "Walky.Props.C119_median",
    "Walky.Props.C119_number",
    "Walky.Props.C119_points",
    "Walky.Props.C119_curves",
    "Walky.Props.C119_no_measurement"
   ],
   "note": "PyFloat, Display and Sorts are the contracts of float, Display and sorted."
  },
  {
   "property": "C120",
   "status": "proved",
   "theorems": [
    "Walky.Props.C120_loops",
    "Walky.Props.C120_instances",
    "Walky.Props.C120_command",
    "Walky.Props.C120_results",
    "Walky.Props.C120_plot",
    "Walky.Props.C120_missing",
    "Walky.Props.C120_large",
    "Walky.Props.C120_queue",
    "Walky.Props.C120_queue_command",
    "Walky.Props.C120_all",
    "Walky.Props.C120_exact"
   ],
   "note": "PyFloat, Display and Sorts are the contracts of float, Display and sorted. The defects are the theorems C120_instances (fourth part), C120_large, C120_queue and C120_exact."
  },
  {
   "property": "C121",
   "status": "proved",
   "theorems": [
    "Walky.Props.C121_path",
    "Walky.Props.C121_family",
    "Walky.Props.C121_no_smaller_factor"
   ],
   "note": "Exact arithmetic."
  },
  {
   "property": "C122",
   "status": "proved",
   "theorems": [
    "Walky.Props.C122_same_output",
    "Walky.Props.C122_same_text",
    "Walky.Props.C122_bounds",
    "Walky.Props.C122_nearest_neighbour",
    "Walky.Props.C122_threads",
    "Walky.Props.C122_nn_tour_changes",
    "Walky.Props.C122_christofides_changes",
    "Walky.Props.C122_cpus_change",
    "Walky.Props.C122_threads_tour_changes"
   ],
   "note": "Every rounding. The hash function and the heap are the same in both runs: FxHasher has no seed, and the heap of the priority queue is deterministic. Text: files inside the model of the parser. Threads: accepted instances with at least one city."
  },
  {
   "property": "C123",
   "status": "proved",
   "theorems": [
    "Walky.Props.C123_one_worker",
    "Walky.Props.C123_static_one_worker",
    "Walky.Props.C123_dynamic_one_worker",
    "Walky.Props.C123_exact_costs",
    "Walky.Props.C123_same_numbers",
    "Walky.Props.C123_static_changes",
    "Walky.Props.C123_dynamic_changes"
   ],
   "note": "Exact arithmetic except for one worker (any arithmetic). Static solver: at most as many processes as cities; dynamic solver: at least four cities. In jobs with several workers the dynamic solver can fail (C27), then there is no cost to compare."
  },
  {
   "property": "C124",
   "status": "proved",
   "theorems": [
    "Walky.Props.C124_dynamic",
    "Walky.Props.C124_static",
    "Walky.Props.C124_static_bound",
    "Walky.Props.C124_static_any"
   ],
   "note": "Steps are those of the transition systems of Model/Mpi.lean: a round of the loop of a static worker, an answer received by a worker (with the search, in the dynamic solver), a message handled by the coordinator. At least four cities in the dynamic solver."
  },
  {
   "property": "C125",
   "status": "proved",
   "theorems": [
    "Walky.Props.C125_lines",
    "Walky.Props.C125_outcomes",
    "Walky.Props.C125_program",
    "Walky.Props.C125_when",
    "Walky.Props.C125_timed",
    "Walky.Props.C125_collected",
    "Walky.Props.C125_happens"
   ],
   "note": "Any arithmetic; C125_when: any rounding that keeps signs. Files inside the model of the parser."
  },
  {
   "property": "C126",
   "status": "proved",
   "theorems": [
    "Walky.Props.C126_steps",
    "Walky.Props.C126_updates",
    "Walky.Props.C126_bound",
    "Walky.Props.countStep_iff"
   ],
   "note": "Steps are those of Model/Threaded.lean: a round of the loop of a thread with the search, or an update of the shared result. That complete runs exist is C17 and C100."
  },
  {
   "property": "C127",
   "status": "partial",
   "theorems": [
    "Walky.Props.C127_dynamic",
    "Walky.Props.C127_v1",
    "Walky.Props.C127_v1_partial",
    "Walky.Props.C127_mst",
    "Walky.Props.C127_one_tree_partial",
    "Walky.Props.C127_nearest_neighbour_partial",
    "Walky.Props.C127_nearest_neighbour_finite",
    "Walky.Props.C127_nearest_neighbour_mixed",
    "Walky.Props.C127_nearest_neighbour_mixed64",
    "Walky.Props.C127_v1_infinite",
    "Walky.Props.C127_v1_negative",
    "Walky.Props.C127_v0_partial",
    "Walky.Props.C127_christofides_partial",
    "Walky.Props.C127_christofides_infinite"
   ],
   "note": "v1 and mst: all costs. christofides: finite costs of any sign (it fails if all are infinite). nearest-neighbour: finite costs of any sign, or infinite ones together with costs of at least -2^970. The other commands: costs that are infinite or not negative (with others one-tree panics already without MPI, C100_one_tree_panics). v0 hangs with negative costs, C73_static_negative."
  },
  {
   "property": "C128",
   "status": "proved",
   "theorems": [
    "Walky.Props.C128_when",
    "Walky.Props.C128_sequential",
    "Walky.Props.C128_algorithm_ignored",
    "Walky.Props.C128_mpi",
    "Walky.Props.C128_mpi_alone",
    "Walky.Props.C128_happens",
    "Walky.Props.reports_prints"
   ],
   "note": "Any arithmetic. Messages of panics and errors are not modelled."
  },
  {
   "property": "C129",
   "status": "proved",
   "theorems": [
    "Walky.Props.C129_output",
    "Walky.Props.C129_errors",
    "Walky.Props.C129_read"
   ],
   "note": "By contract: int on digits (PyInt), np.linalg.norm (NumpyNorm), the format {:.15e} (Digits16). Whether solve_tsp_dynamic_programming returns is a parameter. The rust format is a parameter (see C102)."
  },
  {
   "property": "C130",
   "status": "proved",
   "theorems": [
    "Walky.Props.C130_shortest",
    "Walky.Props.C130_exact",
    "Walky.Props.C130_nearest_neighbour",
    "Walky.Props.C130_spanning_tree",
    "Walky.Props.C130_christofides",
    "Walky.Props.C130_not_from_inside",
    "Walky.Props.C130_program"
   ],
   "note": "v6 for hash functions without collisions (C09); debug builds of christofides if the metric test passes."
  },
  {
   "property": "C131",
   "status": "proved",
   "theorems": [
    "Walky.Props.C131_tours",
    "Walky.Props.C131_exact",
    "Walky.Props.C131_approx",
    "Walky.Props.C131_bounds",
    "Walky.Props.C131_no_result",
    "Walky.Props.C131_program"
   ],
   "note": "Debug builds of christofides if the metric test passes; v0 with MPI on two or three processes."
  },
  {
   "property": "C132",
   "status": "proved",
   "theorems": [
    "Walky.Props.C132_tours",
    "Walky.Props.C132_exact",
    "Walky.Props.C132_approx",
    "Walky.Props.C132_bounds",
    "Walky.Props.C132_factor",
    "Walky.Props.C132_equal",
    "Walky.Props.C132_program"
   ],
   "note": "Debug builds of christofides if the metric test passes; christofides on several threads for returned solutions, in debug builds or if the matching repeats no edge (otherwise C41_par_release_wrong)."
  },
  {
   "property": "C133",
   "status": "proved",
   "theorems": [
    "Walky.Props.C133_shortest",
    "Walky.Props.C133_road_tree",
    "Walky.Props.C133_program"
   ],
   "note": "The network is described by the inductive predicate RoadTree."
  }
 ]
}