{"id": "C01", "title": "next_permutation is the lexicographic successor", "statement": "next_permutation rewrites the array into the lexicographically next rearrangement of its elements and returns true; it returns false, leaving the array unchanged, exactly when no rearrangement is lexicographically larger.", "quantifier": "every array (any length, duplicates allowed) over every totally ordered element type", "why_tests_cant": "the test enumerates the 24 permutations of 0..4 only; off-by-one errors in pivot/successor search can appear only for longer arrays or repeated elements", "anchors": ["src/solvers/exact.rs:next_permutation"]}
{"id": "C02", "title": "Permutation enumeration is complete", "statement": "Starting from the sorted array 0,1,..,n-1 and calling next_permutation until it returns false visits every permutation of 0..n-1 exactly once, and the loop terminates.", "quantifier": "every n", "why_tests_cant": "n! orders cannot be enumerated for unbounded n", "anchors": ["src/solvers/exact.rs:next_permutation", "src/solvers/exact.rs:naive_solver", "src/solvers/exact.rs:first_improved_solver"]}
{"id": "C03", "title": "naive_solver (v0) is exact", "statement": "naive_solver returns a tour visiting every city exactly once, the returned cost is the length of that tour, and no tour is shorter.", "quantifier": "every finite cost matrix of every dimension", "why_tests_cant": "factorially many tours per matrix, infinitely many matrices", "anchors": ["src/solvers/exact.rs:naive_solver", "src/datastructures/mod.rs:AdjacencyMatrix::evaluate_circle"]}
{"id": "C04", "title": "first_improved_solver (v1) is exact", "statement": "first_improved_solver returns a tour visiting every city exactly once starting at city 0, the returned cost is the length of that tour, and no tour is shorter.", "quantifier": "every finite symmetric cost matrix of every dimension", "why_tests_cant": "infinitely many matrices; the skipped initial permutation matters only for special shapes/sizes", "anchors": ["src/solvers/exact.rs:first_improved_solver"]}
{"id": "C05", "title": "second_improved_solver (v2) is exact", "statement": "second_improved_solver returns a shortest tour over all cities together with its length.", "quantifier": "every finite cost matrix (symmetric or not, any sign) of every dimension n>=1", "why_tests_cant": "infinitely many matrices; the incrementally maintained partial sum must be restored on every backtracking path", "anchors": ["src/solvers/exact.rs:second_improved_solver", "src/solvers/exact.rs:_second_improved_solver_rec"]}
{"id": "C06", "title": "third_improved_solver (v3) is exact", "statement": "third_improved_solver, which prunes on the partial sum, still returns a shortest tour together with its length.", "quantifier": "every finite cost matrix with non-negative entries, every dimension n>=1", "why_tests_cant": "soundness of pruning is a statement about all branches that were not explored", "anchors": ["src/solvers/exact.rs:third_improved_solver", "src/solvers/exact.rs:_third_improved_solver_rec"]}
{"id": "C07", "title": "fourth_improved_solver (v4) is exact", "statement": "fourth_improved_solver, which prunes on partial sum plus a nearest-neighbour bound of the remaining vertices, returns a shortest tour together with its length.", "quantifier": "every finite symmetric cost matrix with non-negative entries, every dimension n>=1", "why_tests_cant": "the pruning bound must be admissible on every branch of every matrix; random tests rarely hit the failing branch", "anchors": ["src/solvers/exact.rs:fourth_improved_solver", "src/solvers/exact.rs:_fourth_improved_solver_rec", "src/solvers/exact.rs:compute_nn_of_remaining_vertices"]}
{"id": "C08", "title": "fifth_improved_solver (v5) is exact", "statement": "fifth_improved_solver, which prunes on partial sum plus a spanning-tree bound of the remaining vertices, returns a shortest tour together with its length.", "quantifier": "every finite symmetric cost matrix with non-negative entries, every dimension n>=1", "why_tests_cant": "the pruning bound must be admissible on every branch of every matrix", "anchors": ["src/solvers/exact.rs:fifth_improved_solver", "src/solvers/exact.rs:_fifth_improved_solver_rec", "src/mst.rs:prim_with_excluded_node_single_threaded", "src/parser.rs:Graph::directed_edge_weight"]}
{"id": "C09", "title": "sixth_improved_solver (v6) equals v5", "statement": "Caching the spanning-tree bound under the 64-bit hash of the prefix does not change the answer: sixth_improved_solver returns exactly what fifth_improved_solver returns.", "quantifier": "every cost matrix and every hash function without collisions on the prefixes", "why_tests_cant": "a hash collision or stale cache entry affects only particular prefixes among factorially many", "anchors": ["src/solvers/exact.rs:sixth_improved_solver", "src/solvers/exact.rs:_sixth_improved_solver_rec"]}
{"id": "C10", "title": "Branch-and-bound answers are truthful", "statement": "v2, v3, v4, v5 and v6 always terminate without panicking and return a permutation of all cities together with exactly the length of that tour, which is never above the length of the tour 0,1,..,n-1.", "quantifier": "every finite cost matrix of every dimension n>=1", "why_tests_cant": "the claim ranges over all matrices and all pruning decisions", "anchors": ["src/solvers/exact.rs:second_improved_solver", "src/solvers/exact.rs:third_improved_solver", "src/solvers/exact.rs:fourth_improved_solver", "src/solvers/exact.rs:fifth_improved_solver", "src/solvers/exact.rs:sixth_improved_solver"]}
{"id": "C11", "title": "Exact solvers agree on the cost", "statement": "Whatever algorithm version v0..v3 is chosen, the returned best cost is the same number.", "quantifier": "every finite symmetric non-negative matrix with n>=3", "why_tests_cant": "infinitely many matrices", "anchors": ["src/solvers/exact.rs:naive_solver", "src/solvers/exact.rs:first_improved_solver", "src/solvers/exact.rs:second_improved_solver", "src/solvers/exact.rs:third_improved_solver", "src/lib.rs:exact_run"]}
{"id": "C12", "title": "Search answers are well formed in every arithmetic", "statement": "Whatever the numeric behaviour of the cost type (rounding, overflow, NaN), the path returned by a branch-and-bound solver is either empty or a permutation of all cities.", "quantifier": "every matrix over every cost arithmetic, including IEEE double precision", "why_tests_cant": "rounding-dependent paths cannot be enumerated", "anchors": ["src/solvers/exact.rs:_second_improved_solver_rec", "src/solvers/exact.rs:_third_improved_solver_rec", "src/solvers/exact.rs:_fourth_improved_solver_rec", "src/solvers/exact.rs:_fifth_improved_solver_rec", "src/solvers/exact.rs:_sixth_improved_solver_rec"]}
{"id": "C13", "title": "Missing (infinite) edges do not hide finite tours", "statement": "If the matrix contains edges of cost infinity (unconnected pairs) but some tour of finite cost exists, second_improved_solver finds a shortest one.", "quantifier": "every matrix with entries finite or +infinity", "why_tests_cant": "requires reasoning about inf-inf in the running sum on all branches", "anchors": ["src/solvers/exact.rs:_second_improved_solver_rec", "src/datastructures/nalgebra.rs:NAMatrix::from_dim"]}
{"id": "C14", "title": "b-ary digit conversion round-trips", "statement": "The digits reported for a chunk boundary are the base-b representation, most significant first, with exactly number_digits digits, of the boundary value.", "quantifier": "every value below basis^number_digits, every basis >= 2, every digit count", "why_tests_cant": "unbounded ranges of values, bases and lengths", "anchors": ["src/solvers/exact.rs:split_up_b_ary_number_into_n_chunks", "src/solvers/exact.rs:convert_to_b_ary_digits"]}
{"id": "C15", "title": "get_next_value is increment with overflow detection", "statement": "get_next_value on a number with valid digits returns the digits of the number plus one, and None exactly when the number was the largest representable one.", "quantifier": "every digit vector of every length and every basis", "why_tests_cant": "carry chains of unbounded length", "anchors": ["src/solvers/exact.rs:get_next_value"]}
{"id": "C16", "title": "Work chunks are ordered, disjoint and cover the prefix space", "statement": "The n chunks returned by split_up_b_ary_number_into_n_chunks are consecutive disjoint intervals whose union is the whole space of basis^number_digits prefixes.", "quantifier": "every basis, digit count and number of chunks accepted by the function", "why_tests_cant": "divisibility corner cases over unbounded parameters", "anchors": ["src/solvers/exact.rs:split_up_b_ary_number_into_n_chunks"]}
{"id": "C17", "title": "Threaded solver: the answer's cost is schedule independent", "statement": "Whatever order the worker threads run in and acquire the lock, the cost returned by threaded_solver is the same, and the returned path is a tour having that cost.", "quantifier": "every interleaving of every number of threads on every finite matrix", "why_tests_cant": "schedules cannot be enumerated by running the program", "anchors": ["src/solvers/exact.rs:threaded_solver", "src/solvers/exact.rs:threaded_solver_generic"]}
{"id": "C18", "title": "Threaded solver: no tour's prefix is skipped", "statement": "For every tour, the prefix work handed to some thread contains the first three cities of some rotation of the tour.", "quantifier": "every dimension, every number of threads below the dimension", "why_tests_cant": "boundary prefixes between chunks are skipped by the loop; which ones matter depends on dimension and thread count", "anchors": ["src/solvers/exact.rs:threaded_solver_generic", "src/solvers/exact.rs:split_up_b_ary_number_into_n_chunks", "src/solvers/exact.rs:get_next_value"]}
{"id": "C19", "title": "Threaded solver always returns a tour", "statement": "threaded_solver returns a tour over all cities (not an empty path with infinite cost).", "quantifier": "every finite matrix with n>=1, every number of available CPUs", "why_tests_cant": "depends on the machine's CPU count", "anchors": ["src/solvers/exact.rs:threaded_solver_generic"]}
{"id": "C20", "title": "Threaded solver is exact", "statement": "threaded_solver returns a shortest tour and its length.", "quantifier": "every finite symmetric non-negative matrix, every number of CPUs, every schedule", "why_tests_cant": "all schedules, all matrices", "anchors": ["src/solvers/exact.rs:threaded_solver"]}
{"id": "C21", "title": "Static MPI solver terminates without deadlock", "statement": "With non-negative costs, under every message delivery order the coordinator stops listening after every worker has announced completion, no process waits forever, and everybody reaches the final barrier.", "quantifier": "every world size >= 2, every interleaving of sends/receives, every finite non-negative matrix", "why_tests_cant": "message races cannot be enumerated", "anchors": ["src/solvers/exact.rs:static_mpi_solver_generic", "src/solvers/exact.rs:static_mpi_solver_generic_root", "src/solvers/exact.rs:static_mpi_solver_generic_nonroot"]}
{"id": "C22", "title": "Static MPI solver: winner is consistent", "statement": "When the static MPI solver finishes, the broadcast cost is the minimum over all workers' local results, and the winning rank's local path has exactly that cost.", "quantifier": "every interleaving, every world size, every matrix", "why_tests_cant": "message races", "anchors": ["src/solvers/exact.rs:static_mpi_solver_generic_root", "src/solvers/exact.rs:static_mpi_solver_generic_nonroot"]}
{"id": "C23", "title": "Static MPI solver finds a tour for every world size", "statement": "The static MPI solver returns a tour over all cities for every number of processes.", "quantifier": "every world size accepted by the solver, every finite matrix", "why_tests_cant": "needs clusters of every size", "anchors": ["src/solvers/exact.rs:static_mpi_solver_generic", "src/solvers/exact.rs:split_up_b_ary_number_into_n_chunks"]}
{"id": "C24", "title": "Dynamic MPI solver: each prefix is handed out exactly once and everyone is released", "statement": "Under every message order the dynamic coordinator hands each duplicate-free 3-prefix from [1,2,3] upwards to exactly one worker, in order, releases every worker exactly once with the zero prefix, and terminates.", "quantifier": "every world size >= 2, every interleaving, every n >= 4", "why_tests_cant": "message races", "anchors": ["src/solvers/exact.rs:dynamic_mpi_solver_root", "src/solvers/exact.rs:dynamic_mpi_solver_nonroot"]}
{"id": "C25", "title": "Dynamic MPI solver covers every tour", "statement": "Every tour has a rotation whose first three cities are among the prefixes the dynamic coordinator hands out (all of which are valid cities).", "quantifier": "every n and every tour", "why_tests_cant": "all tours of all sizes", "anchors": ["src/solvers/exact.rs:dynamic_mpi_solver_root"]}
{"id": "C26", "title": "Dynamic MPI solver: winner is consistent", "statement": "When the dynamic MPI solver finishes, the broadcast cost is the minimum over all workers' local results, and the winning rank's local path has exactly that cost.", "quantifier": "every interleaving, every world size, every matrix", "why_tests_cant": "message races", "anchors": ["src/solvers/exact.rs:dynamic_mpi_solver_root", "src/solvers/exact.rs:dynamic_mpi_solver_nonroot"]}
{"id": "C27", "title": "Final MPI broadcast delivers the winner's path to every rank", "statement": "In the wrap-up of the MPI solvers every rank passes a buffer of the same length as the winner's path, so that all ranks return the same solution.", "quantifier": "every interleaving and world size", "why_tests_cant": "depends on which workers found a local solution under the given message timing", "anchors": ["src/solvers/exact.rs:static_mpi_solver_generic", "src/solvers/exact.rs:dynamic_mpi_solver"]}
{"id": "C28", "title": "Prim returns a spanning tree", "statement": "prim (and prim_with_excluded_node_*_threaded) returns an undirected graph on the non-excluded vertices that is connected, has one edge fewer than vertices, whose edges carry the matrix costs, and in which excluded vertices are isolated; if all vertices are excluded the result is empty.", "quantifier": "every finite symmetric matrix, every set of excluded vertices", "why_tests_cant": "all graphs and all exclusion sets", "anchors": ["src/mst.rs:prim", "src/mst.rs:prim_with_excluded_node_single_threaded", "src/mst.rs:prim_with_excluded_node"]}
{"id": "C29", "title": "Prim's tree has minimum weight", "statement": "The undirected weight of the tree returned by prim is at most the weight of every connected edge set spanning the same vertices.", "quantifier": "every finite symmetric matrix, every exclusion set, every competing spanning tree", "why_tests_cant": "all competitors", "anchors": ["src/mst.rs:prim", "src/mst.rs:prim_with_excluded_node_single_threaded", "src/parser.rs:Graph::undirected_edge_weight"]}
{"id": "C30", "title": "Multi-threaded Prim equals single-threaded Prim", "statement": "prim with PAR_COMPUTATION returns exactly the same graph (same edges in the same order) as with SEQ_COMPUTATION, for every way rayon splits and reduces the work.", "quantifier": "every matrix, every exclusion set, every reduction tree and every order of the per-vertex updates, in every arithmetic with a consistent order", "why_tests_cant": "schedules cannot be enumerated", "anchors": ["src/mst.rs:MultiThreadedVecWrapper", "src/mst.rs:prim_with_excluded_node_multi_threaded"]}
{"id": "C31", "title": "Priority-queue Prim equals the other variants", "statement": "prim_with_excluded_node_priority_queue returns a minimum spanning tree of the same weight as the other variants, whose edges join the vertices with the matrix costs.", "quantifier": "every finite symmetric matrix, every tie-breaking of the heap", "why_tests_cant": "ties and insertion orders; the existing test uses a path-shaped tree", "anchors": ["src/mst.rs:prim_with_excluded_node_priority_queue", "src/mst.rs:VerticesInPriorityQueue"]}
{"id": "C32", "title": "MST weight is a lower bound on every tour", "statement": "The value printed by the MST lower bound is at most the length of every tour.", "quantifier": "every finite symmetric non-negative matrix, every tour", "why_tests_cant": "all tours", "anchors": ["src/mst.rs:prim", "src/lib.rs:lower_bound_run"]}
{"id": "C33", "title": "one_tree builds a 1-tree", "statement": "one_tree(graph, v) is a minimum spanning tree of the graph without v plus the two cheapest edges at v, leading to two different vertices.", "quantifier": "every finite symmetric matrix with n>=3 and every special vertex", "why_tests_cant": "all graphs", "anchors": ["src/one_tree.rs:one_tree"]}
{"id": "C34", "title": "The 1-tree bound is a lower bound on every tour", "statement": "one_tree_lower_bound(graph) is at most the length of every tour.", "quantifier": "every finite symmetric matrix, every dimension n>=2, every tour", "why_tests_cant": "all tours of all graphs", "anchors": ["src/one_tree.rs:one_tree_lower_bound", "src/one_tree.rs:one_tree"]}
{"id": "C35", "title": "1-tree bound is the same in all computation modes", "statement": "one_tree_lower_bound yields the same number sequentially, with rayon under every reduction tree, and on the MPI root for every world size.", "quantifier": "every finite matrix n>=3, every reduction tree, every world size", "why_tests_cant": "schedules and cluster sizes", "anchors": ["src/one_tree.rs:one_tree_lower_bound_seq", "src/one_tree.rs:one_tree_lower_bound_par", "src/one_tree.rs:one_tree_lower_bound_mpi"]}
{"id": "C36", "title": "The 1-tree bound dominates the MST bound", "statement": "one_tree_lower_bound is at least the MST lower bound.", "quantifier": "every finite symmetric non-negative matrix with n>=3", "why_tests_cant": "all graphs", "anchors": ["src/one_tree.rs:one_tree_lower_bound", "src/mst.rs:prim"]}
{"id": "C37", "title": "single_nearest_neighbour returns a truthful tour", "statement": "single_nearest_neighbour(graph, index) terminates without panicking and returns a permutation of all cities starting at index together with the length of that closed tour.", "quantifier": "every finite matrix, every start index < n", "why_tests_cant": "all graphs", "anchors": ["src/solvers/approximate/nearest_neighbour.rs:single_nearest_neighbour"]}
{"id": "C38", "title": "Nearest neighbour is greedy", "statement": "Each city in the returned path is at minimal distance from its predecessor among the cities not visited before.", "quantifier": "every matrix, every start, every position in the path", "why_tests_cant": "all graphs", "anchors": ["src/solvers/approximate/nearest_neighbour.rs:single_nearest_neighbour"]}
{"id": "C39", "title": "nearest_neighbour's cost is independent of shuffling and mode", "statement": "nearest_neighbour returns the minimum of the single-start costs over all starts, for every outcome of the random shuffle and every rayon reduction; n_nearest_neighbour returns the minimum over the n distinct starts drawn.", "quantifier": "every finite matrix, every shuffle outcome, every reduction tree", "why_tests_cant": "randomness and schedules", "anchors": ["src/solvers/approximate/nearest_neighbour.rs:n_nearest_neighbour", "src/solvers/approximate/nearest_neighbour.rs:nearest_neighbour", "src/solvers/approximate/nearest_neighbour.rs:n_random_numbers"]}
{"id": "C40", "title": "MPI nearest neighbour equals the sequential one", "statement": "With the MPI mode every rank returns the same solution, whose cost equals that of the sequential nearest_neighbour, for every order in which MPI combines the partial results.", "quantifier": "every world size, every reduction order, every finite matrix", "why_tests_cant": "cluster sizes and reduction orders", "anchors": ["src/solvers/approximate/nearest_neighbour.rs:nearest_neighbour_mpi"]}
{"id": "C41", "title": "christofides returns a truthful Hamiltonian cycle", "statement": "christofides returns a closed walk that starts and ends at city 0, visits every city exactly once in between, and whose reported cost is its length.", "quantifier": "every finite symmetric matrix with n>=1, every sequence of random shuffles, SEQ and PAR modes", "why_tests_cant": "randomness and all graphs", "anchors": ["src/solvers/approximate/christofides.rs:christofides", "src/solvers/approximate/christofides.rs:christofides_generic", "src/solvers/approximate/christofides.rs:eulerian_cycle_from_multigraph", "src/solvers/approximate/christofides.rs:hamiltonian_from_eulerian_cycle"]}
{"id": "C42", "title": "christofides_generic cost is bounded by MST plus matching", "statement": "If the matching pairs up exactly the odd-degree vertices of the MST, the cost returned by christofides_generic is at most the MST weight plus the matching weight.", "quantifier": "every metric matrix, every perfect matching of the odd vertices", "why_tests_cant": "all graphs and matchings", "anchors": ["src/solvers/approximate/christofides.rs:christofides_generic"]}
{"id": "C43", "title": "christofides_generic is a 3/2-approximation with an optimal matching", "statement": "If the matching computer returns a minimum-weight perfect matching of the odd-degree vertices, the cost returned by christofides_generic is at most 3/2 of the length of every tour.", "quantifier": "every metric matrix, every tour", "why_tests_cant": "all graphs and tours", "anchors": ["src/solvers/approximate/christofides.rs:christofides_generic"]}
{"id": "C44", "title": "The matching handed to the multigraph is perfect", "statement": "compute_approx_matching returns edges that contain every odd-degree vertex of the MST exactly once and no other vertex.", "quantifier": "every finite symmetric matrix, every sequence of shuffles", "why_tests_cant": "randomness", "anchors": ["src/solvers/approximate/christofides.rs:compute_approx_matching", "src/solvers/approximate/matching.rs:approx_min_cost_matching", "src/solvers/approximate/matching.rs:improve_matching", "src/solvers/approximate/matching.rs:optimize_two_matching"]}
{"id": "C45", "title": "Local search never worsens the matching", "statement": "improve_matching never increases the total cost of the matching.", "quantifier": "every symmetric matrix, every matching, every number of tries, every shuffle sequence", "why_tests_cant": "randomness", "anchors": ["src/solvers/approximate/matching.rs:improve_matching", "src/solvers/approximate/matching.rs:optimize_two_matching", "src/solvers/approximate/matching.rs:par_improve_matching"]}
{"id": "C46", "title": "Multigraph construction is the union of MST and matching in both modes", "statement": "fill_multigraph_with_mst_and_matching returns, for every pair (i,j), the number of MST edges plus the number of matching edges between i and j; sequential and parallel modes agree when no edge is repeated in the matching.", "quantifier": "every MST, every matching, every order of parallel updates", "why_tests_cant": "schedules", "anchors": ["src/solvers/approximate/christofides.rs:fill_multigraph_with_mst_and_matching"]}
{"id": "C47", "title": "Hierholzer walk uses every edge exactly once", "statement": "On a connected multigraph with even degrees, eulerian_cycle_from_multigraph terminates and returns a closed walk from vertex 0 traversing every edge exactly as often as its multiplicity.", "quantifier": "every connected even multigraph", "why_tests_cant": "all multigraphs", "anchors": ["src/solvers/approximate/christofides.rs:eulerian_cycle_from_multigraph", "src/solvers/approximate/christofides.rs:find_cycle"]}
{"id": "C48", "title": "Shortcutting keeps first visits and does not lengthen the walk", "statement": "hamiltonian_from_eulerian_cycle keeps exactly the first occurrence of each vertex in order, closes the cycle at the first vertex, and on metric graphs does not increase the length.", "quantifier": "every non-empty walk over valid vertices", "why_tests_cant": "all walks", "anchors": ["src/solvers/approximate/christofides.rs:hamiltonian_from_eulerian_cycle"]}
{"id": "C49", "title": "is_hamiltonian_cycle decides Hamiltonicity", "statement": "For a closed walk (first vertex = last vertex, at least two entries) is_hamiltonian_cycle is true exactly when the walk without its last entry is a permutation of all vertices.", "quantifier": "every walk and every graph size", "why_tests_cant": "all walks", "anchors": ["src/solvers/mod.rs:is_hamiltonian_cycle"]}
{"id": "C50", "title": "Approximations never beat the optimum", "statement": "The costs returned by nearest_neighbour and christofides are at least the cost returned by the exact solvers v0..v3, and at least the MST and 1-tree bounds.", "quantifier": "every finite symmetric non-negative matrix n>=3, all randomness", "why_tests_cant": "all graphs", "anchors": ["src/solvers/approximate/nearest_neighbour.rs:nearest_neighbour", "src/solvers/approximate/christofides.rs:christofides", "src/one_tree.rs:one_tree_lower_bound"]}
{"id": "C51", "title": "MPI matching improvement returns the best rank's matching everywhere", "statement": "mpi_improve_matching leaves the same matching on all ranks, whose cost is the minimum over all ranks.", "quantifier": "every world size, every per-rank local search outcome", "why_tests_cant": "cluster sizes", "anchors": ["src/solvers/approximate/matching.rs:mpi_improve_matching"]}
{"id": "C52", "title": "is_metric decides the triangle inequality", "statement": "is_metric returns true exactly when cost(i,j) <= cost(i,k)+cost(k,j)+1e-10 for all i,j,k.", "quantifier": "every symmetric matrix", "why_tests_cant": "all triples of all matrices", "anchors": ["src/datastructures/mod.rs:AdjacencyMatrix::is_metric"]}
{"id": "C53", "title": "Tour length is invariant under rotation and reversal", "statement": "evaluate_circle gives the same value for a cycle read from any starting city, and for symmetric matrices also in reverse; evaluate_circle = evaluate_path + closing edge.", "quantifier": "every path and matrix (exact arithmetic)", "why_tests_cant": "all paths", "anchors": ["src/datastructures/mod.rs:AdjacencyMatrix::evaluate_circle", "src/datastructures/mod.rs:AdjacencyMatrix::evaluate_path"]}
{"id": "C54", "title": "Graph to matrix conversions agree", "statement": "For a graph accepted by do_conditions_hold the NAMatrix and VecMatrix conversions have the same off-diagonal entries, and each given edge's cost appears at its position.", "quantifier": "every accepted graph", "why_tests_cant": "all graphs", "anchors": ["src/datastructures/nalgebra.rs:From<&Graph> for NAMatrix", "src/datastructures/vecmatrix.rs:From<Graph> for VecMatrix"]}
{"id": "C55", "title": "Accepted instances are complete undirected graphs", "statement": "do_conditions_hold is true exactly for graphs in which every vertex has exactly one edge to every other vertex, none to itself, and both directions have the same cost.", "quantifier": "every graph", "why_tests_cant": "all graphs", "anchors": ["src/parser.rs:TravellingSalesmanProblemInstance::do_conditions_hold", "src/preconditions.rs:is_fully_connected", "src/preconditions.rs:is_multi_edge", "src/preconditions.rs:is_undirected"]}
{"id": "C56", "title": "from_points and par_from_points build the same Euclidean matrix", "statement": "Both constructors return the same symmetric matrix with zero diagonal holding the Euclidean distances, for every parallel schedule; with exact square roots it satisfies is_metric.", "quantifier": "every list of points", "why_tests_cant": "all point sets", "anchors": ["src/datastructures/nalgebra.rs:NAMatrix::from_points", "src/datastructures/nalgebra.rs:NAMatrix::par_from_points"]}
{"id": "C57", "title": "Generated instances are accepted", "statement": "The instance written by gen_matrix_fast is accepted by do_conditions_hold.", "quantifier": "every n and all random points", "why_tests_cant": "randomness", "anchors": ["utils/gen_matrix_fast/src/main.rs:generate_xml_from_matrix", "src/parser.rs:TravellingSalesmanProblemInstance::do_conditions_hold"]}
{"id": "C58", "title": "Edge weights and insertion are consistent", "statement": "add_undirected_edge raises undirected_edge_weight by exactly the edge cost and both vertex degrees by one; undirected_edge_weight is half of directed_edge_weight.", "quantifier": "every graph, every pair of vertices", "why_tests_cant": "all graphs", "anchors": ["src/parser.rs:Graph::add_undirected_edge", "src/parser.rs:Graph::directed_edge_weight", "src/parser.rs:Graph::undirected_edge_weight", "src/parser.rs:Graph::vertex_degree"]}
{"id": "C59", "title": "The command line reports consistent bounds", "statement": "For an accepted instance the number printed by `walky lower-bound` (mst, mst-queue, one-tree) is at most the cost printed by `walky exact` (v0..v3), which is at most the cost printed by `walky approx`.", "quantifier": "every accepted instance with n>=3 and non-negative costs, every parallelism except MPI, all randomness", "why_tests_cant": "all instances", "anchors": ["src/lib.rs:run", "src/lib.rs:exact_run", "src/lib.rs:approx_run", "src/lib.rs:lower_bound_run"]}
{"id": "C60", "title": "Static MPI solver: quality of the result", "statement": "With fewer workers than cities and symmetric non-negative costs, all ranks of the static MPI solver return the same tour with its length, at most twice the length of a shortest tour and shortest for up to five cities.", "quantifier": "every n >= 3, every number of workers from 1 to n-1, every interleaving, every symmetric non-negative matrix", "why_tests_cant": "message races decide what is pruned", "anchors": ["src/solvers/exact.rs:static_mpi_solver_generic", "src/solvers/exact.rs:_mpi_improved_solver_rec"]}
{"id": "C61", "title": "Dynamic MPI solver: quality of the result", "statement": "With at least four cities and symmetric non-negative costs, the cost broadcast by the dynamic MPI solver is the length of a tour, at most twice the length of a shortest tour and shortest for up to five cities.", "quantifier": "every n >= 4, every number of workers, every interleaving, every symmetric non-negative matrix", "why_tests_cant": "message races decide what is pruned", "anchors": ["src/solvers/exact.rs:dynamic_mpi_solver", "src/solvers/exact.rs:_mpi_improved_solver_rec"]}
{"id": "C62", "title": "MPI Christofides returns a truthful Hamiltonian cycle", "statement": "The root of an MPI run of christofides returns a closed walk that starts and ends at city 0, visits every city exactly once in between, and whose reported cost is its length.", "quantifier": "every finite matrix (passing is_metric in debug builds), every number of processes, every shuffle on every rank", "why_tests_cant": "randomness on all ranks and all cluster sizes", "anchors": ["src/solvers/approximate/christofides.rs:christofides", "src/solvers/approximate/matching.rs:mpi_improve_matching", "src/lib.rs:approx_run"]}
{"id": "C63", "title": "Integer costs: double precision does not matter", "statement": "If all costs are integers (or multiples of a power of two not below 2^-32) of size at most M with (4n+8)*M <= 2^53 (times that power), then every command prints in IEEE double precision exactly what it would print in exact arithmetic; in particular `walky exact` v0..v3 prints exactly the length of a shortest tour.", "quantifier": "every instance with such costs, every command without MPI, debug and release builds, all randomness and schedules", "why_tests_cant": "floating point rounding depends on the instance; all instances, all schedules", "anchors": ["src/lib.rs:run", "src/solvers/exact.rs", "src/solvers/approximate", "src/computation_mode.rs"]}
{"id": "C64", "title": "Integer costs: MPI programs in double precision", "statement": "Under the same condition the possible results of the static and dynamic MPI solvers, MPI nearest neighbour, MPI 1-tree bound and MPI Christofides in IEEE double precision are exactly the possible results in exact arithmetic.", "quantifier": "every such matrix, every number of processes, every message order, all randomness", "why_tests_cant": "floating point rounding and message races", "anchors": ["src/solvers/exact.rs:static_mpi_solver", "src/solvers/exact.rs:dynamic_mpi_solver", "src/solvers/approximate/nearest_neighbour.rs", "src/solvers/approximate/christofides.rs"]}
{"id": "C65", "title": "Exact solvers in double precision are accurate", "statement": "With costs between -M and M and 2nM <= 2^k, the tour printed by v0, v1 (v2, v3) has its true length within n*2^(k-54) (resp. (2n^2+1)*2^(k-54)) of the printed one, and that tour is longer than a shortest tour by at most twice that bound (v1: symmetric costs, v3: nonnegative costs).", "quantifier": "every matrix of 3 to 2^25 cities with costs between -M and M (doubles or not), every k from -1021 to 1023, all tours", "why_tests_cant": "rounding errors depend on the instance; n! tours", "anchors": ["src/solvers/exact.rs:naive_solver", "src/solvers/exact.rs:first_improved_solver", "src/solvers/exact.rs:second_improved_solver", "src/solvers/exact.rs:third_improved_solver", "src/datastructures/mod.rs:evaluate_circle"]}
{"id": "C66", "title": "Relative accuracy for nonnegative costs", "statement": "With nonnegative costs the printed length is within a factor (1+2^-53)^n of the true length of the printed tour and of the optimum.", "quantifier": "every matrix of nonnegative double precision costs with at least three cities whose tours do not overflow", "why_tests_cant": "rounding errors depend on the instance", "anchors": ["src/solvers/exact.rs", "src/datastructures/mod.rs:evaluate_circle"]}
{"id": "C67", "title": "MPI command line: lower bounds <= optimum <= tours", "statement": "With `--parallelism mpi` every lower bound printed by any rank is at most the length of a shortest tour and every printed tour length is at least that; all ranks agree on the result; nearest neighbour, 1-tree and MST print what the sequential program prints; the exact solvers print the optimum.", "quantifier": "every accepted instance with nonnegative finite costs, every command, every number of processes, all message orders and random numbers", "why_tests_cant": "needs an MPI cluster; message races and all instances", "anchors": ["src/lib.rs:run", "src/lib.rs:exact_run", "src/lib.rs:approx_run", "src/lib.rs:lower_bound_run"]}
{"id": "C68", "title": "MPI command line: approximation together with a lower bound", "statement": "`walky approx ... --parallelism mpi --lower-bound X` prints the approximation and the lower bound X.", "quantifier": "every accepted instance, both approximation algorithms, all three bounds, every number of processes", "why_tests_cant": "needs an MPI cluster", "anchors": ["src/lib.rs:approx_run", "src/lib.rs:lower_bound_run"]}
{"id": "C69", "title": "MPI command line: the result is printed once", "statement": "Only the root process writes the result to stdout.", "quantifier": "every command with MPI, every input, every number of processes", "why_tests_cant": "needs an MPI cluster", "anchors": ["src/lib.rs:191", "src/lib.rs:exact_run", "src/lib.rs:approx_run"]}
{"id": "C70", "title": "1-tree job: no deadlock and the right value, rank by rank", "statement": "When the ranks of an MPI job run `one_tree_lower_bound_mpi_with_world`, every execution ends, no rank fails, the root has the sequential bound and the other ranks infinity.", "quantifier": "every symmetric matrix of finite costs with at least three cities, every number of ranks up to the number of cities, every interleaving of the ranks, every order and tree of the reduction, every choice of MPI which operations wait for other ranks", "why_tests_cant": "interleavings and MPI's freedom to synchronise or not cannot be enumerated by tests", "anchors": ["src/one_tree.rs:120-147"]}
{"id": "C71", "title": "Nearest neighbour job: no deadlock and the right value, rank by rank", "statement": "When the ranks of an MPI job run `nearest_neighbour_mpi`, every execution ends, no rank fails, and all ranks return the same tour, truthfully priced, with the sequential cost.", "quantifier": "every matrix of finite costs, every number of ranks up to the number of cities, every interleaving, reduction order and synchronisation behaviour of MPI", "why_tests_cant": "interleavings and MPI's freedom to synchronise or not cannot be enumerated by tests", "anchors": ["src/solvers/approximate/nearest_neighbour.rs:128-185"]}
{"id": "C72", "title": "Matching job: no deadlock and the best matching, rank by rank", "statement": "When the root runs `mpi_improve_matching` and the other ranks the bootstrap followed by `mpi_improve_matching`, the other ranks receive the graph and matching of the root, every execution ends, no rank fails, and all ranks have the best of the matchings found.", "quantifier": "every matrix of finite costs, non-empty matching, number of tries and ranks, all shuffles, every interleaving and synchronisation behaviour of MPI (buffered or unbuffered sends)", "why_tests_cant": "interleavings, shuffles and MPI's freedom to buffer or not cannot be enumerated by tests", "anchors": ["src/solvers/approximate/matching.rs:209-368", "src/lib.rs:115-124"]}
{"id": "C73", "title": "Exact MPI solvers: no deadlock when sends wait for the receiver", "statement": "The static and dynamic solvers do not rely on buffered messages: whichever ranks MPI holds in a send until the message is received, some rank can go on until all have reached the barrier.", "quantifier": "every reachable state, every set of held ranks; static: non-negative costs, 1 to n^3 - 1 workers; dynamic: finite costs, at least four cities, every number of workers", "why_tests_cant": "MPI implementations buffer small messages, so a test does not see the deadlocks that the standard permits", "anchors": ["src/solvers/exact.rs:820-960", "src/solvers/exact.rs:1143-1260"]}
{"id": "C74", "title": "MST and 1-tree bounds are accurate in double precision", "statement": "In IEEE double precision the printed weight of a minimum spanning tree (all three variants of Prim's algorithm) and the printed 1-tree bound (sequential, rayon, MPI) differ from the exact values by a relative error of at most (1+2^-53)^(3n+2)-1 and (1+2^-53)^(3n+6)-1; so up to that factor they are lower bounds on every tour.", "quantifier": "every symmetric matrix whose entries are doubles between 0 and M with 2nM(1+2^-53)^(3n+6) <= 2^1023 (1-tree: at least three cities; MPI: at most n processes), every schedule, heap and reduction order", "why_tests_cant": "rounding errors depend on all bits of all costs and on the order of the additions", "anchors": ["src/mst.rs:prim_with_excluded_node", "src/parser.rs:Graph::undirected_edge_weight", "src/one_tree.rs:one_tree_lower_bound"]}
{"id": "C75", "title": "Nearest neighbour is accurate in double precision", "statement": "In IEEE double precision every start gives the tour of exact arithmetic, priced up to a relative error of (1+2^-53)^n-1; nearest_neighbour (sequential, rayon, MPI) and n_nearest_neighbour return one of these tours, and the reported cost is at most (1+2^-53)^n times the length of every tour tried.", "quantifier": "every matrix whose entries are doubles between 0 and M with nM(1+2^-53)^n <= 2^1023, every shuffle, reduction tree and number of processes up to n", "why_tests_cant": "rounding errors depend on all bits of all costs", "anchors": ["src/solvers/approximate/nearest_neighbour.rs:single_nearest_neighbour", "src/solvers/approximate/nearest_neighbour.rs:nearest_neighbour", "src/solvers/approximate/nearest_neighbour.rs:nearest_neighbour_mpi"]}
{"id": "C76", "title": "Christofides reports its tour truthfully in double precision", "statement": "In IEEE double precision christofides returns a Hamiltonian cycle from city 0 and reports its length up to a relative error of (1+2^-53)^n-1.", "quantifier": "every matrix whose entries are doubles between 0 and M with nM(1+2^-53)^n <= 2^1023, all random numbers, schedules and numbers of processes, debug and release builds", "why_tests_cant": "rounding may change the computed matching; random numbers and schedules", "anchors": ["src/solvers/approximate/christofides.rs:christofides", "src/solvers/approximate/christofides.rs:christofides_generic"]}
{"id": "C77", "title": "Output of the command line in double precision", "statement": "For an accepted instance, what walky prints in IEEE double precision is right up to rounding: printed lower bounds are at most (1+2^-53)^(3n+6) times the length of every tour, and a printed tour length is that of a tour (the printed one, if a tour is printed) up to a relative error of (1+2^-53)^n-1; walky exact prints a shortest tour up to this factor.", "quantifier": "every accepted instance of at least three cities without edges from a vertex to itself whose costs are doubles between 0 and M with 2nM(1+2^-53)^(3n+6) <= 2^1023, every command without MPI, all random numbers and schedules", "why_tests_cant": "rounding errors, random numbers and schedules", "anchors": ["src/lib.rs:exact_run", "src/lib.rs:approx_run", "src/lib.rs:lower_bound_run", "src/lib.rs:run"]}
{"id": "C78", "title": "The pruned exact solvers are accurate in double precision", "statement": "In IEEE double precision v4, v5, v6 (with any hash function) and the threaded solver (under every schedule) return a tour, and the reported cost differs from its length by at most (2n^2+1) 2^(k-54), where 4nM <= 2^k. For symmetric costs that are not negative the cost reported by v5, the threaded solver, and v6 without hash collisions is at most (2n^2+3n+1) 2^(k-54) above twice the length of every tour. The threaded solver neither panics nor gets stuck, and its cost does not depend on the schedule.", "quantifier": "every matrix of 2 to 2^25 cities with costs of size at most M, 4nM <= 2^k, -1021 <= k <= 1023 (the costs need not be doubles), every number of threads except one thread for two cities, every schedule", "why_tests_cant": "rounding errors accumulate along the whole search and depend on all costs; schedules", "anchors": ["src/solvers/exact.rs:fourth_improved_solver", "src/solvers/exact.rs:fifth_improved_solver", "src/solvers/exact.rs:sixth_improved_solver", "src/solvers/exact.rs:threaded_solver"]}
{"id": "C79", "title": "The MPI exact solvers in double precision", "statement": "In IEEE double precision the MPI solvers with static and dynamic work distribution do not panic, deadlock or run forever before the final broadcast, even if every send waits for its receiver; at the end the broadcast cost is not larger than any worker's, and it is the length of the winner's tour up to (2n^2+1) 2^(k-54); for symmetric costs (static: fewer workers than cities) it is at most (2n^2+3n+1) 2^(k-54) above twice the length of every tour. With fewer workers than cities all ranks of the static solver return that tour, with one worker also those of the dynamic solver. The final broadcast fails if a worker of the static solver has nothing to search, and may fail with two or more workers of the dynamic solver.", "quantifier": "every matrix of 2 (dynamic: 4) to 2^25 cities whose costs are doubles between 0 and M, 4nM <= 2^k, -1021 <= k <= 1023; static: fewer than n^3 workers; dynamic: every number of workers; every message order", "why_tests_cant": "rounding errors depend on all costs and on which bounds arrive before which search; message orders", "anchors": ["src/solvers/exact.rs:static_mpi_solver", "src/solvers/exact.rs:static_mpi_solver_generic_root", "src/solvers/exact.rs:static_mpi_solver_generic_nonroot", "src/solvers/exact.rs:dynamic_mpi_solver", "src/solvers/exact.rs:dynamic_mpi_solver_root", "src/solvers/exact.rs:dynamic_mpi_solver_nonroot"]}
{"id": "C80", "title": "`walky exact` in double precision, all algorithms and threads", "statement": "On an accepted instance walky exact (any of v0 to v6 on a single thread, or several threads) never fails in IEEE double precision: every outcome is a tour and a number that is its length up to (2n^2+1) 2^(k-54). On a single thread with v0 to v3 no tour is shorter by more than twice that; for v5, v6 with a hash without collisions and several threads the number is at most (2n^2+3n+1) 2^(k-54) above twice the length of any tour.", "quantifier": "every accepted instance of 3 to 2^25 cities without edges from a vertex to itself, costs between 0 and M, 4nM <= 2^k, -1021 <= k <= 1023; every algorithm, number of CPUs, hash function and schedule", "why_tests_cant": "rounding errors depend on all costs and on the order of the search; schedules", "anchors": ["src/lib.rs:exact_run", "src/lib.rs:run", "src/solvers/exact.rs:fourth_improved_solver", "src/solvers/exact.rs:sixth_improved_solver", "src/solvers/exact.rs:threaded_solver"]}
{"id": "C81", "title": "MPI jobs in double precision", "statement": "On an accepted instance, in IEEE double precision: all ranks of walky exact v0 (2 to n processes) and, unless the final broadcast fails, v1 (at least 4 cities and 2 processes) print the same tour and its length up to (2n^2+1) 2^(k-54), at most (2n^2+3n+1) 2^(k-54) above twice the length of any tour; all ranks of walky approx nearest-neighbour (at most n processes) print the same tour and its length up to a relative error of (1+2^-53)^n - 1; the root of walky approx christofides prints the length of a tour up to the same error and all other ranks nothing; every printed lower bound is at most (1+2^-53)^(3n+6) times the length of every tour.", "quantifier": "every accepted instance of 3 to 2^25 cities without edges from a vertex to itself, costs that are doubles between 0 and M, 4nM <= 2^k, 2nM (1+2^-53)^(3n+6) <= 2^1023; all random numbers, message orders and reduction orders", "why_tests_cant": "message orders, numbers of processes and rounding errors", "anchors": ["src/lib.rs:exact_run", "src/lib.rs:approx_run", "src/lib.rs:lower_bound_run", "src/lib.rs:run"]}
{"id": "C82", "title": "Lower bounds are at least half of the optimum on metrics", "statement": "If the costs are a metric, the lower bounds are not far from the truth: there is a tour of at most twice the weight of the minimum spanning tree (sequential, rayon, priority queue) and one of at most twice the 1-tree bound (sequential, rayon, MPI). Without the triangle inequality both bounds can be 0 while every tour has length at least 1. The factor 2 is best possible: for every n >= 4 there is a metric on n cities with spanning tree weight at most n-1, 1-tree bound at most n and no tour shorter than 2n-4.", "quantifier": "every metric on any number of cities (1-tree: three or more); every reduction tree, update order, heap order and number of processes up to the number of cities", "why_tests_cant": "all metrics", "anchors": ["src/mst.rs:prim", "src/mst.rs:prim_with_priority_queue", "src/one_tree.rs:one_tree_lower_bound"]}
{"id": "C83", "title": "Nearest neighbour guarantee on metrics", "statement": "If the costs are a metric on n cities, every nearest neighbour tour is at most (ceil(log2 n) + 1)/2 times as long as any tour (theorem of Rosenkrantz, Stearns and Lewis): from every start, for every number of random starts, sequentially, with rayon and with MPI (at most n processes). The logarithm is needed: for every k there is a metric on 2(2^(k+1)-1) cities with a tour of length at most 16*2^k on which every nearest neighbour tour, from every start and in every mode, has length at least k*2^k; so no constant factor holds, even if all cities are tried as starts.", "quantifier": "every metric on any number of cities; every start, shuffle, reduction tree, number of processes up to n", "why_tests_cant": "the optimum is not known for large instances; all metrics", "anchors": ["src/solvers/approximate/nearest_neighbour.rs:single_nearest_neighbour", "src/solvers/approximate/nearest_neighbour.rs:n_nearest_neighbour", "src/solvers/approximate/nearest_neighbour.rs:nearest_neighbour", "src/solvers/approximate/nearest_neighbour.rs:nearest_neighbour_mpi"]}
{"id": "C84", "title": "Quality of everything the command line prints about a metric instance", "statement": "On an accepted instance whose costs are a metric, every lower bound printed by any command, with one process or as an MPI job, lies between half the optimum and the optimum, every nearest neighbour length lies between the optimum and (ceil(log2 n) + 1)/2 times the optimum, and every Christofides length lies between the optimum and n/2 times the optimum.", "quantifier": "every accepted metric instance of three or more cities without edges from a vertex to itself; every command, algorithm, thread schedule, number of processes and message order", "why_tests_cant": "all metrics, commands and schedules", "anchors": ["src/lib.rs:run", "src/lib.rs:approx_run", "src/lib.rs:lower_bound_run"]}
{"id": "C85", "title": "Distances of points in double precision", "statement": "In IEEE double precision, the distance that from_points, par_from_points and the instance generator compute for two points with coordinates of size up to 2^500 is a double, not negative, the same in both directions, zero from a point to itself, and equals the Euclidean distance up to a relative error of 2^-51 and an absolute error of 2^-535. The square root is a nearest double of the true root.", "quantifier": "all pairs of points with double coordinates of size up to 2^500; larger coordinates overflow and tiny differences underflow (witnesses)", "why_tests_cant": "all pairs of doubles", "anchors": ["src/datastructures/nalgebra.rs:NAMatrix::from_points", "utils/gen_matrix_fast/src/main.rs:euclidean_distance"]}
{"id": "C86", "title": "Matrices of points are metric in double precision", "statement": "In IEEE double precision, from_points and par_from_points return the same symmetric matrix with zero diagonal and accurate entries, and it passes is_metric, so that christofides does not panic on it in debug builds, provided the coordinates are at most 10000. For larger coordinates this is false: three points with whole coordinates below 750000 fail is_metric.", "quantifier": "every list of points with double coordinates of size at most 10000; every order of the parallel writes", "why_tests_cant": "all point sets; rounding errors of the triangle inequality show up only for unlucky points on a line", "anchors": ["src/datastructures/nalgebra.rs:NAMatrix::from_points", "src/datastructures/nalgebra.rs:NAMatrix::par_from_points", "src/datastructures/mod.rs:AdjacencyMatrix::is_metric"]}
{"id": "C87", "title": "Generated instances are accepted in double precision", "statement": "Whatever random numbers the instance generator draws, its points are doubles between -10 and 10, the instance it writes is accepted exactly if the points are pairwise different, and the matrix read back from it has accurate distances and passes is_metric. For other points on a grid of 2^-500 acceptance is also equivalent to the points being different; closer points can be rejected.", "quantifier": "every sequence of 53-bit random numbers; every list of points that are multiples of 2^-500 of size up to 2^500", "why_tests_cant": "all random draws", "anchors": ["utils/gen_matrix_fast/src/main.rs:main", "src/preconditions.rs:is_undirected", "src/parser.rs:TravellingSalesmanProblemInstance::do_conditions_hold"]}
{"id": "C88", "title": "Quality of the output against true distances, in double precision", "statement": "For an instance whose costs are doubles close to some metric (relative error up to 2^-50), in particular for every instance the generator writes with pairwise different points, everything walky prints in IEEE double precision is bounded by the length opt of a shortest tour for the true distances, up to relative rounding errors of about (3n+14)*2^-53: every lower bound is between opt/2 and opt, every nearest neighbour length between opt and (ceil(log2 n)+1)/2 times opt, every Christofides length between opt and n/2 times opt, and walky exact v0 and v1 prints a tour whose true length and printed cost are opt.", "quantifier": "every accepted instance with 3 to 2^40 cities close to a metric; every draw of the generator with pairwise different points; every command, thread schedule, rank count and message order", "why_tests_cant": "all instances and draws, against an optimum no test can compute", "anchors": ["src/lib.rs:run", "src/lib.rs:exact_run", "src/lib.rs:approx_run", "src/lib.rs:lower_bound_run", "utils/gen_matrix_fast/src/main.rs:main"]}
{"id": "C89", "title": "How good the implemented Christofides algorithm is", "statement": "On a metric, the tour that christofides returns is at most 3/2 times as long as a shortest tour.", "quantifier": "every metric; all random numbers, all schedules of the parallel version, all rank counts of the MPI version", "why_tests_cant": "all metrics and random numbers; a bad tour needs unlucky shuffles", "anchors": ["src/solvers/approximate/christofides.rs:christofides", "src/solvers/approximate/christofides.rs:compute_approx_matching", "src/solvers/approximate/matching.rs:approx_min_cost_matching"]}
{"id": "C90", "title": "XML layout and round trip", "statement": "A text is read as an element exactly if it is a document with this root: white space between and inside tags, the kind of quotes, <a/> for <a></a>, declarations and everything after the root do not change what is read. If an instance in which every vertex has an edge is written in the TSP XML format, in any layout and with any number format that can be read back, parse_from_xml returns exactly this instance if it satisfies do_conditions_hold, and panics otherwise. If the graph or a vertex is empty, the result is an error.", "quantifier": "every instance, every layout of its document, every number format that can be read back, every arithmetic", "why_tests_cant": "infinitely many instances and layouts; the repository tests four fixed strings", "anchors": ["src/parser.rs:parse_from_xml", "src/parser.rs:TravellingSalesmanProblemInstance", "src/parser.rs:Graph", "src/parser.rs:Vertex", "src/parser.rs:Edge"]}
{"id": "C91", "title": "parse_from_xml: when Ok, Err, panic", "statement": "For every text, parse_from_xml returns an instance exactly if the text is an XML document whose root element encodes this instance (the six fields exactly once in any order, other elements ignored, at least one vertex, at least one edge per vertex, numbers that parse) and the graph satisfies do_conditions_hold; it panics exactly if the text is a document that encodes an instance whose graph does not; otherwise it returns Err. A file that is cut off is rejected with Err as soon as a part of the root element is missing, and is never read as another instance; what follows the root element is ignored.", "quantifier": "every text (the claim about Err: every text without comments, CDATA, entities, name prefixes and text next to elements), every position where a text is cut off", "why_tests_cant": "all texts, including malformed and truncated ones", "anchors": ["src/parser.rs:parse_from_xml", "src/preconditions.rs:do_conditions_hold"]}
{"id": "C92", "title": "The text the generator prints is read back as its distances", "statement": "parse_from_xml applied to the text that gen_matrix_fast prints returns the graph of the generated matrix, with the same doubles, exactly if there are at least two points and they are pairwise different; with one point or none it returns Err; with equal points it returns Err or panics.", "quantifier": "every number of points up to 2^64, every random draw; also every list of points on the grid 2^-500 of size up to 2^500; every way to print doubles that satisfies the contract of Display", "why_tests_cant": "all random draws, and all digits of all doubles", "anchors": ["utils/gen_matrix_fast/src/main.rs:main", "src/parser.rs:parse_from_xml"]}
{"id": "C93", "title": "Decimal numerals are read as the nearest double", "statement": "A decimal numeral (digits, optional point, optional exponent) is read as a double nearest to its value, or as infinity if the value is too large; values up to 2^1023 are finite. A double that is printed with {} is read back as the same double, including NaN and the infinities. No other texts are read, apart from the names of the special values; integers are exactly the digit strings, perhaps after a +, whose value is in range.", "quantifier": "every decimal numeral of any length, every double", "why_tests_cant": "2^64 doubles and infinitely many numerals", "anchors": ["src/parser.rs:Edge", "utils/gen_matrix_fast/src/main.rs:main"]}
{"id": "C94", "title": "The Python generator's text is accepted and accurate", "statement": "For a symmetric square matrix of doubles between 0 and 2^1022, the text that convert_to_xml returns is accepted by parse_from_xml if there are at least two cities (also if costs are zero), and is an error otherwise; the graph that is read is complete and undirected, and each cost differs from the matrix entry by a relative error of at most 10^-15 (15 digits after the point are printed).", "quantifier": "every symmetric matrix of doubles in this range, every format with 16 significant digits", "why_tests_cant": "all matrices; the relation between 16 decimal digits and 53 binary digits holds for all doubles", "anchors": ["utils/tsp_logic.py:convert_to_xml", "src/parser.rs:parse_from_xml"]}
{"id": "C95", "title": "The whole program: from arguments and file to output and exit", "statement": "Wrong arguments: nothing is printed on stdout. A file that cannot be read or encodes no instance: nothing is printed and the program fails. An instance that violates do_conditions_hold: nothing is printed and the program panics. Otherwise the program prints what the command prints for the graph in the file. If the file is what gen_matrix_fast prints for at least three different points: every command succeeds; it prints numbers within the bounds of C88 with respect to the true distances of the points, as text from which these numbers can be read; from the output of walky exact one reads a tour and a number as in C98, with v0 and v1 on one thread optimal up to a relative rounding error.", "quantifier": "every argument list (no help request), every file content within the model of the parser, every draw of the generator, all schedules and random numbers; build without MPI", "why_tests_cant": "all files, argument lists, draws and schedules at once", "anchors": ["src/main.rs:main", "src/lib.rs:run", "src/lib.rs:get_tsp_instance", "src/cli.rs:Cli", "utils/gen_matrix_fast/src/main.rs:main"]}
{"id": "C96", "title": "Command line arguments", "statement": "An argument list is understood as a command on a file exactly if it consists of a subcommand name, the algorithm name and the path in this order, and options of this subcommand at any place after the subcommand, in any order and any of the spellings --name value, --name=value, -n value, -n=value, -nvalue, each at most once, with the name of a value; after -- everything is positional. Missing options mean one thread and no lower bound. An argument list has at most one meaning.", "quantifier": "every argument list (build without MPI)", "why_tests_cant": "infinitely many argument lists", "anchors": ["src/cli.rs:Cli", "src/cli.rs:Commands", "src/cli.rs:ExactAlgorithm", "src/cli.rs:ApproxAlgorithm", "src/cli.rs:LowerBoundAlgorithm", "src/cli.rs:Parallelism", "src/main.rs:main"]}
{"id": "C97", "title": "The output can be read unambiguously", "statement": "Two outputs with different lines, numbers or tours are different texts, so a script can recover everything that was computed from stdout. Every number walky prints is a double (or NaN, or an infinity), and reading its text gives the same double.", "quantifier": "every list of lines; every command, instance, schedule and random numbers, in double precision, build without MPI", "why_tests_cant": "all outputs", "anchors": ["src/lib.rs:exact_run", "src/lib.rs:approx_run", "src/lib.rs:lower_bound_run"]}
{"id": "C98", "title": "walky exact and all other commands on generated instances", "statement": "For the instance of at least three and at most 2^25 pairwise different generated points: walky exact with every algorithm and any number of threads succeeds and prints a tour and a number that differs from its true length by at most (2n^2+3) n 2^-46. With v0-v3 on one thread no tour is shorter by more than twice that; with v5, v6 (no hash collisions) or several threads the number is at most (2n^2+3n+5) n 2^-46 above twice the length of any tour. All other commands succeed, too, apart from approx christofides on several threads.", "quantifier": "every draw of the generator, every schedule, number of CPUs, random numbers, every command; in double precision against true Euclidean distances", "why_tests_cant": "all draws, schedules and rounding errors", "anchors": ["src/lib.rs:exact_run", "src/lib.rs:approx_run", "src/lib.rs:lower_bound_run", "utils/gen_matrix_fast/src/main.rs:main"]}
{"id": "C99", "title": "MPI jobs from the arguments and the input file to the texts of all processes", "statement": "Built with the feature mpi, the program understands --parallelism mpi; all other arguments mean what they mean without this feature, and then each process does what the program without the feature does (C95). With --parallelism mpi: wrong arguments, unreadable files, files without an instance and instances that violate do_conditions_hold let all processes end without output; otherwise the processes print the text of an outcome of the command on the graph in the file, from which all numbers can be read. If the file is what gen_matrix_fast prints for at least three and at most 2^25 different points: walky exact v0 with two to n processes prints the same tour on all ranks and a number that is its true length and at most twice the optimum, up to rounding errors; v1 does so with two processes and at least four cities, and with more processes it does so or panics on all ranks; nearest-neighbour with at most n processes prints the same tour and its length on all ranks; christofides prints the length of a tour on the root only, in all builds; lower bounds are printed as documented, except that --lower-bound one-tree after an approximation panics; and all these numbers are within the bounds of C88.", "quantifier": "every command line, input file, draw of the generator, number of processes, message order, random numbers; in double precision against true Euclidean distances", "why_tests_cant": "all message orders, numbers of processes, draws and rounding errors", "anchors": ["src/main.rs:main", "src/cli.rs:Parallelism", "src/lib.rs:run", "src/lib.rs:exact_run", "src/lib.rs:approx_run", "src/lib.rs:lower_bound_run", "utils/gen_matrix_fast/src/main.rs:main"]}
{"id": "C100", "title": "Unusual costs: infinite, negative and overflowing numbers do not make the solvers panic", "statement": "For every instance that passes do_conditions_hold, whatever its costs are (negative, infinite, so large that sums overflow, edges from a vertex to itself) and however sums are rounded: every command without MPI has an outcome. walky exact (every algorithm, one or several threads) never panics; it prints a number that is not NaN together with a tour of all cities, or infinity together with the empty tour; no thread panics in any schedule and every schedule is bounded. walky lower-bound mst and mst-queue always print one number. one-tree does so if costs are infinite or not negative and there are at least two cities. nearest-neighbour prints a tour if no cost is infinity. christofides on one thread prints a number in a release build, and with finite costs it is the sum of the costs along a tour. A cost that is not a number is never accepted unless it belongs to an edge from a vertex to itself. Not so: one-tree panics if plus and minus infinity meet; nearest-neighbour panics at a city all of whose edges are infinite; a release build of christofides prints a finite number for an instance in which every tour is infinite.", "quantifier": "every accepted instance with at least one city, every rounding function, environment and schedule", "why_tests_cant": "all combinations of special values, roundings, random numbers and schedules", "anchors": ["src/lib.rs:run", "src/solvers/exact.rs:threaded_solver", "src/solvers/exact.rs:naive_solver", "src/computation_mode.rs", "src/solvers/approximate/nearest_neighbour.rs", "src/solvers/approximate/christofides.rs", "src/mst.rs:prim", "src/one_tree.rs", "src/preconditions.rs:do_conditions_hold"]}
{"id": "C101", "title": "Benchmarks of the Python generator, from the drawn points to the output", "statement": "benchmark_gen.py l r writes exactly one file for every size from l to r; the file of size k holds the distances of the first k points, 0 on the diagonal. Whatever points are drawn (also equal ones), at most 2^25: shortest tours, for the true Euclidean distances, do not become shorter from one file to the next. On a file with less than two cities walky prints nothing and fails. On a file with two cities every command succeeds, and its output, also on several threads and processes, is the one of C115 for a distance near the true one. On a file with at least three cities every command succeeds, except perhaps christofides on several threads: lower bounds are at most the optimum of this size, nearest-neighbour and christofides print tours or lengths of tours, and walky exact v0 and v1 print a shortest tour and its length, all up to the rounding of numpy, of the text with 16 digits and of walky's sums. MPI jobs as in C99.", "quantifier": "every draw of points, l, r, command line, environment, schedule and number of processes; in double precision against true Euclidean distances; every np.linalg.norm with a relative error of at most 2^-50", "why_tests_cant": "all draws, rounding errors, random numbers and schedules; no reference optimum is available for benchmarks", "anchors": ["utils/benchmark_gen.py:principal_minor", "utils/benchmark_gen.py", "utils/tsp_logic.py:create_matrix", "utils/tsp_logic.py:convert_to_xml", "src/parser.rs:parse_from_xml_file", "src/main.rs:main", "src/lib.rs:run"]}
{"id": "C102", "title": "The Python reference for nearest neighbour agrees with walky", "statement": "utils/NN_approx.py prints, from every start, a tour that begins there and always continues with a nearest city among those not visited, and the cost of this tour; this holds for every matrix and whatever the order is in which Python iterates over the set of unvisited cities. For the integers it draws (1 to 9), and if the set is iterated in ascending order: walky accepts the graph that convert_to_rust_code prints, and single_nearest_neighbour returns from every start the path and the cost that the script prints, also in double precision (up to 2^40 cities); nearest_neighbour returns the smallest of the printed costs, in every order of the starts. Not so: with another iteration order the script prints another path and another cost than walky for the same matrix and start.", "quantifier": "every number of cities, all drawn numbers, every start, every iteration order", "why_tests_cant": "the script prints expected values for one seed; ties between distances are frequent with costs from 1 to 9 and agreement depends on how both sides break them", "anchors": ["utils/NN_approx.py:generate_graph_matrix", "utils/NN_approx.py:tsp_nearest_neighbour", "utils/tsp_logic.py:convert_to_rust_code", "src/solvers/approximate/nearest_neighbour.rs:single_nearest_neighbour", "src/solvers/approximate/nearest_neighbour.rs:nearest_neighbour"]}
{"id": "C103", "title": "Benchmark builds print the same results, and run_often.py collects the right times", "statement": "With the feature benchmarking, the possible outcomes of every command are those without it, with one more line after each computation that says how long it took; the whole program ends in the same way, and what it has printed without the times is what the other program prints, even if it panics. run_often.py, run on such a program any number of times (no run panicking), collects exactly the times of the main computations of the successful runs, in order: never the time of a lower bound, and runs that fail are silently left out. Its median is one of the times, with more than half of the times at most as large and at least half at least as large. If no run succeeds, or the program was built without the feature, it fails with a division by zero. run_often_christofides_mpi.py collects exactly the lengths that approx christofides has computed, and fails with a division by zero for every other command.", "quantifier": "all command lines, input files, random numbers, schedules, clocks and numbers of runs", "why_tests_cant": "depends on all outputs: a result line that begins like a time, a number that does not survive printing and reading, or the time of the bound instead of the approximation would only spoil some measurements", "anchors": ["src/lib.rs:exact_run", "src/lib.rs:approx_run", "src/lib.rs:lower_bound_run", "benchmarks/run_often.py", "benchmarks/Christofides/MPI/run_often_christofides_mpi.py"]}
{"id": "C104", "title": "Measurements of MPI jobs", "statement": "With the feature benchmarking, the processes of a job compute on every rank what they compute without it. In a file that contains, in any order, the lines of the outputs of all ranks of any number of successful jobs and other lines, get_measurements of benchmarks/*/MPI/parse.py finds exactly these times: one per rank and job for nearest neighbour, the exact algorithms and the minimum spanning trees, a second one per rank for a bound after nearest neighbour, and only those of the root for Christofides and the 1-tree bound. For Christofides' lengths it finds exactly one length per job, the one that the root has computed.", "quantifier": "all commands, graphs, numbers of processes and jobs, clocks, reductions and ways to mix the lines", "why_tests_cant": "number of processes, interleaving of their outputs and times are unbounded; the scripts weight jobs by the number of lines they find", "anchors": ["src/lib.rs:exact_run", "src/lib.rs:approx_run", "src/lib.rs:lower_bound_run", "benchmarks/NN/MPI/parse.py:get_measurements", "benchmarks/1-tree/MPI/parse.py:get_measurements", "benchmarks/Christofides/MPI/parse.py:get_measurements", "benchmarks/Exact/MPI/v1_constgraphsize/parse.py:get_measurements"]}
{"id": "C105", "title": "How far the pruning exact solvers can be from the optimum", "statement": "With at least 4 cities and symmetric non-negative costs, the tour of v5 is at most 2 - 4/n times as long as a shortest one. No factor below 2 holds for v5, nor for v6 with a hash that separates the prefixes, nor for the threads or the MPI solvers: for n >= 7 cities there is a metric with a tour of length n on which v5 returns length 2n - 6, and for n >= 9 one on which, with any number of threads and any schedule, the result has length at least 2n - 15. The same for the MPI solvers: for n >= 12 there is a metric with a tour of length n on which, for every message order, the static solver with fewer than n workers returns a tour of length at least 2n - 18 and the cost broadcast by the dynamic solver, with any number of workers, is the length of a tour and at least 2n - 18. On metrics the tour of v4 is at most (ceil(log2 n) + 3)/2 times as long as a shortest one, and the logarithm is needed: for every k there is a metric on 2^(k+1) + 8 cities with a tour of length at most 28*2^k on which v4 returns a tour of length at least k*2^k, so no constant factor holds. v4 is not exact on small metrics either (12 cities on a ring: 14 instead of 12); without the triangle inequality no factor holds for v4: it can return a tour of positive length although there is one of length 0.", "quantifier": "upper bounds: all matrices with these properties; lower bounds: all numbers of cities from 7 (9, 12), for v4 all k, all numbers of threads and workers, all schedules and message orders", "why_tests_cant": "a bound for all matrices, and families of instances of unbounded size", "anchors": ["src/solvers/exact.rs:fourth_improved_solver", "src/solvers/exact.rs:fifth_improved_solver", "src/solvers/exact.rs:sixth_improved_solver", "src/solvers/exact.rs:threaded_solver", "src/solvers/exact.rs:compute_nn_of_remaining_vertices", "src/solvers/exact.rs:static_mpi_solver", "src/solvers/exact.rs:dynamic_mpi_solver"]}
{"id": "C106", "title": "Work done by the exact solvers", "statement": "v0 computes the cost of every tour except the starting permutation exactly once (n! - 1 evaluations), v1 of every tour that starts with city 0 except that one ((n-1)! - 1). A search with pruning never tests a prefix twice; it tests a list of at least two cities if and only if the list has no repetitions and all its shorter prefixes of at least two cities have passed. So v2 looks at all n(n-1)...(n-k+1) lists of each length k >= 2 and at all n! tours, and every version makes fewer than 3 n! tests. When all costs are 0, v3, v4 and v5 make all of them. v6 computes a spanning tree at every test, whether the prefix is in the cache or not; if the hash separates the prefixes, it makes exactly the tests of v5 and ends with one entry for each of them, so the cache is never used.", "quantifier": "all matrices with at least one city, every arithmetic (all costs 0: exact arithmetic)", "why_tests_cant": "counts for all sizes; a cache that is never hit changes no result", "anchors": ["src/solvers/exact.rs:naive_solver", "src/solvers/exact.rs:first_improved_solver", "src/solvers/exact.rs:second_improved_solver", "src/solvers/exact.rs:third_improved_solver", "src/solvers/exact.rs:fourth_improved_solver", "src/solvers/exact.rs:fifth_improved_solver", "src/solvers/exact.rs:sixth_improved_solver", "src/solvers/exact.rs:_sixth_improved_solver_rec"]}
{"id": "C107", "title": "The numbering of the cities does not matter", "statement": "Two instances that differ only in the order in which the cities are listed: v0, v1, v2 and v3 report the same length (v0 from 2 cities, v1 from 3 cities and symmetric costs, v3 without negative costs), and the tour for one is, after renumbering, a shortest tour of the other; the minimum spanning tree bound and the 1-tree bound are the same. Nearest neighbour finds the same tours and reports the same length if no city has two others at the same distance. With equal distances the length can change (4 cities: 5 and 4), and v4 and v5 depend on the numbering even on metrics (v5: 8 and 7 for 7 cities; v4: 14 and 12 for 12 cities).", "quantifier": "all matrices of finite costs and all renumberings (exact arithmetic), all shuffles", "why_tests_cant": "all instances and all n! renumberings; the dependence of v4 and v5 shows only on special orders", "anchors": ["src/solvers/exact.rs:naive_solver", "src/solvers/exact.rs:first_improved_solver", "src/solvers/exact.rs:second_improved_solver", "src/solvers/exact.rs:third_improved_solver", "src/solvers/exact.rs:fourth_improved_solver", "src/solvers/exact.rs:fifth_improved_solver", "src/mst.rs:prim", "src/one_tree.rs:one_tree_lower_bound_seq", "src/solvers/approximate/nearest_neighbour.rs:nearest_neighbour"]}
{"id": "C108", "title": "The unit of the distances does not matter", "statement": "If all distances of an instance are multiplied by the same positive number, v0 to v6, the multi-threaded and MPI solvers, nearest neighbour and Christofides (same shuffles; sequential, on several threads, on several processes) return the same tours, with lengths multiplied by that number, and panic on the same instances; the spanning tree has the same edges and the lower bounds are multiplied too. This includes instances with infinite or NaN entries. Two exceptions: the tolerance 1e-10 of is_metric is absolute, so a debug build can accept an instance in one unit and panic in another; and in double precision rounding depends on the unit, so that v1 returns a tour that is not shortest after multiplying four distances near 2^50 by 3.", "quantifier": "all matrices, all positive factors (exact arithmetic), all shuffles, hash functions, schedules of the threads and processes, numbers of processes; MPI reductions combined in the same way in both runs", "why_tests_cant": "all instances and all factors; comparisons of costs with constants other than 0 and infinity show only for some sizes", "anchors": ["src/solvers/exact.rs:naive_solver", "src/solvers/exact.rs:first_improved_solver", "src/solvers/exact.rs:second_improved_solver", "src/solvers/exact.rs:third_improved_solver", "src/solvers/exact.rs:fourth_improved_solver", "src/solvers/exact.rs:fifth_improved_solver", "src/solvers/exact.rs:sixth_improved_solver", "src/solvers/exact.rs:threaded_solver_generic", "src/solvers/exact.rs:static_mpi_solver_generic", "src/solvers/exact.rs:dynamic_mpi_solver", "src/mst.rs:prim", "src/one_tree.rs:one_tree_lower_bound_seq", "src/solvers/approximate/nearest_neighbour.rs:nearest_neighbour", "src/solvers/approximate/christofides.rs:christofides", "src/datastructures/mod.rs:is_metric"]}
{"id": "C109", "title": "Longer roads and inaccurate distances", "statement": "If no distance of one instance exceeds the corresponding one of another instance by more than d, the lengths reported by v0 to v3 exceed those of the other instance by at most n d, the spanning tree weight by at most (n-1) d, and the 1-tree bound by at most n d. With d = 0: longer roads never give a shorter optimum or a smaller lower bound; and an error of at most d in every distance changes the results by at most n d. This is false for the heuristics, even on metrics: making one road longer can shorten the tour of nearest neighbour (13 to 12, all shuffles), of Christofides (15 to 14), of v5 (19 to 18); for v4 see six cities with 11 and 9.", "quantifier": "all pairs of finite instances with the same number of cities (v0: n >= 2, v1: n >= 3 and symmetric, v3: no negative costs; trees: symmetric), all d of any sign", "why_tests_cant": "a relation between the results of two runs on arbitrary instances", "anchors": ["src/solvers/exact.rs:naive_solver", "src/solvers/exact.rs:first_improved_solver", "src/solvers/exact.rs:second_improved_solver", "src/solvers/exact.rs:third_improved_solver", "src/solvers/exact.rs:fourth_improved_solver", "src/solvers/exact.rs:fifth_improved_solver", "src/mst.rs:prim", "src/one_tree.rs:one_tree_lower_bound_seq", "src/solvers/approximate/nearest_neighbour.rs:nearest_neighbour", "src/solvers/approximate/christofides.rs:christofides"]}
{"id": "C110", "title": "Integer overflow", "statement": "The bounds of the chunks of prefixes and the counting of prefixes, computed in machine integers of W bits, equal those of unbounded numbers whenever n^3 < 2^W (64 bits: up to 2642245 cities; 32 bits: up to 1625 cities), so the results of the multi-threaded solver are the same, in debug and release builds. For more cities debug builds panic; release builds wrap around: they look only at prefixes below n^3 mod 2^W, or fail an assertion. With 32 bits and 3251 cities no prefix is searched in which city 0 is followed by one of the cities 26 to 3250. The start cities of the ranks of nearest neighbour (i32) are computed without overflow for fewer than 2^31 cities; otherwise all ranks panic.", "quantifier": "all word sizes, both kinds of builds, all prefix lengths below 2^32, all numbers of cities, chunks and threads, all schedules; all sizes and ranks below 2^31", "why_tests_cant": "the limits lie at millions of cities, which no test can construct, and debug and release builds behave differently", "anchors": ["src/solvers/exact.rs:split_up_b_ary_number_into_n_chunks", "src/solvers/exact.rs:get_next_value", "src/solvers/exact.rs:threaded_solver_generic", "src/solvers/exact.rs:static_mpi_solver_generic_nonroot", "src/solvers/approximate/nearest_neighbour.rs:nearest_neighbour_mpi"]}
{"id": "C111", "title": "Lucky shuffles give the Christofides guarantee", "statement": "If the first shuffle of approx_min_cost_matching pairs up the vertices of odd degree in the cheapest way, no later shuffle, schedule or process destroys this matching, and on every metric the tour of christofides is at most 3/2 of every tour, on one thread, in every outcome on several threads and with MPI. With k vertices of odd degree at least 2^(k/2) (k/2)! of the k! orders do so. More generally a matching in which no two edges can be exchanged with profit is left unchanged by the local search.", "quantifier": "all metrics, all lucky first shuffles, all later shuffles on all ranks, all orders of the chunks, all schedules, all numbers of processes", "why_tests_cant": "the shuffles are random and unseeded, and the local search has a defect that can destroy perfect matchings; that it never destroys a cheapest one is a statement about all shuffles", "anchors": ["src/solvers/approximate/matching.rs:approx_min_cost_matching", "src/solvers/approximate/matching.rs:improve_matching", "src/solvers/approximate/matching.rs:par_improve_matching", "src/solvers/approximate/matching.rs:mpi_improve_matching", "src/solvers/approximate/christofides.rs:christofides"]}
{"id": "C112", "title": "When the defect of the local search strikes", "statement": "The matching that christofides uses is perfect after all rounds exactly if in no round two edges that are treated together have three pairings of strictly decreasing costs in the order in which they are tried; a vertex that is lost never comes back. It is perfect for all shuffles exactly if no four of the vertices of odd degree have three pairings of three different costs. On every metric, if the defect does not strike, the tour is at most the weight of the spanning tree plus the cost of the first random matching, and at most 1 + k/4 times every tour with k vertices of odd degree. With MPI a further process can make the tour longer, because matchings that have lost vertices are cheaper (negation).", "quantifier": "every arithmetic, all shuffles, numbers of rounds and instances; all schedules of the threads", "why_tests_cant": "whether the wrong branch is entered depends on the unseeded shuffles of every round; the statement is an equivalence over all of them", "anchors": ["src/solvers/approximate/matching.rs:optimize_two_matching", "src/solvers/approximate/matching.rs:improve_matching", "src/solvers/approximate/matching.rs:mpi_improve_matching", "src/solvers/approximate/christofides.rs:christofides"]}
{"id": "C113", "title": "Which of several shortest tours is returned", "statement": "Of several shortest tours walky exact v2 returns the one that comes first in the lexicographic order. Without negative distances v3 returns exactly the same. v0 does the same except that the tour 0, 1, ..., n-1 does not compete; v1 likewise among the tours that begin with city 0. On symmetric distances between at least three cities v0 and v1 return the same tour; if 0, 1, ..., n-1 is not a shortest tour, v2 returns this tour too; if it is, v2 returns it and v0 and v1 return another tour of the same length. The pruning of v5 can change which shortest tour is returned (negation).", "quantifier": "all finite cost matrices in exact arithmetic with at least 2 (v0), 3 (v1) or 1 (v2, v3) cities", "why_tests_cant": "the answer among ties depends on the whole enumeration; a test compares a few matrices, most of them without ties", "anchors": ["src/solvers/exact.rs:naive_solver", "src/solvers/exact.rs:first_improved_solver", "src/solvers/exact.rs:second_improved_solver", "src/solvers/exact.rs:third_improved_solver", "src/solvers/exact.rs:fifth_improved_solver"]}
{"id": "C114", "title": "Leaving out cities", "statement": "If the distances satisfy the triangle inequality and some cities are left out (the others may be renumbered), walky exact v0, v1, v2 and v3 report a tour that is not longer than before. The weight of the spanning tree and the 1-tree bound at most double; both can really increase, and the answer of nearest neighbour can get worse, for every shuffle (negations). Without the triangle inequality the shortest tour itself can get longer (negation).", "quantifier": "all finite metrics in exact arithmetic, all choices and renumberings of the remaining cities (at least 2 for v0, 3 for v1 and 1-trees, 1 for v2, v3 and spanning trees)", "why_tests_cant": "a relation between the answers for two instances, for all subsets of the cities and all metrics; a test compares a few pairs", "anchors": ["src/solvers/exact.rs:naive_solver", "src/solvers/exact.rs:first_improved_solver", "src/solvers/exact.rs:second_improved_solver", "src/solvers/exact.rs:third_improved_solver", "src/mst.rs:prim", "src/one_tree.rs:one_tree_lower_bound_seq", "src/solvers/approximate/nearest_neighbour.rs:nearest_neighbour"]}
{"id": "C115", "title": "What walky says about two cities", "statement": "An accepted input with two cities and without self loops is a pair of edges of the same cost x. If x is at least 0 and 2x can be represented, the output of every command is known, whatever the build, the random numbers, the processors and the schedule: every command succeeds; nearest neighbour, christofides and the exact solvers print the length 2x, which is the optimum, and a tour of both cities; exact v1 on one thread prints the cost infinity, exact on several threads prints infinity and an empty tour if there is one processor; the mst bounds are x, the 1-tree bound is infinity, which is no lower bound. In MPI jobs the approximations and mst bounds give the same numbers (nearest neighbour and the 1-tree bound only with at most two processes, otherwise all processes fail); the exact solvers never print a tour.", "quantifier": "every distance (any ordered field; double precision below 2^1023), command, build, environment, schedule, number of processes", "why_tests_cant": "the smallest instance is a boundary case for every algorithm; the combinations of commands, schedules, random numbers and process counts cannot be enumerated", "anchors": ["src/solvers/exact.rs:first_improved_solver", "src/solvers/exact.rs:static_mpi_solver_generic", "src/solvers/exact.rs:dynamic_mpi_solver", "src/one_tree.rs:one_tree_lower_bound", "src/solvers/approximate/nearest_neighbour.rs:nearest_neighbour", "src/solvers/approximate/christofides.rs:christofides", "src/lib.rs:run"]}
{"id": "C116", "title": "Charges at the cities", "statement": "If every road that ends at city i costs t_i more, walky exact v0, v1, v2 and v3 return the same tour as before, and its length grows by twice the sum of the charges. If every road costs d more, the spanning tree bound grows by (n-1)d, the 1-tree bound by nd, and nearest neighbour finds the same tours, longer by nd. If the length of every road is the sum of two charges t_i + t_j, all tours are equally long and every solver (v0 to v6, threads, nearest neighbour, Christofides, static MPI solver) reports 2 sum t_i; this is always the case for three cities: every solver and the 1-tree bound give the sum of the three distances. It is false for v4 and v5 (11 becomes 14 instead of 17, 8 becomes 74 instead of 68) and, with a charge at one city only, for nearest neighbour (13 becomes 14 instead of 15, all shuffles).", "quantifier": "all finite costs and all charges of any sign (v0, v2: n >= 2; v1: n >= 3; v3: no negative roads; bounds: symmetric), all shuffles, schedules, numbers of threads, 1 to n-1 MPI workers", "why_tests_cant": "a relation between the answers for two arbitrary instances; ties must be broken in the same way", "anchors": ["src/solvers/exact.rs:naive_solver", "src/solvers/exact.rs:first_improved_solver", "src/solvers/exact.rs:second_improved_solver", "src/solvers/exact.rs:third_improved_solver", "src/solvers/exact.rs:fourth_improved_solver", "src/solvers/exact.rs:fifth_improved_solver", "src/solvers/exact.rs:threaded_solver_generic", "src/solvers/exact.rs:static_mpi_solver_generic", "src/mst.rs:prim", "src/one_tree.rs:one_tree_lower_bound_seq", "src/solvers/approximate/nearest_neighbour.rs:single_nearest_neighbour", "src/solvers/approximate/nearest_neighbour.rs:nearest_neighbour", "src/solvers/approximate/christofides.rs:christofides"]}
{"id": "C117", "title": "Cities at the same place", "statement": "If the distances satisfy the triangle inequality, cities at distance 0 from another remaining city can be left out (or added): walky exact v0, v1, v2 and v3 report the same length, and the spanning tree has the same weight. If one city is listed a second time at the end of the file and no other city is at this place, nearest neighbour visits it right after the first one from every start, and its answer has the same length (even without the triangle inequality). The 1-tree bound can get smaller (4 instead of 6) and the answer of v5 worse (19 instead of 18) when a city is listed twice (negations).", "quantifier": "all finite metrics in exact arithmetic, all sets of such cities and renumberings (at least 2 remaining cities for v0, 3 for v1, 1 for v2, v3 and spanning trees); nearest neighbour: all finite costs, n >= 2, all shuffles", "why_tests_cant": "a relation between the answers for two arbitrary instances; distances of 0 are a boundary case of the comparisons", "anchors": ["src/solvers/exact.rs:naive_solver", "src/solvers/exact.rs:first_improved_solver", "src/solvers/exact.rs:second_improved_solver", "src/solvers/exact.rs:third_improved_solver", "src/solvers/exact.rs:fifth_improved_solver", "src/mst.rs:prim", "src/one_tree.rs:one_tree_lower_bound_seq", "src/solvers/approximate/nearest_neighbour.rs:single_nearest_neighbour", "src/solvers/approximate/nearest_neighbour.rs:nearest_neighbour"]}
{"id": "C118", "title": "Two runs in double precision", "statement": "Relations between the answers for two inputs survive the rounding of the real program. With e = (2n^2+1) 2^(k-54), where 2 n (largest distance) <= 2^k: listing the cities in another order changes the length reported by walky exact v0, v1, v2 or v3 by at most 4e; if no road is more than d longer, the reported length is at most nd + 4e longer; leaving out cities of a metric makes it at most 4e longer, and leaving out cities at the same place as others changes it by at most 4e; charges t_i at the cities change it by 2 sum t_i up to 4e; whatever is known about the two optima carries over in the same way. The lengths need not be equal: on one metric of four cities with distances in double precision each of v0, v1, v2 and v3 reports another length when the cities are listed in another order (negation).", "quantifier": "all pairs of inputs with 3 <= n <= 2^25, nonnegative symmetric distances, -1021 <= k <= 1023, v0 to v3 in IEEE double precision", "why_tests_cant": "for all pairs of instances, all exponents and all roundings; a test would have to know a tolerance that is always enough", "anchors": ["src/solvers/exact.rs:naive_solver", "src/solvers/exact.rs:first_improved_solver", "src/solvers/exact.rs:second_improved_solver", "src/solvers/exact.rs:third_improved_solver", "src/datastructures/mod.rs:evaluate_circle"]}
{"id": "C119", "title": "From the MPI jobs to the points of the plots", "statement": "A script slurm_*.sh writes its jobs to a file from whose name parse.py reads exactly the numbers of nodes and of tasks per node of the script; parse.py uses a file exactly if its name contains output_<digits>_nodes_<digits>_taskspernode.txt. If all jobs have been successful, the file contains one more run than NUMBER_OF_BENCHMARK_RUNS says (11 for 10), and one time per run for Christofides and the 1-tree bound, one per run and process for nearest neighbour, spanning trees and exact solving. For every benchmark parse.py draws a point above the number of its processes, in the first curve if there is one process per node, in the second one if there are several or if there is one node; its height is a median of these times (in double precision, at least half of the times are not above it and at least half are not below it); curves are ordered by the number of processes. The scripts of the repository give points for 1, 2, 4, 8 and for 1, 2, 4, 8, 16, 32, 64 processes. If one of the files has no line with a time, parse.py fails and draws nothing.", "quantifier": "all numbers of nodes, tasks and runs, commands and graphs, all times (doubles up to 2^1000), all orders of the lines and files, all other lines and other files", "why_tests_cant": "unbounded numbers of files, jobs, processes and times, arbitrary interleaving of outputs and directory orders; the scripts have no tests", "anchors": ["benchmarks/NN/MPI/parse.py:extract_nodes_and_processes", "benchmarks/NN/MPI/parse.py:find_matched_files", "benchmarks/1-tree/MPI/parse.py", "benchmarks/Exact/MPI/v1_constgraphsize/parse.py", "benchmarks/NN/MPI/slurm_1nodes_1processes.sh"]}
{"id": "C120", "title": "Single-node benchmarks: from the instances to the curves", "statement": "In the single-node benchmarks of nearest neighbour, Christofides, the 1-tree bound and the spanning tree, run.sh calls run_often.py once for every size (100, 200, ..., 3000; for MST also 4000, ..., 10000) and both kinds of parallelism; the command that is measured runs exactly the algorithm of the benchmark with this parallelism on the instance of this size. Afterwards the file of a size and a parallelism contains the times of its successful runs and their median; if there are none, it is what it was before: it does not exist, or for MST, where old results are not removed, it keeps old results. No other file is written. If every file in the plot has a time, plot_results.py draws two curves with one point per size in ascending order, at the median of the times of this size and parallelism; otherwise it fails (except for MST, where stale values may be drawn). Not drawn: the sizes 2600 to 3000 of the 1-tree, which are measured. plot_all.py draws the three curves of MST and MST/QUEUE. gen.sh generates the sizes 3 to 212 once each and with gen_big.sh everything that is measured up to 3000. Defects: gen_xxl.sh generates three of seven large sizes, so that the MST plot fails on a fresh checkout; MST/QUEUE/plot_results.py reads files that its scripts never write (PARALLELISM is unset there) and always fails; Exact/STMT/plot_results_pt2.py reads results_multithreaded.json, which is written as results_multi.json.", "quantifier": "all names of programs and directories without spaces, all instances, all runs, outputs and times, all earlier contents of the directory of results", "why_tests_cant": "unbounded numbers of outputs, times and earlier results; the scripts have no tests and take hours on a cluster", "anchors": ["benchmarks/run_often.py", "benchmarks/NN/STMT/run.sh", "benchmarks/NN/STMT/plot_results.py", "benchmarks/1-tree/STMT/plot_results.py", "benchmarks/MST/STMT/run_xxl.sh", "benchmarks/MST/QUEUE/plot_results.py", "benchmarks/MST/plot_all.py", "benchmarks/Exact/STMT/plot_results_pt2.py", "utils/gen_matrix_fast/gen_xxl.sh"]}
{"id": "C121", "title": "Christofides when the spanning tree is a path; the factor 3/2 is attained", "statement": "On a symmetric matrix, if the spanning tree that walky approx computes for christofides is a path, then the answer is the tour that closes this path and its reported length is the weight of the tree plus the distance of the two ends, for all random shuffles, single threaded, multi threaded and with MPI, and no matter which perfect matching is used. The factor 3/2, which is guaranteed on metrics with such trees and for optimal matchings, cannot be lowered: for every f < 3/2 there is a metric on which the reported length is more than f times the length of some tour, for all shuffles and in all modes, and also with an optimal matching.", "quantifier": "for all symmetric finite matrices with at least 2 cities, all shuffles, all schedules of the threads, all numbers of MPI ranks, all matching functions; for all numbers of cities 2k+3 and step lengths a < b < 2a; for all factors below 3/2", "why_tests_cant": "The limit 3/2 is only approached by ever larger instances, and the claim is about all shuffles and schedules.", "anchors": ["src/solvers/approximate/christofides.rs:christofides", "src/solvers/approximate/christofides.rs:christofides_generic", "src/solvers/approximate/christofides.rs:compute_approx_matching", "src/solvers/approximate/matching.rs:approx_min_cost_matching"]}
{"id": "C122", "title": "Running walky twice on the same file", "statement": "The same file and the same command: walky exact on a single thread and walky lower-bound (single or multi threaded) always end in the same way and print the same text; the multi threaded lower bounds are identical to the single threaded ones, number by number. walky approx nearest-neighbour always prints the same length and the same bound in both modes, or panics in every run, although the tour may be another one. walky exact -p multi-threaded always prints the same cost on machines with the same number of CPUs, whatever the scheduler does, although the tour may be another one. Not reproducible are: the tours just mentioned, the length of walky approx christofides (29 or 32 on four cities), and the cost of walky exact -p multi-threaded on machines with different numbers of CPUs (61 or at most 60 on six cities).", "quantifier": "for all files and arguments, all costs (also infinite, negative or not symmetric ones), all roundings of the arithmetic, all shuffles, all splits of the parallel iterators, all schedules of the threads", "why_tests_cant": "A test sees only a few shuffles and schedules; a rare schedule that changes a digit would be missed.", "anchors": ["src/lib.rs:run", "src/lib.rs:exact_run", "src/lib.rs:approx_run", "src/lib.rs:lower_bound_run", "src/solvers/exact.rs:threaded_solver_generic", "src/solvers/approximate/nearest_neighbour.rs:n_nearest_neighbour"]}
{"id": "C123", "title": "Running an MPI job twice", "statement": "The same instance in two MPI jobs of walky. With two processes (one worker) walky exact prints the same in both jobs, or both panic in the same way. With any numbers of processes the costs printed by walky exact differ at most by a factor of 2, and they are equal on at most five cities. The nearest neighbour length, the 1-tree bound and the MST bound are the same numbers in all jobs, also with different numbers of processes. With three processes walky exact is not reproducible: the static solver prints 85 or 80 on one instance with eight cities, depending on the order of the messages; the dynamic solver prints 85, prints 80 or fails on another one.", "quantifier": "for all instances accepted by the parser (one worker: all instances and any arithmetic), all numbers of processes, all message orders", "why_tests_cant": "The order of the messages is decided by the network; a test machine shows one order and hides the other outcomes.", "anchors": ["src/lib.rs:exact_run", "src/solvers/exact.rs:static_mpi_solver_generic", "src/solvers/exact.rs:static_mpi_solver_generic_root", "src/solvers/exact.rs:dynamic_mpi_solver", "src/solvers/exact.rs:dynamic_mpi_solver_root"]}
{"id": "C124", "title": "Number of messages of the exact MPI jobs", "statement": "The amount of communication of walky exact in an MPI job with n cities and w workers does not depend on luck. Dynamic solver: every complete run hands out exactly (n-1)((n-1)(n-2)-1) prefixes, sends w more answers that release the workers, and has twice as many steps as answers (a request is received, the answer is received); this holds for all costs, infinite, negative or NaN ones included, in any arithmetic. Static solver, costs that are infinite or not negative, in exact arithmetic and in double precision, chunks of q = floor(n^3/w) >= 2 numbers: every complete run has exactly w q steps plus two for every prefix of three different cities strictly inside of a chunk, hence at most n^3 + 2 n (n-1) (n-2) steps.", "quantifier": "for all instances, all numbers of workers, all message orders", "why_tests_cant": "Tests see the result of a job, not the number of messages, and only a few message orders.", "anchors": ["src/solvers/exact.rs:dynamic_mpi_solver_root", "src/solvers/exact.rs:dynamic_mpi_solver_nonroot", "src/solvers/exact.rs:static_mpi_solver_generic_root", "src/solvers/exact.rs:static_mpi_solver_generic_nonroot", "src/solvers/exact.rs:get_next_value"]}
{"id": "C125", "title": "What a run that does not succeed has printed", "statement": "A run of walky (without MPI) that ends with an error code or a panic has printed nothing, so a script never finds a result in the output of a failed run, with one exception: walky approx --lower-bound, when the approximation succeeds and the bound panics. Then exactly the output of walky approx without this option has been printed. On an accepted instance with at least two cities this happens only for the 1-tree bound and only if some cost is negative or minus infinity (or an edge from a city to itself is not a number); it does happen. With the feature benchmarking the time of the approximation has been printed as well, and run_often.py collects it like the time of a successful run.", "quantifier": "for all files, arguments, random numbers, schedules and any arithmetic", "why_tests_cant": "Tests check results of runs that succeed; a failing run after partial output needs extreme costs.", "anchors": ["src/lib.rs:run", "src/lib.rs:exact_run", "src/lib.rs:approx_run", "src/lib.rs:lower_bound_run", "benchmarks/run_often.py"]}
{"id": "C126", "title": "The work of the multi-threaded exact solver", "statement": "On n cities and T < n threads, with q = floor(n^3/T), every complete run of the multi-threaded exact solver makes exactly T(q-1) rounds of the loops of its threads, and takes the lock of the best known result exactly once for every prefix of three different cities strictly inside of a chunk; at most n^3 + n(n-1)(n-2) steps in total, in every run. The schedule, the costs (infinite, negative and NaN ones included), and the arithmetic do not matter.", "quantifier": "for all matrices, numbers of threads, schedules and any arithmetic", "why_tests_cant": "Tests see the result and a few schedules, not the number of rounds and lock operations.", "anchors": ["src/solvers/exact.rs:threaded_solver_generic", "src/solvers/exact.rs:get_next_value", "src/solvers/exact.rs:split_up_b_ary_number_into_n_chunks"]}
{"id": "C127", "title": "Unusual costs in MPI jobs", "statement": "For every instance that passes do_conditions_hold, whatever its costs are (negative, infinite, so large that sums overflow) and however sums are rounded: `walky exact v1 --parallelism mpi` on at least four cities has an outcome with any number of processes, every execution is bounded, no process panics before the final broadcast, and all ranks end alike: they fail without output, or print the same tour of all cities with the same finite number that is not negative, or infinity and zeros; the last only if every worker found only tours whose cost is not at least 0. If the costs are infinite or non-negative doubles, a printed tour contains no infinite edge and has a finite cost, so that all ranks fail in every job if all tours are infinite (where v3 without MPI prints infinity and an empty tour). With such costs and at least two processes (at most n^3), v0 behaves in the same way on two or more cities: bounded executions, an outcome, and all ranks fail or print the same finite number and tour without an infinite edge. With finite costs of any sign, in a release build or if the metric test passes, christofides prints on the root the sum of the costs along a tour of all cities from city 0 and nothing on the other ranks. mst and mst-queue print one number on every rank. With costs that are infinite or not negative and at most as many processes as cities, one-tree prints one number on the root; with nearest-neighbour all ranks print the same number and the same tour, or all fail, the latter only if some cost is infinite; with finite costs of any sign nearest-neighbour never fails; with fewer than 2^53 cities and costs that are infinite or at least -2^970 all ranks fail, only if some cost is infinite, or print the same tour of all cities with the same number, which is not NaN. Not so: on four cities at cost -1, where every tour costs -4, `mpirun -n 2 walky exact -a v1` can print infinity and the tour 0, 0, 0, 0. If all costs are infinite, a christofides job fails where a release build without MPI prints the cost 0.", "quantifier": "every accepted instance, every rounding, every number of processes and every order of messages and reductions within the stated bounds", "why_tests_cant": "all combinations of special values, roundings, message orders and numbers of processes", "anchors": ["src/lib.rs:run", "src/solvers/exact.rs:dynamic_mpi_solver", "src/solvers/approximate/nearest_neighbour.rs:nearest_neighbour_mpi", "src/one_tree.rs", "src/mst.rs:prim", "src/solvers/exact.rs:static_mpi_solver", "src/solvers/approximate/christofides.rs:christofides"]}
{"id": "C128", "title": "Warnings when walky does not compute as it was told", "statement": "Without MPI, walky writes at most one warning to stderr: that only the sequential computation is supported. It does so exactly for lower-bound mst-queue, alone or after an approximation, with several threads, as soon as the bound is reached; then the bound printed, and the way the run ends, is that of lower-bound mst-queue with one thread. There is no warning when exact with several threads ignores the algorithm: all seven algorithms have the same outcomes. With MPI, in jobs that succeed: nothing with exact and the 1-tree bound; with the bounds mst and mst-queue every rank warns, and a rank that warns does exactly what a single process without MPI does; with nearest-neighbour every rank says that MPI only supports all start nodes (which is what was asked for); with christofides only the root warns, about the spanning tree; a bound after an approximation warns as it does alone.", "quantifier": "for all instances, commands, random numbers, schedules, numbers of processes and any arithmetic", "why_tests_cant": "No test looks at stderr; that warnings and ignored options correspond to each other is a statement about all commands and all outcomes.", "anchors": ["src/lib.rs:lower_bound_run", "src/lib.rs:exact_run", "src/lib.rs:approx_run", "src/mst.rs:prim", "src/solvers/approximate/nearest_neighbour.rs:n_nearest_neighbour"]}
{"id": "C129", "title": "simple_gen.py and walky on what it prints", "statement": "Called with xml (in upper or lower case) and a size, simple_gen.py prints the text of the distance matrix of the drawn points and a line feed, and exits with 0, provided that the solver it calls returns; the text is the file of this size that benchmark_gen.py writes for these points. The line feed does not matter: on a file with this output walky does exactly what it does on the file of benchmark_gen.py, with and without MPI, and from two cities on it reads a complete graph whose costs are the distances up to a relative error of 18 * 2^-53. If simple_gen.py does not exit with 0, the exit code is 1 and it has printed nothing or one line about its usage, to stdout; on a file with this output walky ends with an error code, without panic and without output.", "quantifier": "for all arguments, drawn points, norms and formats that fulfill the contracts of numpy and Python, and all runs of walky", "why_tests_cant": "The Python tools have no tests; the claim relates two programs for all drawn points and all command lines.", "anchors": ["utils/simple_gen.py", "utils/tsp_logic.py:convert_to_xml", "utils/benchmark_gen.py", "src/parser.rs:parse_from_xml"]}
{"id": "C130", "title": "Cities on a line", "statement": "If the cities lie on a straight line, no tour is shorter than twice the distance D of the two outermost cities, and there is one of this length. walky exact reports 2 D with v0 (two cities or more), v1 (three or more), v2, v3, v5 and v6, although v5 and v6 are not exact in general. Nearest neighbour is optimal from the two outermost cities and therefore also with all starts: `walky approx nearest-neighbour` reports 2 D for all shuffles, single threaded, on several threads and with MPI. The spanning tree bounds are exactly D in all versions. If no two cities are at the same place, christofides reports 2 D as well, for all shuffles and in all modes. For accepted instance files with three different places or more this is what the program prints: 2 D for `exact` without threads and MPI (v4 excepted), 2 D in every line with the length of an approximate tour and D in every line with a spanning tree bound, for every command with and without threads and MPI. Nearest neighbour from an inner city can be worse (54 instead of 52), and the 1-tree bound is not exact (45).", "quantifier": "all positions on a line, any number of cities in any order, all shuffles, reduction trees, schedules and numbers of processes (nearest neighbour: up to the number of cities), exact arithmetic", "why_tests_cant": "all numbers of cities, positions, orders and shuffles; the exactness of v5 rests on a tour that the pruning never cuts off", "anchors": ["src/solvers/exact.rs:naive_solver", "src/solvers/exact.rs:first_improved_solver", "src/solvers/exact.rs:second_improved_solver", "src/solvers/exact.rs:third_improved_solver", "src/solvers/exact.rs:fifth_improved_solver", "src/solvers/exact.rs:sixth_improved_solver", "src/solvers/approximate/nearest_neighbour.rs:nearest_neighbour", "src/solvers/approximate/nearest_neighbour.rs:nearest_neighbour_mpi", "src/mst.rs:prim", "src/mst.rs:prim_with_priority_queue", "src/solvers/approximate/christofides.rs:christofides"]}
{"id": "C131", "title": "Three cities", "statement": "With three cities and symmetric distances there is only one tour up to its direction and start, and walky reports its length whatever is asked: `walky exact` with v0 to v6, on several threads and with v0 under MPI on two or three processes; `walky approx` with nearest neighbour from every start and christofides for all shuffles, single threaded, on several threads and with MPI; and `walky lower-bound` with the 1-tree bound. Only the spanning tree bound is smaller, by exactly the longest side. The distances need not be a metric and may be negative. The exception is v1 under MPI, which never returns a result with three cities. For accepted files with three cities (costs not negative) this is also proved of the whole program without MPI: every line with a number, for every command and option, and in release builds christofides always ends with a result.", "quantifier": "all symmetric matrices of three cities with finite costs of any sign, all shuffles, hash functions, reduction trees, schedules, numbers of threads and processes (nearest neighbour, 1-tree and v0 with MPI: up to three), exact arithmetic; debug builds of christofides if the metric test passes", "why_tests_cant": "all distances, schedules, shuffles and hash functions; a special case per algorithm and mode that a handful of instances does not reach", "anchors": ["src/solvers/exact.rs:naive_solver", "src/solvers/exact.rs:first_improved_solver", "src/solvers/exact.rs:second_improved_solver", "src/solvers/exact.rs:third_improved_solver", "src/solvers/exact.rs:fourth_improved_solver", "src/solvers/exact.rs:fifth_improved_solver", "src/solvers/exact.rs:sixth_improved_solver", "src/solvers/exact.rs:threaded_solver", "src/solvers/exact.rs:static_mpi_solver", "src/solvers/approximate/nearest_neighbour.rs:nearest_neighbour", "src/solvers/approximate/christofides.rs:christofides", "src/solvers/exact.rs:dynamic_mpi_solver", "src/mst.rs:prim", "src/one_tree.rs:one_tree_lower_bound"]}
{"id": "C132", "title": "Distances of similar size", "statement": "If all distances between different cities are at least a and at most b (three cities or more, symmetric, not necessarily a metric), then every number that walky reports as the length of a tour is between n a and n b and at most n (b - a) above the optimum; if a is positive it is at most b / a times the optimum, and if a = b it is exactly n a. This holds for `walky exact` with v0 to v6, on several threads and with MPI (v0 with up to n processes; v1 with four cities or more if a is not negative), for nearest neighbour in all modes, and for christofides whatever the shuffles do, where C89 gives no better guarantee (on several threads for every solution that is returned in a debug build or with a matching that repeats no edge). The 1-tree bound is between n a and n b as well, and the spanning tree bounds are between (n - 1) a and (n - 1) b. If a is not negative, the same is proved of every line that the program prints about an accepted file, with MPI of every line of every process except those of `walky exact`.", "quantifier": "all matrices of three or more cities with symmetric costs between a and b of any sign, all shuffles, hash functions, reduction trees, schedules and message orders, all numbers of threads and processes (nearest neighbour, 1-tree and v0 with MPI: up to n), exact arithmetic; debug builds of christofides if the metric test passes", "why_tests_cant": "all instances, schedules and shuffles, including the shuffles for which the local search of the matching goes wrong", "anchors": ["src/solvers/exact.rs:naive_solver", "src/solvers/exact.rs:first_improved_solver", "src/solvers/exact.rs:second_improved_solver", "src/solvers/exact.rs:third_improved_solver", "src/solvers/exact.rs:fourth_improved_solver", "src/solvers/exact.rs:fifth_improved_solver", "src/solvers/exact.rs:sixth_improved_solver", "src/solvers/exact.rs:threaded_solver", "src/solvers/exact.rs:static_mpi_solver", "src/solvers/exact.rs:dynamic_mpi_solver", "src/solvers/approximate/nearest_neighbour.rs:nearest_neighbour", "src/solvers/approximate/nearest_neighbour.rs:nearest_neighbour_mpi", "src/solvers/approximate/christofides.rs:christofides", "src/mst.rs:prim", "src/one_tree.rs:one_tree_lower_bound"]}
{"id": "C133", "title": "Road networks without cycles", "statement": "If the distances are measured along a road network without cycles that connects all cities (a tree), no tour is shorter than twice the total length w of the roads, and there is one of this length. `walky exact` reports 2 w with v0 to v3. The spanning tree bounds are exactly w in all versions (plain, several threads, priority queue), so they are exactly half of the optimum and the factor 2 of C82 is attained on every such network. The 1-tree bound is between w and 2 w. For accepted instance files this is what the program prints: 2 w for `exact` v0 to v3 without threads and MPI, and for every command, with and without threads and MPI, w in every line with a spanning tree bound, between w and 2 w in every line with a 1-tree bound and at least 2 w in every line with the length of an approximate tour (christofides with threads in release builds: if the matching repeats no edge).", "quantifier": "all trees with three or more cities, all lengths of roads, all numberings of the cities, all reduction trees, update orders and heaps, exact arithmetic", "why_tests_cant": "all trees, numbers of cities and lengths", "anchors": ["src/solvers/exact.rs:naive_solver", "src/solvers/exact.rs:first_improved_solver", "src/solvers/exact.rs:second_improved_solver", "src/solvers/exact.rs:third_improved_solver", "src/mst.rs:prim", "src/mst.rs:prim_with_priority_queue", "src/one_tree.rs:one_tree_lower_bound"]}
