# Formal model of walky (lquenti/walky)

A Lean 4 model of the Rust program in `/repo`, and theorems about it for all inputs, schedules, message
orders and random numbers. `MANIFEST.json` lists the theorem names per property, `seeded/LOG.jsonl` the
attempts to break the theorems by editing the model.

## Layers

| layer | files | role |
|---|---|---|
| arithmetic | `Verif/Num.lean`, `Verif/Rounding.lean`, `Verif/Sqrt64.lean` | `FloatOps`: the operations the code applies to `f64`, without any law. `XNum K`: exact instance with the IEEE special values over a linearly ordered field `K`. `Rounding`, `binary64`: the same with a rounding after every operation. |
| spec | `Verif/Spec.lean` | vocabulary of the statements: tours, tour length, optimality, connectivity, spanning edge sets, walks. Does not import the model. |
| spec of texts | `Verif/XmlSpec.lean`, `Verif/NumeralSpec.lean`, `Verif/ProgramSpec.lean` | documents and the instances in them, decimal numerals and their values, command lines. They use the types of the model, but not its readers. |
| representation | `Verif/Rep.lean`, `Verif/Examples.lean` | `Rep m c`: the matrix `m` contains the costs `c`. Example matrices. |
| model | `Verif/Model/*.lean` | the Rust functions, one definition per function, each citing file and lines. |
| lemmas | `Verif/Lemmas/*.lean` | helper proofs. |
| properties | `Verif/Props/*.lean` | the theorems named in `MANIFEST.json`, each with a concrete non-trivial case beside it. |

## What is modelled

| source | model |
|---|---|
| `datastructures/*.rs` | `Model/Base.lean`, `Model/Instance.lean` (matrices, graphs, conversions, evaluation, `is_metric`, points) |
| `solvers/exact.rs` | `Model/Permutation.lean`, `Model/Exact.lean` (v0–v6), `Model/Digits.lean`, `Model/Threaded.lean`, `Model/Mpi.lean`, `Model/MpiSync.lean` (static and dynamic) |
| `mst.rs` | `Model/Prim.lean` (vector, rayon and priority queue versions) |
| `one_tree.rs` | `Model/OneTree.lean` (sequential, rayon, MPI) |
| `solvers/approximate/nearest_neighbour.rs` | `Model/NearestNeighbour.lean` (sequential, rayon, MPI) |
| `solvers/approximate/christofides.rs`, `matching.rs` | `Model/Christofides.lean` (sequential, rayon, MPI) |
| `preconditions.rs`, `parser.rs` (after deserialisation) | `Model/Instance.lean` |
| `parser.rs` from the text on; `utils/gen_matrix_fast/src/main.rs`, `utils/tsp_logic.py` `convert_to_xml` up to the text | `Model/Xml.lean`, `Model/Numerals.lean`, `Model/Parser.lean`, `Model/Instance.lean` |
| the MPI parts of `one_tree.rs`, `nearest_neighbour.rs`, `matching.rs`, rank by rank | `Model/MpiProg.lean` |
| `lib.rs`, `cli.rs` (after argument parsing) | `Model/Cli.lean`, `Model/CliMpi.lean` |
| the three `eprintln!` of `lib.rs`, `mst.rs`, `nearest_neighbour.rs` | `Model/Warnings.lean` |
| `utils/tsp_logic.py` `create_matrix`, `utils/benchmark_gen.py` | `Model/Python.lean` |
| feature `benchmarking` of `src/lib.rs`, `benchmarks/run_often.py`, `benchmarks/Christofides/MPI/run_often_christofides_mpi.py`, `benchmarks/*/MPI/parse.py` `get_measurements` | `Model/Benchmark.lean` |
| `benchmarks/*/MPI/slurm_*.sh`, the rest of `benchmarks/*/MPI/parse.py` up to the drawing | `Model/Plot.lean` |
| `utils/gen_matrix_fast/gen*.sh`, `benchmarks/*/STMT/run*.sh`, `benchmarks/MST/QUEUE/run*.sh`, the `plot_*.py` beside them up to the drawing | `Model/PlotSingle.lean` |
| `utils/simple_gen.py` | `Model/SimpleGen.lean` |
| `utils/NN_approx.py`, `utils/tsp_logic.py` `convert_to_rust_code` | `Model/PythonNN.lean` |
| `main.rs`, `cli.rs` from the arguments on, the output as text | `Model/Program.lean` (build without `mpi`), `Model/ProgramMpi.lean` (build with `mpi`) |

### Numbers

The model is generic over `FloatOps α` (constants, `+`, `-`, `*`, halving, the three comparisons).
Theorems come in three strengths:

* *law-free*: proved for every `FloatOps α`; they hold for IEEE doubles as they are (e.g. C09, C12, C47,
  C68, C69). C30 only assumes that the `OrderedFloat` comparison is a strict weak order.
* *exact*: proved for `XNum K`: finite values are elements of a linearly ordered field `K` without rounding;
  `inf - inf = nan`, comparisons with `nan` are false, `OrderedFloat` puts `nan` on top.
* *rounded* (C63–C66, C74–C81, C85–C88, C92–C95, C97–C99, C100, C106, C125, C127 and others): `XNum ℚ` with every result rounded to the nearest IEEE double, ties to even, with
  gradual underflow and overflow to infinity (`Lemmas/Binary64.lean`; it is shown that the rounding function
  returns a nearest double). Not modelled: the sign of zero (no comparison of the code observes it; a printed zero may be `0` or `-0`, and the contract of printing, `Spec.Display`, allows both) and NaN
  payloads.

### Panics

`RM α := Except Panic α`. Index out of bounds, `unwrap` of `None`, failed `assert!`, `unimplemented!`,
division by zero are error values. `usize` subtraction below zero is an error value in debug builds and wraps around to
`2^64 - 1` in release builds; this can happen in one place only, the multiplicity and degree counters of the Euler walk
(`decr`), which therefore take the kind of build as a parameter. Overflow of `usize` and `i32` additions and products
(it takes more than 2.6 million cities: `basis.pow(3)`) is modelled in `Model/MachineInt.lean` (C110); the other files use `Nat`. Loops whose termination is not structural get fuel; running out of fuel is a
distinguished error and the theorems show that it does not happen.

### Nondeterminism

* `shuffle`: an arbitrary permutation is passed in.
* rayon `min_by`/`max_by`: an arbitrary binary reduction tree over the items in order; parallel `for_each`
  with disjoint writes: an arbitrary order of the writes.
* unsynchronised writes through raw pointers (`christofides.rs`): separate reads and writes, all
  interleavings. (In Rust this is undefined behaviour; the model takes the mildest reading.)
* threads: every interleaving of the atomic (locked) steps.
* MPI: a transition system with a FIFO queue per pair of processes; `any_process().receive` takes a message
  of any process that has one. Sends are buffered; C73 shows that the exact solvers do not need this. Collective operations combine each contribution once, in any order and tree. Broadcasts between
  buffers of different length are errors. In the exact solvers a process that panics takes no more steps. The
  other MPI programs exist twice: as functions that describe all ranks together (a panic on one rank aborts
  the job), and rank by rank (`Model/MpiProg.lean`) as a transition system in which MPI decides for every
  operation whether it returns at once or waits for the other ranks. C70–C72 show that both agree.
  `mpi::initialize` returns `None` when called a second time.
* heap ties in the priority queue: an arbitrary choice among the minimal entries.
* FxHash: an arbitrary function `List Nat → Nat`.

### Simplifications and parts that are not modelled

* XML: elements, attributes in quotes, text, `<?...?>`. Comments, CDATA, `<!DOCTYPE>`, entities, prefixes of names, a byte order
  mark, `<?...?>` inside the root element and text next to elements are outside of the model: the result is `unmodelled`, about which
  the theorems claim nothing. The texts are lists of characters (the model does not go down to UTF-8).
* quick-xml 0.28 and serde by contract: which elements become which struct is modelled as the derived code does it
  (`Model/Parser.lean`), trimming of white space as in quick-xml's deserializer. Kinds of errors are not distinguished.
* `f64::from_str` by contract: it accepts the grammar of the standard library and rounds correctly (`Model/Numerals.lean`).
  `Display` of `f64` by contract: a numeral without exponent that rounds to the number. Python's `{:.15e}` by contract: 16 significant digits,
  correctly rounded. `np.linalg.norm` of two coordinate differences by contract (`NumpyNorm`): a double with a relative error of at most `2⁻⁵⁰`;
  `np.random.rand` draws multiples of `2⁻⁵³` below 1. Python's `float` rounds decimal numbers correctly (`PyFloat`), `sorted` sorts (`Sorts`).
* clap 4 by contract (`Model/Program.lean`); help and version requests are outside of the model. What has been printed before a panic is modelled (`Prints`, C125), except in MPI jobs that are aborted; of stderr the warnings are (C128), the messages of panics and errors are not, nor is
  a file that changes while walky runs (`approx --lower-bound` reads it twice). In `Model/CliMpi.lean` the arguments and the texts are not modelled.
* The rest of `benchmarks/` (other job scripts, the drawing of plots), the rest of `utils/`, and wall-clock time: with the feature `benchmarking` the measured times are parameters.
* `usize`, `i32` overflow: `Nat` is used, except in `Model/MachineInt.lean` (prefixes, chunks of nearest neighbour), which shows where this is justified. Indices, counters and sizes of vectors that exist in memory do not overflow.
* Memory: vectors are lists. `unsafe` pointer writes are writes to the addressed cell; the lock-free
  broadcast buffers of MPI are lists.
* `sqrt` of points: an arbitrary function where the statement allows it; the exact root in C56, the correctly rounded
  root of IEEE 754 (`Verif/Sqrt64.lean`) in C85–C88. `powi(2)` is one rounded multiplication.
* `rand::random::<f64>()` is a 53-bit integer times 2⁻⁵³ (rand 0.8).

### Agreement with the tests of the repository

`Verif/Conformance.lean` runs the unit tests of the repository on the model: every `#[test]` about modelled
code is a statement that the kernel checks by evaluation, with the numbers written in the test. (Exception: the nine-city
test is only run for v5; the tests of foreign containers are left out.) `Verif/ConformanceXml.lean` does the same for the tests of the
XML parser, in double precision.

## Trusted base

Lean 4.33.0's kernel, the definitions of Mathlib used in the statements, and the axioms `propext`,
`Classical.choice`, `Quot.sound` (see the end of this file). No own axioms, no `sorry`, no `native_decide`,
no `bv_decide`. Concrete witnesses are evaluated by the kernel (`decide +kernel`, `rfl`). The correspondence
between the Rust text and the Lean definitions is by reading; each definition cites its lines. The contracts
of rayon, MPI, rand, ordered-float, priority-queue, quick-xml, clap and of reading and printing numbers listed above are assumptions of the model.

## Where the code disagrees with the expectation

Each item has a theorem with a witness (name in parentheses).

| code | behaviour |
|---|---|
| `exact.rs` v0, v1 | infinite cost for one city resp. up to two cities (`C03_v0_single_city`, `C04_v1_small`) |
| `exact.rs` v4, v5, v6, threads, MPI | the pruning is not a lower bound: not exact (`C07_v4_not_exact`, `C08_v5_not_exact`, `C20_not_exact`, on metrics `C105_v4_ring`); v5 and the threads can be twice as long as necessary, asymptotically (`C105_v5_tight`, `C105_threads_tight`), v4 has no constant factor on metrics (`C105_v4_no_constant`) and can miss a tour of length 0 (`C105_v4_no_factor`) |
| `exact.rs` v2–v6 | `inf - inf` after backtracking loses tours (`C13_v2_misses_tour`); cancellation: v2 can report 3 for a tour of length 104 in double precision (`C66_v2_rounding`) |
| `exact.rs` chunks | remainder lost (`C16_remainder_lost`); the threads and the static MPI solver also skip the first and the last value of each chunk (`HasWork`) |
| static MPI | panics with `n³` or more workers (`C21_too_many_workers`), fails when a worker has nothing to search (`C27_static_mismatch`, `C23_no_work`), a single process returns infinity (`C23_single_process`), deadlock when all tours have negative length (`C73_static_negative`) |
| dynamic MPI | panics for `n ≤ 3` (`C25_small_panic`, `C25_small_no_result`), ignores negative costs (`C26_negative`), broadcast between different lengths possible with two or more workers (`C27_dynamic_mismatch`) |
| threads | two cities: empty path (`C19_threaded_two_cities`) |
| `mst.rs` priority queue | wrong end points of the edges (`C31_queue_wrong_edges`) |
| `one_tree.rs` | infinite bound for two cities (`C34_two_cities`), panics with more ranks than cities (`C35_mpi_too_many_ranks`) |
| `nearest_neighbour.rs` MPI | panics with more ranks than cities (`C40_too_many_ranks`) |
| `matching.rs` | `[v0, v2]` stored instead of `[v0, v3]` (`C44_not_perfect`, `C45_can_worsen`, exactly when: `C112_perfect_iff`, `C112_always_iff`), with MPI a further process can make the tour longer (`C112_more_processes`); panics on the empty matching with MPI (`C51_empty_matching`, `C62_one_city`) |
| `christofides.rs`, `matching.rs` | random local search instead of a minimum matching: more than 5/2 of the optimum on a metric with 20 cities (`C89_no_guarantee`), and no constant factor at all (`C89_unbounded`) |
| `christofides.rs` PAR | lost increments; the Euler walk can then hang (`C46_lost_update`, `C41_par_can_hang`); in release builds the subtractions of `find_cycle` wrap around and the returned route can leave out a city: `walky approx christofides -p multi-threaded -l one-tree` can print a weight of 152 and a lower bound of 168 (`C41_par_release_wrong`, `C59_christofides_below_bound`) |
| preconditions, conversions | self loops accepted, conversions then differ (`C55_self_loop`, `C54_self_loop`); equal points give a rejected instance (`C57_equal_points`); the file of the generator for one city cannot be read (`C92_generator`) |
| `benchmarks/` | `run_often.py` leaves out runs that fail without saying so (`C103_collect`); `parse.py` counts a nearest neighbour job once for each rank (and twice with a bound), a Christofides job once (`C104_measurements`); the loops of the slurm scripts run once more than `NUMBER_OF_BENCHMARK_RUNS` says, and one file without a time makes `parse.py` fail (`C119_number`, `C119_no_measurement`); `MST/STMT/run.sh` keeps old results of sizes without a successful run (`C120_results`), `gen_xxl.sh` generates three of the seven large instances (`C120_instances`, `C120_large`), `MST/QUEUE/plot_results.py` and `Exact/STMT/plot_results_pt2.py` read files that no script writes (`C120_queue`, `C120_exact`), the 1-tree plot leaves out the sizes 2600 to 3000 (`C120_plot`) |
| `is_metric` | ignores NaN and asymmetry (`C52_nan`, `C52_asymmetric`); false for the double precision distances of some points on a line with coordinates below 750000, on which `christofides` then panics in debug builds (`C86_large`) |
| `lib.rs` | with several threads the exact algorithm asked for is ignored without a warning (`C128_algorithm_ignored`) |
| `nearest_neighbour.rs` MPI | every rank warns that only all start nodes are supported, although all start nodes is what was asked for (`C128_mpi`) |
| `exact.rs` v4, v5 | the result depends on the numbering of the cities, even on metrics (`C107_v4_v5`) |
| `datastructures/mod.rs:63` | the tolerance of `is_metric` is absolute: debug builds of Christofides accept an instance in one unit and panic in another one (`C108_tolerance`) |
| nearest neighbour, Christofides, v4, v5 | a longer road can make the printed tour shorter, also on metrics (`C109_nearest_neighbour_not`, `C109_christofides_not`, `C109_v4_v5_not`) |
| `exact.rs` v6 | the argument of `or_insert` is always evaluated, so every spanning tree is computed (`C106_v6_eager`), and no prefix is tested twice, so without collisions no cached value is ever used (`C106_v6`); collisions can only change the result (C09) |
| `lib.rs:158` | `approx --lower-bound one-tree` can print a result and then panic (`C125_happens`) |
| `lib.rs` threads | the exact solver can print more than an approximation (`C59_threaded`) |
| `lib.rs` MPI | `approx --lower-bound one-tree` always panics (`C68_one_tree_fails`); every rank prints (`C69_everyone_prints`); v2–v6 unimplemented (`C67_unimplemented`) |

## Seeded bugs

`seeded/LOG.jsonl` has one line per wrong program. The edit is made in a copy of the model, then the project
is rebuilt; each declaration whose proof fails is replaced by an assumption and the build continues, until
everything builds. `failed_directly` lists the declarations whose own proof failed. `theorems_failed` lists the
theorems of `MANIFEST.json` whose proof failed or uses such a declaration; the latter are not known to be
false of the edited program. `survived_unexpectedly` lists claims that were expected to fail and did not.


## Properties

Each property is a line of `properties.jsonl`. "proved" means as stated there; "partial" means that a
theorem with suffix `_partial` proves the part named in its docstring, and that the rest is false of the
code (a theorem proves the negation with a witness) or missing.

### C01 next_permutation is the lexicographic successor — proved

next_permutation rewrites the array into the lexicographically next rearrangement of its elements and returns true; it returns false, leaving the array unchanged, exactly when no rearrangement is lexicographically larger.

How: Index-loop model of `next_permutation`; shown equal to a recursive version, for which the lexicographic successor property goes by induction.

Note: lexicographic successor, every list, also with repeated entries

Theorems: `C01_next_permutation`.

### C02 Permutation enumeration is complete — proved

Starting from the sorted array 0,1,..,n-1 and calling next_permutation until it returns false visits every permutation of 0..n-1 exactly once, and the loop terminates.

How: Iterating C01 gives a strictly increasing chain without gaps in a finite set.

Theorems: `C02_enumeration_complete`.

### C03 naive_solver (v0) is exact — partial

naive_solver returns a tour visiting every city exactly once, the returned cost is the length of that tour, and no tour is shorter.

How: The loop is a minimum over all permutations but the first; the tour skipped is a rotation of one that is seen. For one city nothing is evaluated and the cost stays infinite.

Note: exact for n>=2; for n<=1 nothing is evaluated and the cost is infinite (negation theorem)

Theorems: `C03_v0_exact_partial`, `C03_v0_single_city`.

### C04 first_improved_solver (v1) is exact — partial

first_improved_solver returns a tour visiting every city exactly once starting at city 0, the returned cost is the length of that tour, and no tour is shorter.

How: As C03: the tour skipped is the reversal of one that is seen, hence symmetric costs (witness that they are needed). Up to two cities nothing is evaluated.

Note: exact for n>=3; for n=1, 2 the cost is infinite, for n=0 it panics (negation theorem); C04_v1_needs_symmetry shows that the symmetry of the costs is needed

Theorems: `C04_v1_exact_partial`, `C04_v1_small`, `C04_v1_needs_symmetry`.

### C05 second_improved_solver (v2) is exact — proved

second_improved_solver returns a shortest tour over all cities together with its length.

How: A generic depth first search with a pruning test; exactness lemma along one tour; invariant `running cost = path cost`.

Theorems: `C05_v2_exact`.

### C06 third_improved_solver (v3) is exact — proved

third_improved_solver, which prunes on the partial sum, still returns a shortest tour together with its length.

How: As C05: a pruned prefix is already as long as the best tour; non-negative costs make prefixes lower bounds.

Note: non-negative costs as in the statement; C06_needs_nonneg shows the hypothesis is needed

Theorems: `C06_v3_exact`, `C06_needs_nonneg`.

### C07 fourth_improved_solver (v4) is exact — partial

fourth_improved_solver, which prunes on partial sum plus a nearest-neighbour bound of the remaining vertices, returns a shortest tour together with its length.

How: The bound sums, for every remaining city, the cheapest edge to a later remaining city. This is not a lower bound. Kernel-checked six-city witness; exactness up to five cities; for every dimension the answer is at most every tour that increases and then decreases after its second city.

Note: false in general (negation with witness); exact for n<=5

Theorems: `C07_v4_not_exact`, `C07_v4_hill_partial`, `C07_v4_exact_partial`.

### C08 fifth_improved_solver (v5) is exact — partial

fifth_improved_solver, which prunes on partial sum plus a spanning-tree bound of the remaining vertices, returns a shortest tour together with its length.

How: The bound is `directed_edge_weight` of a spanning tree of the remaining cities, which counts every edge twice. So it is not a lower bound (kernel-checked witness), but half of it is, which gives the factor 2.

Note: false in general (negation with witness); within a factor 2, exact for n<=5

Theorems: `C08_v5_not_exact`, `C08_v5_within_twice_partial`, `C08_v5_exact_partial`.

### C09 sixth_improved_solver (v6) equals v5 — proved

Caching the spanning-tree bound under the 64-bit hash of the prefix does not change the answer: sixth_improved_solver returns exactly what fifth_improved_solver returns.

How: Simulation of v6 by v5: without collisions the cache only ever contains the value that v5 computes.

Note: hash function assumed injective on the cached sets; C09_needs_injective shows why

Theorems: `C09_v6_eq_v5`, `C09_needs_injective`.

### C10 Branch-and-bound answers are truthful — proved

v2, v3, v4, v5 and v6 always terminate without panicking and return a permutation of all cities together with exactly the length of that tour, which is never above the length of the tour 0,1,..,n-1.

How: Invariant of the depth first search: the stored pair is a tour and its length; the first leaf is the identity.

Theorems: `C10_truthful`.

### C11 Exact solvers agree on the cost — proved

Whatever algorithm version v0..v3 is chosen, the returned best cost is the same number.

How: From C03–C06.

Theorems: `C11_solvers_agree`.

### C12 Search answers are well formed in every arithmetic — proved

Whatever the numeric behaviour of the cost type (rounding, overflow, NaN), the path returned by a branch-and-bound solver is either empty or a permutation of all cities.

How: Invariant of the depth first search without arithmetic laws.

Note: law-free: every arithmetic including IEEE doubles

Theorems: `C12_well_formed`.

### C13 Missing (infinite) edges do not hide finite tours — partial

If the matrix contains edges of cost infinity (unconnected pairs) but some tour of finite cost exists, second_improved_solver finds a shortest one.

How: Missing edges: `inf - inf = NaN` after backtracking loses tours (witness). Proved: the answer is no tour at all, or a tour along present edges with its length.

Note: false in general (negation with witness)

Theorems: `C13_v2_misses_tour`, `C13_missing_edges_partial`.

### C14 b-ary digit conversion round-trips — proved

The digits reported for a chunk boundary are the base-b representation, most significant first, with exactly number_digits digits, of the boundary value.

How: Digits compared with `Nat.ofDigits`.

Theorems: `C14_digits`, `C14_chunk_digits`.

### C15 get_next_value is increment with overflow detection — proved

get_next_value on a number with valid digits returns the digits of the number plus one, and None exactly when the number was the largest representable one.

How: Digits compared with `Nat.ofDigits`; carry by induction.

Theorems: `C15_next_value`.

### C16 Work chunks are ordered, disjoint and cover the prefix space — partial

The n chunks returned by split_up_b_ary_number_into_n_chunks are consecutive disjoint intervals whose union is the whole space of basis^number_digits prefixes.

How: Arithmetic; the remainder of the division is never handed out.

Note: consecutive and disjoint; the remainder of the division is in no chunk (negation theorem)

Theorems: `C16_chunks_partial`, `C16_remainder_lost`.

### C17 Threaded solver: the answer's cost is schedule independent — partial

Whatever order the worker threads run in and acquire the lock, the cost returned by threaded_solver is the same, and the returned path is a tour having that cost.

How: Threads are interleavings of atomic steps on the shared minimum and the local searches; invariant over all reachable states; termination measure.

Note: every interleaving; excludes two cities with one thread, where the path is empty (C19_threaded_two_cities)

Theorems: `C17_schedule_independent_partial`, `C17_progress`, `C17_result_exists`.

### C18 Threaded solver: no tour's prefix is skipped — partial

For every tour, the prefix work handed to some thread contains the first three cities of some rotation of the tour.

How: Chunk arithmetic: for each tour a rotation is found whose first three cities are searched by some thread.

Note: every n>=3, every number of threads below n, every complete execution; tours of two cities have no three-city prefix

Theorems: `C18_prefix_searched_partial`.

### C19 Threaded solver always returns a tour — partial

threaded_solver returns a tour over all cities (not an empty path with infinite cost).

How: Invariant of C17.

Note: false for two cities and one thread (negation theorem), otherwise proved

Theorems: `C19_threaded_tour_partial`, `C19_threaded_two_cities`.

### C20 Threaded solver is exact — partial

threaded_solver returns a shortest tour and its length.

How: C08's pruning argument transported to the shared minimum; witness with concrete schedule.

Note: exact for n<=5, within a factor 2 for every n; false in general (negation with witness)

Theorems: `C20_threaded_exact_partial`, `C20_threaded_within_twice_partial`, `C20_not_exact`.

### C21 Static MPI solver terminates without deadlock — partial

With non-negative costs, under every message delivery order the coordinator stops listening after every worker has announced completion, no process waits forever, and everybody reaches the final barrier.

How: Transition system of the coordinator, the workers and their message queues. Inductive invariant over all reachable states, a decreasing measure, progress lemma.

Note: every message order, 1 <= workers < n^3; n^3 or more workers panic while splitting the work (negation theorem)

Theorems: `C21_static_no_deadlock_partial`, `C21_too_many_workers`.

### C22 Static MPI solver: winner is consistent — partial

When the static MPI solver finishes, the broadcast cost is the minimum over all workers' local results, and the winning rank's local path has exactly that cost.

How: Same invariant.

Note: if no worker has anything to search the winner is (infinity, rank 0) and there is no local path

Theorems: `C22_static_winner_partial`, `C23_single_process`, `C23_no_work`.

### C23 Static MPI solver finds a tour for every world size — partial

The static MPI solver returns a tour over all cities for every number of processes.

How: Same invariant; which chunks contain work is decided by arithmetic on prefixes.

Note: proved whenever every worker has a prefix to search, in particular fewer workers than cities; false for a single process and for chunk size 2 (negation theorems)

Theorems: `C23_static_tour_partial`, `C23_static_few_workers_partial`, `C23_single_process`, `C23_no_work`, `C21_too_many_workers`.

### C24 Dynamic MPI solver: each prefix is handed out exactly once and everyone is released — proved

Under every message order the dynamic coordinator hands each duplicate-free 3-prefix from [1,2,3] upwards to exactly one worker, in order, releases every worker exactly once with the zero prefix, and terminates.

How: Log variable recording all prefixes handed out; invariant.

Theorems: `C24_dynamic_handout`.

### C25 Dynamic MPI solver covers every tour — partial

Every tour has a rotation whose first three cities are among the prefixes the dynamic coordinator hands out (all of which are valid cities).

How: Every tour has a rotation whose prefix is in the list of C24. Up to three cities: no execution reaches the end, shown by an invariant.

Note: n >= 4; for n <= 3 the first prefix is invalid and the worker panics (negation theorem)

Theorems: `C25_dynamic_covers_partial`, `C25_small_panic`, `C25_small_no_result`, `C25_single_process`.

### C26 Dynamic MPI solver: winner is consistent — partial

When the dynamic MPI solver finishes, the broadcast cost is the minimum over all workers' local results, and the winning rank's local path has exactly that cost.

How: Same invariant.

Note: non-negative costs and n >= 4; negative costs are ignored by the coordinator (negation theorem)

Theorems: `C26_dynamic_winner_partial`, `C26_negative`.

### C27 Final MPI broadcast delivers the winner's path to every rank — partial

In the wrap-up of the MPI solvers every rank passes a buffer of the same length as the winner's path, so that all ranks return the same solution.

How: Lengths of the broadcast buffers from the invariants; starving schedule as witness.

Note: static: equal buffers if every worker has work, mismatch otherwise; dynamic: equal buffers if every worker found a tour, and for every matrix with two or more workers there is a message order with a mismatch

Theorems: `C23_static_tour_partial`, `C27_static_mismatch`, `C27_dynamic_partial`, `C27_dynamic_one_worker_partial`, `C27_dynamic_mismatch`.

### C28 Prim returns a spanning tree — proved

prim (and prim_with_excluded_node_*_threaded) returns an undirected graph on the non-excluded vertices that is connected, has one edge fewer than vertices, whose edges carry the matrix costs, and in which excluded vertices are isolated; if all vertices are excluded the result is empty.

How: Prim's loop: invariant (tree on the connected vertices, stored edges are the cheapest to the tree).

Theorems: `C28_prim_spanning_tree`.

### C29 Prim's tree has minimum weight — proved

The undirected weight of the tree returned by prim is at most the weight of every connected edge set spanning the same vertices.

How: Exchange argument by contraction on edge lists.

Theorems: `C29_prim_minimum`.

### C30 Multi-threaded Prim equals single-threaded Prim — proved

prim with PAR_COMPUTATION returns exactly the same graph (same edges in the same order) as with SEQ_COMPUTATION, for every way rayon splits and reduces the work.

How: A leftmost minimum is independent of the reduction tree; updates of different cells commute.

Note: every reduction tree and update order

Theorems: `C30_par_eq_seq`, `C30_order_exact`.

### C31 Priority-queue Prim equals the other variants — partial

prim_with_excluded_node_priority_queue returns a minimum spanning tree of the same weight as the other variants, whose edges join the vertices with the matrix costs.

How: `push_increase` returns the given cost when nothing was increased, so the comparison with the old cost always succeeds and the tree end of the edge is overwritten: witness. The costs in the queue, and so the weight, are unaffected.

Note: weight equal for every heap tie-breaking; edges are wrong (negation with witness)

Theorems: `C31_queue_weight_partial`, `C31_queue_wrong_edges`.

### C32 MST weight is a lower bound on every tour — proved

The value printed by the MST lower bound is at most the length of every tour.

How: C29 applied to a tour without its closing edge.

Theorems: `C32_mst_lower_bound`.

### C33 one_tree builds a 1-tree — proved

one_tree(graph, v) is a minimum spanning tree of the graph without v plus the two cheapest edges at v, leading to two different vertices.

How: C28/C29 on the graph without the special vertex, plus the two cheapest edges.

Theorems: `C33_one_tree`.

### C34 The 1-tree bound is a lower bound on every tour — partial

one_tree_lower_bound(graph) is at most the length of every tour.

How: A tour is a 1-tree; for two cities the second edge does not exist.

Note: valid lower bound for n>=3; for n=2 the computed bound is infinite (negation theorem)

Theorems: `C34_one_tree_bound_partial`, `C34_two_cities`.

### C35 1-tree bound is the same in all computation modes — partial

one_tree_lower_bound yields the same number sequentially, with rayon under every reduction tree, and on the MPI root for every world size.

How: Reduction trees; for MPI the strided chunks cover all vertices.

Note: rayon equals sequential for every reduction tree; MPI equals it for every world size up to n; more ranks than cities panic (negation theorem)

Theorems: `C35_par_eq_seq`, `C35_mpi_partial`, `C35_mpi_too_many_ranks`.

### C36 The 1-tree bound dominates the MST bound — proved

one_tree_lower_bound is at least the MST lower bound.

How: C29 and the two edges.

Theorems: `C36_one_tree_ge_mst`.

### C37 single_nearest_neighbour returns a truthful tour — proved

single_nearest_neighbour(graph, index) terminates without panicking and returns a permutation of all cities starting at index together with the length of that closed tour.

How: Loop invariant.

Theorems: `C37_single_truthful`.

### C38 Nearest neighbour is greedy — proved

Each city in the returned path is at minimal distance from its predecessor among the cities not visited before.

How: Loop invariant.

Theorems: `C38_greedy`.

### C39 nearest_neighbour's cost is independent of shuffling and mode — proved

nearest_neighbour returns the minimum of the single-start costs over all starts, for every outcome of the random shuffle and every rayon reduction; n_nearest_neighbour returns the minimum over the n distinct starts drawn.

How: Minimum over the starts; reduction trees.

Theorems: `C39_n_nearest_neighbour`, `C39_nearest_neighbour`, `C39_par_eq_seq`, `C39_nearest_neighbour_par`.

### C40 MPI nearest neighbour equals the sequential one — partial

With the MPI mode every rank returns the same solution, whose cost equals that of the sequential nearest_neighbour, for every order in which MPI combines the partial results.

How: Chunks cover all starts; the reduction operation is a commutative minimum, whatever tree MPI uses.

Note: every world size up to n and every reduction; more ranks than cities panic (negation theorem)

Theorems: `C40_mpi_partial`, `C40_too_many_ranks`.

### C41 christofides returns a truthful Hamiltonian cycle — partial

christofides returns a closed walk that starts and ends at city 0, visits every city exactly once in between, and whose reported cost is its length.

How: Pipeline Prim – matching – multigraph – Euler walk – shortcut, each with its own lemma. The parallel multigraph uses unsynchronised increments through raw pointers: modelled as separate reads and writes, all interleavings.

Note: SEQ is proved for every finite matrix (in debug builds: every matrix passing is_metric). PAR is proved when the computed matching repeats no edge (in particular under NoThree); in debug builds every solution that PAR returns, for any interleaving, is a truthful tour; in release builds it is a truthful closed walk without repeated cities, but can leave out cities, because the subtractions of find_cycle wrap around after a lost increment (C41_par_release_wrong). PAR can also hang (C41_par_can_hang).

Theorems: `C41_christofides_seq`, `C41_christofides_par_partial`, `C41_christofides_par_noThree_partial`, `C41_christofides_par_returned_partial`, `C41_christofides_par_walk_partial`, `C41_par_can_hang`, `C41_par_release_wrong`, `C41_debug_not_metric`.

### C42 christofides_generic cost is bounded by MST plus matching — proved

If the matching pairs up exactly the odd-degree vertices of the MST, the cost returned by christofides_generic is at most the MST weight plus the matching weight.

How: Bounded by MST + matching; shortcut by the triangle inequality.

Note: SEQ and every outcome of PAR.

Theorems: `C42_christofides_bound`.

### C43 christofides_generic is a 3/2-approximation with an optimal matching — proved

If the matching computer returns a minimum-weight perfect matching of the odd-degree vertices, the cost returned by christofides_generic is at most 3/2 of the length of every tour.

How: Classical argument, for the case that the matching is a minimum one.

Note: SEQ and every outcome of PAR.

Theorems: `C43_three_halves`.

### C44 The matching handed to the multigraph is perfect — partial

compute_approx_matching returns edges that contain every odd-degree vertex of the MST exactly once and no other vertex.

How: In the case that pairing 0-3, 1-2 is best after 0-2, 1-3 was better than the start, the code stores `[v0, v2]` where `[v0, v3]` is meant (matching.rs:164): witness. Shape of the matching by induction over the rounds.

Note: False in general: optimize_two_matching stores [v0, v2] instead of [v0, v3] (C44_not_perfect); for exactly which shuffles and instances is C112. Proved: number of edges and where their ends are, for all matrices; perfect when no four cities have three pairings of three different costs, or with at most three odd vertices.

Theorems: `C44_matching_shape_partial`, `C44_matching_perfect_partial`, `noThree_of_fourPoint`, `C44_not_perfect`.

### C45 Local search never worsens the matching — partial

improve_matching never increases the total cost of the matching.

How: Same.

Note: False in general for the same reason (C45_can_worsen). Proved under NoThree, with PAR equal to SEQ for every order of the chunks.

Theorems: `C45_local_search_partial`, `C45_can_worsen`.

### C46 Multigraph construction is the union of MST and matching in both modes — partial

fill_multigraph_with_mst_and_matching returns, for every pair (i,j), the number of MST edges plus the number of matching edges between i and j; sequential and parallel modes agree when no edge is repeated in the matching.

How: Same model of the increments as C41.

Note: SEQ for every matching; PAR for every matching without repeated edges and every interleaving; with a repeated edge an increment can be lost (C46_lost_update).

Theorems: `C46_fill_seq`, `C46_fill_par_partial`, `C46_lost_update`.

### C47 Hierholzer walk uses every edge exactly once — proved

On a connected multigraph with even degrees, eulerian_cycle_from_multigraph terminates and returns a closed walk from vertex 0 traversing every edge exactly as often as its multiplicity.

How: Hierholzer's loop: invariant on the used degrees; termination measure; law-free.

Note: For every number type (no arithmetic laws used).

Theorems: `C47_euler`, `C47_asymmetric`.

### C48 Shortcutting keeps first visits and does not lengthen the walk — partial

hamiltonian_from_eulerian_cycle keeps exactly the first occurrence of each vertex in order, closes the cycle at the first vertex, and on metric graphs does not increase the length.

How: Induction; triangle inequality.

Note: First visits for every walk. The length claim holds for closed walks, and for open walks compared with the closed-up walk; it is false for open walks as such (C48_open_walk).

Theorems: `C48_shortcut_partial`, `C48_open_walk`.

### C49 is_hamiltonian_cycle decides Hamiltonicity — proved

For a closed walk (first vertex = last vertex, at least two entries) is_hamiltonian_cycle is true exactly when the walk without its last entry is a permutation of all vertices.

How: Direct.

Theorems: `C49_is_hamiltonian_cycle`.

### C50 Approximations never beat the optimum — partial

The costs returned by nearest_neighbour and christofides are at least the cost returned by the exact solvers v0..v3, and at least the MST and 1-tree bounds.

How: Composition.

Note: christofides SEQ always; PAR: every solution it returns if the build is a debug build or the matching repeats no edge. Otherwise false in release builds (C41_par_release_wrong).

Theorems: `C50_approximations_partial`.

### C51 MPI matching improvement returns the best rank's matching everywhere — partial

mpi_improve_matching leaves the same matching on all ranks, whose cost is the minimum over all ranks.

How: All ranks together; the root takes messages in rank order.

Note: Every non-empty matching; the empty matching panics (C51_empty_matching).

Theorems: `C51_mpi_matching_partial`, `C51_empty_matching`.

### C52 is_metric decides the triangle inequality — partial

is_metric returns true exactly when cost(i,j) <= cost(i,k)+cost(k,j)+1e-10 for all i,j,k.

How: Direct; special values of IEEE arithmetic by cases.

Note: Every symmetric matrix of finite or +infinite costs; with NaN entries is_metric only says that no inequality is violated (C52_no_violation, C52_nan).

Theorems: `C52_no_violation`, `C52_is_metric_partial`, `C52_is_metric_finite`, `C52_metric_passes`, `C52_nan`, `C52_asymmetric`.

### C53 Tour length is invariant under rotation and reversal — proved

evaluate_circle gives the same value for a cycle read from any starting city, and for symmetric matrices also in reverse; evaluate_circle = evaluate_path + closing edge.

How: List lemmas.

Theorems: `C53_closing_edge`, `C53_rotation`, `C53_reversal`.

### C54 Graph to matrix conversions agree — partial

For a graph accepted by do_conditions_hold the NAMatrix and VecMatrix conversions have the same off-diagonal entries, and each given edge's cost appears at its position.

How: Induction over edges.

Note: Accepted graphs without self loops; with self loops the matrices can differ (C54_self_loop).

Theorems: `C54_conversions_partial`, `C54_self_loop`.

### C55 Accepted instances are complete undirected graphs — partial

do_conditions_hold is true exactly for graphs in which every vertex has exactly one edge to every other vertex, none to itself, and both directions have the same cost.

How: Counting argument on sorted neighbour lists.

Note: Equivalence for graphs without self loops; a graph of self loops is accepted (C55_self_loop).

Theorems: `C55_conditions_partial`, `C55_complete_accepted`, `C55_parse`, `C55_self_loop`.

### C56 from_points and par_from_points build the same Euclidean matrix — partial

Both constructors return the same symmetric matrix with zero diagonal holding the Euclidean distances, for every parallel schedule; with exact square roots it satisfies is_metric.

How: Direct, for an arbitrary `sqrt` where possible and the real square root for the metric part.

Note: All finite points; with infinite coordinates the diagonals differ (C56_infinite).

Theorems: `C56_from_points`, `C56_par_eq_seq`, `C56_points_partial`, `C56_infinite`.

### C57 Generated instances are accepted — partial

The instance written by gen_matrix_fast is accepted by do_conditions_hold.

How: Direct on the graph (XML text not modelled).

Note: Accepted exactly if the points are pairwise different; equal points give a rejected instance (C57_equal_points). For the text of the file see C92.

Theorems: `C57_generated`, `C57_generated_partial`, `C57_equal_points`.

### C58 Edge weights and insertion are consistent — partial

add_undirected_edge raises undirected_edge_weight by exactly the edge cost and both vertex degrees by one; undirected_edge_weight is half of directed_edge_weight.

How: Direct.

Note: The degree claim needs different end points (C58_loop).

Theorems: `C58_weight`, `C58_degrees_partial`, `C58_loop`.

### C59 The command line reports consistent bounds — partial

For an accepted instance the number printed by `walky lower-bound` (mst, mst-queue, one-tree) is at most the cost printed by `walky exact` (v0..v3), which is at most the cost printed by `walky approx`.

How: Composition of everything that `lib.rs` calls without MPI.

Note: All commands without MPI on accepted instances without self loops: lower bounds <= optimum <= printed tours (for multi-threaded Christofides in release builds: if the matching repeats no edge), and v0-v3 on one thread print the optimum. The multi-threaded exact solver can print more than an approximation (C59_threaded); multi-threaded Christofides can print less than the optimum (C59_christofides_below_bound).

Theorems: `C59_bounds_partial`, `C59_threaded`, `C59_christofides_below_bound`.

### C60 Static MPI solver: quality of the result — proved

With fewer workers than cities and symmetric non-negative costs, all ranks of the static MPI solver return the same tour with its length, at most twice the length of a shortest tour and shortest for up to five cities.

How: As C20 for the static MPI solver.

Theorems: `C60_static_quality`.

### C61 Dynamic MPI solver: quality of the result — proved

With at least four cities and symmetric non-negative costs, the cost broadcast by the dynamic MPI solver is the length of a tour, at most twice the length of a shortest tour and shortest for up to five cities.

How: As C20 for the dynamic MPI solver.

Theorems: `C61_dynamic_quality`.

### C62 MPI Christofides returns a truthful Hamiltonian cycle — partial

The root of an MPI run of christofides returns a closed walk that starts and ends at city 0, visits every city exactly once in between, and whose reported cost is its length.

How: As C41 for MPI.

Note: At least two cities; with one city the MPI version panics (C62_one_city).

Theorems: `C62_christofides_mpi_partial`, `C62_one_city`.

### C63 Integer costs: double precision does not matter — proved

If all costs are integers (or multiples of a power of two not below 2^-32) of size at most M with (4n+8)*M <= 2^53 (times that power), then every command prints in IEEE double precision exactly what it would print in exact arithmetic; in particular `walky exact` v0..v3 prints exactly the length of a shortest tour.

How: Rounded arithmetic with exact values on a grid: every intermediate result of every algorithm is a multiple of `2^q` of bounded size, hence a double; so each command makes the same decisions.

Note: Costs that are multiples of 2^q with -32 <= q <= 960 and (4n+8) M <= 2^53 2^q.

Theorems: `C63_same_output`, `C63_integer_costs`.

### C64 Integer costs: MPI programs in double precision — proved

Under the same condition the possible results of the static and dynamic MPI solvers, MPI nearest neighbour, MPI 1-tree bound and MPI Christofides in IEEE double precision are exactly the possible results in exact arithmetic.

How: Same for the MPI systems, step by step.

Note: Same condition.

Theorems: `C64_mpi_same`.

### C65 Exact solvers in double precision are accurate — proved

With costs between -M and M and 2nM <= 2^k, the tour printed by v0, v1 (v2, v3) has its true length within n*2^(k-54) (resp. (2n^2+1)*2^(k-54)) of the printed one, and that tour is longer than a shortest tour by at most twice that bound (v1: symmetric costs, v3: nonnegative costs).

How: Forward error analysis of the sums; the running cost of v2, v3 drifts by one rounding error per step of the search path.

Note: v0-v3 in IEEE double precision (round to nearest even), n <= 2^25 cities and 2 n M <= 2^k, -1021 <= k <= 1023: absolute errors n 2^(k-54) and (2 n^2+1) 2^(k-54); v1 on symmetric, v3 on nonnegative costs.

Theorems: `C65_accuracy`.

### C66 Relative accuracy for nonnegative costs — partial

With nonnegative costs the printed length is within a factor (1+2^-53)^n of the true length of the printed tour and of the optimum.

How: Standard relative error analysis; v2–v6 subtract, which cancels: witness.

Note: The relative bound (1+2^-53)^n - 1 holds for v0 and v1; it is false for v2-v6, whose running cost is updated by subtraction (C66_v2_rounding: reports 3 for a tour of length 104).

Theorems: `C66_relative_partial`, `C66_v2_rounding`.

### C67 MPI command line: lower bounds <= optimum <= tours — partial

With `--parallelism mpi` every lower bound printed by any rank is at most the length of a shortest tour and every printed tour length is at least that; all ranks agree on the result; nearest neighbour, 1-tree and MST print what the sequential program prints; the exact solvers print the optimum.

How: Composition of C21–C27, C35, C40, C60–C62 over a model of `lib.rs` with the feature `mpi`.

Note: All commands with MPI on accepted instances without self loops. The exact solvers are only within a factor 2 (optimal up to five cities), v2-v6 are not implemented (C67_unimplemented) and a single process prints infinity (C67_single_process).

Theorems: `C67_mpi_bounds_partial`, `C67_unimplemented`, `C67_single_process`.

### C68 MPI command line: approximation together with a lower bound — partial

`walky approx ... --parallelism mpi --lower-bound X` prints the approximation and the lower bound X.

How: Case analysis; `mpi::initialize` returns `None` the second time.

Note: Holds for mst and mst-queue; with one-tree the program always panics because MPI is initialised twice (C68_one_tree_fails).

Theorems: `C68_bound_after_approx_partial`, `C68_one_tree_fails`.

### C69 MPI command line: the result is printed once — partial

Only the root process writes the result to stdout.

How: Case analysis.

Note: Holds for Christofides and the 1-tree bound; in all other commands every rank prints the result (C69_everyone_prints).

Theorems: `C69_only_root_partial`, `C69_everyone_prints`.

### C70 1-tree job: no deadlock and the right value, rank by rank — proved

When the ranks of an MPI job run `one_tree_lower_bound_mpi_with_world`, every execution ends, no rank fails, the root has the sequential bound and the other ranks infinity.

How: The transition system has the diamond property (a step of one rank never disables or changes a step of another), so all executions have the same length and end as soon as one does; one execution is constructed collective by collective.

Note: Every rank has its own program; the result of every execution is that of the joint description oneTreeLbMpi (law-free), hence the sequential value in exact arithmetic. More ranks than cities: no execution succeeds.

Theorems: `C70_one_tree_job`, `C70_sequential_value`, `C70_too_many_ranks`.

### C71 Nearest neighbour job: no deadlock and the right value, rank by rank — proved

When the ranks of an MPI job run `nearest_neighbour_mpi`, every execution ends, no rank fails, and all ranks return the same tour, truthfully priced, with the sequential cost.

How: As C70; the broadcast lengths agree because a returned tour has as many cities as the matrix.

Note: As C70, for nnMpi. More ranks than cities: no execution succeeds.

Theorems: `C71_nearest_neighbour_job`, `C71_sequential_value`, `C71_too_many_ranks`.

### C72 Matching job: no deadlock and the best matching, rank by rank — proved

When the root runs `mpi_improve_matching` and the other ranks the bootstrap followed by `mpi_improve_matching`, the other ranks receive the graph and matching of the root, every execution ends, no rank fails, and all ranks have the best of the matchings found.

How: As C70; the bootstrap hands over the matrix column by column, which is shown to preserve all entries; the gather loop of the root is followed message by message.

Note: Includes the bootstrap broadcast of graph and matching and point-to-point messages. The empty matching (no execution succeeds) is covered by the second half of C72_matching_job. Whether the command line reaches this code is the subject of C62, C67.

Theorems: `C72_matching_job`, `C72_best_matching`.

### C73 Exact MPI solvers: no deadlock when sends wait for the receiver — partial

The static and dynamic solvers do not rely on buffered messages: whichever ranks MPI holds in a send until the message is received, some rank can go on until all have reached the barrier.

How: Invariant of the reachable states (C21, C25): between the coordinator and each worker at most one message is in transit. A rank that has a message to receive is therefore not held, and if nobody has one, everybody has finished. Negation: the coordinator never stores a negative cost, but a worker that has finished after a round has a cost at least the stored one.

Note: Static solver for non-negative costs, dynamic solver for all finite costs. The static coordinator takes a negative cost for the message that a worker has finished: if all tours have negative length it deadlocks (C73_static_negative).

Theorems: `C73_static_synchronous`, `C73_dynamic_synchronous`, `C73_static_negative`.

### C74 MST and 1-tree bounds are accurate in double precision — proved

In IEEE double precision the printed weight of a minimum spanning tree (all three variants of Prim's algorithm) and the printed 1-tree bound (sequential, rayon, MPI) differ from the exact values by a relative error of at most (1+2^-53)^(3n+2)-1 and (1+2^-53)^(3n+6)-1; so up to that factor they are lower bounds on every tour.

How: The trees do not depend on the arithmetic (only comparisons). Sums: every rounded addition of doubles that are not negative has relative error at most 2^-53; errors multiply along the additions, of which there are at most 2n+6 in the lists and n between them. The maximum of accurate values is accurate.

Note: Symmetric costs that are doubles between 0 and M, no overflow (2nM(1+2^-53)^(3n+6) <= 2^1023); 1-tree: at least three cities, MPI on at most n processes. The exact 1-tree bound is characterised by C33-C36.

Theorems: `C74_mst`, `C74_one_tree`.

### C75 Nearest neighbour is accurate in double precision — proved

In IEEE double precision every start gives the tour of exact arithmetic, priced up to a relative error of (1+2^-53)^n-1; nearest_neighbour (sequential, rayon, MPI) and n_nearest_neighbour return one of these tours, and the reported cost is at most (1+2^-53)^n times the length of every tour tried.

How: The order of the cities only depends on comparisons of single costs; the running cost is a sum of at most n costs. The selections are shown for an arbitrary per-start function, so that they apply to exact and rounded costs.

Note: Costs that are doubles between 0 and M, no overflow; MPI on at most n processes.

Theorems: `C75_nearest_neighbour`.

### C76 Christofides reports its tour truthfully in double precision — partial

In IEEE double precision christofides returns a Hamiltonian cycle from city 0 and reports its length up to a relative error of (1+2^-53)^n-1.

How: Rounding may lead to another matching, but every matching of cities gives a connected multigraph with even degrees (law-free lemmas), hence an Eulerian walk and a Hamiltonian cycle; its cost is a sum of n entries.

Note: SEQ, and MPI with at least two cities, always return; debug builds under the hypothesis that is_metric holds. PAR only if it returns (C41_par_can_hang), and in release builds only if the matching repeats no edge (C41_par_release_wrong).

Theorems: `C76_christofides_partial`.

### C77 Output of the command line in double precision — partial

For an accepted instance, what walky prints in IEEE double precision is right up to rounding: printed lower bounds are at most (1+2^-53)^(3n+6) times the length of every tour, and a printed tour length is that of a tour (the printed one, if a tour is printed) up to a relative error of (1+2^-53)^n-1; walky exact prints a shortest tour up to this factor.

How: C66, C74, C75, C76 for the matrix of the instance; parsing and the conversion to a matrix only compare costs.

Note: All lower bounds and approximations (multi-threaded Christofides in release builds: if the matching repeats no edge, otherwise false by C59_christofides_below_bound), and walky exact with v0 and v1 on a single thread. For v2-v6 the claim is false (C66_v2_rounding); several threads always run such a search.

Theorems: `C77_double_precision_partial`.

### C78 The pruned exact solvers are accurate in double precision — proved

In IEEE double precision v4, v5, v6 (with any hash function) and the threaded solver (under every schedule) return a tour, and the reported cost differs from its length by at most (2n^2+1) 2^(k-54), where 4nM <= 2^k. For symmetric costs that are not negative the cost reported by v5, the threaded solver, and v6 without hash collisions is at most (2n^2+3n+1) 2^(k-54) above twice the length of every tour. The threaded solver neither panics nor gets stuck, and its cost does not depend on the schedule.

How: Invariant of the recursion: the running cost differs from the length of the prefix by at most 2n·depth roundings (each loop iteration adds and subtracts one cost). The bound of the spanning tree is a sum of fewer than 2n costs. So a pruned branch contains no tour shorter than half the best cost, up to (2n^2+3n+1) roundings. The thread lemmas only need a search that succeeds on every prefix, and comparisons, which are not rounded.

Note: Absolute errors. That the result need not be a shortest tour, and that two cities with one thread have no tour, is the subject of C08, C19, C20.

Theorems: `C78_exact_double`, `C78_threaded_double`.

### C79 The MPI exact solvers in double precision — proved

In IEEE double precision the MPI solvers with static and dynamic work distribution do not panic, deadlock or run forever before the final broadcast, even if every send waits for its receiver; at the end the broadcast cost is not larger than any worker's, and it is the length of the winner's tour up to (2n^2+1) 2^(k-54); for symmetric costs (static: fewer workers than cities) it is at most (2n^2+3n+1) 2^(k-54) above twice the length of every tour. With fewer workers than cities all ranks of the static solver return that tour, with one worker also those of the dynamic solver. The final broadcast fails if a worker of the static solver has nothing to search, and may fail with two or more workers of the dynamic solver.

How: The invariants of the message systems are proved for any search with three properties (it succeeds; what it returns is a tour with an admissible value; it does not prune everything below a bound), and arithmetic occurs nowhere else. The rounded search has these properties (C78). Reported costs are not negative because rounding never goes below a double, and adding before subtracting the same double keeps the running cost at least 0.

Note: Costs that are doubles and not negative. C79_static_mismatch and C79_dynamic_mismatch are the failing broadcasts of C27.

Theorems: `C79_static_no_deadlock`, `C79_static_winner`, `C79_static_result`, `C79_static_mismatch`, `C79_dynamic_handout`, `C79_dynamic_winner`, `C79_dynamic_one_worker`, `C79_dynamic_mismatch`.

### C80 `walky exact` in double precision, all algorithms and threads — proved

On an accepted instance walky exact (any of v0 to v6 on a single thread, or several threads) never fails in IEEE double precision: every outcome is a tour and a number that is its length up to (2n^2+1) 2^(k-54). On a single thread with v0 to v3 no tour is shorter by more than twice that; for v5, v6 with a hash without collisions and several threads the number is at most (2n^2+3n+1) 2^(k-54) above twice the length of any tour.

How: C65 and C78 for the matrix of the instance.

Note: Absolute errors. That v4 - v6 and several threads need not find a shortest tour is the subject of C07, C08, C59.

Theorems: `C80_exact_double`.

### C81 MPI jobs in double precision — partial

On an accepted instance, in IEEE double precision: all ranks of walky exact v0 (2 to n processes) and, unless the final broadcast fails, v1 (at least 4 cities and 2 processes) print the same tour and its length up to (2n^2+1) 2^(k-54), at most (2n^2+3n+1) 2^(k-54) above twice the length of any tour; all ranks of walky approx nearest-neighbour (at most n processes) print the same tour and its length up to a relative error of (1+2^-53)^n - 1; the root of walky approx christofides prints the length of a tour up to the same error and all other ranks nothing; every printed lower bound is at most (1+2^-53)^(3n+6) times the length of every tour.

How: C74 - C76 and C79 for the matrix of the instance; every rank computes the minimum spanning tree on its own and its heap may break ties differently, so the printed numbers may differ, but each is a bound.

Note: Missing as in C67: v2 - v6 and single processes, more processes than cities, a shortest tour; the failing broadcast of v1 with three or more processes.

Theorems: `C81_mpi_double_partial`.

### C82 Lower bounds are at least half of the optimum on metrics — proved

If the costs are a metric, the lower bounds are not far from the truth: there is a tour of at most twice the weight of the minimum spanning tree (sequential, rayon, priority queue) and one of at most twice the 1-tree bound (sequential, rayon, MPI). Without the triangle inequality both bounds can be 0 while every tour has length at least 1. The factor 2 is best possible: for every n >= 4 there is a metric on n cities with spanning tree weight at most n-1, 1-tree bound at most n and no tour shorter than 2n-4.

How: The doubled tree has an Euler tour, shortcutting it does not lengthen it (lemmas of C42); the 1-tree bound is at least the weight of the tree (C36). Witness: the complete bipartite graph of 2 and 3 cities with free edges. Tightness (`C82_half_is_tight`, `C82_no_better_factor`): two hubs at distance 1 from everything, all other distances 2; stars as competing trees, and every city that is not a hub pays 1 for each of its two tour edges (`Lemmas/TwoHubs.lean`).

Theorems: `C82_bounds_half`, `C82_not_metric`, `C82_half_is_tight`, `C82_no_better_factor`.

### C83 Nearest neighbour guarantee on metrics — proved

If the costs are a metric on n cities, every nearest neighbour tour is at most (ceil(log2 n) + 1)/2 times as long as any tour (theorem of Rosenkrantz, Stearns and Lewis): from every start, for every number of random starts, sequentially, with rayon and with MPI (at most n processes). The logarithm is needed: for every k there is a metric on 2(2^(k+1)-1) cities with a tour of length at most 16*2^k on which every nearest neighbour tour, from every start and in every mode, has length at least k*2^k; so no constant factor holds, even if all cities are tried as starts.

How: Proof of Rosenkrantz, Stearns and Lewis: an edge of a greedy tour is at most the distance of its start to every city visited later, so the sum of all but the k longest edges is bounded by tours of subsets; formalized for sublists of any tour in `Lemmas/Ratio.lean`. Lower bound (`C83_log`, `C83_unbounded`, `C83_log_double`): posts of different heights over a line, visited by height; two mirrored copies so that every start is bad; the metric is that of points in a comb (`Lemmas/Caterpillar.lean`, `Lemmas/TwoCaterpillars.lean`), distances are integers, so the runs are also exact in double precision.

Note: C83_log_double is stated for families up to k = 20 (about four million cities), where all sums are exact in double precision.

Theorems: `C83_nearest_neighbour_ratio`, `C83_log`, `C83_log_double`, `C83_unbounded`.

### C84 Quality of everything the command line prints about a metric instance — partial

On an accepted instance whose costs are a metric, every lower bound printed by any command, with one process or as an MPI job, lies between half the optimum and the optimum, every nearest neighbour length lies between the optimum and (ceil(log2 n) + 1)/2 times the optimum, and every Christofides length lies between the optimum and n/2 times the optimum.

How: Every printed line comes from a solver (Lemmas/CliLines.lean); C82, C83 and C89 bound its value.

Note: Lines of runs that succeed, and lines that ranks of an MPI job print. Which commands succeed is the subject of C59 and C67. Lengths of Christofides tours on several threads in release builds only if the matching repeats no edge, otherwise false (C59_christofides_below_bound).

Theorems: `C84_cli_quality_partial`.

### C85 Distances of points in double precision — partial

In IEEE double precision, the distance that from_points, par_from_points and the instance generator compute for two points with coordinates of size up to 2^500 is a double, not negative, the same in both directions, zero from a point to itself, and equals the Euclidean distance up to a relative error of 2^-51 and an absolute error of 2^-535. The square root is a nearest double of the true root.

How: Error analysis operation by operation: differences are exact up to 2^-53, squares up to 2^-53 and 2^-1075, the sum up to 2^-53, and the root halves relative errors. The square root of the model is an integer square root of the scaled argument, rounded by comparing squares; it is shown to be a nearest double.

Note: Coordinates of size up to 2^500; the two negations show why a bound on the size and an absolute error are needed.

Theorems: `C85_sqrt`, `C85_distance_partial`, `C85_overflow`, `C85_underflow`.

### C86 Matrices of points are metric in double precision — partial

In IEEE double precision, from_points and par_from_points return the same symmetric matrix with zero diagonal and accurate entries, and it passes is_metric, so that christofides does not panic on it in debug builds, provided the coordinates are at most 10000. For larger coordinates this is false: three points with whole coordinates below 750000 fail is_metric.

How: The true distances satisfy the triangle inequality; the errors of three distances of at most 28285 stay below the tolerance 1e-10 of is_metric. Negation: kernel evaluation of three points on a line.

Note: Coordinates of size up to 10000; false for larger coordinates (C86_large).

Theorems: `C86_points_metric_partial`, `C86_large`.

### C87 Generated instances are accepted in double precision — partial

Whatever random numbers the instance generator draws, its points are doubles between -10 and 10, the instance it writes is accepted exactly if the points are pairwise different, and the matrix read back from it has accurate distances and passes is_metric. For other points on a grid of 2^-500 acceptance is also equivalent to the points being different; closer points can be rejected.

How: Different points of the grid are so far apart that the absolute error of C85 cannot make the distance zero. The coordinates are a product and a difference in double precision of a multiple of 2^-53, hence multiples of 2^-51.

Note: Acceptance is equivalent to pairwise different points; equal points can be drawn. For the printed text see C92.

Theorems: `C87_generated_partial`, `C87_close_points`, `C87_generator_partial`.

### C88 Quality of the output against true distances, in double precision — partial

For an instance whose costs are doubles close to some metric (relative error up to 2^-50), in particular for every instance the generator writes with pairwise different points, everything walky prints in IEEE double precision is bounded by the length opt of a shortest tour for the true distances, up to relative rounding errors of about (3n+14)*2^-53: every lower bound is between opt/2 and opt, every nearest neighbour length between opt and (ceil(log2 n)+1)/2 times opt, every Christofides length between opt and n/2 times opt, and walky exact v0 and v1 prints a tour whose true length and printed cost are opt.

How: C82-C84 for the true metric, with the rounding analysis of C66 and C74-C76 on top: a sum of costs differs from the sum of the true distances by the same relative error, so minimum spanning trees, nearest neighbour tours and optima carry over. The generator's points lie on a grid of 2^-51, so the absolute error of C85 is a relative one.

Note: Relative errors; exact solving only for v0 and v1 on one thread (absolute errors for all: C98). Christofides on several threads in release builds only if the matching repeats no edge.

Theorems: `C88_near_metric_partial`, `C88_generated_partial`.

### C89 How good the implemented Christofides algorithm is — partial

On a metric, the tour that christofides returns is at most 3/2 times as long as a shortest tour.

How: Every distance is at most half of every tour, so that a tour costs at most n/2 times another and a matching of k/2 edges at most k/4 tours; with C42. Negation: two stars far apart; the shuffles bring only such pairs of edges together that have one edge between the stars. Evaluated by the kernel. Family (`Lemmas/DoubleStar.lean`, `Lemmas/LeafMatching.lean`): two stars with 3j and j leaves, j odd, at distance D. Every minimum tree consists of the two stars and the edge between the centres, so exactly the leaves have odd degree; with shuffles that change nothing every pair of edges improved together has an odd number of ends in the second star, so one of the two edges joins the stars; matched leaves occur once in the Euler circuit and therefore stay neighbours in the tour, so the tour is at least as long as the matching.

Note: False as stated: with unlucky shuffles the tour is more than 5/2 times the optimum on 20 cities (C89_no_guarantee), and no factor at all is guaranteed: the ratio grows linearly with the number of cities in SEQ, in every outcome of PAR and in MPI (C89_linear, C89_unbounded). Proved: at most n/2 times for every metric (PAR in release builds: if the matching repeats no edge); at most 1+k/4 times under NoThree, with k vertices of odd degree in the tree; at most 3/2 times if the tree is a path.

Theorems: `C89_half_n`, `C89_perfect_partial`, `C89_no_guarantee`, `C89_linear`, `C89_unbounded`.

### C90 XML layout and round trip — proved

A text is read as an element exactly if it is a document with this root: white space between and inside tags, the kind of quotes, <a/> for <a></a>, declarations and everything after the root do not change what is read. If an instance in which every vertex has an edge is written in the TSP XML format, in any layout and with any number format that can be read back, parse_from_xml returns exactly this instance if it satisfies do_conditions_hold, and panics otherwise. If the graph or a vertex is empty, the result is an error.

How: A document is described by an inductive relation between token lists and texts (`Layout`), independent of the reader. Induction over this relation shows that the lexer returns the tokens; the tree builder inverts the printing of tokens. Conversely, induction over the text shows that whatever is read is a layout of the tokens (`readXml_iff`).

Note: Documents without comments, CDATA, entities and name spaces.

Theorems: `C90_layout`, `C90_round_trip`, `C90_incomplete`.

### C91 parse_from_xml: when Ok, Err, panic — proved

For every text, parse_from_xml returns an instance exactly if the text is an XML document whose root element encodes this instance (the six fields exactly once in any order, other elements ignored, at least one vertex, at least one edge per vertex, numbers that parse) and the graph satisfies do_conditions_hold; it panics exactly if the text is a document that encodes an instance whose graph does not; otherwise it returns Err. A file that is cut off is rejected with Err as soon as a part of the root element is missing, and is never read as another instance; what follows the root element is ignored.

How: `Encodes` describes which element trees are instances. The reader is shown to accept exactly these, field by field; then do_conditions_hold decides. Truncated texts: the lexers of a text and of a prefix are compared step by step; a prefix of a document is never outside of the model, and it cannot be another document, because documents may be continued.

Note: Every text; Err only for texts that are not outside of the model (comments, CDATA, entities, prefixes, text next to elements).

Theorems: `C91_parse`, `C91_texts`, `C91_truncated`.

### C92 The text the generator prints is read back as its distances — proved

parse_from_xml applied to the text that gen_matrix_fast prints returns the graph of the generated matrix, with the same doubles, exactly if there are at least two points and they are pairwise different; with one point or none it returns Err; with equal points it returns Err or panics.

How: The generator's lines are a layout of the instance (C90). Distances of points on the grid are doubles (C85), doubles are read back (C93), and C87 says when the graph is accepted.

Note: C92_text: any matrix and arithmetic. Display of f64 by contract.

Theorems: `C92_text`, `C92_double`, `C92_generator`.

### C93 Decimal numerals are read as the nearest double — proved

A decimal numeral (digits, optional point, optional exponent) is read as a double nearest to its value, or as infinity if the value is too large; values up to 2^1023 are finite. A double that is printed with {} is read back as the same double, including NaN and the infinities. No other texts are read, apart from the names of the special values; integers are exactly the digit strings, perhaps after a +, whose value is in range.

How: The reader returns the rounded value of the numeral; rounding returns a nearest double (C63). A numeral that rounds to the number it was printed for is read as this number by definition of the contract; a numeral that is nearer to this double than to all others with 53 significant bits rounds to it.

Note: f64::from_str by the contract that it rounds correctly; Display by the contract that it rounds to the number.

Theorems: `C93_from_str`, `C93_exactly`, `C93_display`, `C93_closest`.

### C94 The Python generator's text is accepted and accurate — proved

For a symmetric square matrix of doubles between 0 and 2^1022, the text that convert_to_xml returns is accepted by parse_from_xml if there are at least two cities (also if costs are zero), and is an error otherwise; the graph that is read is complete and undirected, and each cost differs from the matrix entry by a relative error of at most 10^-15 (15 digits after the point are printed).

How: As C92. An error of half a unit in the 16th digit plus the rounding error of reading is below 10^-15.

Note: Python's {:.15e} by contract.

Theorems: `C94_python`.

### C95 The whole program: from arguments and file to output and exit — partial

Wrong arguments: nothing is printed on stdout. A file that cannot be read or encodes no instance: nothing is printed and the program fails. An instance that violates do_conditions_hold: nothing is printed and the program panics. Otherwise the program prints what the command prints for the graph in the file. If the file is what gen_matrix_fast prints for at least three different points: every command succeeds; it prints numbers within the bounds of C88 with respect to the true distances of the points, as text from which these numbers can be read; from the output of walky exact one reads a tour and a number as in C98, with v0 and v1 on one thread optimal up to a relative rounding error.

How: C96, C91 and the definition of runs; for generated files C92, C88 and C97.

Note: Missing: approx christofides on several threads, which can hang (C41_par_can_hang) or print the length of an incomplete tour (C41_par_release_wrong); texts outside of the model of the parser.

Theorems: `C95_program`, `C95_generated_partial`.

### C96 Command line arguments — proved

An argument list is understood as a command on a file exactly if it consists of a subcommand name, the algorithm name and the path in this order, and options of this subcommand at any place after the subcommand, in any order and any of the spellings --name value, --name=value, -n value, -n=value, -nvalue, each at most once, with the name of a value; after -- everything is positional. Missing options mean one thread and no lower bound. An argument list has at most one meaning.

How: `Spelled` describes the ways to write arguments. The reader is shown to succeed exactly on these, by induction over the argument list.

Note: clap's grammar by contract; requests for help are left out.

Theorems: `C96_arguments`, `C96_unique`.

### C97 The output can be read unambiguously — proved

Two outputs with different lines, numbers or tours are different texts, so a script can recover everything that was computed from stdout. Every number walky prints is a double (or NaN, or an infinity), and reading its text gives the same double.

How: Lines contain no line break, labels differ in some character, and digits are followed by a character that is no digit. Every printed number is the result of an addition or a halving, or a constant (`Lemmas/Printed.lean`), hence a double.

Theorems: `C97_output`, `C97_numbers`.

### C98 walky exact and all other commands on generated instances — proved

For the instance of at least three and at most 2^25 pairwise different generated points: walky exact with every algorithm and any number of threads succeeds and prints a tour and a number that differs from its true length by at most (2n^2+3) n 2^-46. With v0-v3 on one thread no tour is shorter by more than twice that; with v5, v6 (no hash collisions) or several threads the number is at most (2n^2+3n+5) n 2^-46 above twice the length of any tour. All other commands succeed, too, apart from approx christofides on several threads.

How: The costs are doubles up to 32 (C85, C87), so C80 applies with 2^k <= 256 n; the lengths of tours differ from the true ones by at most n 2^-45. Other commands: C77 and C88.

Theorems: `C98_exact_generated`, `C98_success_generated`.

### C99 MPI jobs from the arguments and the input file to the texts of all processes — proved

Built with the feature mpi, the program understands --parallelism mpi; all other arguments mean what they mean without this feature, and then each process does what the program without the feature does (C95). With --parallelism mpi: wrong arguments, unreadable files, files without an instance and instances that violate do_conditions_hold let all processes end without output; otherwise the processes print the text of an outcome of the command on the graph in the file, from which all numbers can be read. If the file is what gen_matrix_fast prints for at least three and at most 2^25 different points: walky exact v0 with two to n processes prints the same tour on all ranks and a number that is its true length and at most twice the optimum, up to rounding errors; v1 does so with two processes and at least four cities, and with more processes it does so or panics on all ranks; nearest-neighbour with at most n processes prints the same tour and its length on all ranks; christofides prints the length of a tour on the root only, in all builds; lower bounds are printed as documented, except that --lower-bound one-tree after an approximation panics; and all these numbers are within the bounds of C88.

How: The reader of arguments is the one of C96 with another list of values. Texts: C91 and C92. Generated instances: C81 with 2^k <= 256 n, is_metric by C86, lines by C88. Numbers: every number in a line is the result of an operation or sent by a worker, by invariants of the two transition systems (Lemmas/PrintedMpi).

Note: walky exact with v0 or v1 and other numbers of processes or cities: C21, C25, C67; the printed tour need not be optimal (C07, C67).

Theorems: `C99_arguments`, `C99_without_mpi`, `C99_own`, `C99_job`, `C99_numbers`, `C99_mpi_generated`, `C99_generated`.

### C100 Unusual costs: infinite, negative and overflowing numbers do not make the solvers panic — partial

For every instance that passes do_conditions_hold, whatever its costs are (negative, infinite, so large that sums overflow, edges from a vertex to itself) and however sums are rounded: every command without MPI has an outcome. walky exact (every algorithm, one or several threads) never panics; it prints a number that is not NaN together with a tour of all cities, or infinity together with the empty tour; no thread panics in any schedule and every schedule is bounded. walky lower-bound mst and mst-queue always print one number. one-tree does so if costs are infinite or not negative and there are at least two cities. nearest-neighbour prints a tour if no cost is infinity. christofides on one thread prints a number in a release build, and with finite costs it is the sum of the costs along a tour. A cost that is not a number is never accepted unless it belongs to an edge from a vertex to itself. Not so: one-tree panics if plus and minus infinity meet; nearest-neighbour panics at a city all of whose edges are infinite; a release build of christofides prints a finite number for an instance in which every tour is infinite.

How: Every loop is shown to end without panic in an arithmetic without laws, except INFINITY == INFINITY (Lemmas/Total.lean, TotalChristofides.lean); an accepted cost is smaller than something, hence not NaN. 1-tree bound: sums of numbers that are infinite or not negative are no NaN (TotalTree.lean). Negations: kernel evaluation in double precision.

Note: Exact solving and spanning trees without restriction; the 1-tree bound, nearest neighbour and Christofides under the stated conditions on the costs, the three negations show why. Christofides on several threads only has an outcome (C41_par_can_hang).

Theorems: `C100_exact`, `C100_threads`, `C100_mst`, `C100_one_tree_partial`, `C100_one_tree_panics`, `C100_nearest_neighbour_partial`, `C100_nearest_neighbour_panics`, `C100_christofides_partial`, `C100_christofides_wrong`, `C100_no_nan`, `C100_outcome`, `C100_program`.

### C101 Benchmarks of the Python generator, from the drawn points to the output — partial

benchmark_gen.py l r writes exactly one file for every size from l to r; the file of size k holds the distances of the first k points, 0 on the diagonal. Whatever points are drawn (also equal ones), at most 2^25: shortest tours, for the true Euclidean distances, do not become shorter from one file to the next. On a file with less than two cities walky prints nothing and fails. On a file with two cities every command succeeds, and its output, also on several threads and processes, is the one of C115 for a distance near the true one. On a file with at least three cities every command succeeds, except perhaps christofides on several threads: lower bounds are at most the optimum of this size, nearest-neighbour and christofides print tours or lengths of tours, and walky exact v0 and v1 print a shortest tour and its length, all up to the rounding of numpy, of the text with 16 digits and of walky's sums. MPI jobs as in C99.

How: The two nested loops write every pair once (Lemmas/Python.lean), so a principal minor is the matrix of the first points. The differences of the coordinates are exact; np.linalg.norm is a parameter with a contract (relative error 2^-50); the text adds 1e-15 (C94). The instance is then a GoodInstance 18: costs within 18 * 2^-53 of a metric, for which the lemmas behind C88, C95, C98 and C99 hold. Leaving out cities does not lengthen a tour (shortest_mono).

Note: Missing: christofides on several threads with three cities or more, which can hang or print a wrong number (C41).

Theorems: `C101_files`, `C101_benchmark_partial`.

### C102 The Python reference for nearest neighbour agrees with walky — proved

utils/NN_approx.py prints, from every start, a tour that begins there and always continues with a nearest city among those not visited, and the cost of this tour; this holds for every matrix and whatever the order is in which Python iterates over the set of unvisited cities. For the integers it draws (1 to 9), and if the set is iterated in ascending order: walky accepts the graph that convert_to_rust_code prints, and single_nearest_neighbour returns from every start the path and the cost that the script prints, also in double precision (up to 2^40 cities); nearest_neighbour returns the smallest of the printed costs, in every order of the starts. Not so: with another iteration order the script prints another path and another cost than walky for the same matrix and start.

How: Invariant of the loop: the path is greedy, the unvisited cities are sorted and are those that are not on the path; min returns the first minimum. A greedy tour that breaks ties by the lowest number is determined by its start (greedy_unique), and walky returns such a tour (C38). Double precision: sums of integers below 2^53 are exact (C77).

Note: C102_order_matters: the agreement depends on the iteration order of sets, which Python does not fix. convert_to_rust_code prints integer costs without a decimal point, which rustc rejects for f64; the model is the graph that is meant.

Theorems: `C102_any_order`, `C102_reference`, `C102_order_matters`.

### C103 Benchmark builds print the same results, and run_often.py collects the right times — proved

With the feature benchmarking, the possible outcomes of every command are those without it, with one more line after each computation that says how long it took; the whole program ends in the same way, and what it has printed without the times is what the other program prints, even if it panics. run_often.py, run on such a program any number of times (no run panicking), collects exactly the times of the main computations of the successful runs, in order: never the time of a lower bound, and runs that fail are silently left out. Its median is one of the times, with more than half of the times at most as large and at least half at least as large. If no run succeeds, or the program was built without the feature, it fails with a division by zero. run_often_christofides_mpi.py collects exactly the lengths that approx christofides has computed, and fails with a division by zero for every other command.

How: A successful output is a list of lines whose texts contain no line break, so split at line breaks gives them back. The first characters of the labels tell times and Christofides lengths from all other lines. No printed number contains a colon or white space, so the field after the colon is the number that was printed, and float reads it back (Display and PyFloat). The median is position length / 2 of a sorted permutation.

Note: Contracts: Display of f64, Python's float and sorted. The mean is a parameter. The theorems about run_often.py exclude runs that panic; see C125 for these.

Theorems: `C103_results`, `C103_lines`, `C103_lines_bound`, `C103_printed`, `C103_program`, `C103_collect`, `C103_summary`, `C103_without`, `C103_weights`, `C103_no_weights`.

### C104 Measurements of MPI jobs — proved

With the feature benchmarking, the processes of a job compute on every rank what they compute without it. In a file that contains, in any order, the lines of the outputs of all ranks of any number of successful jobs and other lines, get_measurements of benchmarks/*/MPI/parse.py finds exactly these times: one per rank and job for nearest neighbour, the exact algorithms and the minimum spanning trees, a second one per rank for a bound after nearest neighbour, and only those of the root for Christofides and the 1-tree bound. For Christofides' lengths it finds exactly one length per job, the one that the root has computed.

How: As C103, rank by rank. The lines of the file are a permutation of the lines of all ranks and of others, and filterMap respects permutations.

Note: The outputs of the ranks are assumed to be mixed line by line. Contracts as in C103.

Theorems: `C104_results`, `C104_ranks`, `C104_measurements`, `C104_weights`.

### C105 How far the pruning exact solvers can be from the optimum — proved

With at least 4 cities and symmetric non-negative costs, the tour of v5 is at most 2 - 4/n times as long as a shortest one. No factor below 2 holds for v5, nor for v6 with a hash that separates the prefixes, nor for the threads or the MPI solvers: for n >= 7 cities there is a metric with a tour of length n on which v5 returns length 2n - 6, and for n >= 9 one on which, with any number of threads and any schedule, the result has length at least 2n - 15. The same for the MPI solvers: for n >= 12 there is a metric with a tour of length n on which, for every message order, the static solver with fewer than n workers returns a tour of length at least 2n - 18 and the cost broadcast by the dynamic solver, with any number of workers, is the length of a tour and at least 2n - 18. On metrics the tour of v4 is at most (ceil(log2 n) + 3)/2 times as long as a shortest one, and the logarithm is needed: for every k there is a metric on 2^(k+1) + 8 cities with a tour of length at most 28*2^k on which v4 returns a tour of length at least k*2^k, so no constant factor holds. v4 is not exact on small metrics either (12 cities on a ring: 14 instead of 12); without the triangle inequality no factor holds for v4: it can return a tour of positive length although there is one of length 0.

How: Upper bounds: the tests follow a tour as long as prefix plus bound stays below a threshold (Along, C08). v5: path p + 2 path t <= 2 L - (w1 + w2 + 2 wn) for the rotation that starts between the edges wn and w1; averaging over the rotations gives one with w1 + w2 + 2 wn >= 4 L / n. v4: the sum of the nearest later neighbours is at most (ceil(log2 n) + 1)/2 tours by the argument for nearest neighbour (leave_sum). Lower bounds: costs 1 and 2, with 2 between consecutive cities below d (ladder). The first tour is long, and afterwards every prefix that leaves it is cut off: the spanning tree bound counts every remaining edge twice (Lemmas/DfsEntered.lean: every prefix of the result has passed its test or belongs to the first tour; Lemmas/ExactFactor.lean: stuck). Threads: the same below each prefix of three cities, since every prefix is searched with a fresh result. MPI (Lemmas/ExactFactorMpi.lean): a search without a best known cost finds a tour of length between 2n - 18 and 2n - 8; with such a best known cost every fourth city is cut off at once and the search finds nothing (dfs_pruned), so all costs in all messages stay in this range (SCosts, DCosts: whatever the search preserves holds for all costs that go round). v4 on metrics, lower bound: two spaces glued at a city. The first (comb, Lemmas/V4Comb.lean) is numbered such that each city is followed by its nearest later city and visiting it in this order costs k 2^k, although it has a tour of length 8 2^k. The second has ten cities on which v4 finds a tour that is shorter, by more than the largest distance to a nearest later city, than the sum of these distances (kernel evaluation). Below the prefix 0, ..., a the search in the glued space is the search in the second space (dfs_glue, Lemmas/V4Glue.lean); with the tour found there every prefix that leaves the order of the numbers in the first space is cut off (v4_glue, Lemmas/V4Factor.lean; Lemmas/DfsThrough.lean). v4, ring and length 0: kernel evaluation.

Note: Exact arithmetic.

Theorems: `C105_v5_upper`, `C105_v5_tight`, `C105_v6_tight`, `C105_v5_no_smaller_factor`, `C105_threads_tight`, `C105_mpi_tight`, `C105_v4_metric`, `C105_v4_log`, `C105_v4_no_constant`, `C105_v4_no_factor`, `C105_v4_ring`.

### C106 Work done by the exact solvers — proved

v0 computes the cost of every tour except the starting permutation exactly once (n! - 1 evaluations), v1 of every tour that starts with city 0 except that one ((n-1)! - 1). A search with pruning never tests a prefix twice; it tests a list of at least two cities if and only if the list has no repetitions and all its shorter prefixes of at least two cities have passed. So v2 looks at all n(n-1)...(n-k+1) lists of each length k >= 2 and at all n! tours, and every version makes fewer than 3 n! tests. When all costs are 0, v3, v4 and v5 make all of them. v6 computes a spanning tree at every test, whether the prefix is in the cache or not; if the hash separates the prefixes, it makes exactly the tests of v5 and ends with one entry for each of them, so the cache is never used.

How: The pruning test is wrapped in one that records the prefix and the answer (logged); by simulation the search is unchanged (C106_record). The record below a prefix is described inductively (Lemmas/SearchLog.lean: Log), which gives distinctness and membership. Counting: lists without repetition are counted by descFactorial, and their number is below 3 n!. v0, v1: the loop is a fold over the rearrangements that nextPermutation visits. v6: the keys of the cache are the hashes of the record, and both have no duplicates.

Note: Counts evaluations and tests, not machine time.

Theorems: `C106_record`, `C106_tested`, `C106_at_most`, `C106_v2`, `C106_v0`, `C106_v1`, `C106_v6_eager`, `C106_v6`, `C106_no_saving`.

### C107 The numbering of the cities does not matter — proved

Two instances that differ only in the order in which the cities are listed: v0, v1, v2 and v3 report the same length (v0 from 2 cities, v1 from 3 cities and symmetric costs, v3 without negative costs), and the tour for one is, after renumbering, a shortest tour of the other; the minimum spanning tree bound and the 1-tree bound are the same. Nearest neighbour finds the same tours and reports the same length if no city has two others at the same distance. With equal distances the length can change (4 cities: 5 and 4), and v4 and v5 depend on the numbering even on metrics (v5: 8 and 7 for 7 cities; v4: 14 and 12 for 12 cities).

How: Renumbering maps tours to tours and spanning trees to spanning trees of the same cost (Lemmas/Renumber.lean), so the quantities that v0 to v3, Prim and the 1-trees compute (C03 to C06, C29, C33) agree. Without equal distances the greedy tour from a city is unique (greedy_unique) and is mapped to a greedy tour. Negations: kernel evaluation; the second numbering lists the cities along an optimal tour, which is then found first.

Note: Exact arithmetic; in double precision the sums may be added in another order.

Theorems: `C107_exact`, `C107_mst`, `C107_one_tree`, `C107_nearest_neighbour`, `C107_nearest_neighbour_ties`, `C107_v4_v5`.

### C108 The unit of the distances does not matter — proved

If all distances of an instance are multiplied by the same positive number, v0 to v6, the multi-threaded and MPI solvers, nearest neighbour and Christofides (same shuffles; sequential, on several threads, on several processes) return the same tours, with lengths multiplied by that number, and panic on the same instances; the spanning tree has the same edges and the lower bounds are multiplied too. This includes instances with infinite or NaN entries. Two exceptions: the tolerance 1e-10 of is_metric is absolute, so a debug build can accept an instance in one unit and panic in another; and in double precision rounding depends on the unit, so that v1 returns a tour that is not shortest after multiplying four distances near 2^50 by 3.

How: Multiplication by a positive number preserves addition, subtraction, halving and all comparisons, 0 and infinity (Lemmas/FloatHom.lean: FloatHom). Every algorithm that uses only these operations commutes with such a map: shown function by function, without any law of the arithmetic, in the order of the model. Threads and processes: states and steps are mapped, the converse uses the inverse factor; the -1 with which a worker of the static solver finishes is the same in both runs, so there the states are related and not mapped (Lemmas/FloatHomMpi.lean). Negations: kernel evaluation.

Note: Exact arithmetic; false in double precision (C108_doubles). Debug builds of Christofides only if is_metric gives the same answer, which it need not (C108_tolerance). Christofides on several threads: same order of chunks and columns. MPI reductions: combined in the same way in both runs.

Theorems: `C108_exact`, `C108_threads`, `C108_bounds`, `C108_nearest_neighbour`, `C108_christofides`, `C108_par`, `C108_christofides_par`, `C108_mpi_exact`, `C108_mpi`, `C108_christofides_mpi`, `C108_tolerance`, `C108_doubles`.

### C109 Longer roads and inaccurate distances — proved

If no distance of one instance exceeds the corresponding one of another instance by more than d, the lengths reported by v0 to v3 exceed those of the other instance by at most n d, the spanning tree weight by at most (n-1) d, and the 1-tree bound by at most n d. With d = 0: longer roads never give a shorter optimum or a smaller lower bound; and an error of at most d in every distance changes the results by at most n d. This is false for the heuristics, even on metrics: making one road longer can shorten the tour of nearest neighbour (13 to 12, all shuffles), of Christofides (15 to 14), of v5 (19 to 18); for v4 see six cities with 11 and 9.

How: A tour has n roads between different cities, so its lengths in the two instances differ by at most n d; compare the optimum of one with the optimal tour of the other (C03 - C06). The same with spanning trees (C29) and with the two cheapest edges of a 1-tree (C33), then the maximum. Negations: kernel evaluation, for nearest neighbour with C39 (the length does not depend on the shuffle).

Note: Exact arithmetic. True for v0 - v3 and the lower bounds; false for nearest neighbour, Christofides, v4 and v5 (negation theorems).

Theorems: `C109_exact`, `C109_mst`, `C109_one_tree`, `C109_nearest_neighbour_not`, `C109_christofides_not`, `C109_v4_v5_not`.

### C110 Integer overflow — proved

The bounds of the chunks of prefixes and the counting of prefixes, computed in machine integers of W bits, equal those of unbounded numbers whenever n^3 < 2^W (64 bits: up to 2642245 cities; 32 bits: up to 1625 cities), so the results of the multi-threaded solver are the same, in debug and release builds. For more cities debug builds panic; release builds wrap around: they look only at prefixes below n^3 mod 2^W, or fail an assertion. With 32 bits and 3251 cities no prefix is searched in which city 0 is followed by one of the cities 26 to 3250. The start cities of the ranks of nearest neighbour (i32) are computed without overflow for fewer than 2^31 cities; otherwise all ranks panic.

How: Model/MachineInt.lean repeats the two functions, the threads and the chunks of nearest neighbour with wrapping or panicking operations. All intermediate values are at most n^k (chunks), at most the basis (digits, carry at most 1) resp. at most n (i32); valid digits are an invariant of the threads, so the transition systems coincide. Release builds: the value n^k mod 2^W takes the place of n^k.

Note: usize::pow by contract (panics or wraps exactly if the power does not fit). The MPI workers use the same two functions (C110_split, C110_next).

Theorems: `C110_split`, `C110_next`, `C110_threads`, `C110_limits`, `C110_debug`, `C110_release`, `C110_release_loses`, `C110_nn`, `C110_nn_local`.

### C111 Lucky shuffles give the Christofides guarantee — proved

If the first shuffle of approx_min_cost_matching pairs up the vertices of odd degree in the cheapest way, no later shuffle, schedule or process destroys this matching, and on every metric the tour of christofides is at most 3/2 of every tour, on one thread, in every outcome on several threads and with MPI. With k vertices of odd degree at least 2^(k/2) (k/2)! of the k! orders do so. More generally a matching in which no two edges can be exchanged with profit is left unchanged by the local search.

How: Exchanging the ends of two edges of a cheapest perfect matching gives another perfect matching, so neither exchange is cheaper and optimize_two_matching returns the edges as they are; this holds for every pair of edges, hence in every round whatever the shuffle (impRun_keeps). Then C43. Counting: permuting the edges and turning edges round gives different orders with the same matching.

Note: Exact arithmetic. MPI with at least two cities. For other shuffles: C89.

Theorems: `C111_stable`, `C111_min_stable`, `C111_lucky`, `C111_chance`, `C111_share`.

### C112 When the defect of the local search strikes — proved

The matching that christofides uses is perfect after all rounds exactly if in no round two edges that are treated together have three pairings of strictly decreasing costs in the order in which they are tried; a vertex that is lost never comes back. It is perfect for all shuffles exactly if no four of the vertices of odd degree have three pairings of three different costs. On every metric, if the defect does not strike, the tour is at most the weight of the spanning tree plus the cost of the first random matching, and at most 1 + k/4 times every tour with k vertices of odd degree. With MPI a further process can make the tour longer, because matchings that have lost vertices are cheaper (negation).

How: The wrong branch puts a vertex twice into the matching, all other branches permute the ends of the two edges. The set of ends never grows and the number of ends is constant, so a perfect matching after all rounds was perfect after every round; induction over the rounds. Instances: from four vertices with three different costs a first shuffle is built that begins with them. Tours: C42 and half of a tour per edge (matching_half). Negation: kernel evaluation.

Note: C112_perfect_iff and C112_lost for every arithmetic, the others for exact arithmetic. C112_more_processes is a negation.

Theorems: `C112_perfect_iff`, `C112_lost`, `C112_always_iff`, `C112_tour`, `C112_more_processes`.

### C113 Which of several shortest tours is returned — proved

Of several shortest tours walky exact v2 returns the one that comes first in the lexicographic order. Without negative distances v3 returns exactly the same. v0 does the same except that the tour 0, 1, ..., n-1 does not compete; v1 likewise among the tours that begin with city 0. On symmetric distances between at least three cities v0 and v1 return the same tour; if 0, 1, ..., n-1 is not a shortest tour, v2 returns this tour too; if it is, v2 returns it and v0 and v1 return another tour of the same length. The pruning of v5 can change which shortest tour is returned (negation).

How: The loop of v0 and v1 and the search of v2 and v3 are folds of one comparison over the list of visited tours, which is sorted lexicographically (Lemmas/FirstBest.lean: permLoop_best, dfs_leaves, leaves_sorted); a strict comparison keeps the first minimum. The test of v3 only cuts off tours that are not shorter. Symmetric distances: rotating to city 0 and turning round gives a smaller tour of the same length other than 0, 1, ..., n-1. Negation: kernel evaluation.

Note: Exact arithmetic. C113_v5_differs is a negation.

Theorems: `C113_v0`, `C113_v1`, `C113_v2`, `C113_v3`, `C113_v0_v1`, `C113_v0_v2`, `C113_v5_differs`.

### C114 Leaving out cities — proved

If the distances satisfy the triangle inequality and some cities are left out (the others may be renumbered), walky exact v0, v1, v2 and v3 report a tour that is not longer than before. The weight of the spanning tree and the 1-tree bound at most double; both can really increase, and the answer of nearest neighbour can get worse, for every shuffle (negations). Without the triangle inequality the shortest tour itself can get longer (negation).

How: A tour of all cities is turned so that it begins with a remaining city; leaving out the others makes it shorter by the triangle inequality (pathCost_sublist), and the inverse of the renumbering makes it a tour of the smaller instance. Compare with the optimum (C03 - C06). Bounds: C32 and C34 for the smaller instance, C82 (a tour of at most twice the bound) for the larger one. Negations: kernel evaluation, for nearest neighbour with C39.

Note: Exact arithmetic. The four theorems that end in _not are negations.

Theorems: `C114_exact`, `C114_bounds`, `C114_mst_not`, `C114_one_tree_not`, `C114_nearest_neighbour_not`, `C114_no_triangle_not`.

### C115 What walky says about two cities — proved

An accepted input with two cities and without self loops is a pair of edges of the same cost x. If x is at least 0 and 2x can be represented, the output of every command is known, whatever the build, the random numbers, the processors and the schedule: every command succeeds; nearest neighbour, christofides and the exact solvers print the length 2x, which is the optimum, and a tour of both cities; exact v1 on one thread prints the cost infinity, exact on several threads prints infinity and an empty tour if there is one processor; the mst bounds are x, the 1-tree bound is infinity, which is no lower bound. In MPI jobs the approximations and mst bounds give the same numbers (nearest neighbour and the 1-tree bound only with at most two processes, otherwise all processes fail); the exact solvers never print a tour.

How: All algorithms are evaluated on the 2x2 matrix for an abstract arithmetic with the few facts they use (TwoNum, Lemmas/TwoCities.lean); exact arithmetic and binary64 are instances (doubles_exact, doubles_binary64). The parallel modes are reduced to the sequential ones by C30, C35, C39. The static MPI solver has no prefix of three different cities, so its runs do not depend on the arithmetic, and C21, C27 apply; for the dynamic one C25, which holds in every arithmetic.

Theorems: `C115_inputs`, `C115_output`, `C115_optimum`, `C115_mpi`.

### C116 Charges at the cities — proved

If every road that ends at city i costs t_i more, walky exact v0, v1, v2 and v3 return the same tour as before, and its length grows by twice the sum of the charges. If every road costs d more, the spanning tree bound grows by (n-1)d, the 1-tree bound by nd, and nearest neighbour finds the same tours, longer by nd. If the length of every road is the sum of two charges t_i + t_j, all tours are equally long and every solver (v0 to v6, threads, nearest neighbour, Christofides, static MPI solver) reports 2 sum t_i; this is always the case for three cities: every solver and the 1-tree bound give the sum of the three distances. It is false for v4 and v5 (11 becomes 14 instead of 17, 8 becomes 74 instead of 68) and, with a charge at one city only, for nearest neighbour (13 becomes 14 instead of 15, all shuffles).

How: Every city of a tour has two roads, so a charge of t at city i adds 2t to every tour; the lexicographically first shortest tour stays the same (C113). Bounds: C109 in both directions. Nearest neighbour: the same tour satisfies the greedy rule, which determines it (greedy_unique). Star-shaped instances: all tours have the same length, and every solver reports the length of a tour (C10, C19, C23, C37, C39, C41, C113). Three cities are star-shaped with t_0 = (c01 + c02 - c12) / 2 etc. Negations: kernel evaluation.

Note: Exact arithmetic. The two theorems that end in _not are negations.

Theorems: `C116_exact`, `C116_bounds`, `C116_nearest_neighbour`, `C116_star`, `C116_three_cities`, `C116_v4_v5_not`, `C116_nearest_neighbour_not`.

### C117 Cities at the same place — proved

If the distances satisfy the triangle inequality, cities at distance 0 from another remaining city can be left out (or added): walky exact v0, v1, v2 and v3 report the same length, and the spanning tree has the same weight. If one city is listed a second time at the end of the file and no other city is at this place, nearest neighbour visits it right after the first one from every start, and its answer has the same length (even without the triangle inequality). The 1-tree bound can get smaller (4 instead of 6) and the answer of v5 worse (19 instead of 18) when a city is listed twice (negations).

How: At most: C114. At least: into a tour of the remaining cities the others are inserted one by one next to a city at the same place. Spanning trees: C29 compares with every connecting set of edges; edges are moved to the remaining cities, or edges of length 0 are added. Nearest neighbour: the tour with the new city inserted satisfies the greedy rule, which determines it (greedy_unique). Negations: kernel evaluation.

Note: Exact arithmetic. The two theorems that end in _not are negations.

Theorems: `C117_exact`, `C117_mst`, `C117_nearest_neighbour`, `C117_one_tree_not`, `C117_v5_not`.

### C118 Two runs in double precision — proved

Relations between the answers for two inputs survive the rounding of the real program. With e = (2n^2+1) 2^(k-54), where 2 n (largest distance) <= 2^k: listing the cities in another order changes the length reported by walky exact v0, v1, v2 or v3 by at most 4e; if no road is more than d longer, the reported length is at most nd + 4e longer; leaving out cities of a metric makes it at most 4e longer, and leaving out cities at the same place as others changes it by at most 4e; charges t_i at the cities change it by 2 sum t_i up to 4e; whatever is known about the two optima carries over in the same way. The lengths need not be equal: on one metric of four cities with distances in double precision each of v0, v1, v2 and v3 reports another length when the cities are listed in another order (negation).

How: C65 bounds the reported length by the optimum minus e and plus 3e; the relations between the optima are read off from the exact theorems C107, C109, C114, C116 and C117 (through v2). Negation: kernel evaluation of the four solvers in double precision.

Note: IEEE double precision; the distances in the matrix may be any rational numbers. C118_not_equal is a negation of exact equality.

Theorems: `C118_compare`, `C118_renumber`, `C118_longer_roads`, `C118_leave_out`, `C118_charges`, `C118_not_equal`.

### C119 From the MPI jobs to the points of the plots — proved

A script slurm_*.sh writes its jobs to a file from whose name parse.py reads exactly the numbers of nodes and of tasks per node of the script; parse.py uses a file exactly if its name contains output_<digits>_nodes_<digits>_taskspernode.txt. If all jobs have been successful, the file contains one more run than NUMBER_OF_BENCHMARK_RUNS says (11 for 10), and one time per run for Christofides and the 1-tree bound, one per run and process for nearest neighbour, spanning trees and exact solving. For every benchmark parse.py draws a point above the number of its processes, in the first curve if there is one process per node, in the second one if there are several or if there is one node; its height is a median of these times (in double precision, at least half of the times are not above it and at least half are not below it); curves are ordered by the number of processes. The scripts of the repository give points for 1, 2, 4, 8 and for 1, 2, 4, 8, 16, 32, 64 processes. If one of the files has no line with a time, parse.py fails and draws nothing.

How: Names: the regular expression is modelled as literal texts and greedy runs of digits, tried at every position; digits written by the shell are read back (C91). Times: C104. Medians: counting in the sorted list; the mean of two doubles lies between them because rounding does not pass a double. Curves: sorted lists with the same elements are equal.

Note: PyFloat, Display and Sorts are the contracts of float, Display and sorted.

Theorems: `C119_names`, `C119_name_of_job`, `C119_median`, `C119_number`, `C119_points`, `C119_curves`, `C119_no_measurement`.

### C120 Single-node benchmarks: from the instances to the curves — proved

In the single-node benchmarks of nearest neighbour, Christofides, the 1-tree bound and the spanning tree, run.sh calls run_often.py once for every size (100, 200, ..., 3000; for MST also 4000, ..., 10000) and both kinds of parallelism; the command that is measured runs exactly the algorithm of the benchmark with this parallelism on the instance of this size. Afterwards the file of a size and a parallelism contains the times of its successful runs and their median; if there are none, it is what it was before: it does not exist, or for MST, where old results are not removed, it keeps old results. No other file is written. If every file in the plot has a time, plot_results.py draws two curves with one point per size in ascending order, at the median of the times of this size and parallelism; otherwise it fails (except for MST, where stale values may be drawn). Not drawn: the sizes 2600 to 3000 of the 1-tree, which are measured. plot_all.py draws the three curves of MST and MST/QUEUE. gen.sh generates the sizes 3 to 212 once each and with gen_big.sh everything that is measured up to 3000. Defects: gen_xxl.sh generates three of seven large sizes, so that the MST plot fails on a fresh checkout; MST/QUEUE/plot_results.py reads files that its scripts never write (PARALLELISM is unset there) and always fails; Exact/STMT/plot_results_pt2.py reads results_multithreaded.json, which is written as results_multi.json.

How: Loops: membership and order by induction on the iterations. Commands: splitting at spaces and C96. Files: the names of the results are different for different sizes and kinds of parallelism (digits followed by an underscore), so every file is written at most once; C103 for its content. Plots: induction over the sizes. Disagreements with the code (missing large instances, names of files that are read but not written, stale results) are theorems about the scripts as they are.

Note: PyFloat, Display and Sorts are the contracts of float, Display and sorted. The defects are the theorems C120_instances (fourth part), C120_large, C120_queue and C120_exact.

Theorems: `C120_loops`, `C120_instances`, `C120_command`, `C120_results`, `C120_plot`, `C120_missing`, `C120_large`, `C120_queue`, `C120_queue_command`, `C120_all`, `C120_exact`.

### C121 Christofides when the spanning tree is a path; the factor 3/2 is attained — proved

On a symmetric matrix, if the spanning tree that walky approx computes for christofides is a path, then the answer is the tour that closes this path and its reported length is the weight of the tree plus the distance of the two ends, for all random shuffles, single threaded, multi threaded and with MPI, and no matter which perfect matching is used. The factor 3/2, which is guaranteed on metrics with such trees and for optimal matchings, cannot be lowered: for every f < 3/2 there is a metric on which the reported length is more than f times the length of some tour, for all shuffles and in all modes, and also with an optimal matching.

How: Degrees: their sum is twice the number of edges, so two odd vertices leave degree 2 for the others. The Euler walk of a multigraph in which all degrees are 2 visits every city once, so nothing is left out in it. Family of Cornuejols and Nemhauser: a spanning tree that is not heavier than the path (C29) has only edges of length a.

Note: Exact arithmetic.

Theorems: `C121_path`, `C121_family`, `C121_no_smaller_factor`.

### C122 Running walky twice on the same file — proved

The same file and the same command: walky exact on a single thread and walky lower-bound (single or multi threaded) always end in the same way and print the same text; the multi threaded lower bounds are identical to the single threaded ones, number by number. walky approx nearest-neighbour always prints the same length and the same bound in both modes, or panics in every run, although the tour may be another one. walky exact -p multi-threaded always prints the same cost on machines with the same number of CPUs, whatever the scheduler does, although the tour may be another one. Not reproducible are: the tours just mentioned, the length of walky approx christofides (29 or 32 on four cities), and the cost of walky exact -p multi-threaded on machines with different numbers of CPUs (61 or at most 60 on six cities).

How: Outputs of the deterministic commands are functions of the instance, the hash and the heap; C30 and C35 remove the splits. Nearest neighbour: the minimum of a permuted list is the same number, because OrderedFloat has no two different numbers on the same level (the model has no negative zero). Threads: the final cost is the minimum over the prefixes of all threads; no search returns NaN. Negations: kernel evaluation, for the threads along two explicit schedules.

Note: Every rounding. The hash function and the heap are the same in both runs: FxHasher has no seed, and the heap of the priority queue is deterministic. Text: files inside the model of the parser. Threads: accepted instances with at least one city.

Theorems: `C122_same_output`, `C122_same_text`, `C122_bounds`, `C122_nearest_neighbour`, `C122_threads`, `C122_nn_tour_changes`, `C122_christofides_changes`, `C122_cpus_change`, `C122_threads_tour_changes`.

### C123 Running an MPI job twice — proved

The same instance in two MPI jobs of walky. With two processes (one worker) walky exact prints the same in both jobs, or both panic in the same way. With any numbers of processes the costs printed by walky exact differ at most by a factor of 2, and they are equal on at most five cities. The nearest neighbour length, the 1-tree bound and the MST bound are the same numbers in all jobs, also with different numbers of processes. With three processes walky exact is not reproducible: the static solver prints 85 or 80 on one instance with eight cities, depending on the order of the messages; the dynamic solver prints 85, prints 80 or fails on another one.

How: One worker: in every reachable state at most one process can act, because the worker waits for the answer to its last message (DOne, SOne); so two runs pass through the same states (steps_unique). Costs: C67 bounds both by the optimum. Other numbers: C67 says that they are the single-threaded ones. Negations: kernel evaluation of explicit message orders (followD, followS), lifted to the matrix that the parser makes of the instance.

Note: Exact arithmetic except for one worker (any arithmetic). Static solver: at most as many processes as cities; dynamic solver: at least four cities. In jobs with several workers the dynamic solver can fail (C27), then there is no cost to compare.

Theorems: `C123_one_worker`, `C123_static_one_worker`, `C123_dynamic_one_worker`, `C123_exact_costs`, `C123_same_numbers`, `C123_static_changes`, `C123_dynamic_changes`.

### C124 Number of messages of the exact MPI jobs — proved

The amount of communication of walky exact in an MPI job with n cities and w workers does not depend on luck. Dynamic solver: every complete run hands out exactly (n-1)((n-1)(n-2)-1) prefixes, sends w more answers that release the workers, and has twice as many steps as answers (a request is received, the answer is received); this holds for all costs, infinite, negative or NaN ones included, in any arithmetic. Static solver, costs that are infinite or not negative, in exact arithmetic and in double precision, chunks of q = floor(n^3/w) >= 2 numbers: every complete run has exactly w q steps plus two for every prefix of three different cities strictly inside of a chunk, hence at most n^3 + 2 n (n-1) (n-2) steps.

How: Every worker of the dynamic solver has exactly one message in transit or is done (DTok), so the number of steps plus the answers in transit is twice the length of the log; at the end the log consists of the offered prefixes (counted in offers_length) and the releases. Static solver: a potential (spent minus transit) that grows by exactly 1 in every step; its final value is read off from the chunk boundaries. C124_static_any repeats this with the invariant of C127 (v0), which knows nothing about what a search finds.

Note: Steps are those of the transition systems of Model/Mpi.lean: a round of the loop of a static worker, an answer received by a worker (with the search, in the dynamic solver), a message handled by the coordinator. At least four cities in the dynamic solver.

Theorems: `C124_dynamic`, `C124_static`, `C124_static_bound`, `C124_static_any`.

### C125 What a run that does not succeed has printed — proved

A run of walky (without MPI) that ends with an error code or a panic has printed nothing, so a script never finds a result in the output of a failed run, with one exception: walky approx --lower-bound, when the approximation succeeds and the bound panics. Then exactly the output of walky approx without this option has been printed. On an accepted instance with at least two cities this happens only for the 1-tree bound and only if some cost is negative or minus infinity (or an edge from a city to itself is not a number); it does happen. With the feature benchmarking the time of the approximation has been printed as well, and run_often.py collects it like the time of a successful run.

How: Prints says what a process has written when it ends or panics; it refines Runs (runs_iff_prints). Only the bound after an approximation is computed after a line has been printed. When: C100 says that mst bounds never panic and 1-tree bounds only with such costs. It happens: kernel evaluation in binary64, costs of 2^1023 and minus infinity. Measurements: the lines of C103.

Note: Any arithmetic; C125_when: any rounding that keeps signs. Files inside the model of the parser.

Theorems: `C125_lines`, `C125_outcomes`, `C125_program`, `C125_when`, `C125_timed`, `C125_collected`, `C125_happens`.

### C126 The work of the multi-threaded exact solver — proved

On n cities and T < n threads, with q = floor(n^3/T), every complete run of the multi-threaded exact solver makes exactly T(q-1) rounds of the loops of its threads, and takes the lock of the best known result exactly once for every prefix of three different cities strictly inside of a chunk; at most n^3 + n(n-1)(n-2) steps in total, in every run. The schedule, the costs (infinite, negative and NaN ones included), and the arithmetic do not matter.

How: A potential per thread (numbers left in its chunk, prefixes of different cities among them, pending update) that decreases by exactly 1 in every step, whatever the search returns; its value at the start is read off from the chunk boundaries (C14). The updates are counted along the run (countStep).

Note: Steps are those of Model/Threaded.lean: a round of the loop of a thread with the search, or an update of the shared result. That complete runs exist is C17 and C100.

Theorems: `C126_steps`, `C126_updates`, `C126_bound`, `countStep_iff`.

### C127 Unusual costs in MPI jobs — partial

For every instance that passes do_conditions_hold, whatever its costs are (negative, infinite, so large that sums overflow) and however sums are rounded: `walky exact v1 --parallelism mpi` on at least four cities has an outcome with any number of processes, every execution is bounded, no process panics before the final broadcast, and all ranks end alike: they fail without output, or print the same tour of all cities with the same finite number that is not negative, or infinity and zeros; the last only if every worker found only tours whose cost is not at least 0. If the costs are infinite or non-negative doubles, a printed tour contains no infinite edge and has a finite cost, so that all ranks fail in every job if all tours are infinite (where v3 without MPI prints infinity and an empty tour). With such costs and at least two processes (at most n^3), v0 behaves in the same way on two or more cities: bounded executions, an outcome, and all ranks fail or print the same finite number and tour without an infinite edge. With finite costs of any sign, in a release build or if the metric test passes, christofides prints on the root the sum of the costs along a tour of all cities from city 0 and nothing on the other ranks. mst and mst-queue print one number on every rank. With costs that are infinite or not negative and at most as many processes as cities, one-tree prints one number on the root; with nearest-neighbour all ranks print the same number and the same tour, or all fail, the latter only if some cost is infinite; with finite costs of any sign nearest-neighbour never fails; with fewer than 2^53 cities and costs that are infinite or at least -2^970 all ranks fail, only if some cost is infinite, or print the same tour of all cities with the same number, which is not NaN. Not so: on four cities at cost -1, where every tour costs -4, `mpirun -n 2 walky exact -a v1` can print infinity and the tour 0, 0, 0, 0. If all costs are infinite, a christofides job fails where a release build without MPI prints the cost 0.

How: DAny: an invariant of the dynamic solver that mentions no numbers except that infinity is the largest one; the coordinator ignores costs that are not at least 0, so its winner has a tour or is still (infinity, 0). Costs that are infinite or not negative: a partial sum that is finite has no infinite edge (searchMpi_pos). Nearest neighbour: (cost, rank) pairs are linearly ordered if no cost is NaN, so every reduction tree selects the same pair; with infinite costs next to costs of at least -B a sum of i edges is infinite or at least -i B, also after rounding, so it is never NaN (KeepsAbove). Negative costs: kernel evaluation of an explicit message order (endD) in binary64. v0: SAny, an invariant of the lock-step rounds with the same facts about a search. Christofides: the total sequential proof with the matching of the job put in. Missing: v0 with negative costs (it hangs, C73_static_negative), 1-tree with negative costs, and nearest neighbour with infinite costs next to costs below -2^970, whose sums can overflow to minus infinity and become NaN.

Note: v1 and mst: all costs. christofides: finite costs of any sign (it fails if all are infinite). nearest-neighbour: finite costs of any sign, or infinite ones together with costs of at least -2^970. The other commands: costs that are infinite or not negative (with others one-tree panics already without MPI, C100_one_tree_panics). v0 hangs with negative costs, C73_static_negative.

Theorems: `C127_dynamic`, `C127_v1`, `C127_v1_partial`, `C127_mst`, `C127_one_tree_partial`, `C127_nearest_neighbour_partial`, `C127_nearest_neighbour_finite`, `C127_nearest_neighbour_mixed`, `C127_nearest_neighbour_mixed64`, `C127_v1_infinite`, `C127_v1_negative`, `C127_v0_partial`, `C127_christofides_partial`, `C127_christofides_infinite`.

### C128 Warnings when walky does not compute as it was told — proved

Without MPI, walky writes at most one warning to stderr: that only the sequential computation is supported. It does so exactly for lower-bound mst-queue, alone or after an approximation, with several threads, as soon as the bound is reached; then the bound printed, and the way the run ends, is that of lower-bound mst-queue with one thread. There is no warning when exact with several threads ignores the algorithm: all seven algorithms have the same outcomes. With MPI, in jobs that succeed: nothing with exact and the 1-tree bound; with the bounds mst and mst-queue every rank warns, and a rank that warns does exactly what a single process without MPI does; with nearest-neighbour every rank says that MPI only supports all start nodes (which is what was asked for); with christofides only the root warns, about the spanning tree; a bound after an approximation warns as it does alone.

How: Reports extends Prints by the lines on stderr, MpiReports extends MpiRuns. Case distinction over the commands; a command that reaches the bound has read the instance (lowerBound_read, approx_read), and a successful approximation has printed something (approx_lines).

Note: Any arithmetic. Messages of panics and errors are not modelled.

Theorems: `C128_when`, `C128_sequential`, `C128_algorithm_ignored`, `C128_mpi`, `C128_mpi_alone`, `C128_happens`, `reports_prints`.

### C129 simple_gen.py and walky on what it prints — proved

Called with xml (in upper or lower case) and a size, simple_gen.py prints the text of the distance matrix of the drawn points and a line feed, and exits with 0, provided that the solver it calls returns; the text is the file of this size that benchmark_gen.py writes for these points. The line feed does not matter: on a file with this output walky does exactly what it does on the file of benchmark_gen.py, with and without MPI, and from two cities on it reads a complete graph whose costs are the distances up to a relative error of 18 * 2^-53. If simple_gen.py does not exit with 0, the exit code is 1 and it has printed nothing or one line about its usage, to stdout; on a file with this output walky ends with an error code, without panic and without output.

How: The text is a document, and what follows a document is ignored (C91_truncated, parse_append); python_good of C101 says what is read. Usage lines: evaluation of the model of the parser, which finds text outside of an element.

Note: By contract: int on digits (PyInt), np.linalg.norm (NumpyNorm), the format {:.15e} (Digits16). Whether solve_tsp_dynamic_programming returns is a parameter. The rust format is a parameter (see C102).

Theorems: `C129_output`, `C129_errors`, `C129_read`.

### C130 Cities on a line — proved

If the cities lie on a straight line, no tour is shorter than twice the distance D of the two outermost cities, and there is one of this length. walky exact reports 2 D with v0 (two cities or more), v1 (three or more), v2, v3, v5 and v6, although v5 and v6 are not exact in general. Nearest neighbour is optimal from the two outermost cities and therefore also with all starts: `walky approx nearest-neighbour` reports 2 D for all shuffles, single threaded, on several threads and with MPI. The spanning tree bounds are exactly D in all versions. If no two cities are at the same place, christofides reports 2 D as well, for all shuffles and in all modes. For accepted instance files with three different places or more this is what the program prints: 2 D for `exact` without threads and MPI (v4 excepted), 2 D in every line with the length of an approximate tour and D in every line with a spanning tree bound, for every command with and without threads and MPI. Nearest neighbour from an inner city can be worse (54 instead of 52), and the 1-tree bound is not exact (45).

How: A walk between two cities is at least as long as their distance, so a tour is at least twice the distance of the ends. Nearest neighbour from the left end visits the cities in ascending order (C38), which is a shortest tour; it is never cut off by the test of v5 (2 times the spanning tree of the remaining cities). The spanning tree is at most this path and at least half of a tour (C82). In a lightest tree no edge jumps over a city (otherwise an exchange makes it lighter), so it is the path along the line, its odd vertices are the two ends, and C121_path gives the result of Christofides. The program: case distinction over the commands (run_lines, mpi_lines). The negations are evaluated by the kernel.

Note: v6 for hash functions without collisions (C09); debug builds of christofides if the metric test passes.

Theorems: `C130_shortest`, `C130_exact`, `C130_nearest_neighbour`, `C130_spanning_tree`, `C130_christofides`, `C130_not_from_inside`, `C130_program`.

### C131 Three cities — proved

With three cities and symmetric distances there is only one tour up to its direction and start, and walky reports its length whatever is asked: `walky exact` with v0 to v6, on several threads and with v0 under MPI on two or three processes; `walky approx` with nearest neighbour from every start and christofides for all shuffles, single threaded, on several threads and with MPI; and `walky lower-bound` with the 1-tree bound. Only the spanning tree bound is smaller, by exactly the longest side. The distances need not be a metric and may be negative. The exception is v1 under MPI, which never returns a result with three cities. For accepted files with three cities (costs not negative) this is also proved of the whole program without MPI: every line with a number, for every command and option, and in release builds christofides always ends with a result.

How: The six tours are enumerated. Every solver reports the length of a tour: C03, C04, C10, C19, C23, C37, C39, C40. Spanning trees of three cities are enumerated too: two odd vertices, so C121_path applies; the 1-tree of a city consists of the edge of the two others and its own two edges (oneTree_exact). v1 with MPI: C25. The program: case distinction over the commands (run_lines).

Note: Debug builds of christofides if the metric test passes; v0 with MPI on two or three processes.

Theorems: `C131_tours`, `C131_exact`, `C131_approx`, `C131_bounds`, `C131_no_result`, `C131_program`.

### C132 Distances of similar size — proved

If all distances between different cities are at least a and at most b (three cities or more, symmetric, not necessarily a metric), then every number that walky reports as the length of a tour is between n a and n b and at most n (b - a) above the optimum; if a is positive it is at most b / a times the optimum, and if a = b it is exactly n a. This holds for `walky exact` with v0 to v6, on several threads and with MPI (v0 with up to n processes; v1 with four cities or more if a is not negative), for nearest neighbour in all modes, and for christofides whatever the shuffles do, where C89 gives no better guarantee (on several threads for every solution that is returned in a debug build or with a matching that repeats no edge). The 1-tree bound is between n a and n b as well, and the spanning tree bounds are between (n - 1) a and (n - 1) b. If a is not negative, the same is proved of every line that the program prints about an accepted file, with MPI of every line of every process except those of `walky exact`.

How: A tour has n edges, a spanning tree n - 1 and a 1-tree n, each between a and b. Every solver reports the length of a tour (C03, C04, C10, C19, C23, C37, C39, C40, C41, C61, C62), the bounds are weights of a spanning tree (C29 - C31) and of a 1-tree (oneTree_exact). The program: case distinction over the commands (run_lines).

Note: Debug builds of christofides if the metric test passes; christofides on several threads for returned solutions, in debug builds or if the matching repeats no edge (otherwise C41_par_release_wrong).

Theorems: `C132_tours`, `C132_exact`, `C132_approx`, `C132_bounds`, `C132_factor`, `C132_equal`, `C132_program`.

### C133 Road networks without cycles — proved

If the distances are measured along a road network without cycles that connects all cities (a tree), no tour is shorter than twice the total length w of the roads, and there is one of this length. `walky exact` reports 2 w with v0 to v3. The spanning tree bounds are exactly w in all versions (plain, several threads, priority queue), so they are exactly half of the optimum and the factor 2 of C82 is attained on every such network. The 1-tree bound is between w and 2 w. For accepted instance files this is what the program prints: 2 w for `exact` v0 to v3 without threads and MPI, and for every command, with and without threads and MPI, w in every line with a spanning tree bound, between w and 2 w in every line with a 1-tree bound and at least 2 w in every line with the length of an approximate tour (christofides with threads in release builds: if the matching repeats no edge).

How: RoadTree builds the network city by city. Taking the last city v out of a tour shortens it by at least twice its road, because both its neighbours in the tour are reached through the other end of the road (induction). The roads are a spanning tree, so Prim finds at most w (C29), and some tour is at most twice the spanning tree (C82); both are therefore equalities. The program: case distinction over the commands (run_lines, mpi_lines).

Note: The network is described by the inductive predicate RoadTree.

Theorems: `C133_shortest`, `C133_road_tree`, `C133_program`.

## Axioms

Collected with `Lean.collectAxioms` for every theorem in `MANIFEST.json`.

* : `C106_v6_eager`.
* propext: `C103_lines`, `C125_timed`, `C128_algorithm_ignored`, `C128_mpi_alone`, `C128_sequential`, `C128_when`, `C51_empty_matching`, `C55_parse`, `C67_unimplemented`, `countStep_iff`, `reports_prints`.
* propext, Quot.sound: `C03_v0_single_city`, `C04_v1_small`, `C103_lines_bound`, `C103_printed`, `C103_results`, `C104_ranks`, `C104_results`, `C110_debug`, `C110_next`, `C110_split`, `C115_optimum`, `C120_loops`, `C125_outcomes`, `C128_mpi`, `C132_equal`, `C15_next_value`, `C21_too_many_workers`, `C25_small_panic`, `C30_order_exact`, `C35_par_eq_seq`, `C39_nearest_neighbour_par`, `C39_par_eq_seq`, `C40_too_many_ranks`, `C41_debug_not_metric`, `C47_asymmetric`, `C52_is_metric_finite`, `C52_is_metric_partial`, `C52_no_violation`, `C69_everyone_prints`, `C69_only_root_partial`.
* propext, Classical.choice, Quot.sound: all others.
