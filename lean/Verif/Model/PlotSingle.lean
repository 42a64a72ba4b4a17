import Verif.Model.Benchmark

/-!
# Model: the benchmarks on a single node, from the instances to the curves of the plots

Source: `/repo/utils/gen_matrix_fast/gen*.sh`, `/repo/benchmarks/{NN,1-tree,Christofides,MST}/STMT/run.sh`,
`/repo/benchmarks/MST/STMT/run_xxl.sh`, `/repo/benchmarks/MST/QUEUE/run*.sh`, `/repo/benchmarks/run_often.py`,
the `plot_results.py` beside them, `/repo/benchmarks/MST/plot_all.py`, `/repo/benchmarks/Exact/STMT`.

Simplifications. A directory `results` is a map from the names of its files to their content, and `json.load` returns
what `json.dump` has written (Python writes a `float` so that it is read back exactly). The shell splits a command at
its spaces: the names of the program and of the directories contain no other characters with a meaning
for the shell. The variable `PARALLELISM` is not set outside of the scripts. Not modelled: the three runs before the
measurements, the regression lines, the drawing, and `hyperfine`, which the exact benchmarks use instead of `run_often.py`.
-/

namespace Walky

variable {α : Type}

/-! ## Loops -/

/-- `for ((i=a; i<=b; i+=s))`: the values of `i`; `fuel` bounds the number of iterations -/
def shellLoop (b s : Nat) : Nat → Nat → List Nat
  | 0, _ => []
  | fuel + 1, i => if i ≤ b then i :: shellLoop b s fuel (i + s) else []

/-- `for ((i=a; i<=b; i+=s))` for a positive `s` -/
def shellFor (a b s : Nat) : List Nat := shellLoop b s (b + 1) a

/-- `range(a, b, s)`; `fuel` bounds the number of elements -/
def pyLoop (b s : Nat) : Nat → Nat → List Nat
  | 0, _ => []
  | fuel + 1, i => if i < b then i :: pyLoop b s fuel (i + s) else []

/-- `range(a, b, s)` for a positive `s` -/
def pyRange (a b s : Nat) : List Nat := pyLoop b s b a

/-! ## Instances -/

/-- `gen.sh:4-15`: the sizes of the instances in `results` -/
def genSmall : List Nat := (shellFor 3 207 7).flatMap fun i => [i, i + 1, i + 2, i + 3, i + 4, i + 5, i + 6]

/-- `gen_big.sh:3-7` -/
def genBig : List Nat := shellFor 200 3000 100

/-- `gen_xxl.sh:3-7`: the sizes of the instances in `/scratch/users/$USER` -/
def genXxl : List Nat := shellFor 7000 9000 1000

/-! ## Runs -/

/-- the benchmarks in the directories `STMT` that use `run_often.py` -/
inductive StmtBench
  | nn | oneTree | christofides | mst
deriving DecidableEq

/-- `run.sh:17` (`MST/STMT/run.sh:24`) the part of the command between the program and `-p` -/
def StmtBench.words : StmtBench → List Char
  | .nn => "approx nearest-neighbour".toList
  | .oneTree => "lower-bound one-tree".toList
  | .christofides => "approx christofides".toList
  | .mst => "lower-bound mst".toList

/-- `run.sh:16` the values of `PARALLELISM` -/
def stmtPars : List (List Char) := ["single-threaded".toList, "multi-threaded".toList]

/-- `run.sh:17` the first argument of `run_often.py` -/
def stmtCommand (b : StmtBench) (program xml : List Char) (n : Nat) (par : List Char) : List Char :=
  program ++ (" ".toList ++ (b.words ++ (" -p ".toList ++ (par ++ (" ".toList ++ (xml ++ ("/".toList ++
    (showUsize n ++ ".xml".toList))))))))

/-- `run.sh:17` the second argument of `run_often.py`, in the directory `results` -/
def resultFile (n : Nat) (par : List Char) : List Char :=
  "result_".toList ++ (showUsize n ++ ("_".toList ++ (par ++ ".json".toList)))

/-- `run.sh:14-20` the commands and the files of a loop, in their order -/
def stmtJobs (b : StmtBench) (program xml : List Char) (sizes : List Nat) : List (List Char × List Char) :=
  sizes.flatMap fun n => stmtPars.map fun par => (stmtCommand b program xml n par, resultFile n par)

/-- `run.sh:14-20`, and for `MST/STMT` then `run_xxl.sh:23-29` with instances in `scratch` -/
def StmtBench.jobs (b : StmtBench) (program xml scratch : List Char) : List (List Char × List Char) :=
  stmtJobs b program xml (shellFor 100 3000 100) ++
    match b with
    | .mst => stmtJobs .mst program scratch (shellFor 4000 10000 1000)
    | _ => []

/-- `MST/QUEUE/run.sh:26`, `MST/QUEUE/run_xxl.sh:25`: the first argument of `run_often.py`; `spaces` are the spaces before
the name of the instance -/
def queueCommand (program spaces xml : List Char) (n : Nat) : List Char :=
  program ++ (" lower-bound mst-queue".toList ++ (spaces ++ (xml ++ ("/".toList ++ (showUsize n ++ ".xml".toList)))))

/-- `MST/QUEUE/run.sh:24-28`, then `MST/QUEUE/run_xxl.sh:23-27`: the variable `PARALLELISM` is empty. -/
def queueJobs (program xml scratch : List Char) : List (List Char × List Char) :=
  (shellFor 100 3000 100).map (fun n => (queueCommand program " ".toList xml n, resultFile n [])) ++
  (shellFor 4000 10000 1000).map (fun n => (queueCommand program "  ".toList scratch n, resultFile n []))

/-- `subprocess.run(command, shell=True)` (`run_often.py:14,18`): the words of a command, the first one is the program -/
def shellWords (command : List Char) : List (List Char) := (pySplit ' ' command).filter (· ≠ [])

/-- a directory `results` -/
abbrev Results (α : Type) := List Char → Option (Summary α)

/-- `run_often.py:32-33` -/
def Results.write (dir : Results α) (file : List Char) (s : Summary α) : Results α :=
  fun f => if f = file then some s else dir f

/-- `run.sh:18`: one call of `run_often.py`. If it raises an exception, it has not opened the file of results yet, and
the script goes on. `outs` is what the ten runs of a command print. -/
def runJob (readPy : List Char → Option α) (mean : List α → α) (sort : List α → List α)
    (outs : List Char → List (List Char)) (dir : Results α) (job : List Char × List Char) : Results α :=
  match runOften readPy mean sort "elapsed seconds:".toList (outs job.1) with
  | .ok s => dir.write job.2 s
  | .error _ => dir

/-- one call after the other -/
def runJobs (readPy : List Char → Option α) (mean : List α → α) (sort : List α → List α)
    (outs : List Char → List (List Char)) (dir : Results α) (jobs : List (List Char × List Char)) : Results α :=
  jobs.foldl (runJob readPy mean sort outs) dir

/-- `run.sh:11-12`: the old results are removed; in `MST/STMT/run.sh:18-19` these lines are comments. -/
def StmtBench.start (b : StmtBench) (dir : Results α) : Results α :=
  match b with
  | .mst => dir
  | _ => fun _ => none

/-! ## Plots -/

/-- `plot_results.py:4-7,11` (`MST/STMT/plot_results.py:5-7,9-11,15`) -/
def StmtBench.plotSizes : StmtBench → List Nat
  | .nn => pyRange 100 (3000 + 1) 100
  | .oneTree => pyRange 100 (2500 + 1) 100
  | .christofides => pyRange 100 (3000 + 1) 100
  | .mst => pyRange 100 (3000 + 1) 100 ++ pyRange 4000 (10000 + 1) 1000

/-- `plot_results.py:13-16`: the median in a file. If the file does not exist, `open` raises an exception. -/
def readMedian (dir : Results α) (file : List Char) : RM α :=
  match dir file with
  | some s => return s.median
  | none => .error .explicit

/-- the two lists of a curve -/
abbrev Curve (α : Type) := List Nat × List α

/-- `plot_results.py:13-16`: one more point -/
def addPoint (dir : Results α) (suffix : List Char) (curve : Curve α) (size : Nat) : RM (Curve α) := do
  let m ← readMedian dir ("result_".toList ++ (showUsize size ++ suffix))
  return (curve.1 ++ [size], curve.2 ++ [m])

/-- `plot_results.py:12-22`: the body of the loop -/
def addPoints (dir : Results α) (curves : Curve α × Curve α) (size : Nat) : RM (Curve α × Curve α) := do
  let single ← addPoint dir "_single-threaded.json".toList curves.1 size
  let multi ← addPoint dir "_multi-threaded.json".toList curves.2 size
  return (single, multi)

/-- `plot_results.py:9-22`: the curves `single_threaded` and `multi_threaded` -/
def plotResults (dir : Results α) (sizes : List Nat) : RM (Curve α × Curve α) :=
  sizes.foldlM (addPoints dir) (([], []), ([], []))

/-- `MST/QUEUE/plot_results.py:5-7,11` -/
def queuePlotSizes : List Nat := pyRange 100 (2500 + 1) 100

/-- `MST/plot_all.py:4-39`: the curves `single_threaded`, `multi_threaded` and `queue_results`; `stmt` and `queue` are
the directories `STMT/results` and `QUEUE/results`. -/
def plotAll (stmt queue : Results α) : RM ((Curve α × Curve α) × Curve α) := do
  let sizes := pyRange 100 (3000 + 1) 100 ++ pyRange 4000 (10000 + 1) 1000
  let threads ← plotResults stmt sizes
  let q ← sizes.foldlM (addPoint queue "_.json".toList) ([], [])
  return (threads, q)

/-! ## The exact solvers -/

/-- `Exact/STMT/run_v0.sh` to `run_v6.sh` (lines 10, 18) and `run_vmulti.sh:16`: the files that `hyperfine` writes -/
def exactWritten : List (List Char) :=
  ["v0", "v1", "v2", "v3", "v4", "v5", "v6"].map (fun v => "results_".toList ++ (v.toList ++ ".json".toList)) ++
    ["results_multi.json".toList]

/-- `Exact/STMT/plot_results.py:16-26`: the files that are read -/
def exactRead : List (List Char) :=
  ["v0", "v1", "v2", "v3", "v4"].map fun v => "results_".toList ++ (v.toList ++ ".json".toList)

/-- `Exact/STMT/plot_results_pt2.py:17-27` -/
def exactRead2 : List (List Char) :=
  ["v0", "v1", "v2", "v3", "v4", "v5", "v6", "multithreaded"].map fun v =>
    "results_".toList ++ (v.toList ++ ".json".toList)

end Walky
