import Verif.Model.Benchmark

/-!
# Model: the jobs of the MPI benchmarks and the points of the plots

Source: `/repo/benchmarks/NN/MPI/slurm_*.sh` and `/repo/benchmarks/NN/MPI/parse.py` (the same lines in the
directories `1-tree/MPI` and `Exact/MPI/v1_constgraphsize`; `Christofides/MPI/parse.py` ends with
`find_matched_files`).

`sorted` is a parameter, as in `Model/Benchmark.lean`. Simplification: `\d` of a regular expression also matches digits
of other scripts, which do not occur in the names of the files. Not modelled: the drawing of the points, and the
regression lines of `1-tree/MPI/parse.py`.
-/

namespace Walky

open FloatOps

variable {α : Type}

/-- `slurm_*.sh:18` `OUTPUT_FILE` -/
def outputFile (nodes tasks : Nat) : List Char :=
  "output_".toList ++ (showUsize nodes ++ ("_nodes_".toList ++ (showUsize tasks ++ "_taskspernode.txt".toList)))

/-- `slurm_*.sh:17` `N=$((NUMBER_OF_NODES * NUMBER_OF_TASKS_PER_NODE))` -/
def jobProcesses (nodes tasks : Nat) : Nat := nodes * tasks

/-- `slurm_*.sh:34` `for ((i=0; i<=${NUMBER_OF_BENCHMARK_RUNS}; i+=1))`: the values of `i` -/
def benchmarkRuns (runs : Nat) : List Nat := List.range (runs + 1)

/-- the characters of a regular expression that stand for themselves -/
def reLit (lit s : List Char) : Option (List Char) := if lit.isPrefixOf s then some (s.drop lit.length) else none

/-- `(\d+)` and `int(…)`: as many digits as there are. In `parse.py:11` the next character of the pattern is no digit, so
that the regular expression cannot match with fewer of them. -/
def reInt (s : List Char) : Option (Nat × List Char) :=
  match readDigits (s.takeWhile Char.isDigit) with
  | some n => some (n, s.dropWhile Char.isDigit)
  | none => none

/-- `parse.py:11` the pattern at the beginning of a text -/
def matchName (s : List Char) : Option (Nat × Nat) := do
  let s ← reLit "output_".toList s
  let (nodes, s) ← reInt s
  let s ← reLit "_nodes_".toList s
  let (tasks, s) ← reInt s
  let _ ← reLit "_taskspernode.txt".toList s
  return (nodes, tasks)

/-- `parse.py:10-18` `extract_nodes_and_processes`: `re.search` finds the first position -/
def extractNodes : List Char → Option (Nat × Nat)
  | [] => matchName []
  | c :: s =>
    match matchName (c :: s) with
    | some r => some r
    | none => extractNodes s

/-- `parse.py:33-38`: one file, given by its name and its lines -/
def matchFile (readPy : List Char → Option α) (start : List Char) (acc : List ((Nat × Nat) × List α))
    (file : List Char × List (List Char)) : RM (List ((Nat × Nat) × List α)) :=
  match extractNodes file.1 with
  | some np => do
    let values ← getMeasurements readPy start file.2
    return acc ++ [(np, values)]
  | none => return acc

/-- `parse.py:29-40` `find_matched_files`: the files of the directory in the order of `os.listdir` -/
def findMatchedFiles (readPy : List Char → Option α) (start : List Char) (dir : List (List Char × List (List Char))) :
    RM (List ((Nat × Nat) × List α)) :=
  dir.foldlM (matchFile readPy start) []

/-- `statistics.median`: raises an exception for an empty list -/
def pyMedian [FloatOps α] (sort : List α → List α) (l : List α) : RM α := do
  let d := sort l
  let n := d.length
  if n = 0 then .error .explicit
  else if n % 2 = 1 then idx d (n / 2)
  else do
    let a ← idx d (n / 2 - 1)
    let b ← idx d (n / 2)
    return half (a +ᶠ b)

/-- `xs.sort(key=lambda x: x[0])` -/
def sortPoints (l : List (Nat × α)) : List (Nat × α) := l.mergeSort fun a b => decide (a.1 ≤ b.1)

/-- `parse.py:42-51`: `single_process_per_node` and `multi_processes_per_node` -/
def plotPoints [FloatOps α] (readPy : List Char → Option α) (sort : List α → List α) (start : List Char)
    (dir : List (List Char × List (List Char))) : RM (List (Nat × α) × List (Nat × α)) := do
  let xs ← findMatchedFiles readPy start dir
  let single ← (xs.filter fun x => x.1.2 = 1).mapM fun x => do return (x.1.1, ← pyMedian sort x.2)
  let multi ← (xs.filter fun x => !(x.1.1 > 1 ∧ x.1.2 = 1)).mapM fun x => do
    return (x.1.1 * x.1.2, ← pyMedian sort x.2)
  return (sortPoints single, sortPoints multi)

end Walky
