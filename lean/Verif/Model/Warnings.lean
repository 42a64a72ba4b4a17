import Verif.Model.CliMpi

/-!
# Model: the warnings on stderr

Source: `/repo/src/lib.rs:213-216`, `/repo/src/mst.rs:29-33`,
`/repo/src/solvers/approximate/nearest_neighbour.rs:91-95`: the three `eprintln!` of the program.

`Reports` extends `Prints` (`Model/Cli.lean`), `MpiReports` extends `MpiRuns` (`Model/CliMpi.lean`) by what the
processes have written to stderr. Not modelled: the messages of panics, of errors returned from `main` and of
`clap`, and the order of the lines on stdout and on stderr.
-/

namespace Walky

open FloatOps

variable {α : Type} [FloatOps α]

/-- A line on stderr. -/
inductive Warning
  /-- `lib.rs:215` -/
  | onlySequential
  /-- `mst.rs:31` -/
  | primSequential
  /-- `nearest_neighbour.rs:93` -/
  | everyStart
  deriving DecidableEq

/-- the texts -/
def Warning.text : Warning → String
  | .onlySequential => "Only sequential computation is supported for this algorithm."
  | .primSequential => "Warning: defaulting to sequential implementation of prims algorithm"
  | .everyStart => "MPI just supports using every start node"

/-- `lib.rs:165-224` `lower_bound_run`: the file is read first (`lib.rs:170-171`); `lib.rs:214-216` comes before
the computation. (The modes SEQ and PAR of `prim` do not warn, `mst.rs:27-28`.) -/
def boundWarnings (g : Graph α) (a : LowerBoundAlgorithm) (p : Parallelism) : List Warning :=
  match (do naFromGraph (← parseChecked g)) with
  | .error _ => []
  | .ok _ =>
    match a, p with
    | .mstQueue, .multiThreaded => [.onlySequential]
    | _, _ => []

/-- `lib.rs:227-246` `run`, built without `mpi` or called without `--parallelism mpi`: `o` is what the process has
printed and how it has ended, `ws` what it has written to stderr. The bound after an approximation is only
reached if the approximation does not panic (`lib.rs:158-161`). -/
def Reports (env : Env α) (g : Graph α) (c : Command) (o : Out α) (ws : List Warning) : Prop :=
  match c with
  | .exact a p => Prints env g (.exact a p) o ∧ ws = []
  | .approx a p lb => ∃ r, ApproxRun env g a p none r ∧
      o = (Out.print id r).andThen (boundAfter env g p lb) ∧
      ws = match r, lb with
        | .ok _, some b => boundWarnings g b p
        | _, _ => []
  | .lowerBound a p => Prints env g (.lowerBound a p) o ∧ ws = boundWarnings g a p

/-- `lib.rs:165-224` `lower_bound_run` with `--parallelism mpi`: what one rank writes to stderr, once it has read
the file (`lib.rs:209`, `mst.rs:31`; `lib.rs:215`). -/
def mpiBoundWarnings : LowerBoundAlgorithm → List Warning
  | .oneTree => []
  | .mst => [.primSequential]
  | .mstQueue => [.onlySequential]

/-- `lib.rs:158-160`: the same for the optional bound after an approximation -/
def mpiBoundWarningsAfter : Option LowerBoundAlgorithm → List Warning
  | none => []
  | some b => mpiBoundWarnings b

/-- `lib.rs:227-246` `run` with `--parallelism mpi`: `outs` as in `MpiRuns`, entry `r` of `ws` is what rank `r` has
written to stderr.

* Christofides: the root calls `prim` after the test of the metric (`christofides.rs:44-51`) and before any
  communication; the other ranks do not call it (`lib.rs:114-126`).
* Nearest neighbour: all ranks warn (`nearest_neighbour.rs:93`) after the assertion `n != 0`
  (`nearest_neighbour.rs:78`); in a job that is aborted a rank may not have come so far.
-/
def MpiReports (env : MpiEnv α) (g : Graph α) (c : MpiCommand) (outs : List (Out α))
    (ws : List (List Warning)) : Prop :=
  MpiRuns env g c outs ∧
  match (do naFromGraph (← parseChecked g)) with
  | .error _ => ws = List.replicate env.size []
  | .ok m =>
    match c with
    | .exact _ => ws = List.replicate env.size []
    | .lowerBound a => ws = List.replicate env.size (mpiBoundWarnings a)
    | .approx .christofides lb =>
      ws = (List.range env.size).map fun r =>
        if r ≠ 0 ∨ (env.dbg && !m.isMetric) then []
        else
          match christofidesMpi env.dbg m env.rng env.shufs env.size with
          | .ok _ => .primSequential :: mpiBoundWarningsAfter lb
          | .error _ => [.primSequential]
    | .approx .nearestNeighbour lb =>
      match nnMpi env.nnShape env.size m with
      | .ok _ => ws = List.replicate env.size (.everyStart :: mpiBoundWarningsAfter lb)
      | .error _ => ws.length = env.size ∧ ∀ w ∈ ws, w = [] ∨ (w = [.everyStart] ∧ m.dim ≠ 0)

end Walky
