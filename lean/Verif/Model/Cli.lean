import Verif.Model.Instance
import Verif.Model.Permutation
import Verif.Model.Threaded
import Verif.Model.OneTree
import Verif.Model.NearestNeighbour
import Verif.Model.Christofides

/-!
# Model: the command line

Source: `/repo/src/lib.rs`, `/repo/src/cli.rs`, built without the features `mpi` and `benchmarking`.

A run starts from the graph in the input file. Arguments, file and XML errors and the text of the output are
in `Model/Program.lean`. The warning on stderr of `lib.rs:215` is in `Model/Warnings.lean`.
-/

namespace Walky

open FloatOps

variable {α : Type} [FloatOps α]

/-- `cli.rs` `ExactAlgorithm` -/
inductive ExactAlgorithm
  | v0 | v1 | v2 | v3 | v4 | v5 | v6
  deriving DecidableEq

/-- `cli.rs` `ApproxAlgorithm` -/
inductive ApproxAlgorithm
  | nearestNeighbour | christofides

/-- `cli.rs` `LowerBoundAlgorithm` -/
inductive LowerBoundAlgorithm
  | oneTree | mst | mstQueue

/-- `cli.rs` `Parallelism` (without the feature `mpi`) -/
inductive Parallelism
  | singleThreaded | multiThreaded

/-- `cli.rs:16-51` `Commands` (without the path of the input file); `P` is the type `Parallelism`, which
depends on the feature `mpi` -/
inductive CommandOf (P : Type)
  | exact (a : ExactAlgorithm) (p : P)
  | approx (a : ApproxAlgorithm) (p : P) (lb : Option LowerBoundAlgorithm)
  | lowerBound (a : LowerBoundAlgorithm) (p : P)

/-- the commands without the feature `mpi` -/
abbrev Command := CommandOf Parallelism

/-- A line of the output. -/
inductive Line (α : Type)
  /-- `lib.rs:76` -/
  | bestCost (x : α)
  /-- `lib.rs:77` -/
  | bestPermutation (p : List Nat)
  /-- `lib.rs:130` -/
  | christofidesWeight (x : α)
  /-- `lib.rs:151` -/
  | nnWeight (x : α)
  /-- `lib.rs:152` -/
  | nnTour (p : List Nat)
  /-- `lib.rs:198` -/
  | oneTreeBound (x : α)
  /-- `lib.rs:211,218` -/
  | mstBound (x : α)

/-- Everything a run does not determine itself: random numbers, the machine and the schedule. -/
structure Env (α : Type) where
  /-- debug assertions -/
  dbg : Bool
  /-- `FxHasher` on a prefix -/
  hash : List Nat → Nat
  /-- `num_cpus` -/
  cpus : Nat
  /-- order of the start vertices of the nearest neighbour tours -/
  starts : Nat → List Nat
  /-- rayon's splits in the nearest neighbour algorithm -/
  nnShape : List (Solution α) → RTree (Solution α)
  /-- rayon's splits in the 1-tree bound -/
  oneTreeShape : List α → RTree α
  /-- the heap of the priority queue -/
  peek : Nat → List (Nat × α) → Option (Nat × α)
  /-- random numbers of the matching -/
  rng : MatchRng
  /-- the schedule in Prim's algorithm and in Christofides' algorithm -/
  sched : ParSched α

/-- `lib.rs:46-81` `exact_run`: `out` is a possible outcome. (With the option for several threads the
algorithm is ignored. The threads do not panic; see `ThreadedResult`.) -/
def ExactRun (env : Env α) (g : Graph α) (a : ExactAlgorithm) (p : Parallelism)
    (out : RM (List (Line α))) : Prop :=
  match (do naFromGraph (← parseChecked g)) with
  | .error e => out = .error e
  | .ok m =>
    match p with
    | .singleThreaded =>
      out = (fun r : Solution α => [Line.bestCost r.1, Line.bestPermutation r.2]) <$>
        match a with
        | .v0 => naiveSolver m
        | .v1 => firstImprovedSolver m
        | .v2 => secondImprovedSolver m
        | .v3 => thirdImprovedSolver m
        | .v4 => fourthImprovedSolver m
        | .v5 => fifthImprovedSolver m
        | .v6 => sixthImprovedSolver m env.hash
    | .multiThreaded =>
      ∃ r, ThreadedResult m 3 env.cpus r ∧ out = .ok [Line.bestCost r.1, Line.bestPermutation r.2]

/-- `lib.rs:165-224` `lower_bound_run`. -/
def lowerBoundRun (env : Env α) (g : Graph α) (a : LowerBoundAlgorithm) (p : Parallelism) :
    RM (List (Line α)) := do
  let m ← naFromGraph (← parseChecked g)
  match a with
  | .oneTree => do
    let w ← match p with
      | .singleThreaded => oneTreeLbSeq m
      | .multiThreaded => oneTreeLbPar env.oneTreeShape m
    return [Line.oneTreeBound w]
  | .mst => do
    let t ← match p with
      | .singleThreaded => primSeq m []
      | .multiThreaded => primPar env.sched.shape env.sched.update m []
    return [Line.mstBound t.undirectedEdgeWeight]
  | .mstQueue => do
    let t ← primQueue env.peek m []
    return [Line.mstBound t.undirectedEdgeWeight]

/-- `lib.rs:158-161`: the optional lower bound after an approximation. -/
def withBound (env : Env α) (g : Graph α) (p : Parallelism) (lb : Option LowerBoundAlgorithm)
    (lines : RM (List (Line α))) : RM (List (Line α)) := do
  let l ← lines
  match lb with
  | none => return l
  | some a => do
    let l' ← lowerBoundRun env g a p
    return l ++ l'

/-- `lib.rs:84-162` `approx_run`: `out` is a possible outcome. -/
def ApproxRun (env : Env α) (g : Graph α) (a : ApproxAlgorithm) (p : Parallelism)
    (lb : Option LowerBoundAlgorithm) (out : RM (List (Line α))) : Prop :=
  match (do naFromGraph (← parseChecked g)) with
  | .error e => out = .error e
  | .ok m =>
    ∃ res : RM (Solution α),
      match a with
      | .christofides =>
        (match p with
          | .singleThreaded => res = christofidesSeq env.dbg m env.rng
          | .multiThreaded => ChristofidesPar env.dbg m env.rng env.sched res) ∧
        out = withBound env g p lb ((fun r : Solution α => [Line.christofidesWeight r.1]) <$> res)
      | .nearestNeighbour =>
        (match p with
          | .singleThreaded => res = nearestNeighbourSeq (env.starts m.dim) m
          | .multiThreaded => res = nearestNeighbourPar env.nnShape (env.starts m.dim) m) ∧
        out = withBound env g p lb
          ((fun r : Solution α => [Line.nnWeight r.1, Line.nnTour r.2]) <$> res)

/-- `lib.rs:227-246` `run`: `out` is a possible outcome. -/
def Runs (env : Env α) (g : Graph α) (c : Command) (out : RM (List (Line α))) : Prop :=
  match c with
  | .exact a p => ExactRun env g a p out
  | .approx a p lb => ApproxRun env g a p lb out
  | .lowerBound a p => out = lowerBoundRun env g a p

/-- What a process has printed and how it has ended. -/
structure Out (α : Type) where
  lines : List (Line α)
  exit : RM Unit

/-- a process that computes something and prints it -/
def Out.print {β : Type} (f : β → List (Line α)) : RM β → Out α
  | .ok b => ⟨f b, .ok ()⟩
  | .error e => ⟨[], .error e⟩

/-- one part of a process after the other -/
def Out.andThen (a b : Out α) : Out α :=
  match a.exit with
  | .ok _ => ⟨a.lines ++ b.lines, b.exit⟩
  | .error _ => a

/-- `lib.rs:158-161`: the optional lower bound after an approximation -/
def boundAfter (env : Env α) (g : Graph α) (p : Parallelism) : Option LowerBoundAlgorithm → Out α
  | none => ⟨[], .ok ()⟩
  | some a => Out.print id (lowerBoundRun env g a p)

/-- `lib.rs:227-246` `run`: what the process has printed when it ends or panics. The lines of a computation
are printed when it is complete (`lib.rs:76,130,151,198,211,218`); the bound after an approximation is computed
after the lines of the approximation have been printed. See `Runs`. -/
def Prints (env : Env α) (g : Graph α) (c : Command) (o : Out α) : Prop :=
  match c with
  | .exact a p => ∃ r, ExactRun env g a p r ∧ o = Out.print id r
  | .approx a p lb => ∃ r, ApproxRun env g a p none r ∧
      o = (Out.print id r).andThen (boundAfter env g p lb)
  | .lowerBound a p => o = Out.print id (lowerBoundRun env g a p)

end Walky
