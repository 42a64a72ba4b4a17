import Verif.Model.ProgramMpi

/-!
# Model: the feature `benchmarking` and the scripts that read the measurements

Source: `/repo/src/lib.rs` built with the feature `benchmarking`, `/repo/benchmarks/run_often.py`,
`/repo/benchmarks/Christofides/MPI/run_often_christofides_mpi.py`, `/repo/benchmarks/*/MPI/parse.py`.

The measured times are parameters. Python: `split`, `startswith` and `strip` are modelled; `float`, `sorted`
and the arithmetic of the mean are parameters. Not modelled: the conversion of `\r\n` in texts that Python
reads (walky writes no `\r`), files and plots.
-/

namespace Walky

variable {α : Type}

/-- A line of the output with the feature `benchmarking`. -/
inductive BLine (α : Type)
  | result (l : Line α)
  /-- `lib.rs:79,132,154,222` -/
  | elapsed (t : α)

/-- A line on stdout. -/
def BLine.text (fmt : α → List Char) : BLine α → List Char
  | .result l => lineText fmt l
  | .elapsed t => println ("elapsed seconds: ".toList ++ fmt t)

/-- the results of a computation, and the time it took -/
def timed (t : α) (lines : List (Line α)) : List (BLine α) := lines.map .result ++ [.elapsed t]

/-- `lib.rs:227-246` `run` with the feature `benchmarking`; `t k` is the time that is measured by the `k`-th
clock. The clock stops after the result has been printed (`lib.rs:76-79,130-132,151-154,198-222`). -/
def BenchRuns [FloatOps α] (env : Env α) (t : Nat → α) (g : Graph α) (c : Command) (out : RM (List (BLine α))) :
    Prop :=
  match c with
  | .exact a p => ∃ r, ExactRun env g a p r ∧ out = timed (t 0) <$> r
  | .approx a p lb => ∃ r, ApproxRun env g a p none r ∧ out = do
      let l ← r
      match lb with
      | none => return timed (t 0) l
      | some b => do
        let l' ← lowerBoundRun env g b p
        return timed (t 0) l ++ timed (t 1) l'
  | .lowerBound a p => out = timed (t 0) <$> lowerBoundRun env g a p

/-- What a process has printed and how it has ended. -/
structure BOut (α : Type) where
  lines : List (BLine α)
  exit : RM Unit

/-- the output of a process that prints the time if it does not panic -/
def Out.timed (t : α) (o : Out α) : BOut α :=
  match o.exit with
  | .ok _ => ⟨Walky.timed t o.lines, .ok ()⟩
  | .error e => ⟨o.lines.map .result, .error e⟩

/-- one part of a process after the other -/
def BOut.andThen (a b : BOut α) : BOut α :=
  match a.exit with
  | .ok _ => ⟨a.lines ++ b.lines, b.exit⟩
  | .error _ => a

/-- how a process ends -/
def BOut.end (o : BOut α) : Exit :=
  match o.exit with
  | .ok _ => .success
  | .error e => .panic e

/-- `lib.rs:158-161`: the optional lower bound after an approximation -/
def benchBound [FloatOps α] (env : Env α) (t : Nat → α) (g : Graph α) (p : Parallelism) :
    Option LowerBoundAlgorithm → BOut α
  | none => ⟨[], .ok ()⟩
  | some b => (Out.print id (lowerBoundRun env g b p)).timed (t 1)

/-- `lib.rs:227-246` `run` with the feature `benchmarking`: what the process has printed when it ends or panics;
see `Prints`. -/
def BenchPrints [FloatOps α] (env : Env α) (t : Nat → α) (g : Graph α) (c : Command) (o : BOut α) : Prop :=
  match c with
  | .exact a p => ∃ r, ExactRun env g a p r ∧ o = (Out.print id r).timed (t 0)
  | .approx a p lb => ∃ r, ApproxRun env g a p none r ∧
      o = ((Out.print id r).timed (t 0)).andThen (benchBound env t g p lb)
  | .lowerBound a p => o = (Out.print id (lowerBoundRun env g a p)).timed (t 0)

/-- `main.rs:7-10` `main` with the feature `benchmarking`; see `ProgramRuns`. -/
def BenchProgramRuns [FloatOps α] (readF : List Char → Option α) (fmt : α → List Char) (env : Env α) (t : Nat → α)
    (files : List Char → Option (List Char)) (args : List (List Char)) (stdout : List Char) (exit : Exit) : Prop :=
  asksHelp args = false →
  match parseArgs args with
  | none => stdout = [] ∧ exit = .usage
  | some (cmd, path) =>
    match files path with
    | none => stdout = [] ∧ exit = .failure
    | some text =>
      match parseFromXml readF text with
      | .err => stdout = [] ∧ exit = .failure
      | .panic e => stdout = [] ∧ exit = .panic e
      | .unmodelled => True
      | .ok i => ∃ o, BenchPrints env t i.graph cmd o ∧ stdout = o.lines.flatMap (BLine.text fmt) ∧ exit = o.end

/-! ## MPI -/

/-- `lib.rs:158-161`: the optional lower bound on one rank after an approximation -/
def benchBoundAfter [FloatOps α] (env : MpiEnv α) (t : Nat → Nat → α) (m : Mat α) (rank : Nat)
    (lb : Option LowerBoundAlgorithm) : BOut α :=
  match lb with
  | none => ⟨[], .ok ()⟩
  | some b => (mpiBoundAfter env m rank (some b)).timed (t rank 1)

/-- `lib.rs:227-246` `run` with `--parallelism mpi` and the feature `benchmarking`; `t r k` is the time that is
measured by the `k`-th clock of rank `r`. A rank that leaves the function early does not print the time
(`lib.rs:125,192`). -/
def MpiBenchRuns [FloatOps α] (env : MpiEnv α) (t : Nat → Nat → α) (g : Graph α) (c : MpiCommand)
    (outs : List (BOut α)) : Prop :=
  match (do naFromGraph (← parseChecked g)) with
  | .error e => outs = List.replicate env.size ⟨[], .error e⟩
  | .ok m =>
    match c with
    | .exact a => ∃ os, MpiExactRun env m a os ∧ outs = os.zipIdx.map fun x => x.1.timed (t x.2 0)
    | .approx .christofides lb =>
      match christofidesMpi env.dbg m env.rng env.shufs env.size with
      | .ok r => outs = (List.range env.size).map fun k =>
          if k = 0 then BOut.andThen (Out.timed (t 0 0) ⟨[Line.christofidesWeight r.1], .ok ()⟩)
            (benchBoundAfter env t m 0 lb)
          else ⟨[], .ok ()⟩
      | .error e => outs = List.replicate env.size ⟨[], .error e⟩
    | .approx .nearestNeighbour lb =>
      match nnMpi env.nnShape env.size m with
      | .ok rs => outs = rs.zipIdx.map fun x =>
          BOut.andThen (Out.timed (t x.2 0) ⟨[Line.nnWeight x.1.1, Line.nnTour x.1.2], .ok ()⟩)
            (benchBoundAfter env t m x.2 lb)
      | .error e => outs = List.replicate env.size ⟨[], .error e⟩
    | .lowerBound .oneTree =>
      match oneTreeLbMpi env.oneTreeShape env.size m with
      | .ok w => outs = (List.range env.size).map fun k =>
          if k = 0 then Out.timed (t 0 0) ⟨[Line.oneTreeBound w], .ok ()⟩ else ⟨[], .ok ()⟩
      | .error e => outs = List.replicate env.size ⟨[], .error e⟩
    | .lowerBound .mst => outs = (List.range env.size).map fun k => (mpiMst env m k false).timed (t k 0)
    | .lowerBound .mstQueue => outs = (List.range env.size).map fun k => (mpiMst env m k true).timed (t k 0)

/-! ## Python -/

/-- `s.split(sep)` with a separator of one character -/
def pySplit (sep : Char) : List Char → List (List Char)
  | [] => [[]]
  | c :: t =>
    if c = sep then [] :: pySplit sep t
    else match pySplit sep t with
      | [] => [[c]]
      | l :: ls => (c :: l) :: ls

/-- the white space of Python (`str.isspace`) -/
def pySpace (c : Char) : Bool :=
  [0x09, 0x0a, 0x0b, 0x0c, 0x0d, 0x1c, 0x1d, 0x1e, 0x1f, 0x20, 0x85, 0xa0, 0x1680, 0x2000, 0x2001, 0x2002, 0x2003,
    0x2004, 0x2005, 0x2006, 0x2007, 0x2008, 0x2009, 0x200a, 0x2028, 0x2029, 0x202f, 0x205f, 0x3000].contains c.toNat

/-- `s.strip()` -/
def pyStrip (s : List Char) : List Char := ((s.dropWhile pySpace).reverse.dropWhile pySpace).reverse

/-- `float(line.split(":")[1].strip())` (`run_often.py:22`, `run_often_christofides_mpi.py:23`, `parse.py:25`); `readPy` is `float`, which raises an
exception if the text is no number. -/
def pyField (readPy : List Char → Option α) (line : List Char) : RM α := do
  let field ← idx (pySplit ':' line) 1
  match readPy (pyStrip field) with
  | some x => return x
  | none => .error .explicit

/-- `run_often.py:20-24`: the first line that starts with `start` -/
def firstField (readPy : List Char → Option α) (start : List Char) : List (List Char) → RM (Option α)
  | [] => .ok none
  | line :: lines =>
    if start.isPrefixOf line then some <$> pyField readPy line else firstField readPy start lines

/-- `run_often.py:16-24`, `run_often_christofides_mpi.py:16-25`: the numbers that are collected; `outs` are the
texts that the runs have written to stdout. -/
def collect (readPy : List Char → Option α) (start : List Char) (outs : List (List Char)) : RM (List α) :=
  outs.foldlM (fun acc out => do
    match ← firstField readPy start (pySplit '\n' out) with
    | some x => return acc ++ [x]
    | none => return acc) []

/-- `run_often.py:26-30`: the content of the file of results -/
structure Summary (α : Type) where
  values : List α
  mean : α
  median : α

/-- `run_often.py:16-30`; `mean` is `sum(l) / len(l)` for a list that is not empty (a division by zero raises an
exception), `sort` is `sorted`. -/
def runOften (readPy : List Char → Option α) (mean : List α → α) (sort : List α → List α) (start : List Char)
    (outs : List (List Char)) : RM (Summary α) := do
  let values ← collect readPy start outs
  if values.isEmpty then .error .arith
  else
    let median ← idx (sort values) (values.length / 2)
    return ⟨values, mean values, median⟩

/-- `NN/MPI/parse.py:20-27` (and in the other directories) `get_measurements`: all lines that start with `start`. `readlines` leaves the `\n` at the end
of a line, which `strip` removes. -/
def getMeasurements (readPy : List Char → Option α) (start : List Char) (lines : List (List Char)) : RM (List α) :=
  lines.foldlM (fun acc line =>
    if start.isPrefixOf line then do return acc ++ [← pyField readPy line] else return acc) []

end Walky
