import Verif.Model.CliMpi
import Verif.Model.Program

/-!
# Model: the program, built with the feature `mpi`

Source: `/repo/src/main.rs`, `/repo/src/cli.rs`, `/repo/src/lib.rs`.

A job consists of several processes, which are started with the same arguments and see the same files. With
`--parallelism mpi` they work together (`Verif.Model.CliMpi`), otherwise each of them runs on its own.

Not modelled: as in `Verif.Model.Program`; how the texts that the processes write are mixed on a terminal.
-/

namespace Walky

/-- `cli.rs:91-100` `Parallelism` with the feature `mpi` -/
inductive ParallelismMpi
  | singleThreaded | multiThreaded | mpi
  deriving DecidableEq

/-- the names of the values -/
def parNameMpi : ParallelismMpi → List Char
  | .singleThreaded => "single-threaded".toList
  | .multiThreaded => "multi-threaded".toList
  | .mpi => "mpi".toList

/-- the arguments with the feature `mpi` -/
def parseArgsMpi : List (List Char) → Option (CommandOf ParallelismMpi × List Char) :=
  parseArgsOf (byName parNameMpi [.singleThreaded, .multiThreaded, .mpi]) .singleThreaded

/-- A command for processes that run on their own, or for processes that work together. -/
def CommandOf.split : CommandOf ParallelismMpi → Command ⊕ MpiCommand
  | .exact a .singleThreaded => .inl (.exact a .singleThreaded)
  | .exact a .multiThreaded => .inl (.exact a .multiThreaded)
  | .exact a .mpi => .inr (.exact a)
  | .approx a .singleThreaded lb => .inl (.approx a .singleThreaded lb)
  | .approx a .multiThreaded lb => .inl (.approx a .multiThreaded lb)
  | .approx a .mpi lb => .inr (.approx a lb)
  | .lowerBound a .singleThreaded => .inl (.lowerBound a .singleThreaded)
  | .lowerBound a .multiThreaded => .inl (.lowerBound a .multiThreaded)
  | .lowerBound a .mpi => .inr (.lowerBound a)

/-- What a process has written to stdout, and how it ended. -/
structure RankOut where
  stdout : List Char
  exit : Exit

variable {α : Type}

/-- the outcome of a process as text -/
def Out.text (fmt : α → List Char) (o : Out α) : RankOut :=
  ⟨o.lines.flatMap (lineText fmt), o.end⟩

/-- `lib.rs:36-44` `get_tsp_instance`, `lib.rs:227-246` `run` with `--parallelism mpi`: a possible outcome of a
job with the given content of the input file. Nothing is said about a file that is outside of the model of the
parser. -/
def MpiFileRuns [FloatOps α] (readF : List Char → Option α) (fmt : α → List Char) (env : MpiEnv α)
    (file : Option (List Char)) (cmd : MpiCommand) (outs : List RankOut) : Prop :=
  match file with
  | none => outs = List.replicate env.size ⟨[], .failure⟩
  | some text =>
    match parseFromXml readF text with
    | .err => outs = List.replicate env.size ⟨[], .failure⟩
    | .panic e => outs = List.replicate env.size ⟨[], .panic e⟩
    | .unmodelled => True
    | .ok i => ∃ os, MpiRuns env i.graph cmd os ∧ outs = os.map (Out.text fmt)

/-- `main.rs:7-10` `main`: a possible outcome of a job; entry `r` of `outs` is the outcome of rank `r`, and
`envs r` is what rank `r` does not determine itself if it runs on its own. Nothing is said about requests for
help or the version. -/
def JobRuns [FloatOps α] (readF : List Char → Option α) (fmt : α → List Char) (env : MpiEnv α)
    (envs : Nat → Env α) (files : List Char → Option (List Char)) (args : List (List Char))
    (outs : List RankOut) : Prop :=
  asksHelp args = false →
  match parseArgsMpi args with
  | none => outs = List.replicate env.size ⟨[], .usage⟩
  | some (cmd, path) =>
    match cmd.split with
    | .inl cmd => outs.length = env.size ∧ ∀ r o, outs[r]? = some o →
        FileRuns readF fmt (envs r) (files path) cmd o.stdout o.exit
    | .inr cmd => MpiFileRuns readF fmt env (files path) cmd outs

end Walky
