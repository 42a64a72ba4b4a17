import Verif.Model.ProgramMpi

/-!
# Specification of command lines and of the output
-/

namespace Walky.Spec

/-! ## Words on the command line -/

/-- the names of the exact algorithms -/
def exactWord : ExactAlgorithm → List Char
  | .v0 => "v0".toList
  | .v1 => "v1".toList
  | .v2 => "v2".toList
  | .v3 => "v3".toList
  | .v4 => "v4".toList
  | .v5 => "v5".toList
  | .v6 => "v6".toList

/-- the names of the approximations -/
def approxWord : ApproxAlgorithm → List Char
  | .nearestNeighbour => "nearest-neighbour".toList
  | .christofides => "christofides".toList

/-- the names of the lower bounds -/
def boundWord : LowerBoundAlgorithm → List Char
  | .oneTree => "one-tree".toList
  | .mst => "mst".toList
  | .mstQueue => "mst-queue".toList

/-- the values of `--parallelism` -/
def parWord : Parallelism → List Char
  | .singleThreaded => "single-threaded".toList
  | .multiThreaded => "multi-threaded".toList

/-- the values of `--parallelism` with the feature `mpi` -/
def parWordMpi : ParallelismMpi → List Char
  | .singleThreaded => "single-threaded".toList
  | .multiThreaded => "multi-threaded".toList
  | .mpi => "mpi".toList

/-- the options -/
def longWord : Opt → List Char
  | .parallelism => "--parallelism".toList
  | .lowerBound => "--lower-bound".toList

/-- the options, in short -/
def shortWord : Opt → List Char
  | .parallelism => "-p".toList
  | .lowerBound => "-l".toList

/-- A request for help or the version, or something that may be one: the subcommand `help`, or an argument
that is `--help` or `--version` or begins with `-h` or `-V`. -/
def HelpRequest (args : List (List Char)) : Prop :=
  (∃ as, args = "help".toList :: as) ∨
    ∃ a ∈ args, a = "--help".toList ∨ a = "--version".toList ∨ (∃ t, a = '-' :: 'h' :: t) ∨ ∃ t, a = '-' :: 'V' :: t

/-! ## Command lines -/

/-- A part of a command line: a positional argument, or an option with its value. -/
inductive Arg
  | pos (s : List Char)
  | opt (o : Opt) (v : List Char)

/-- not an option: it does not begin with `-`, or it is `-` -/
def NoDash (s : List Char) : Prop := ∀ t, s = '-' :: t → t = []

/-- The ways to write arguments, if the options in `opts` exist. -/
inductive Spelled (opts : List Opt) : List Arg → List (List Char) → Prop
  | done : Spelled opts [] []
  /-- `value` -/
  | pos {s : List Char} {ts : List Arg} {as : List (List Char)} (hs : NoDash s) (h : Spelled opts ts as) :
      Spelled opts (.pos s :: ts) (s :: as)
  /-- `--option value` -/
  | long {o : Opt} {v : List Char} {ts : List Arg} {as : List (List Char)} (ho : o ∈ opts) (hv : NoDash v)
      (h : Spelled opts ts as) : Spelled opts (.opt o v :: ts) (longWord o :: v :: as)
  /-- `--option=value` -/
  | longEq {o : Opt} {v : List Char} {ts : List Arg} {as : List (List Char)} (ho : o ∈ opts)
      (h : Spelled opts ts as) : Spelled opts (.opt o v :: ts) ((longWord o ++ '=' :: v) :: as)
  /-- `-o value` -/
  | short {o : Opt} {v : List Char} {ts : List Arg} {as : List (List Char)} (ho : o ∈ opts) (hv : NoDash v)
      (h : Spelled opts ts as) : Spelled opts (.opt o v :: ts) (shortWord o :: v :: as)
  /-- `-o=value` -/
  | shortEq {o : Opt} {v : List Char} {ts : List Arg} {as : List (List Char)} (ho : o ∈ opts)
      (h : Spelled opts ts as) : Spelled opts (.opt o v :: ts) ((shortWord o ++ '=' :: v) :: as)
  /-- `-ovalue` -/
  | joined {o : Opt} {v : List Char} {ts : List Arg} {as : List (List Char)} (ho : o ∈ opts) (h0 : v ≠ [])
      (hv : v.head? ≠ some '=') (h : Spelled opts ts as) :
      Spelled opts (.opt o v :: ts) ((shortWord o ++ v) :: as)
  /-- `-- value value ...` -/
  | rest (ss : List (List Char)) : Spelled opts (ss.map .pos) ("--".toList :: ss)

/-- the positional arguments -/
def positionals : List Arg → List (List Char)
  | [] => []
  | .pos s :: ts => s :: positionals ts
  | .opt _ _ :: ts => positionals ts

/-- the values of an option -/
def values (o : Opt) : List Arg → List (List Char)
  | [] => []
  | .pos _ :: ts => values o ts
  | .opt o' v :: ts => if o' = o then v :: values o ts else values o ts

/-- an option that may be given once, with the name of its value -/
def Given {β : Type} (name : β → List Char) (default b : β) (vs : List (List Char)) : Prop :=
  vs = [] ∧ b = default ∨ vs = [name b]

/-- The arguments after the program name say: run this command on this file. `parName` are the names of the
values of the option `--parallelism`, `dflt` is its default. -/
def CommandLineOf {P : Type} (parName : P → List Char) (dflt : P) (args : List (List Char)) (cmd : CommandOf P)
    (path : List Char) : Prop :=
  path ≠ [] ∧ match cmd with
  | .exact a p => ∃ ts as, args = "exact".toList :: as ∧ Spelled [.parallelism] ts as ∧
      positionals ts = [exactWord a, path] ∧ Given parName dflt p (values .parallelism ts)
  | .approx a p lb => ∃ ts as, args = "approx".toList :: as ∧ Spelled [.parallelism, .lowerBound] ts as ∧
      positionals ts = [approxWord a, path] ∧ Given parName dflt p (values .parallelism ts) ∧
      (values .lowerBound ts = [] ∧ lb = none ∨ ∃ b, lb = some b ∧ values .lowerBound ts = [boundWord b])
  | .lowerBound a p => ∃ ts as, args = "lower-bound".toList :: as ∧ Spelled [.parallelism] ts as ∧
      positionals ts = [boundWord a, path] ∧ Given parName dflt p (values .parallelism ts)

/-- command lines without the feature `mpi` -/
def CommandLine (args : List (List Char)) (cmd : Command) (path : List Char) : Prop :=
  CommandLineOf parWord .singleThreaded args cmd path

/-- command lines with the feature `mpi` -/
def JobLine (args : List (List Char)) (cmd : CommandOf ParallelismMpi) (path : List Char) : Prop :=
  CommandLineOf parWordMpi .singleThreaded args cmd path

/-- the value of `--parallelism` exists with and without the feature `mpi` -/
inductive SamePar : ParallelismMpi → Parallelism → Prop
  | single : SamePar .singleThreaded .singleThreaded
  | multi : SamePar .multiThreaded .multiThreaded

/-- The processes of a job run on their own. -/
inductive Alone : CommandOf ParallelismMpi → Command → Prop
  | exact (a : ExactAlgorithm) {p : ParallelismMpi} {q : Parallelism} (h : SamePar p q) :
      Alone (.exact a p) (.exact a q)
  | approx (a : ApproxAlgorithm) (lb : Option LowerBoundAlgorithm) {p : ParallelismMpi} {q : Parallelism}
      (h : SamePar p q) : Alone (.approx a p lb) (.approx a q lb)
  | lowerBound (a : LowerBoundAlgorithm) {p : ParallelismMpi} {q : Parallelism} (h : SamePar p q) :
      Alone (.lowerBound a p) (.lowerBound a q)

/-- The processes of a job work together, with `--parallelism mpi`. -/
inductive Together : CommandOf ParallelismMpi → MpiCommand → Prop
  | exact (a : ExactAlgorithm) : Together (.exact a .mpi) (.exact a)
  | approx (a : ApproxAlgorithm) (lb : Option LowerBoundAlgorithm) : Together (.approx a .mpi lb) (.approx a lb)
  | lowerBound (a : LowerBoundAlgorithm) : Together (.lowerBound a .mpi) (.lowerBound a)

/-! ## Output -/

variable {α : Type}

/-- a tour as text -/
def tourText (p : List Nat) : List Char :=
  '[' :: List.intercalate [',', ' '] (p.map (Nat.toDigits 10)) ++ [']']

/-- a line as text -/
def textOf (fmt : α → List Char) : Line α → List Char
  | .bestCost x => "Best Cost: ".toList ++ fmt x
  | .bestPermutation p => "Best Permutation: ".toList ++ tourText p
  | .christofidesWeight x => "Christofides solution weight: ".toList ++ fmt x
  | .nnWeight x => "Nearest Neighbour solution weight: ".toList ++ fmt x
  | .nnTour p => "Nearest Neighbour solution: ".toList ++ tourText p
  | .oneTreeBound x => "1-tree lower bound: ".toList ++ fmt x
  | .mstBound x => "MST lower bound: ".toList ++ fmt x

/-- lines as text, one below the other -/
def outputText (fmt : α → List Char) : List (Line α) → List Char
  | [] => []
  | l :: ls => textOf fmt l ++ '\n' :: outputText fmt ls

/-- a process has printed these lines and ended like this -/
def RankText (fmt : α → List Char) (o : Out α) (r : RankOut) : Prop :=
  r.stdout = outputText fmt o.lines ∧
    (o.exit = .ok () ∧ r.exit = .success ∨ ∃ e, o.exit = .error e ∧ r.exit = .panic e)

end Walky.Spec
