import Verif.Model.Cli
import Verif.Model.Parser

/-!
# Model: the program

Source: `/repo/src/main.rs`, `/repo/src/cli.rs`, `/repo/src/lib.rs`, built without the features `mpi` and
`benchmarking`.

From the arguments and the content of the input file to the text on stdout and the way the program ends.

Contract of `clap` (4, derived parser): the first argument is the subcommand. After it, options and
positional arguments come in any order; after `--` everything is positional. A long option is `--name
value` or `--name=value`, a short one `-n value`, `-nvalue` or `-n=value`. A separate value must not begin
with `-` (unless it is `-`). Names of values are the variants in kebab case. An option must not occur twice,
there must be exactly two positional arguments, and a path must not be empty. Everything else is an error,
except requests for help or the version, which are not modelled.

Not modelled: stderr (the warnings are in `Model/Warnings.lean`); a file that changes while the program runs
(`approx` with a lower bound reads it twice).
-/

namespace Walky

deriving instance DecidableEq for ApproxAlgorithm, LowerBoundAlgorithm, Parallelism, CommandOf

/-! ## Arguments -/

/-- `cli.rs:54-69`: the names of the values -/
def exactName : ExactAlgorithm → List Char
  | .v0 => "v0".toList
  | .v1 => "v1".toList
  | .v2 => "v2".toList
  | .v3 => "v3".toList
  | .v4 => "v4".toList
  | .v5 => "v5".toList
  | .v6 => "v6".toList

/-- `cli.rs:71-77` -/
def approxName : ApproxAlgorithm → List Char
  | .nearestNeighbour => "nearest-neighbour".toList
  | .christofides => "christofides".toList

/-- `cli.rs:79-89` -/
def boundName : LowerBoundAlgorithm → List Char
  | .oneTree => "one-tree".toList
  | .mst => "mst".toList
  | .mstQueue => "mst-queue".toList

/-- `cli.rs:91-100` -/
def parName : Parallelism → List Char
  | .singleThreaded => "single-threaded".toList
  | .multiThreaded => "multi-threaded".toList

/-- the value with this name -/
def byName {β : Type} (name : β → List Char) (all : List β) (s : List Char) : Option β :=
  all.find? fun b => name b = s

def readExact : List Char → Option ExactAlgorithm := byName exactName [.v0, .v1, .v2, .v3, .v4, .v5, .v6]
def readApprox : List Char → Option ApproxAlgorithm := byName approxName [.nearestNeighbour, .christofides]
def readBound : List Char → Option LowerBoundAlgorithm := byName boundName [.oneTree, .mst, .mstQueue]

/-- What has been read of the arguments after the subcommand. -/
structure ArgState where
  positional : List (List Char)
  parallelism : Option (List Char)
  lowerBound : Option (List Char)

/-- the options of a subcommand -/
inductive Opt
  | parallelism
  | lowerBound
deriving DecidableEq

/-- the long and the short name of an option -/
def Opt.long : Opt → List Char
  | .parallelism => "--parallelism".toList
  | .lowerBound => "--lower-bound".toList

def Opt.short : Opt → List Char
  | .parallelism => "-p".toList
  | .lowerBound => "-l".toList

/-- set an option that has not been set -/
def ArgState.setOpt (st : ArgState) (o : Opt) (v : List Char) : Option ArgState :=
  match o with
  | .parallelism => if st.parallelism = none then some { st with parallelism := some v } else none
  | .lowerBound => if st.lowerBound = none then some { st with lowerBound := some v } else none

/-- can this argument stand for a value of its own? -/
def isValue (s : List Char) : Bool := s.head? ≠ some '-' || s = ['-']

/-- `t` if the argument is `s ++ t` -/
def afterPrefix (s a : List Char) : Option (List Char) := if s.isPrefixOf a then some (a.drop s.length) else none

/-- An argument that is the option `o`: its value, if it is in the same argument. -/
def readOne (o : Opt) (a : List Char) : Option (Opt × Option (List Char)) :=
  if a = o.long then some (o, none)
  else match afterPrefix (o.long ++ ['=']) a with
    | some v => some (o, some v)
    | none =>
      if a = o.short then some (o, none)
      else match afterPrefix (o.short ++ ['=']) a with
        | some v => some (o, some v)
        | none => (afterPrefix o.short a).map fun v => (o, some v)

/-- an argument that is one of the options -/
def readOpt (opts : List Opt) (a : List Char) : Option (Opt × Option (List Char)) :=
  opts.findSome? fun o => readOne o a

/-- the arguments after the subcommand -/
def readArgs (opts : List Opt) : List (List Char) → ArgState → Option ArgState
  | [], st => some st
  | a :: as, st =>
    if a = "--".toList then some { st with positional := st.positional ++ as }
    else if isValue a then readArgs opts as { st with positional := st.positional ++ [a] }
    else match readOpt opts a with
      | none => none
      | some (o, some v) =>
        match st.setOpt o v with
        | some st => readArgs opts as st
        | none => none
      | some (o, none) =>
        match as with
        | v :: as =>
          if isValue v then
            match st.setOpt o v with
            | some st => readArgs opts as st
            | none => none
          else none
        | [] => none

/-- an optional argument with a default value -/
def optArg {β : Type} (read : List Char → Option β) (default : β) : Option (List Char) → Option β
  | none => some default
  | some s => read s

/-- The arguments after the subcommand: the algorithm, the path, and the options. -/
def readSub (opts : List Opt) (args : List (List Char)) :
    Option (List Char × List Char × Option (List Char) × Option (List Char)) := do
  let st ← readArgs opts args ⟨[], none, none⟩
  let [alg, path] := st.positional | none
  if path = [] then none else some (alg, path, st.parallelism, st.lowerBound)

/-- `cli.rs:9-51`, `main.rs:8`: the command and the path of the input file; `none` if the arguments are
wrong. `readPar` reads the names of the values of `Parallelism`, `dflt` is the default value. -/
def parseArgsOf {P : Type} (readPar : List Char → Option P) (dflt : P) :
    List (List Char) → Option (CommandOf P × List Char)
  | [] => none
  | sub :: args =>
    if sub = "exact".toList then do
      let (alg, path, par, _) ← readSub [.parallelism] args
      let a ← readExact alg
      let p ← optArg readPar dflt par
      some (.exact a p, path)
    else if sub = "approx".toList then do
      let (alg, path, par, bound) ← readSub [.parallelism, .lowerBound] args
      let a ← readApprox alg
      let p ← optArg readPar dflt par
      let lb ← optArg (fun s => (readBound s).map some) none bound
      some (.approx a p lb, path)
    else if sub = "lower-bound".toList then do
      let (alg, path, par, _) ← readSub [.parallelism] args
      let a ← readBound alg
      let p ← optArg readPar dflt par
      some (.lowerBound a p, path)
    else none

/-- the arguments without the feature `mpi` -/
def parseArgs : List (List Char) → Option (Command × List Char) :=
  parseArgsOf (byName parName [.singleThreaded, .multiThreaded]) .singleThreaded

/-- may this be a request for help or the version? -/
def asksHelp (args : List (List Char)) : Bool :=
  args.head? = some "help".toList ||
    args.any fun a => a = "--help".toList || a = "--version".toList || "-h".toList.isPrefixOf a ||
      "-V".toList.isPrefixOf a

/-! ## Output -/

variable {α : Type}

/-- `{:?}` of the rest of a vector -/
def showRest : List Nat → List Char
  | [] => "]".toList
  | x :: l => ", ".toList ++ showUsize x ++ showRest l

/-- `{:?}` of a vector -/
def showPath : List Nat → List Char
  | [] => "[]".toList
  | x :: l => "[".toList ++ showUsize x ++ showRest l

/-- A line on stdout; `fmt` is `Display` of `f64`. -/
def lineText (fmt : α → List Char) : Line α → List Char
  | .bestCost x => println ("Best Cost: ".toList ++ fmt x)
  | .bestPermutation p => println ("Best Permutation: ".toList ++ showPath p)
  | .christofidesWeight x => println ("Christofides solution weight: ".toList ++ fmt x)
  | .nnWeight x => println ("Nearest Neighbour solution weight: ".toList ++ fmt x)
  | .nnTour p => println ("Nearest Neighbour solution: ".toList ++ showPath p)
  | .oneTreeBound x => println ("1-tree lower bound: ".toList ++ fmt x)
  | .mstBound x => println ("MST lower bound: ".toList ++ fmt x)

/-- How the program ends. -/
inductive Exit
  /-- exit code 0 -/
  | success
  /-- `Err` in `main` -/
  | failure
  /-- a panic -/
  | panic (e : Panic)
  /-- `clap` reports wrong arguments -/
  | usage

/-- how a process ends -/
def Out.end (o : Out α) : Exit :=
  match o.exit with
  | .ok _ => .success
  | .error e => .panic e

/-- `lib.rs:36-44` `get_tsp_instance`, `lib.rs:227-246` `run`: a possible outcome of a run with the given
content of the input file (`none` if it cannot be read). Nothing is said about a file that is outside of
the model of the parser. -/
def FileRuns [FloatOps α] (readF : List Char → Option α) (fmt : α → List Char) (env : Env α)
    (file : Option (List Char)) (cmd : Command) (stdout : List Char) (exit : Exit) : Prop :=
  match file with
  | none => stdout = [] ∧ exit = .failure
  | some text =>
    match parseFromXml readF text with
    | .err => stdout = [] ∧ exit = .failure
    | .panic e => stdout = [] ∧ exit = .panic e
    | .unmodelled => True
    | .ok i => ∃ o, Prints env i.graph cmd o ∧ stdout = o.lines.flatMap (lineText fmt) ∧ exit = o.end

/-- `main.rs:7-10` `main`: a possible outcome of the program; `files` is what the file system contains.
Nothing is said about requests for help or the version. -/
def ProgramRuns [FloatOps α] (readF : List Char → Option α) (fmt : α → List Char) (env : Env α)
    (files : List Char → Option (List Char)) (args : List (List Char)) (stdout : List Char) (exit : Exit) :
    Prop :=
  asksHelp args = false →
  match parseArgs args with
  | none => stdout = [] ∧ exit = .usage
  | some (cmd, path) => FileRuns readF fmt env (files path) cmd stdout exit

end Walky
