import Verif.Model.Benchmark
import Verif.NumeralSpec
import Verif.ProgramSpec

/-!
# Specification of measurements
-/

namespace Walky.Spec

variable {α : Type}

/-- the results in an output -/
def resultsOf (ls : List (BLine α)) : List (Line α) :=
  ls.filterMap fun
    | .result l => some l
    | .elapsed _ => none

/-- the results of a process -/
def _root_.Walky.BOut.results (o : BOut α) : Out α := ⟨resultsOf o.lines, o.exit⟩

/-- the times in an output -/
def timesOf (ls : List (BLine α)) : List α :=
  ls.filterMap fun
    | .result _ => none
    | .elapsed t => some t

/-- the lengths of Christofides tours in an output -/
def weightsOf (ls : List (BLine α)) : List α :=
  ls.filterMap fun
    | .result (.christofidesWeight x) => some x
    | _ => none

/-- A line of the output without the line break: a result, or a time. -/
def benchLine (fmt : α → List Char) : BLine α → List Char
  | .result l => textOf fmt l
  | .elapsed t => "elapsed seconds: ".toList ++ fmt t

/-- the whole output -/
def benchText (fmt : α → List Char) : List (BLine α) → List Char
  | [] => []
  | l :: ls => benchLine fmt l ++ '\n' :: benchText fmt ls

/-- Contract of `float` in Python: a decimal number is rounded correctly. -/
structure PyFloat (readPy : List Char → Option (XNum ℚ)) : Prop where
  finite : ∀ n : Numeral, n.Valid → readPy n.text = some (round64 n.value)
  nan : readPy "NaN".toList = some .nan
  inf : readPy "inf".toList = some .inf
  ninf : readPy "-inf".toList = some .ninf

/-- Contract of `sorted` for finite numbers -/
def Sorts (sort : List (XNum ℚ) → List (XNum ℚ)) : Prop :=
  ∀ l : List ℚ, ∃ s : List ℚ, sort (l.map .fin) = s.map .fin ∧ s.Perm l ∧ s.Pairwise (· ≤ ·)

end Walky.Spec
