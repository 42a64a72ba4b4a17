import Verif.Model.Python

/-!
# Model: `utils/simple_gen.py`

Source: `/repo/utils/simple_gen.py`.

Parameters: the points that `np.random.rand` draws, Python's `int` on strings, and whether
`solve_tsp_dynamic_programming` returns (it does not print, and its result is not used). An exception ends the
program with exit code 1 and a message on stderr, which is not modelled. `str.lower` is modelled for ASCII.
-/

namespace Walky

open FloatOps

variable {α : Type}

/-- `simple_gen.py:10` -/
def simpleGenUsage : List Char :=
  "Use argv[1]==rust for rust format, xml for xml! argv[2] == matrix size".toList

/-- `simple_gen.py:21` -/
def simpleGenKind : List Char := "Use argv[1]==rust for rust format, xml for xml!".toList

/-- `simple_gen.py:8-22`: what is printed to stdout, and the exit code. `np.random.rand` raises an exception for
negative sizes. -/
def simpleGen [FloatOps α] (int : List Char → Option Int) (draw : Nat → List (α × α))
    (solves : List (List α) → Bool) (norm : α × α → α) (fmt : α → List Char) (rust : List (List α) → List Char)
    (argv : List (List Char)) : List Char × Nat :=
  match argv with
  | [_, kind, size] =>
    match int size with
    | some (.ofNat n) =>
      let matrix := createMatrix norm (draw n)
      if solves matrix then
        if kind.map Char.toLower = "xml".toList then (println (pyXml fmt matrix), 0)
        else if kind.map Char.toLower = "rust".toList then (println (rust matrix), 0)
        else (println simpleGenKind, 1)
      else ([], 1)
    | _ => ([], 1)
  | _ => (println simpleGenUsage, 1)

end Walky
