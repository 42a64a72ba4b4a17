import Verif.Model.Parser

/-!
# Model: the Python generators of instances

Source: `/repo/utils/tsp_logic.py`, `/repo/utils/benchmark_gen.py`.

`convert_to_xml` is `pyXml` in `Model/Parser.lean`. The points that `np.random.rand` draws are a parameter, and
so is `np.linalg.norm` for vectors with two entries. `convert_to_rust_code` is in
`Model/PythonNN.lean`. Not modelled: the reading of the arguments, the folder `results`, which is deleted and created again.
-/

namespace Walky

open FloatOps

variable {α : Type}

/-- `tsp_logic.py:5-6` `calculate_distance` -/
def pyDistance [FloatOps α] (norm : α × α → α) (p q : α × α) : α := norm (p.1 -ᶠ q.1, p.2 -ᶠ q.2)

/-- `tsp_logic.py:17-18`: the distance is written to two places -/
def writeBoth (M : Nat → Nat → α) (i j : Nat) (x : α) : Nat → Nat → α := fun a b =>
  if (a = i ∧ b = j) ∨ (a = j ∧ b = i) then x else M a b

/-- `tsp_logic.py:8-20` `create_matrix`, after the points have been drawn. The array is a function of the
indices, that is written to in the order of the two loops; the rows are returned. (All indices of points exist.) -/
def createMatrix [FloatOps α] (norm : α × α → α) (points : List (α × α)) : List (List α) :=
  let n := points.length
  let M := (List.range n).foldl (fun M i =>
    (List.range' (i + 1) (n - (i + 1))).foldl (fun M j =>
      match points[i]?, points[j]? with
      | some p, some q => writeBoth M i j (pyDistance norm p q)
      | _, _ => M) M) (fun _ _ => (zero : α))
  (List.range n).map fun i => (List.range n).map (M i)

/-- `benchmark_gen.py:12-19` `principal_minor`, for `k` up to the size of the matrix -/
def principalMinor (matrix : List (List α)) (k : Nat) : List (List α) := (matrix.take k).map (List.take k)

/-- `benchmark_gen.py:25-42`: the files `k.xml`, with their numbers `k`, that are written for the arguments `l` and
the number of points -/
def benchmarkFiles [FloatOps α] (norm : α × α → α) (fmt : α → List Char) (points : List (α × α)) (l : Nat) :
    List (Nat × List Char) :=
  let r := points.length
  let matrix := createMatrix norm points
  (((List.range' l (r - l)).map fun k => (k, principalMinor matrix k)) ++ [(r, matrix)]).map fun x =>
    (x.1, pyXml fmt x.2)

end Walky
