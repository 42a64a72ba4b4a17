import Verif.Rep
import Mathlib.Tactic.IntervalCases
import Mathlib.Tactic.NormNum

/-! # Concrete instances used in the non-vacuity examples -/

namespace Walky.Ex

open Spec

/-- four cities, metric, not uniform -/
def rows4 : List (List ℚ) := [[0, 2, 3, 4], [2, 0, 4, 3], [3, 4, 0, 2], [4, 3, 2, 0]]
/-- its cost function -/
def c4 : Nat → Nat → ℚ := ofRowsC rows4
/-- its matrix -/
def m4 : Mat (XNum ℚ) := Mat.ofRowsFin rows4

theorem dim4 : m4.dim = 4 := rfl
theorem rep4 : Rep m4 c4 := rep_ofFun _ _
theorem symm4 : Symm 4 c4 := by
  intro i j hi hj
  interval_cases i <;> interval_cases j <;> rfl
theorem nonneg4 : Nonneg 4 c4 := by
  intro i j hi hj _
  interval_cases i <;> interval_cases j <;> norm_num [c4, ofRowsC, rows4]
theorem metric4 : Metric 4 c4 := by
  refine ⟨?_, symm4, ?_⟩
  · intro i hi
    interval_cases i <;> rfl
  · intro i j k hi hj hk
    interval_cases i <;> interval_cases j <;> interval_cases k <;> norm_num [c4, ofRowsC, rows4]

end Walky.Ex
