import Verif.Lemmas.Solve
import Verif.Examples

/-!
# Properties of the branch-and-bound solvers (C05 – C08, C10)
-/

namespace Walky.Props

open Spec XNum

variable {K : Type} [Field K] [LinearOrder K] [IsStrictOrderedRing K]

/-- **C05.** `second_improved_solver` returns a shortest tour and its length, for every finite cost
matrix of dimension at least 1 (symmetric or not, any sign). -/
theorem C05_v2_exact (m : Mat (XNum K)) (c : Nat → Nat → K) (hm : Rep m c) (hn : 1 ≤ m.dim) :
    ∃ p, secondImprovedSolver m = .ok (fin (tourCost c p), p) ∧ IsShortest m.dim c p := by
  obtain ⟨p, h1, h2, _, h4⟩ := solveDfs_truthful hm (test2_ok _) hn (aux := ()) trivial
    (test2_inf _ _)
  exact ⟨p, h1, h2, fun q hq => h4 q _ hq le_rfl (fun _ _ _ _ _ _ _ _ _ => ⟨(), rfl⟩)⟩

example : Rep Ex.m4 Ex.c4 ∧ 1 ≤ Ex.m4.dim := ⟨Ex.rep4, by decide⟩
/-- the theorem also covers an asymmetric matrix with negative entries -/
example : Rep (Mat.ofRowsFin [[0, -1, 5], [2, 0, 7], [-3, 1, (0 : ℚ)]])
    (ofRowsC [[0, -1, 5], [2, 0, 7], [-3, 1, 0]]) := rep_ofFun _ _

/-- **C06.** `third_improved_solver` returns a shortest tour and its length, for every finite matrix
without negative costs. -/
theorem C06_v3_exact (m : Mat (XNum K)) (c : Nat → Nat → K) (hm : Rep m c) (hn : 1 ≤ m.dim)
    (hc : Nonneg m.dim c) (hd : m.dim = 1 → 0 ≤ c 0 0) :
    ∃ p, thirdImprovedSolver m = .ok (fin (tourCost c p), p) ∧ IsShortest m.dim c p := by
  obtain ⟨p, h1, h2, _, h4⟩ := solveDfs_truthful hm (test3_ok _) hn (aux := ()) trivial
    (test3_inf _ _)
  refine ⟨p, h1, h2, fun q hq => h4 q _ hq le_rfl ?_⟩
  intro p hp _ _ a b _ _ hle
  refine ⟨(), ?_⟩
  have hv := validPre_prefix hq (List.prefix_refl _)
  have e1 := pathCost_prefix_le hc hv hp
  have e2 := closing_nonneg hc hd hq
  have : FloatOps.le (fin (pathCost c p)) b = true :=
    le_trans' (by simpa using e1.trans e2) hle
  simp [test3, this]

example : Rep Ex.m4 Ex.c4 ∧ 1 ≤ Ex.m4.dim ∧ Nonneg Ex.m4.dim Ex.c4 ∧
    (Ex.m4.dim = 1 → 0 ≤ Ex.c4 0 0) :=
  ⟨Ex.rep4, by decide, Ex.nonneg4, fun h => absurd h (by decide)⟩

/-- The hypothesis of C06 cannot be dropped: with negative costs v3 prunes an optimal tour. -/
theorem C06_needs_nonneg :
    ∃ (m : Mat (XNum ℚ)) (c : Nat → Nat → ℚ), Rep m c ∧ 1 ≤ m.dim ∧ Symm m.dim c ∧
      ∃ p q, thirdImprovedSolver m = .ok (fin (tourCost c p), p) ∧ IsTour m.dim q ∧
        tourCost c q < tourCost c p := by
  refine ⟨Mat.ofFun 4 (fun i j => if i + j = 1 then -1 else -2), _, rep_ofFun _ _, by decide, ?_,
    [0, 1, 2, 3], [0, 2, 1, 3], ?_, ?_, ?_⟩
  · intro i j _ _; simp [Nat.add_comm]
  · decide +kernel
  · unfold IsTour; decide
  · decide +kernel

/-- **C07, negation.** `fourth_improved_solver` is not exact: on this symmetric non-negative matrix it
returns a tour of length 9 although there is one of length 8. -/
theorem C07_v4_not_exact :
    ∃ (m : Mat (XNum ℚ)) (c : Nat → Nat → ℚ), Rep m c ∧ m.dim = 6 ∧ Symm m.dim c ∧
      Nonneg m.dim c ∧ ∃ p q, fourthImprovedSolver m = .ok (fin (tourCost c p), p) ∧
        IsTour m.dim q ∧ tourCost c q < tourCost c p := by
  refine ⟨Mat.ofRowsFin [[0, 10, 10, 2, 1, 1], [10, 0, 10, 2, 2, 10], [10, 10, 0, 1, 1, 1],
    [2, 2, 1, 0, 10, 10], [1, 2, 1, 10, 0, 10], [1, 10, 1, 10, 10, 0]], _, rep_ofFun _ _, rfl,
    ?_, ?_, [0, 3, 1, 4, 2, 5], [0, 4, 1, 3, 2, 5], ?_, ?_, ?_⟩
  · intro i j (hi : i < 6) (hj : j < 6)
    interval_cases i <;> interval_cases j <;> rfl
  · intro i j (hi : i < 6) (hj : j < 6) _
    interval_cases i <;> interval_cases j <;> norm_num [ofRowsC]
  · decide +kernel
  · unfold IsTour; decide
  · decide +kernel

/-- **C08, negation.** `fifth_improved_solver` is not exact: on six cities with all distances 10
except one of 11 (a metric) it returns the tour `0,1,2,3,4,5` of length 61 although there is one of
length 60. -/
theorem C08_v5_not_exact :
    ∃ (m : Mat (XNum ℚ)) (c : Nat → Nat → ℚ), Rep m c ∧ m.dim = 6 ∧ Metric m.dim c ∧
      Nonneg m.dim c ∧ ∃ p q, fifthImprovedSolver m = .ok (fin (tourCost c p), p) ∧
        IsTour m.dim q ∧ tourCost c q < tourCost c p := by
  refine ⟨Mat.ofRowsFin [[0, 11, 10, 10, 10, 10], [11, 0, 10, 10, 10, 10],
    [10, 10, 0, 10, 10, 10], [10, 10, 10, 0, 10, 10], [10, 10, 10, 10, 0, 10],
    [10, 10, 10, 10, 10, 0]], _, rep_ofFun _ _, rfl,
    ⟨?_, ?_, ?_⟩, ?_, [0, 1, 2, 3, 4, 5], [0, 2, 1, 3, 4, 5], ?_, ?_, ?_⟩
  · intro i (hi : i < 6)
    interval_cases i <;> rfl
  · intro i j (hi : i < 6) (hj : j < 6)
    interval_cases i <;> interval_cases j <;> rfl
  · intro i j k (hi : i < 6) (hj : j < 6) (hk : k < 6)
    interval_cases i <;> interval_cases j <;> interval_cases k <;> norm_num [ofRowsC]
  · intro i j (hi : i < 6) (hj : j < 6) _
    interval_cases i <;> interval_cases j <;> norm_num [ofRowsC]
  · decide +kernel
  · unfold IsTour; decide
  · decide +kernel

/-- **C10.** v2 – v6 terminate without panic and return a tour with its length, which is not above
the length of `0, 1, …, n-1`. -/
theorem C10_truthful (m : Mat (XNum K)) (c : Nat → Nat → K) (hm : Rep m c) (hn : 1 ≤ m.dim)
    (hash : List Nat → Nat) (r : RM (Solution (XNum K)))
    (hr : r = secondImprovedSolver m ∨ r = thirdImprovedSolver m ∨ r = fourthImprovedSolver m ∨
      r = fifthImprovedSolver m ∨ r = sixthImprovedSolver m hash) :
    ∃ p, r = .ok (fin (tourCost c p), p) ∧ IsTour m.dim p ∧
      tourCost c p ≤ tourCost c (List.range m.dim) := by
  rcases hr with rfl | rfl | rfl | rfl | rfl
  · obtain ⟨p, h1, h2, h3, _⟩ := solveDfs_truthful hm (test2_ok _) hn (aux := ()) trivial
      (test2_inf _ _)
    exact ⟨p, h1, h2, h3⟩
  · obtain ⟨p, h1, h2, h3, _⟩ := solveDfs_truthful hm (test3_ok _) hn (aux := ()) trivial
      (test3_inf _ _)
    exact ⟨p, h1, h2, h3⟩
  · obtain ⟨p, h1, h2, h3, _⟩ := solveDfs_truthful hm (test4_ok _) hn (aux := ()) trivial
      (test4_inf hm)
    exact ⟨p, h1, h2, h3⟩
  · obtain ⟨p, h1, h2, h3, _⟩ := solveDfs_truthful hm (test5_ok hm) hn (aux := ()) trivial
      (test5_inf hm)
    exact ⟨p, h1, h2, h3⟩
  · obtain ⟨p, h1, h2, h3, _⟩ := solveDfs_truthful hm (test6_ok hm hash) hn (aux := [])
      (by intro x hx; simp at hx) (test6_inf hm hash)
    exact ⟨p, h1, h2, h3⟩

example : Rep Ex.m4 Ex.c4 ∧ 1 ≤ Ex.m4.dim := ⟨Ex.rep4, by decide⟩

end Walky.Props
