import Verif.Lemmas.Eval
import Verif.Props.Exact

/-!
# Permutation enumeration and the solvers v0, v1 (C01 – C04, C11)
-/

namespace Walky.Props

open Spec XNum

section enumeration
variable {β : Type} [LinearOrder β]

/-- **C01.** `next_permutation` never panics. If it returns `true`, the array has become the
lexicographically next rearrangement; it returns `false` exactly if there is no larger rearrangement,
and then leaves the array unchanged. (`<` on lists is the lexicographic order.) -/
theorem C01_next_permutation (a : List β) :
    ∃ more b, nextPermutation a = .ok (more, b) ∧ b.Perm a ∧
      (more = true → a < b ∧ ∀ c, c.Perm a → a < c → b ≤ c) ∧
      (more = false → b = a) ∧
      (more = false ↔ ∀ c, c.Perm a → ¬ a < c) := by
  rcases nextPermutation_spec a with ⟨h1, h2⟩ | ⟨b, h1, h2, h3, h4⟩
  · exact ⟨false, a, h1, List.Perm.refl _, by simp, by simp, by simpa using h2⟩
  · refine ⟨true, b, h1, h2, fun _ => ⟨h3, h4⟩, by simp, ?_⟩
    simp only [Bool.true_eq_false, false_iff]
    intro h
    exact h b h2 h3

/-- duplicates, both outcomes -/
example : nextPermutation [1, 3, 3, 2] = .ok (true, [2, 1, 3, 3]) ∧
    nextPermutation [3, 3, 2, 1] = .ok (false, [3, 3, 2, 1]) := by decide

/-- **C02.** Starting from `0, 1, …, n-1`, the loop around `next_permutation` terminates, and the
start together with the visited arrays is the list of all permutations in increasing order, each
exactly once. -/
theorem C02_enumeration_complete (n : Nat) :
    ∃ l, Run nextPermutation (List.range n) l ∧ (List.range n :: l).Pairwise (· < ·) ∧
      (List.range n :: l).Nodup ∧ ∀ p, p ∈ List.range n :: l ↔ IsTour n p := by
  obtain ⟨l, l1, l2, l3⟩ := run_nextPermutation (List.range n)
  have hs : (List.range n :: l).Pairwise (· < ·) := by
    rw [List.pairwise_cons]
    exact ⟨fun c hc => ((l3 c).mp hc).2, l2⟩
  refine ⟨l, l1, hs, hs.imp (fun h => ne_of_lt h), ?_⟩
  intro p
  rw [List.mem_cons, l3]
  constructor
  · rintro (rfl | h)
    · exact isTour_range n
    · exact h.1
  · intro h
    by_cases hp : p = List.range n
    · exact Or.inl hp
    · exact Or.inr ⟨h, range_le h hp⟩

end enumeration

variable {K : Type} [Field K] [LinearOrder K] [IsStrictOrderedRing K]

/-- **C03, partial.** `naive_solver` returns a shortest tour and its length for every finite matrix
of dimension at least 2. Missing: dimension 1 (and 0), where it is false, see
`C03_v0_single_city`. -/
theorem C03_v0_exact_partial (m : Mat (XNum K)) (c : Nat → Nat → K) (hm : Rep m c)
    (hn : 2 ≤ m.dim) :
    ∃ p, naiveSolver m = .ok (fin (tourCost c p), p) ∧ IsShortest m.dim c p := by
  obtain ⟨l, l1, l2, l3⟩ := run_nextPermutation (List.range m.dim)
  have hv : ∀ p, IsTour m.dim p → m.evaluateCircle p = .ok (fin (tourCost c p)) := fun p hp =>
    evaluateCircle_valid hm (validPre_prefix hp (List.prefix_refl _)) (by rw [hp.length]; exact hn)
  have hlen : l.length < m.dim.factorial + 1 := by
    have := length_le_factorial (l := l) (a := List.range m.dim) (l2.imp (fun h => ne_of_lt h))
      (fun c hc => ((l3 c).mp hc).1)
    simp at this
    omega
  obtain ⟨r, r1, r2, _, r4⟩ := permLoop_run l1 (fun p hp => hv p ((l3 p).mp hp).1)
    (m.dim.factorial + 1) (XNum.inf, List.range m.dim) hlen proper_inf
  have hrot : (List.range m.dim).rotate 1 ∈ l := by
    rw [l3]
    refine ⟨List.rotate_perm _ _, range_le ((isTour_range _).rotate 1) ?_⟩
    obtain ⟨k, hk⟩ : ∃ k, m.dim = k + 2 := ⟨m.dim - 2, by omega⟩
    rw [hk, List.range_succ_eq_map, List.range_succ_eq_map]
    simp
  have hall : ∀ q, IsTour m.dim q → FloatOps.le r.1 (fin (tourCost c q)) = true := by
    intro q hq
    by_cases h : q = List.range m.dim
    · rw [h, ← tourCost_rotate c _ 1]; exact r4 _ hrot
    · exact r4 q ((l3 q).mpr ⟨hq, range_le hq h⟩)
  rcases r2 with r2 | ⟨r2, r2'⟩
  · have := hall _ (isTour_range _)
    rw [r2] at this
    simp at this
  · refine ⟨r.2, ?_, ((l3 _).mp r2).1, ?_⟩
    · unfold naiveSolver
      rw [XNum.inf_def, r1, ← r2']
    · intro q hq
      have := hall q hq
      rw [r2'] at this
      simpa using this

example : Rep Ex.m4 Ex.c4 ∧ 2 ≤ Ex.m4.dim := ⟨Ex.rep4, by decide⟩

omit [IsStrictOrderedRing K] in
/-- **C03, negation for one city.** v0 reports infinite cost for a single city (and for the empty
matrix), although the tour through it has finite length. -/
theorem C03_v0_single_city (m : Mat (XNum K)) (h : m.dim ≤ 1) :
    naiveSolver m = .ok (XNum.inf, List.range m.dim) := by
  have : m.dim = 0 ∨ m.dim = 1 := by omega
  unfold naiveSolver
  rcases this with h | h <;> rw [h] <;> rfl

/-- **C04, partial.** `first_improved_solver` returns a shortest tour, starting at city 0, and its
length, for every finite symmetric matrix of dimension at least 3. Missing: dimensions below 3,
where it is false, see `C04_v1_small`. -/
theorem C04_v1_exact_partial (m : Mat (XNum K)) (c : Nat → Nat → K) (hm : Rep m c)
    (hn : 3 ≤ m.dim) (hsym : Symm m.dim c) :
    ∃ p, firstImprovedSolver m = .ok (fin (tourCost c p), p) ∧ IsShortest m.dim c p ∧
      p.head? = some 0 := by
  obtain ⟨k, hk⟩ : ∃ k, m.dim = k + 3 := ⟨m.dim - 3, by omega⟩
  have hrange : List.range m.dim = 0 :: (List.range (k + 2)).map (· + 1) := by
    rw [hk, List.range_succ_eq_map]
  generalize ht : (List.range (k + 2)).map (· + 1) = t0 at hrange
  obtain ⟨l, l1, l2, l3⟩ := run_nextPermutation t0
  have hv : ∀ p, IsTour m.dim p → m.evaluateCircle p = .ok (fin (tourCost c p)) := fun p hp =>
    evaluateCircle_valid hm (validPre_prefix hp (List.prefix_refl _)) (by rw [hp.length]; omega)
  have htour : ∀ t, t.Perm t0 → IsTour m.dim (0 :: t) := by
    intro t h
    unfold IsTour
    rw [hrange]
    exact h.cons 0
  have hlen0 : t0.length = k + 2 := by rw [← ht]; simp
  have hlen : (l.map (0 :: ·)).length < m.dim.factorial + 1 := by
    have h1 := length_le_factorial (l := l) (a := t0) (l2.imp (fun h => ne_of_lt h))
      (fun c hc => ((l3 c).mp hc).1)
    have h2 : (k + 2).factorial ≤ m.dim.factorial := Nat.factorial_le (by omega)
    rw [hlen0] at h1
    simp
    omega
  obtain ⟨r, r1, r2, _, r4⟩ := permLoop_run (run_tail 0 l1)
    (fun p hp => by
      obtain ⟨t, h1, rfl⟩ := List.mem_map.mp hp
      exact hv _ (htour t ((l3 t).mp h1).1))
    (m.dim.factorial + 1) (XNum.inf, List.range m.dim) hlen proper_inf
  have hsorted : t0.Pairwise (· < ·) := by
    rw [← ht, List.pairwise_map]
    exact List.pairwise_lt_range.imp (fun h => by omega)
  -- visited: everything but the sorted one
  have hvis : ∀ t, t.Perm t0 → t ≠ t0 → FloatOps.le r.1 (fin (tourCost c (0 :: t))) = true := by
    intro t h1 h2
    refine r4 _ (List.mem_map.mpr ⟨t, (l3 t).mpr ⟨h1, ?_⟩, rfl⟩)
    refine lt_of_le_of_ne ?_ (Ne.symm h2)
    exact not_lt.mp (not_lt_of_asc (hsorted.imp (fun h => le_of_lt h)) h1)
  have hrev : tourCost c (0 :: t0.reverse) = tourCost c (0 :: t0) := by
    rw [← tourCost_reverse_of_symm hsym (p := 0 :: t0)
      (fun i hi => (htour t0 (List.Perm.refl _)).mem.mp hi), List.reverse_cons,
      tourCost_append_comm]
    rfl
  have hne : t0.reverse ≠ t0 := by
    rw [← ht, List.range_succ_eq_map, List.range_succ]
    simp
  have hall : ∀ q, IsTour m.dim q → FloatOps.le r.1 (fin (tourCost c q)) = true := by
    intro q hq
    obtain ⟨u, v, rfl⟩ := List.append_of_mem (hq.mem.mpr (show 0 < m.dim by omega))
    have e : tourCost c (u ++ 0 :: v) = tourCost c (0 :: (v ++ u)) := by
      rw [tourCost_append_comm]; rfl
    have hq' : IsTour m.dim (0 :: (v ++ u)) := List.perm_append_comm.trans hq
    have hp : (v ++ u).Perm t0 := by
      unfold IsTour at hq'
      rw [hrange] at hq'
      exact hq'.cons_inv
    rw [e]
    by_cases h : v ++ u = t0
    · rw [h, ← hrev]; exact hvis _ t0.reverse_perm hne
    · exact hvis _ hp h
  rcases r2 with r2 | ⟨r2, r2'⟩
  · have := hall _ (isTour_range _)
    rw [r2] at this
    simp at this
  · obtain ⟨t, h1, h2⟩ := List.mem_map.mp r2
    refine ⟨r.2, ?_, ⟨?_, ?_⟩, ?_⟩
    · rw [← hrange] at r1
      unfold firstImprovedSolver
      rw [XNum.inf_def, r1, ← r2']
    · rw [← h2]; exact htour t ((l3 t).mp h1).1
    · intro q hq
      have := hall q hq
      rw [r2'] at this
      simpa using this
    · rw [← h2]; rfl

example : Rep Ex.m4 Ex.c4 ∧ 3 ≤ Ex.m4.dim ∧ Symm Ex.m4.dim Ex.c4 :=
  ⟨Ex.rep4, by decide, Ex.symm4⟩

omit [IsStrictOrderedRing K] in
/-- **C04, negation for small dimensions.** v1 panics on the empty matrix and reports infinite cost
for one and two cities, although the tour through them has finite length. -/
theorem C04_v1_small (m : Mat (XNum K)) :
    (m.dim = 0 → firstImprovedSolver m = .error .index) ∧
    (m.dim = 1 → firstImprovedSolver m = .ok (XNum.inf, [0])) ∧
    (m.dim = 2 → firstImprovedSolver m = .ok (XNum.inf, [0, 1])) := by
  unfold firstImprovedSolver
  refine ⟨?_, ?_, ?_⟩ <;> intro h <;> rw [h] <;> rfl

/-- **C04 needs symmetry.** On this asymmetric matrix v1 misses the tour `0, 1, 2`. -/
theorem C04_v1_needs_symmetry :
    ∃ (m : Mat (XNum ℚ)) (c : Nat → Nat → ℚ), Rep m c ∧ m.dim = 3 ∧
      ∃ p q, firstImprovedSolver m = .ok (fin (tourCost c p), p) ∧ IsTour m.dim q ∧
        tourCost c q < tourCost c p := by
  refine ⟨Mat.ofRowsFin [[0, 1, 5], [5, 0, 1], [1, 5, 0]], _, rep_ofFun _ _, rfl,
    [0, 2, 1], [0, 1, 2], ?_, ?_, ?_⟩
  · decide +kernel
  · unfold IsTour; decide
  · decide +kernel

/-- **C11.** v0, v1, v2 and v3 return the same cost. -/
theorem C11_solvers_agree (m : Mat (XNum K)) (c : Nat → Nat → K) (hm : Rep m c)
    (hn : 3 ≤ m.dim) (hsym : Symm m.dim c) (hc : Nonneg m.dim c) :
    ∃ best p₀ p₁ p₂ p₃, naiveSolver m = .ok (best, p₀) ∧ firstImprovedSolver m = .ok (best, p₁) ∧
      secondImprovedSolver m = .ok (best, p₂) ∧ thirdImprovedSolver m = .ok (best, p₃) := by
  obtain ⟨p0, a0, b0⟩ := C03_v0_exact_partial m c hm (by omega)
  obtain ⟨p1, a1, b1, _⟩ := C04_v1_exact_partial m c hm hn hsym
  obtain ⟨p2, a2, b2⟩ := C05_v2_exact m c hm (by omega)
  obtain ⟨p3, a3, b3⟩ := C06_v3_exact m c hm (by omega) hc (by omega)
  have e1 := le_antisymm (b0.2 _ b1.1) (b1.2 _ b0.1)
  have e2 := le_antisymm (b0.2 _ b2.1) (b2.2 _ b0.1)
  have e3 := le_antisymm (b0.2 _ b3.1) (b3.2 _ b0.1)
  refine ⟨fin (tourCost c p0), p0, p1, p2, p3, a0, ?_, ?_, ?_⟩
  · rw [a1, e1]
  · rw [a2, e2]
  · rw [a3, e3]

example : Rep Ex.m4 Ex.c4 ∧ 3 ≤ Ex.m4.dim ∧ Symm Ex.m4.dim Ex.c4 ∧ Nonneg Ex.m4.dim Ex.c4 :=
  ⟨Ex.rep4, by decide, Ex.symm4, Ex.nonneg4⟩

end Walky.Props
