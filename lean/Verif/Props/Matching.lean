import Verif.Lemmas.Christofides

/-! # Properties C44, C45, C51: the approximate matching -/

namespace Walky.Props

open FloatOps XNum Spec

variable {K : Type} [Field K] [LinearOrder K] [IsStrictOrderedRing K]

/-- identity shuffles -/
def exRng : MatchRng := ⟨id, fun _ l => l⟩

theorem exRng_ok : exRng.Ok := ⟨fun _ => .refl _, fun _ _ => .refl _⟩

/-- **C44 (partial: shape)** For every finite matrix and all shuffles, `compute_approx_matching`
succeeds on Prim's tree and returns half as many edges as there are vertices of odd degree, and all
ends of these edges are vertices of odd degree; PAR mode returns the same for the same shuffles,
whatever the order of the chunks. -/
theorem C44_matching_shape_partial {m : Mat (XNum K)} {c : Nat → Nat → K} (hm : Rep m c)
    (hn : 1 ≤ m.dim) : ∃ mst E, primSeq m [] = .ok mst ∧ IsSpanningTree (List.range m.dim) E ∧
      GraphOf m.dim c E mst ∧ ∀ r : MatchRng, r.Ok → ∃ M, computeApproxMatching r mst m = .ok M ∧
        2 * M.length = (oddDegree m.dim E).length ∧ (∀ v ∈ ends M, v ∈ oddDegree m.dim E) ∧
        ∀ chunks : Nat → Nat → List Nat, (∀ k n, (chunks k n).Perm (List.range n)) →
          computeApproxMatchingPar r chunks mst m = .ok M := by
  obtain ⟨mst, E, h1, h2, h3, _⟩ := prim_tree hm hn
  refine ⟨mst, E, h1, h2, h3, ?_⟩
  intro r hr
  have hodd := oddVertices_eq h3.adjOf
  obtain ⟨M, k1, k2, k3, k4, _⟩ := approxMatchingSeq_ok (m := m) hr (V := oddSet m.dim E) oddSet_lt
    ((oddSet m.dim E).length ^ 2)
  have heven := oddSet_even (spanning_valid h2)
  refine ⟨M, ?_, ?_, k4, ?_⟩
  · unfold computeApproxMatching
    rw [hodd, k1]
  · show 2 * M.length = (oddSet m.dim E).length
    omega
  · intro chunks hch
    unfold computeApproxMatchingPar
    rw [hodd, approxMatchingPar_eq hr oddSet_lt hch, k1]

/-- **C44 (partial: perfect)** If no four cities have three pairings of three different costs, or if
at most three vertices have odd degree, the matching is perfect: it contains every vertex of odd
degree exactly once and no other vertex. -/
theorem C44_matching_perfect_partial {m : Mat (XNum K)} {c : Nat → Nat → K} (hm : Rep m c)
    (hn : 1 ≤ m.dim) (hsym : Symm m.dim c) :
    ∃ mst E, primSeq m [] = .ok mst ∧ IsSpanningTree (List.range m.dim) E ∧ GraphOf m.dim c E mst ∧
      (NoThree m.dim c ∨ (oddDegree m.dim E).length ≤ 3 →
        ∀ r : MatchRng, r.Ok → ∃ M, computeApproxMatching r mst m = .ok M ∧
          PerfectMatching (oddDegree m.dim E) M) := by
  obtain ⟨mst, E, h1, h2, h3, _⟩ := prim_tree hm hn
  refine ⟨mst, E, h1, h2, h3, ?_⟩
  intro hcase r hr
  have hodd := oddVertices_eq h3.adjOf
  obtain ⟨M, k1, _⟩ := approxMatchingSeq_ok (m := m) hr (V := oddSet m.dim E) oddSet_lt
    ((oddSet m.dim E).length ^ 2)
  refine ⟨M, ?_, ?_⟩
  · unfold computeApproxMatching
    rw [hodd, k1]
  · refine perfect_of_even hr (oddSet_even (spanning_valid h2)) oddSet_lt ?_ k1
    exact hcase.imp (noBug_of_noThree hm hsym) id

omit [IsStrictOrderedRing K] in
/-- The condition `NoThree` holds whenever the four-point condition of tree metrics holds: of the three
pairings of four cities the two most expensive ones cost the same. -/
theorem noThree_of_fourPoint {n : Nat} {c : Nat → Nat → K}
    (h : ∀ i j k l, i < n → j < n → k < n → l < n →
      c i j + c k l ≤ max (c i k + c j l) (c i l + c j k)) : NoThree n c := by
  intro v0 v1 v2 v3 h0 h1 h2 h3 _ hc
  rcases le_max_iff.mp (h v0 v1 v2 v3 h0 h1 h2 h3) with h | h
  · exact absurd hc.2 (not_lt.mpr h)
  · exact absurd (hc.1.trans hc.2) (not_lt.mpr h)

/-- four cities on a line: `NoThree` holds, and all four cities can be vertices of odd degree in the
matching -/
def lineC : Nat → Nat → ℚ := ofRowsC [[0, 1, 3, 6], [1, 0, 2, 5], [3, 2, 0, 3], [6, 5, 3, 0]]

theorem noThree_line : NoThree 4 lineC := by
  have h : ∀ v0 < 4, ∀ v1 < 4, ∀ v2 < 4, ∀ v3 < 4, ¬ (lineC v0 v3 + lineC v1 v2 < lineC v0 v2 + lineC v1 v3 ∧
      lineC v0 v2 + lineC v1 v3 < lineC v0 v1 + lineC v2 v3) := by decide +kernel
  intro v0 v1 v2 v3 h0 h1 h2 h3 _
  exact h v0 h0 v1 h1 v2 h2 v3 h3

/-- a star: three leaves and a centre, all of odd degree, with `NoThree` -/
def starC : Nat → Nat → ℚ := ofRowsC [[0, 1, 1, 1], [1, 0, 2, 2], [1, 2, 0, 2], [1, 2, 2, 0]]

/-- the hypotheses of C44 with four vertices of odd degree -/
example : Rep (Mat.ofFun 4 starC) starC ∧ Symm 4 starC ∧ NoThree 4 starC ∧
    (primSeq (Mat.ofFun 4 starC) [] >>= fun mst => .ok (oddVertices mst)) = .ok [0, 1, 2, 3] := by
  refine ⟨rep_ofFun _ _, ?_, ?_, by decide +kernel⟩
  · intro i j hi hj
    interval_cases i <;> interval_cases j <;> rfl
  · have h : ∀ v0 < 4, ∀ v1 < 4, ∀ v2 < 4, ∀ v3 < 4, ¬ (starC v0 v3 + starC v1 v2 < starC v0 v2 + starC v1 v3 ∧
        starC v0 v2 + starC v1 v3 < starC v0 v1 + starC v2 v3) := by decide +kernel
    intro v0 v1 v2 v3 h0 h1 h2 h3 _
    exact h v0 h0 v1 h1 v2 h2 v3 h3

/-- a metric with four vertices of odd degree in its tree -/
def badC : Nat → Nat → ℚ := ofRowsC [[0, 4, 6, 8], [4, 0, 6, 9], [6, 6, 0, 14], [8, 9, 14, 0]]

theorem metric_bad : Metric 4 badC := by
  have h : ∀ i < 4, ∀ j < 4, ∀ k < 4, badC i j ≤ badC i k + badC k j := by decide +kernel
  refine ⟨?_, ?_, fun i j k hi hj hk => h i hi j hj k hk⟩
  · intro i hi
    interval_cases i <;> rfl
  · intro i j hi hj
    interval_cases i <;> interval_cases j <;> rfl

/-- **C44 (negation)** On a metric with four cities and with the identity as every shuffle, city 3 is
in no edge of the matching and city 2 is matched with itself: `optimize_two_matching` stores `[v1, v2]`
with `[v0, v2]`. -/
theorem C44_not_perfect : ∃ (m : Mat (XNum ℚ)) (c : Nat → Nat → ℚ) (mst : Graph (XNum ℚ)),
    Rep m c ∧ m.dim = 4 ∧ Metric m.dim c ∧ primSeq m [] = .ok mst ∧ oddVertices mst = [0, 1, 2, 3] ∧
    exRng.Ok ∧ computeApproxMatching exRng mst m = .ok [(0, 1), (2, 2)] :=
  ⟨Mat.ofFun 4 badC, badC, [[⟨1, fin 4⟩, ⟨2, fin 6⟩, ⟨3, fin 8⟩], [⟨0, fin 4⟩], [⟨0, fin 6⟩], [⟨0, fin 8⟩]],
    rep_ofFun _ _, rfl, metric_bad, by decide +kernel, by decide +kernel, exRng_ok, by decide +kernel⟩

/-- **C45 (partial)** If no four cities have three pairings of three different costs, `improve_matching`
never increases the cost of a matching of cities, for all shuffles and every number of tries; PAR
returns the same for every order of the chunks. -/
theorem C45_local_search_partial {m : Mat (XNum K)} {c : Nat → Nat → K}
    (hm : ∀ i j, i < m.dim → j < m.dim → m.get i j = fin (c i j)) (hsym : Symm m.dim c)
    (h3 : NoThree m.dim c) {shuf : Nat → List (Nat × Nat) → List (Nat × Nat)}
    (hsh : ∀ k l, (shuf k l).Perm l) (tries : Nat) {l : List (Nat × Nat)}
    (hl : ∀ e ∈ l, e.1 < m.dim ∧ e.2 < m.dim) :
    ∃ l', improveMatching m shuf tries l = .ok l' ∧ edgeSum c l' ≤ edgeSum c l ∧
      (ends l').Perm (ends l) ∧
      ∀ order : Nat → Nat → List Nat, (∀ k n, (order k n).Perm (List.range n)) →
        parImproveMatching m shuf order tries l = .ok l' := by
  have hrep : Rep m c := ⟨fun i j hi hj _ => hm i j hi hj, fun h => hm 0 0 (by omega) (by omega)⟩
  have hb := noBug_of_noThree hrep hsym h3
  refine ⟨_, improveMatching_eq hsh hl, impRun_le hb hm hsh hl, impRun_perm hb hsh hl, ?_⟩
  intro order ho
  rw [parImproveMatching_eq hsh ho hl, improveMatching_eq hsh hl]

example : (∀ i j, i < 4 → j < 4 → (Mat.ofFun 4 lineC).get i j = fin (lineC i j)) ∧ Symm 4 lineC ∧
    NoThree 4 lineC ∧ (∀ e ∈ [(0, 2), (1, 3)], e.1 < 4 ∧ e.2 < 4) ∧
    improveMatching (Mat.ofFun 4 lineC) (fun _ l => l) 1 [(0, 2), (1, 3)] = .ok [(0, 1), (2, 3)] := by
  refine ⟨fun _ _ _ _ => rfl, ?_, noThree_line, by decide, by decide +kernel⟩
  intro i j hi hj
  interval_cases i <;> interval_cases j <;> rfl

/-- costs for which the wrong pair of edges is more expensive -/
def worseC : Nat → Nat → ℚ :=
  ofRowsC [[0, 101, 101, 98], [101, 0, 103, 101], [101, 103, 0, 102], [98, 101, 102, 0]]

/-- **C45 (negation)** On a metric with four cities, one try of `improve_matching` replaces a matching
of cost 203 by edges of cost 204. -/
theorem C45_can_worsen : ∃ (m : Mat (XNum ℚ)) (c : Nat → Nat → ℚ) (l l' : List (Nat × Nat)),
    Rep m c ∧ m.dim = 4 ∧ Metric m.dim c ∧ PerfectMatching (List.range 4) l ∧
    improveMatching m (fun _ l => l) 1 l = .ok l' ∧ edgeSum c l < edgeSum c l' := by
  refine ⟨Mat.ofFun 4 worseC, worseC, [(0, 1), (2, 3)], [(0, 2), (1, 2)], rep_ofFun _ _, rfl, ?_,
    .refl _, by decide +kernel, by decide +kernel⟩
  have h : ∀ i < 4, ∀ j < 4, ∀ k < 4, worseC i j ≤ worseC i k + worseC k j := by decide +kernel
  refine ⟨?_, ?_, fun i j k hi hj hk => h i hi j hj k hk⟩
  · intro i (hi : i < 4)
    interval_cases i <;> rfl
  · intro i j (hi : i < 4) (hj : j < 4)
    interval_cases i <;> interval_cases j <;> rfl

/-- **C51 (partial)** For every number of ranks and all shuffles on the ranks, `mpi_improve_matching`
of a non-empty matching leaves on all ranks the same matching. It is the result of the local search of
one of the ranks, and no rank found a cheaper one. -/
theorem C51_mpi_matching_partial {m : Mat (XNum K)} {c : Nat → Nat → K}
    (hm : ∀ i j, i < m.dim → j < m.dim → m.get i j = fin (c i j))
    {shufs : Nat → Nat → List (Nat × Nat) → List (Nat × Nat)} (hsh : ∀ r k l, (shufs r k l).Perm l)
    {size : Nat} (hsize : 1 ≤ size) (tries : Nat) {l : List (Nat × Nat)}
    (hl : ∀ e ∈ l, e.1 < m.dim ∧ e.2 < m.dim) (hne : l ≠ []) :
    ∃ best, mpiImproveMatching m shufs size tries l = .ok (List.replicate size best) ∧
      (∃ r < size, improveMatching m (shufs r) tries l = .ok best) ∧
      ∀ r < size, ∃ l', improveMatching m (shufs r) tries l = .ok l' ∧ edgeSum c best ≤ edgeSum c l' := by
  obtain ⟨root, others, h1, h2⟩ := mpiImproveMatching_ok (m := m) hsh (tries := tries) hsize hl hne
    (cost := fun l => fin (edgeSum c l)) (fun l' hl' => matchingCost_exact hm hl')
  refine ⟨_, h2, ?_, ?_⟩
  · have hmem := mpiBest_mem others root
    rw [← h1] at hmem
    obtain ⟨r, hr, e⟩ := List.mem_map.mp hmem
    refine ⟨r, by simpa using hr, ?_⟩
    rw [improveMatching_eq (hsh r) hl, ← e]
  · intro r hr
    refine ⟨_, improveMatching_eq (hsh r) hl, ?_⟩
    have hall : ∀ x ∈ root :: others, x.1 = fin (edgeSum c x.2) := by
      intro x hx
      rw [← h1] at hx
      obtain ⟨k, _, rfl⟩ := List.mem_map.mp hx
      rfl
    refine mpiBest_le others root hall (fin (edgeSum c (impRun m (shufs r) tries l)), impRun m (shufs r) tries l) ?_
    rw [← h1]
    exact List.mem_map.mpr ⟨r, by simpa using hr, rfl⟩

/-- three ranks; rank 0 finds a matching of cost 17, rank 1 one of cost 11 -/
example : mpiImproveMatching (Mat.ofFun 6 fun i j => (((i : ℚ) - j) * (i - j)))
    (fun r _ l => l.rotate r) 3 1 [(2, 5), (0, 3), (1, 4)] =
      .ok (List.replicate 3 [(0, 1), (3, 4), (2, 5)]) := by decide +kernel

/-- **C51 (negation for the empty matching)** With an empty matching every rank panics
(`matching[0]` of an empty slice), for every number of processes. -/
theorem C51_empty_matching {α : Type} [FloatOps α] (m : Mat α)
    (shufs : Nat → Nat → List (Nat × Nat) → List (Nat × Nat)) (size tries : Nat) :
    mpiImproveMatching m shufs size tries [] = .error .index := rfl

end Walky.Props
