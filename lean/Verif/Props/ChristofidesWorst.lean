import Verif.Props.ChristofidesRatio
import Verif.Props.Data
import Verif.Lemmas.DoubleStar

/-! # Property C89: the tours of the implemented Christofides algorithm can be arbitrarily bad -/

namespace Walky.Props

open FloatOps XNum Spec

variable {K : Type} [Field K] [LinearOrder K] [IsStrictOrderedRing K]

/-- shuffles that change nothing -/
def idRng : MatchRng := ⟨fun l => l, fun _ l => l⟩

theorem idRng_ok : idRng.Ok := ⟨fun l => .refl l, fun _ l => .refl l⟩

/-- **C89 (negation, a family)** For every odd `j` and every distance `D > 1` there is a metric with
`n = 4j + 2` cities, which is a tree metric, with a tour that is not longer than `2D + 2n`; if the shuffles
change nothing, the cost returned by `christofides` is at least `j · D`: in SEQ, for every outcome of PAR,
and in MPI for every number of ranks. So the ratio grows linearly with the number of cities, like the upper
bound of `C89_half_n`. -/
theorem C89_linear {j : Nat} (hj : j % 2 = 1) {D : K} (hD : 1 < D) :
    ∃ (m : Mat (XNum K)) (c : Nat → Nat → K) (q : List Nat), m.dim = 4 * j + 2 ∧ Rep m c ∧ Metric m.dim c ∧
      NoThree m.dim c ∧ m.isMetric = true ∧ IsTour m.dim q ∧ tourCost c q ≤ 2 * D + 2 * m.dim ∧
      ∀ dbg, (∃ w p, christofidesSeq dbg m idRng = .ok (.fin w, p) ∧ j * D ≤ w) ∧
        (∀ s : ParSched (XNum K), s.Ok → (∃ res, ChristofidesPar dbg m idRng s res) ∧
          ∀ res, ChristofidesPar dbg m idRng s res → ∃ w p, res = .ok (.fin w, p) ∧ j * D ≤ w) ∧
        ∀ size, 1 ≤ size → ∃ w p, christofidesMpi dbg m idRng (fun _ _ l => l) size = .ok (.fin w, p) ∧
          j * D ≤ w := by
  have hmet := doubleStar_metric hD (4 * j + 2)
  have hm := rep_ofFun (4 * j + 2) (doubleStar D)
  have hism : (Mat.ofFun (4 * j + 2) (doubleStar D)).isMetric = true :=
    C52_metric_passes (fun _ _ _ _ => rfl) hmet
  refine ⟨Mat.ofFun (4 * j + 2) (doubleStar D), doubleStar D, starTour (4 * j + 2), rfl, hm, hmet,
    doubleStar_noThree hD _, hism, starTour_tour _, starTour_cost hD (by omega), fun dbg => ?_⟩
  have hbug : NoBug (Mat.ofFun (4 * j + 2) (doubleStar D)) := noBug_of_noThree hm hmet.symm (doubleStar_noThree hD _)
  have hdim : (Mat.ofFun (4 * j + 2) (doubleStar D)).dim = 4 * j + 2 := rfl
  have hnn : ∀ i j, doubleStar D i j ≥ 0 := doubleStar_nonneg hD
  generalize Mat.ofFun (4 * j + 2) (doubleStar D) = m at *
  have hdbg : dbg = true → m.isMetric = true := fun _ => hism
  obtain ⟨mst, E, h1, h2, h3, h4⟩ := prim_tree hm (by omega)
  -- the tree
  have hcost : edgeSum (doubleStar D) E ≤ D + ((4 * j + 2 - 2 : Nat) : K) := by
    rw [← starTree_cost (n := 4 * j + 2) (by omega)]
    obtain ⟨g, w, k1, k2, k3, -⟩ := C29_prim_minimum hm (by rw [hdim]; exact hmet.symm) [] (by simp)
      (by rw [citiesExcept_nil, hdim]; simp)
    rw [h1] at k1
    injection k1 with k1
    subst k1
    rw [h4] at k2
    injection k2 with k2
    rw [k2]
    apply k3
    rw [citiesExcept_nil, hdim]
    exact starTree_spanning (by omega)
  rw [hdim] at h2
  have hodd' : oddSet (4 * j + 2) E = List.range' 2 (4 * j) := tree_odd hD hj h2 hcost
  have hdeg := (tree_degrees hD (by omega) h2 hcost).1
  rw [← hdim] at h2
  have hodd := oddVertices_eq h3.adjOf
  rw [hdim, hodd'] at hodd
  have hlt : ∀ v ∈ List.range' 2 (4 * j), v < m.dim := by
    intro v hv
    rw [List.mem_range'_1] at hv
    omega
  -- the matching
  have hval : Valid m.dim (pairUp (List.range' 2 (4 * j))) := valid_iff.mpr fun v hv =>
    hlt v ((flatten_pairUp_sublist _).subset hv)
  obtain ⟨M, k1, kv, klen, -, k2⟩ := approxMatchingSeq_ok (m := m) idRng_ok hlt ((List.range' 2 (4 * j)).length ^ 2)
  have hM : PerfectMatching (oddDegree m.dim E) M := by
    have : oddDegree m.dim E = List.range' 2 (4 * j) := by rw [hdim]; exact hodd'
    rw [this]
    exact perfect_of_even idRng_ok (by simp; omega) hlt (Or.inl hbug) k1
  have hchunks : Valid m.dim M ∧ OddChunks M := by
    rw [k2]
    apply impRun_keeps (P := fun l => Valid m.dim l ∧ OddChunks l)
    · exact ⟨hval, oddChunks_range j 0⟩
    · exact fun _ _ h => h
    · exact fun l h => ⟨valid_iff.mpr fun v hv => valid_iff.mp h.1 v (imp_mem m l v hv), oddChunks_imp hbug l h.1 h.2⟩
  have hlow : (j : K) * D ≤ edgeSum (doubleStar D) M := by
    have := oddChunks_cost hD M hchunks.2
    have e : M.length / 2 = j := by
      rw [klen, List.length_range']
      omega
    rwa [e] at this
  have hleaf : ∀ v ∈ ends M, v ≠ 0 ∧ (ends E).count v = 1 := by
    intro v hv
    have h5 := hM.mem_iff.mp hv
    have h6 : v ∈ List.range' 2 (4 * j) := by
      rw [← hodd', ← hdim]
      exact h5
    rw [List.mem_range'_1] at h6
    exact ⟨by omega, hdeg v h6.1 (by omega)⟩
  have hsym : Symm m.dim (doubleStar D) := by rw [hdim]; exact hmet.symm
  have tail : ∀ g : MGraph (XNum K), g.dim = m.dim →
      (∀ i j, i < m.dim → j < m.dim → (Joined E i j → g.times i j = 1 + und M i j) ∧
        (¬ Joined E i j → g.times i j = und M i j)) →
      ∃ w p, christofidesTail dbg m g = .ok (.fin w, p) ∧ j * D ≤ w := by
    intro g a1 a2
    obtain ⟨p, b1, -, b3⟩ := tail_ge_matching hm (by omega) hsym (fun i j _ _ => hnn i j) h2 hM hleaf a1 a2 dbg
    exact ⟨_, _, b1, hlow.trans b3⟩
  have generic : ∀ matcher : Graph (XNum K) → Mat (XNum K) → RM (List (Nat × Nat)), matcher mst m = .ok M →
      ∃ w p, christofidesGeneric dbg m matcher = .ok (.fin w, p) ∧ j * D ≤ w := by
    intro matcher hmat
    obtain ⟨g, a1, a2, a3⟩ := christofidesGeneric_eq hdbg h1 h2 h3 hmat kv
    rw [a3]
    exact tail g a1 a2
  refine ⟨?_, fun s hs => ?_, fun size hsize => ?_⟩
  · exact generic (computeApproxMatching idRng) (by unfold computeApproxMatching; rw [hodd, k1])
  · have hrep : NoRepeat M := noRepeat_of_nodup (hM.nodup_iff.mpr (List.nodup_range.filter _))
    obtain ⟨b1, b2⟩ := christofidesGenericPar_eq hdbg h1 h2 h3
      (matcher := computeApproxMatchingPar idRng s.chunks)
      (by unfold computeApproxMatchingPar; rw [hodd, approxMatchingPar_eq idRng_ok hlt hs.chunks, k1]) hrep hs
    refine ⟨b1, fun res hres => ?_⟩
    obtain ⟨g, a1, a2, rfl⟩ := b2 res hres
    exact tail g a1 a2
  · apply generic
    have hne : pairUp (List.range' 2 (4 * j)) ≠ [] := by
      intro hc
      have := length_pairUp (List.range' 2 (4 * j))
      rw [hc, List.length_range'] at this
      simp at this
      omega
    obtain ⟨root, others, e1, e2⟩ := mpiImproveMatching_ok (m := m) (shufs := fun _ _ l => l) (fun _ _ l => .refl l)
      (tries := (List.range' 2 (4 * j)).length ^ 2) hsize hval hne (fun l' hl' => matchingCost_ok hl')
    have hbest : (mpiBest root others).2 = M := by
      have hmem := mpiBest_mem others root
      rw [← e1] at hmem
      obtain ⟨k, _, e⟩ := List.mem_map.mp hmem
      rw [← e, k2]
      rfl
    unfold computeApproxMatchingMpi
    rw [hodd]
    have : idRng.vertices (List.range' 2 (4 * j)) = List.range' 2 (4 * j) := rfl
    rw [this, e2, rm_bind_ok, hbest]
    cases size with
    | zero => omega
    | succ k => rfl

/-- a member of the family: 14 cities, `D = 100` -/
example : christofidesSeq true (Mat.ofFun 14 (doubleStar (100 : ℚ))) idRng =
      .ok (.fin 424, [0, 1, 5, 4, 2, 3, 6, 7, 8, 9, 13, 12, 10, 11, 0]) ∧
    tourCost (doubleStar (100 : ℚ)) (starTour 14) = 224 := by
  decide +kernel

/-- **C89 (negation, no factor)** No factor, however large, is guaranteed: for every `R` there is a metric
(a tree metric) that passes `is_metric` and shuffles with which `christofides` returns, in every build and in
SEQ as well as in PAR and MPI, a cost of more than `R` times the length of some tour. -/
theorem C89_unbounded (R : Nat) :
    ∃ (m : Mat (XNum ℚ)) (c : Nat → Nat → ℚ) (r : MatchRng) (q : List Nat), Rep m c ∧ Metric m.dim c ∧
      NoThree m.dim c ∧ m.isMetric = true ∧ r.Ok ∧ IsTour m.dim q ∧
      ∀ dbg, (∃ w p, christofidesSeq dbg m r = .ok (.fin w, p) ∧ R * tourCost c q < w) ∧
        (∀ s : ParSched (XNum ℚ), s.Ok → (∃ res, ChristofidesPar dbg m r s res) ∧
          ∀ res, ChristofidesPar dbg m r s res → ∃ w p, res = .ok (.fin w, p) ∧ R * tourCost c q < w) ∧
        ∀ size, 1 ≤ size → ∃ (shufs : Nat → Nat → List (Nat × Nat) → List (Nat × Nat)) (w : ℚ) (p : List Nat),
          (∀ k i l, (shufs k i l).Perm l) ∧ christofidesMpi dbg m r shufs size = .ok (.fin w, p) ∧
            R * tourCost c q < w := by
  -- `j = 4 R + 1`, `D = 2 n`
  obtain ⟨m, c, q, h1, h2, h3, h4, h5, h6, h7, h8⟩ := C89_linear (j := 4 * R + 1) (by omega)
    (D := 2 * ((4 * (4 * R + 1) + 2 : Nat) : ℚ)) (by push_cast; have : (0 : ℚ) ≤ R := by positivity
                                                     linarith)
  have key : ∀ w, ((4 * R + 1 : Nat) : ℚ) * (2 * ((4 * (4 * R + 1) + 2 : Nat) : ℚ)) ≤ w → R * tourCost c q < w := by
    intro w hw
    refine lt_of_lt_of_le ?_ hw
    rw [h1] at h7
    have hR : (0 : ℚ) ≤ R := by positivity
    have h9 := mul_le_mul_of_nonneg_left h7 hR
    refine lt_of_le_of_lt h9 ?_
    push_cast
    nlinarith
  refine ⟨m, c, idRng, q, h2, h3, h4, h5, idRng_ok, h6, fun dbg => ⟨?_, fun s hs => ⟨?_, fun res hres => ?_⟩, fun size hsize => ?_⟩⟩
  · obtain ⟨w, p, k1, k2⟩ := (h8 dbg).1
    exact ⟨w, p, k1, key w k2⟩
  · exact ((h8 dbg).2.1 s hs).1
  · obtain ⟨w, p, k1, k2⟩ := ((h8 dbg).2.1 s hs).2 res hres
    exact ⟨w, p, k1, key w k2⟩
  · obtain ⟨w, p, k1, k2⟩ := (h8 dbg).2.2 size hsize
    exact ⟨_, w, p, fun _ _ l => .refl l, k1, key w k2⟩

end Walky.Props
