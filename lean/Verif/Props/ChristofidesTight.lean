import Verif.Props.ChristofidesWorst
import Verif.Props.ChristofidesLucky
import Mathlib.Algebra.Order.Archimedean.Basic
import Verif.Lemmas.PathTree

/-! # Property C121: when Prim's tree is a path; the factor 3/2 is attained -/

namespace Walky.Props

open FloatOps XNum Spec

variable {K : Type} [Field K] [LinearOrder K] [IsStrictOrderedRing K]

/-- **C121 (paths)** On symmetric finite matrices, if only two cities `u` and `v` have odd degree in Prim's
tree, that is, if the tree is a path from `u` to `v`: the result is the cycle that closes this path, and the
returned cost is the weight of the tree plus the distance of `u` and `v`. This holds for all shuffles, in
SEQ, for every outcome of PAR, in MPI for every number of ranks, and for every other matching function
that returns a perfect matching. -/
theorem C121_path {m : Mat (XNum K)} {c : Nat → Nat → K} (hm : Rep m c) (hn : 2 ≤ m.dim)
    (hsym : Symm m.dim c) :
    ∃ mst E, primSeq m [] = .ok mst ∧ IsSpanningTree (List.range m.dim) E ∧ GraphOf m.dim c E mst ∧
      mst.undirectedEdgeWeight = .fin (edgeSum c E) ∧
      ∀ u v, (oddDegree m.dim E).Perm [u, v] → ∀ dbg, (dbg = true → m.isMetric = true) →
        let Result : RM (Solution (XNum K)) → Prop := fun res =>
          ∃ p, res = .ok (.fin (edgeSum c E + c u v), p ++ [0]) ∧ IsTour m.dim p ∧
            tourCost c p = edgeSum c E + c u v
        (∀ r : MatchRng, r.Ok →
          Result (christofidesSeq dbg m r) ∧
          (∀ s : ParSched (XNum K), s.Ok → (∃ res, ChristofidesPar dbg m r s res) ∧
            ∀ res, ChristofidesPar dbg m r s res → Result res) ∧
          ∀ shufs : Nat → Nat → List (Nat × Nat) → List (Nat × Nat), (∀ k i l, (shufs k i l).Perm l) →
            ∀ size, 1 ≤ size → Result (christofidesMpi dbg m r shufs size)) ∧
        ∀ matcher M, matcher mst m = .ok M → PerfectMatching (oddDegree m.dim E) M →
          Result (christofidesGeneric dbg m matcher) := by
  obtain ⟨mst, E, h1, h2, h3, h4⟩ := prim_tree hm (by omega)
  refine ⟨mst, E, h1, h2, h3, h4, fun u v ho dbg hdbg => ?_⟩
  intro Result
  have huv : u < m.dim ∧ v < m.dim := by
    have h : ∀ x ∈ [u, v], x < m.dim := fun x hx => oddSet_lt x (ho.mem_iff.mpr hx)
    exact ⟨h u (by simp), h v (by simp)⟩
  have tail : ∀ M, PerfectMatching (oddDegree m.dim E) M → ∀ g : MGraph (XNum K), g.dim = m.dim →
      (∀ i j, i < m.dim → j < m.dim → (Joined E i j → g.times i j = 1 + und M i j) ∧
        (¬ Joined E i j → g.times i j = und M i j)) → Result (christofidesTail dbg m g) := by
    intro M hM g a1 a2
    have hM' : PerfectMatching [u, v] M := List.Perm.trans hM ho
    have hsum : edgeSum c M = c u v := by
      rcases matching_two hM' with rfl | rfl
      · simp [edgeSum]
      · simp [edgeSum, hsym v u huv.2 huv.1]
    have hval : Valid m.dim M := valid_iff.mpr fun v hv => oddSet_lt v (hM.mem_iff.mp hv)
    obtain ⟨p, b1, b2, b3⟩ := tail_cycle hm (by omega) hsym h2 hval (fun i hi => by
      rw [flatten_append, List.count_append, show (flattenEdges M).count i = [u, v].count i from hM'.count_eq i]
      exact path_degrees hn h2 ho hi) a1 a2 dbg
    rw [hsum] at b1 b3
    exact ⟨p, b1, b2, b3⟩
  have generic : ∀ matcher M, matcher mst m = .ok M → PerfectMatching (oddDegree m.dim E) M →
      Result (christofidesGeneric dbg m matcher) := by
    intro matcher M hmat hM
    obtain ⟨g, a1, a2, a3⟩ := christofidesGeneric_eq hdbg h1 h2 h3 hmat
      (valid_iff.mpr fun v hv => oddSet_lt v (hM.mem_iff.mp hv))
    rw [a3]
    exact tail M hM g a1 a2
  refine ⟨fun r hr => ?_, generic⟩
  have hodd := oddVertices_eq h3.adjOf
  have hlen : (oddSet m.dim E).length = 2 := ho.length_eq
  obtain ⟨M, k1, -⟩ := approxMatchingSeq_ok (m := m) hr (V := oddSet m.dim E) oddSet_lt
    ((oddSet m.dim E).length ^ 2)
  have hM : PerfectMatching (oddDegree m.dim E) M :=
    perfect_of_even hr (by rw [hlen]) oddSet_lt (Or.inr (by omega)) k1
  refine ⟨generic _ M (by unfold computeApproxMatching; rw [hodd, k1]) hM, fun s hs => ?_, fun shufs hsh size hsize => ?_⟩
  · have hrep : NoRepeat M := noRepeat_of_nodup (hM.nodup_iff.mpr (List.nodup_range.filter _))
    obtain ⟨b1, b2⟩ := christofidesGenericPar_eq hdbg h1 h2 h3
      (matcher := computeApproxMatchingPar r s.chunks)
      (by unfold computeApproxMatchingPar; rw [hodd, approxMatchingPar_eq hr oddSet_lt hs.chunks, k1]) hrep hs
    refine ⟨b1, fun res hres => ?_⟩
    obtain ⟨g, a1, a2, rfl⟩ := b2 res hres
    exact tail M hM g a1 a2
  · -- a single edge is never changed
    have hl2 : (r.vertices (oddSet m.dim E)).length = 2 := by rw [(hr.vertices _).length_eq, hlen]
    have hfl : (flattenEdges (pairUp (r.vertices (oddSet m.dim E)))).Perm (oddSet m.dim E) := by
      rw [flatten_pairUp _ (by rw [hl2])]; exact hr.vertices _
    have hval : Valid m.dim (pairUp (r.vertices (oddSet m.dim E))) :=
      valid_iff.mpr fun v hv => oddSet_lt v (hfl.mem_iff.mp hv)
    have hone : (pairUp (r.vertices (oddSet m.dim E))).length = 1 := by rw [length_pairUp, hl2]
    have hne : pairUp (r.vertices (oddSet m.dim E)) ≠ [] := by
      intro hc; rw [hc] at hone; simp at hone
    obtain ⟨root, others, e1, e2⟩ := mpiImproveMatching_ok (m := m) (shufs := shufs) hsh
      (tries := (oddSet m.dim E).length ^ 2) hsize hval hne (fun l' hl' => matchingCost_ok hl')
    have hbest : (mpiBest root others).2 = pairUp (r.vertices (oddSet m.dim E)) := by
      have hmem := mpiBest_mem others root
      rw [← e1] at hmem
      obtain ⟨k, _, e⟩ := List.mem_map.mp hmem
      rw [← e]
      unfold impRun
      rw [if_pos (by omega)]
    refine generic _ (pairUp (r.vertices (oddSet m.dim E))) ?_ hfl
    unfold computeApproxMatchingMpi
    rw [hodd, e2, rm_bind_ok, hbest]
    cases size with
    | zero => omega
    | succ k => rfl

/-- squared distances on a line are symmetric but not a metric: the release build closes the path -/
example : (let c : Nat → Nat → ℚ := fun i j => (i - j) ^ 2
    Rep (Mat.ofFun 5 c) c ∧ Symm 5 c) ∧
    (let m : Mat (XNum ℚ) := Mat.ofFun 5 fun i j => (i - j) ^ 2
    m.isMetric = false ∧ (primSeq m [] >>= fun mst => .ok (oddVertices mst)) = .ok [0, 4] ∧
      christofidesSeq false m idRng = .ok (.fin (4 + 16), [0, 1, 2, 3, 4, 0])) := by
  refine ⟨⟨rep_ofFun _ _, fun i j _ _ => by ring⟩, by decide +kernel⟩

/-- **C121 (family)** For every `k` and all lengths `a < b < 2 a`: on the metric with `2 k + 3` cities on a
path, where one step costs `a` and two steps cost `b`, all shuffles and all modes, and every perfect matching,
lead to the cost `(2 k + 2) a + (k + 1) b`; the tour up the even and down the odd cities has the length
`2 a + (2 k + 1) b`. -/
theorem C121_family (k : Nat) {a b : K} (hab : a < b) (hb : b < 2 * a) :
    ∃ (m : Mat (XNum K)) (c : Nat → Nat → K) (q : List Nat), m.dim = 2 * k + 3 ∧ Rep m c ∧ Metric m.dim c ∧
      m.isMetric = true ∧ IsTour m.dim q ∧ tourCost c q = 2 * a + (2 * k + 1) * b ∧
      ∃ mst E, primSeq m [] = .ok mst ∧ IsSpanningTree (List.range m.dim) E ∧ GraphOf m.dim c E mst ∧
        (oddDegree m.dim E).length = 2 ∧
      ∀ dbg,
        let Result : RM (Solution (XNum K)) → Prop := fun res =>
          ∃ p, res = .ok (.fin ((2 * k + 2) * a + (k + 1) * b), p ++ [0]) ∧ IsTour m.dim p ∧
            tourCost c p = (2 * k + 2) * a + (k + 1) * b
        (∀ r : MatchRng, r.Ok →
          Result (christofidesSeq dbg m r) ∧
          (∀ s : ParSched (XNum K), s.Ok → (∃ res, ChristofidesPar dbg m r s res) ∧
            ∀ res, ChristofidesPar dbg m r s res → Result res) ∧
          ∀ shufs : Nat → Nat → List (Nat × Nat) → List (Nat × Nat), (∀ k i l, (shufs k i l).Perm l) →
            ∀ size, 1 ≤ size → Result (christofidesMpi dbg m r shufs size)) ∧
        ∀ matcher M, matcher mst m = .ok M → PerfectMatching (oddDegree m.dim E) M →
          Result (christofidesGeneric dbg m matcher) := by
  have ha : 0 < a := by linarith
  have hmet := pathC_metric ha hab hb (2 * k + 3)
  have hm := rep_ofFun (2 * k + 3) (pathC a b)
  have hism : (Mat.ofFun (2 * k + 3) (pathC a b)).isMetric = true := C52_metric_passes (fun _ _ _ _ => rfl) hmet
  have hdim : (Mat.ofFun (2 * k + 3) (pathC a b)).dim = 2 * k + 3 := rfl
  refine ⟨Mat.ofFun (2 * k + 3) (pathC a b), pathC a b, zigzag (k + 1), rfl, hm, hmet, hism, zigzag_tour (k + 1),
    by rw [zigzag_cost]; ring, ?_⟩
  generalize Mat.ofFun (2 * k + 3) (pathC a b) = m at *
  obtain ⟨mst, E, h1, h2, h3, h4, h5⟩ := C121_path hm (by omega) (by rw [hdim]; exact hmet.symm)
  have hcost : edgeSum (pathC a b) E ≤ ((2 * k + 3 - 1 : Nat) : K) * a := by
    rw [← pathTree_cost (b := b)]
    obtain ⟨g, w, k1, k2, k3, -⟩ := C29_prim_minimum hm (by rw [hdim]; exact hmet.symm) [] (by simp)
      (by rw [citiesExcept_nil, hdim]; simp)
    rw [h1] at k1
    injection k1 with k1
    subst k1
    rw [h4] at k2
    injection k2 with k2
    rw [k2]
    apply k3
    rw [citiesExcept_nil, hdim]
    exact pathTree_spanning (by omega)
  have ho : (oddDegree m.dim E).Perm [0, 2 * k + 2] := by
    rw [hdim] at h2 ⊢
    exact pathTree_odd ha hab hb (by omega) h2 hcost
  have heq : edgeSum (pathC a b) E = (2 * k + 2) * a := by
    refine le_antisymm (hcost.trans (le_of_eq (by push_cast; ring))) ?_
    have := pathTree_low ha hab hb (fun f hf => (h2.ends f hf).2.2)
    have hlen : E.length = 2 * k + 2 := by
      have := h2.count
      rw [List.length_range, hdim] at this
      omega
    rw [hlen] at this
    push_cast at this
    exact this
  have hends : pathC a b 0 (2 * k + 2) = (k + 1) * b := by
    unfold pathC gapLen
    rw [show (0 - (2 * k + 2) + (2 * k + 2 - 0)) = 2 * (k + 1) by omega, Nat.mul_mod_right, Nat.mul_div_cancel_left _ (by omega)]
    push_cast
    ring
  refine ⟨mst, E, h1, h2, h3, ho.length_eq, fun dbg => ?_⟩
  have h6 := h5 0 (2 * k + 2) ho dbg (fun _ => hism)
  rw [heq, hends] at h6
  exact h6

/-- a member of the family: 9 cities, `a = 10`, `b = 11` -/
example : christofidesSeq true (Mat.ofFun 9 (pathC (10 : ℚ) 11)) idRng =
      .ok (.fin 124, [0, 1, 2, 3, 4, 5, 6, 7, 8, 0]) ∧ zigzag 4 = [0, 2, 4, 6, 8, 7, 5, 3, 1] ∧
    tourCost (pathC (10 : ℚ) 11) (zigzag 4) = 97 := by
  decide +kernel

/-- **C121 (the factor)** No factor below `3 / 2` can be guaranteed, not even with a perfect matching of smallest
cost (C43) and not even if Prim's tree has only two vertices of odd degree (C89): for every `f < 3 / 2` there is a metric on
which `christofides` returns, for all shuffles and in all modes, a cost of more than `f` times the length of some
tour, and so does `christofides_generic` with every matching function that returns a perfect matching. -/
theorem C121_no_smaller_factor (f : ℚ) (hf : f < 3 / 2) :
    ∃ (m : Mat (XNum ℚ)) (c : Nat → Nat → ℚ) (q : List Nat), Rep m c ∧ Metric m.dim c ∧
      m.isMetric = true ∧ IsTour m.dim q ∧
      ∃ mst E, primSeq m [] = .ok mst ∧ IsSpanningTree (List.range m.dim) E ∧ GraphOf m.dim c E mst ∧
        (oddDegree m.dim E).length = 2 ∧
      ∀ dbg,
        let Bad : RM (Solution (XNum ℚ)) → Prop := fun res =>
          ∃ w p, res = .ok (.fin w, p) ∧ f * tourCost c q < w
        (∀ r : MatchRng, r.Ok →
          Bad (christofidesSeq dbg m r) ∧
          (∀ s : ParSched (XNum ℚ), s.Ok → (∃ res, ChristofidesPar dbg m r s res) ∧
            ∀ res, ChristofidesPar dbg m r s res → Bad res) ∧
          ∀ shufs : Nat → Nat → List (Nat × Nat) → List (Nat × Nat), (∀ k i l, (shufs k i l).Perm l) →
            ∀ size, 1 ≤ size → Bad (christofidesMpi dbg m r shufs size)) ∧
        (∃ M, MinMatching c (oddDegree m.dim E) M) ∧
        ∀ matcher M, matcher mst m = .ok M → MinMatching c (oddDegree m.dim E) M →
          Bad (christofidesGeneric dbg m matcher) := by
  obtain ⟨k, hk⟩ := exists_nat_gt (2 / (3 / 2 - f))
  have hd : 0 < 3 / 2 - f := by linarith
  have hk' : 2 < (3 / 2 - f) * k := by
    rw [div_lt_iff₀ hd] at hk
    linarith
  have hk0 : (0 : ℚ) ≤ k := by positivity
  obtain ⟨m, c, q, h1, h2, h3, h4, h5, h6, mst, E, h7, h8, h9, h11, h10⟩ := C121_family (K := ℚ) k (a := k + 2) (b := k + 3)
    (by linarith) (by linarith)
  refine ⟨m, c, q, h2, h3, h4, h5, mst, E, h7, h8, h9, h11, fun dbg => ?_⟩
  intro Bad
  have key : f * tourCost c q < (2 * k + 2) * (k + 2) + (k + 1) * (k + 3) := by
    rw [h6]
    nlinarith
  have conv : ∀ res : RM (Solution (XNum ℚ)), (∃ p, res = .ok (.fin ((2 * k + 2) * (k + 2) + (k + 1) * (k + 3)), p ++ [0]) ∧
      IsTour m.dim p ∧ tourCost c p = (2 * k + 2) * (k + 2) + (k + 1) * (k + 3)) → Bad res := by
    rintro res ⟨p, e, -, -⟩
    exact ⟨_, _, e, key⟩
  obtain ⟨a1, a2⟩ := h10 dbg
  refine ⟨fun r hr => ⟨conv _ (a1 r hr).1, fun s hs => ⟨((a1 r hr).2.1 s hs).1, fun res hres => conv _ (((a1 r hr).2.1 s hs).2 res hres)⟩,
    fun shufs hsh size hsize => conv _ ((a1 r hr).2.2 shufs hsh size hsize)⟩, ?_, fun matcher M hmat hM => conv _ (a2 matcher M hmat hM.1)⟩
  exact minMatching_exists c (oddSet_even (spanning_valid h8))

end Walky.Props
