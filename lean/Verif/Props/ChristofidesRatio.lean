import Verif.Props.Christofides
import Verif.Lemmas.Ratio

/-! # Property C89: how good the tours of the implemented Christofides algorithm are -/

namespace Walky.Props

open FloatOps XNum Spec

variable {K : Type} [Field K] [LinearOrder K] [IsStrictOrderedRing K]

/-- **C89, every metric** Whatever the random numbers and schedules are, the cost that `christofides`
returns is at most `n / 2` times the length of every tour, in SEQ, in MPI, and in PAR if it returns and the
build is a debug build or the matching repeats no edge. -/
theorem C89_half_n {m : Mat (XNum K)} {c : Nat → Nat → K} (hm : Rep m c) (hn : 1 ≤ m.dim)
    (hmet : Metric m.dim c) {dbg : Bool} (hdbg : dbg = true → m.isMetric = true) {r : MatchRng} (hr : r.Ok)
    {q : List Nat} (hq : IsTour m.dim q) :
    (∃ w p, christofidesSeq dbg m r = .ok (.fin w, p) ∧ 2 * w ≤ m.dim * tourCost c q) ∧
    (∀ (s : ParSched (XNum K)) sol, s.Ok → Harmless dbg m r → ChristofidesPar dbg m r s (.ok sol) →
      ∃ w, sol.1 = .fin w ∧ 2 * w ≤ m.dim * tourCost c q) ∧
    (2 ≤ m.dim → ∀ (shufs : Nat → Nat → List (Nat × Nat) → List (Nat × Nat)) (size : Nat),
      (∀ k i l, (shufs k i l).Perm l) → 1 ≤ size →
      ∃ w p, christofidesMpi dbg m r shufs size = .ok (.fin w, p) ∧ 2 * w ≤ m.dim * tourCost c q) := by
  refine ⟨?_, ?_, ?_⟩
  · obtain ⟨p, h1, h2, -⟩ := C41_christofides_seq hm hn hdbg hr
    exact ⟨_, _, h1, tour_ratio hmet h2 hq⟩
  · intro s sol hs hh h
    obtain ⟨p, h1, h2, -⟩ := C41_christofides_par_returned_partial hm hn hr hs hh h
    exact ⟨_, by rw [h1], tour_ratio hmet h2 hq⟩
  · intro h2 shufs size hsh hsize
    obtain ⟨p, h1, h2, -⟩ := C62_christofides_mpi_partial hm h2 hdbg hr hsh hsize
    exact ⟨_, _, h1, tour_ratio hmet h2 hq⟩

/-- a matching in a metric -/
theorem matching_half {n : Nat} {c : Nat → Nat → K} (hmet : Metric n c) {q : List Nat} (hq : IsTour n q)
    {M : List (Nat × Nat)} (hM : ∀ v ∈ ends M, v < n) : 2 * edgeSum c M ≤ M.length * tourCost c q := by
  induction M with
  | nil => simp [edgeSum]
  | cons e M ih =>
    have h0 : ends (e :: M) = e.1 :: e.2 :: ends M := rfl
    rw [h0] at hM
    have h1 := ih fun v hv => hM v (List.mem_cons_of_mem _ (List.mem_cons_of_mem _ hv))
    have h2 := edge_half hmet hq (hM e.1 (by simp)) (hM e.2 (by simp))
    have h3 : edgeSum c (e :: M) = c e.1 e.2 + edgeSum c M := by simp [edgeSum]
    rw [h3, List.length_cons]
    push_cast
    linarith

/-- **C89, partial** On a metric in which no four cities have three pairings of three different costs (for
example a tree metric), so that the matching is perfect (C44): the cost that `christofides` returns is at
most `1 + k / 4` times the length of every tour, where `k ≤ n` is the number of vertices of odd degree in
Prim's tree. If `k` is two, that is, if the tree is a path, then on every metric it is at most `3 / 2` times
the length of every tour. Shown for SEQ and for every outcome of PAR. Missing: other metrics. -/
theorem C89_perfect_partial {m : Mat (XNum K)} {c : Nat → Nat → K} (hm : Rep m c) (hn : 1 ≤ m.dim)
    (hmet : Metric m.dim c) {dbg : Bool} (hdbg : dbg = true → m.isMetric = true) :
    ∃ mst E, primSeq m [] = .ok mst ∧ IsSpanningTree (List.range m.dim) E ∧ GraphOf m.dim c E mst ∧
      ∀ (f : K), ((NoThree m.dim c ∧ f = 4 + (oddDegree m.dim E).length) ∨
          ((oddDegree m.dim E).length = 2 ∧ f = 6)) →
        ∀ r : MatchRng, r.Ok → ∀ q, IsTour m.dim q →
          (∃ w p, christofidesSeq dbg m r = .ok (.fin w, p) ∧ 4 * w ≤ f * tourCost c q) ∧
          ∀ s : ParSched (XNum K), s.Ok → (∃ res, ChristofidesPar dbg m r s res) ∧
            ∀ res, ChristofidesPar dbg m r s res → ∃ w p, res = .ok (.fin w, p) ∧ 4 * w ≤ f * tourCost c q := by
  obtain ⟨mst, E, w, h1, h2, h3, h4, h5⟩ := C42_christofides_bound hm hn hmet hdbg
  have hnn : ∀ i j, i < m.dim → j < m.dim → 0 ≤ c i j := fun i j hi hj => hmet.nonneg hi hj
  obtain ⟨g, w', t1, t2, t3⟩ := C32_mst_lower_bound hm hmet.symm (fun i j hi hj _ => hnn i j hi hj)
    (fun h => hnn 0 0 (by omega) (by omega)) hn
  rw [h1] at t1
  injection t1 with t1
  subst t1
  rw [h4] at t2
  injection t2 with t2
  subst t2
  have hodd := oddVertices_eq h3.adjOf
  have hlt : ∀ v ∈ oddDegree m.dim E, v < m.dim := oddSet_lt
  have hnd : (oddDegree m.dim E).Nodup := List.nodup_range.filter _
  have hev : (oddDegree m.dim E).length % 2 = 0 := oddSet_even (spanning_valid h2)
  refine ⟨mst, E, h1, h2, h3, ?_⟩
  intro f hf r hr q hq
  obtain ⟨M, k1, -⟩ := approxMatchingSeq_ok (m := m) hr (V := oddSet m.dim E) oddSet_lt
    ((oddSet m.dim E).length ^ 2)
  have hM : PerfectMatching (oddDegree m.dim E) M := by
    refine perfect_of_even hr hev oddSet_lt ?_ k1
    rcases hf with hf | hf
    · exact Or.inl (noBug_of_noThree hm hmet.symm hf.1)
    · exact Or.inr (by have : (oddSet m.dim E).length = 2 := hf.1; omega)
  have hlen : 2 * M.length = (oddDegree m.dim E).length := by rw [← length_ends]; exact hM.length_eq
  have hsum : 2 * edgeSum c M ≤ M.length * tourCost c q :=
    matching_half hmet hq fun v hv => hlt v (hM.mem_iff.mp hv)
  have hw : w ≤ tourCost c q := t3 q hq
  have key : ∀ x, x ≤ w + edgeSum c M → 4 * x ≤ f * tourCost c q := by
    intro x hx
    have hfM : f = 4 + 2 * (M.length : K) := by
      rcases hf with ⟨-, hf⟩ | ⟨h, hf⟩
      · rw [hf, ← hlen]; push_cast; rfl
      · have : M.length = 1 := by omega
        rw [hf, this]; norm_num
    rw [hfM]
    linarith
  refine ⟨?_, fun s hs => ?_⟩
  · obtain ⟨⟨p, a1, -, a3⟩, -⟩ := h5 (computeApproxMatching r) M
      (by unfold computeApproxMatching; rw [hodd, k1]) hM
    exact ⟨_, _, a1, key _ a3⟩
  · obtain ⟨-, b⟩ := h5 (computeApproxMatchingPar r s.chunks) M
      (by unfold computeApproxMatchingPar; rw [hodd, approxMatchingPar_eq hr oddSet_lt hs.chunks, k1]) hM
    refine ⟨(b s hs).1, fun res hres => ?_⟩
    obtain ⟨p, a1, -, a3⟩ := (b s hs).2 res hres
    exact ⟨_, _, a1, key _ a3⟩

/-- a metric with four vertices of odd degree, and one with two -/
example : (Rep (Mat.ofFun 4 starC) starC ∧ Metric 4 starC ∧ NoThree 4 starC ∧
      (primSeq (Mat.ofFun 4 starC) [] >>= fun mst => .ok (oddVertices mst)) = .ok [0, 1, 2, 3]) ∧
    Rep (Mat.ofFun 4 lineC) lineC ∧ Metric 4 lineC ∧
      (primSeq (Mat.ofFun 4 lineC) [] >>= fun mst => .ok (oddVertices mst)) = .ok [0, 3] := by
  have key : ∀ c : Nat → Nat → ℚ, (∀ i < 4, ∀ j < 4, ∀ k < 4, c i j ≤ c i k + c k j) →
      (∀ i < 4, ∀ j < 4, c i j = c j i) → (∀ i < 4, c i i = 0) → Metric 4 c := fun c h1 h2 h3 =>
    ⟨fun i hi => h3 i hi, fun i j hi hj => h2 i hi j hj, fun i j k hi hj hk => h1 i hi j hj k hk⟩
  refine ⟨⟨rep_ofFun _ _, key _ (by decide +kernel) (by decide +kernel) (by decide +kernel), ?_, by decide +kernel⟩,
    rep_ofFun _ _, key _ (by decide +kernel) (by decide +kernel) (by decide +kernel), by decide +kernel⟩
  have h : ∀ v0 < 4, ∀ v1 < 4, ∀ v2 < 4, ∀ v3 < 4, ¬ (starC v0 v3 + starC v1 v2 < starC v0 v2 + starC v1 v3 ∧
      starC v0 v2 + starC v1 v3 < starC v0 v1 + starC v2 v3) := by decide +kernel
  intro v0 v1 v2 v3 h0 h1 h2 h3 _
  exact h v0 h0 v1 h1 v2 h2 v3 h3

/-- two stars with ten cities each; the centres 0 and 10 have distance 100, the edges to the leaves
length 1 -/
def twoStars (i j : Nat) : ℚ :=
  if i = j then 0
  else (if i < 10 ↔ j < 10 then 0 else 100) + (if i % 10 = 0 then 0 else 1) + (if j % 10 = 0 then 0 else 1)

/-- shuffles: a first order of the vertices, afterwards nothing changes -/
def starRng : MatchRng where
  vertices l := if l = [1, 2, 3, 4, 5, 6, 7, 8, 9, 11, 12, 13, 14, 15, 16, 17, 18, 19] then
    [1, 11, 2, 3, 4, 12, 13, 14, 5, 15, 6, 7, 8, 16, 17, 18, 9, 19] else l
  edges _ l := l

/-- **C89 (negation)** The guarantee of Christofides' algorithm does not hold for the implementation, and
not even a factor of `5 / 2`: on a metric with 20 cities, which is also a tree metric, there are random numbers
with which `christofides` returns, in a debug build, a tour of length 636, and there is a tour of length 236. (The matching is
only improved for the pairs of edges that the shuffles bring together.) -/
theorem C89_no_guarantee : ∃ (m : Mat (XNum ℚ)) (c : Nat → Nat → ℚ) (r : MatchRng) (w : ℚ) (p q : List Nat),
    Rep m c ∧ Metric m.dim c ∧ NoThree m.dim c ∧ r.Ok ∧
      christofidesSeq true m r = .ok (.fin w, p) ∧ IsTour m.dim q ∧ 5 * tourCost c q < 2 * w := by
  refine ⟨Mat.ofFun 20 twoStars, twoStars, starRng, 636,
    [0, 1, 11, 10, 2, 3, 4, 12, 13, 14, 15, 5, 6, 7, 8, 16, 17, 18, 19, 9, 0], List.range 20, rep_ofFun _ _, ?_, ?_,
    ⟨fun l => ?_, fun _ l => .refl l⟩, by decide +kernel, .refl _, by decide +kernel⟩
  · have h : ∀ i < 20, ∀ j < 20, ∀ k < 20, twoStars i j ≤ twoStars i k + twoStars k j := by decide +kernel
    have h' : ∀ i < 20, ∀ j < 20, twoStars i j = twoStars j i := by decide +kernel
    exact ⟨fun i _ => if_pos rfl, fun i j hi hj => h' i hi j hj, fun i j k hi hj hk => h i hi j hj k hk⟩
  · intro v0 v1 v2 v3 _ _ _ _ hnd
    simp only [List.nodup_cons, List.mem_cons, List.not_mem_nil, or_false, not_or] at hnd
    obtain ⟨⟨n1, n2, n3⟩, ⟨n4, n5⟩, n6, -⟩ := hnd
    simp only [twoStars, if_neg n1, if_neg n2, if_neg n3, if_neg n4, if_neg n5, if_neg n6]
    generalize (if v0 % 10 = 0 then (0 : ℚ) else 1) = f0
    generalize (if v1 % 10 = 0 then (0 : ℚ) else 1) = f1
    generalize (if v2 % 10 = 0 then (0 : ℚ) else 1) = f2
    generalize (if v3 % 10 = 0 then (0 : ℚ) else 1) = f3
    rintro ⟨a1, a2⟩
    by_cases b0 : v0 < 10 <;> by_cases b1 : v1 < 10 <;> by_cases b2 : v2 < 10 <;> by_cases b3 : v3 < 10 <;>
      simp only [b0, b1, b2, b3, iff_self, iff_true, not_true, if_true, if_false, iff_false] at a1 a2 <;> linarith
  · unfold starRng
    dsimp only
    split
    · rename_i h
      rw [h]
      decide
    · exact .refl _

end Walky.Props
