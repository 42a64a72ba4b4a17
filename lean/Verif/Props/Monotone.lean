import Verif.Props.Permutation
import Verif.Props.Exact
import Verif.Props.Mst
import Verif.Props.OneTree
import Verif.Props.NearestNeighbour
import Verif.Props.Christofides

/-!
# Longer roads and inaccurate distances (C109)

Two instances with the same cities and other distances: no distance of the first one exceeds the
corresponding one of the second one by more than `δ`. With `δ = 0` the second instance has longer roads;
two instances that satisfy this in both directions have distances that are equal up to `δ`.
-/

set_option linter.unusedSectionVars false

namespace Walky.Props

open XNum Spec

variable {K : Type} [Field K] [LinearOrder K] [IsStrictOrderedRing K]

private theorem pathCost_shift {n : Nat} {c c' : Nat → Nat → K} {δ : K}
    (h : ∀ i j, i < n → j < n → i ≠ j → c i j ≤ c' i j + δ) : ∀ {p : List Nat}, (∀ i ∈ p, i < n) →
    p.Nodup → pathCost c p ≤ pathCost c' p + (p.length - 1 : Nat) * δ := by
  intro p
  induction p with
  | nil => intro _ _; simp [pathCost]
  | cons a p ih =>
    intro hp hd
    cases p with
    | nil => simp [pathCost]
    | cons b p =>
      have h1 := ih (fun i hi => hp i (List.mem_cons_of_mem _ hi)) hd.of_cons
      have hab : a ≠ b := by
        rintro rfl
        simp at hd
      have h2 := h a b (hp a (by simp)) (hp b (by simp)) hab
      simp only [pathCost, List.length_cons, Nat.add_sub_cancel] at h1 ⊢
      push_cast
      linarith

private theorem tourCost_shift {n : Nat} {c c' : Nat → Nat → K} {δ : K} (hn : 2 ≤ n)
    (h : ∀ i j, i < n → j < n → i ≠ j → c i j ≤ c' i j + δ) {p : List Nat} (hp : IsTour n p) :
    tourCost c p ≤ tourCost c' p + n * δ := by
  have hl := hp.length
  have hne : p ≠ [] := by
    rintro rfl
    simp at hl
    omega
  have h1 := pathCost_shift h (fun i hi => hp.mem.mp hi) hp.nodup
  have h2 := h (p.getLast hne) (p.head hne) (hp.mem.mp (List.getLast_mem hne))
    (hp.mem.mp (List.head_mem hne)) (by
      intro e
      rw [List.getLast_eq_getElem, List.head_eq_getElem] at e
      have := (hp.nodup.getElem_inj_iff).mp e
      omega)
  rw [hl] at h1
  have hk : ((n - 1 : Nat) : K) + 1 = n := by
    have : n - 1 + 1 = n := by omega
    exact_mod_cast congrArg (Nat.cast (R := K)) this
  rw [tourCost_eq c p hne, tourCost_eq c' p hne, ← hk]
  linarith

private theorem shortest_shift {n : Nat} {c c' : Nat → Nat → K} {δ : K} (hn : 2 ≤ n)
    (h : ∀ i j, i < n → j < n → i ≠ j → c i j ≤ c' i j + δ) {p p' : List Nat} (hp : IsShortest n c p)
    (hp' : IsShortest n c' p') : tourCost c p ≤ tourCost c' p' + n * δ :=
  (hp.2 p' hp'.1).trans (tourCost_shift hn h hp'.1)

private theorem edgeSum_shift {n : Nat} {c c' : Nat → Nat → K} {δ : K}
    (h : ∀ i j, i < n → j < n → i ≠ j → c i j ≤ c' i j + δ) {E : List (Nat × Nat)}
    (hE : ∀ e ∈ E, e.1 < n ∧ e.2 < n ∧ e.1 ≠ e.2) : edgeSum c E ≤ edgeSum c' E + E.length * δ := by
  induction E with
  | nil => simp [edgeSum]
  | cons e E ih =>
    have h1 := ih fun x hx => hE x (List.mem_cons_of_mem _ hx)
    obtain ⟨a, b, d⟩ := hE e (by simp)
    have h2 := h _ _ a b d
    simp only [edgeSum, List.map_cons, List.sum_cons, List.length_cons] at h1 ⊢
    push_cast
    linarith

/-- **C109, exact solvers.** The length reported by v0, v1, v2 or v3 for the first instance exceeds the one for
the second instance by at most `δ` for every road of a tour. -/
theorem C109_exact {m m' : Mat (XNum K)} {c c' : Nat → Nat → K} (hm : Rep m c) (hm' : Rep m' c')
    (hd : m'.dim = m.dim) {δ : K} (h : ∀ i j, i < m.dim → j < m.dim → i ≠ j → c i j ≤ c' i j + δ)
    (hn : 2 ≤ m.dim) :
    (∃ w w' p p', naiveSolver m = .ok (fin w, p) ∧ naiveSolver m' = .ok (fin w', p') ∧
      w ≤ w' + m.dim * δ) ∧
    (3 ≤ m.dim → Symm m.dim c → Symm m.dim c' → ∃ w w' p p', firstImprovedSolver m = .ok (fin w, p) ∧
      firstImprovedSolver m' = .ok (fin w', p') ∧ w ≤ w' + m.dim * δ) ∧
    (∃ w w' p p', secondImprovedSolver m = .ok (fin w, p) ∧ secondImprovedSolver m' = .ok (fin w', p') ∧
      w ≤ w' + m.dim * δ) ∧
    (Nonneg m.dim c → Nonneg m.dim c' → ∃ w w' p p', thirdImprovedSolver m = .ok (fin w, p) ∧
      thirdImprovedSolver m' = .ok (fin w', p') ∧ w ≤ w' + m.dim * δ) := by
  have hn' : 2 ≤ m'.dim := hd ▸ hn
  refine ⟨?_, ?_, ?_, ?_⟩
  · obtain ⟨p, a, b⟩ := C03_v0_exact_partial m c hm hn
    obtain ⟨p', a', b'⟩ := C03_v0_exact_partial m' c' hm' hn'
    exact ⟨_, _, p, p', a, a', shortest_shift hn h b (hd ▸ b')⟩
  · intro h3 hs hs'
    obtain ⟨p, a, b, -⟩ := C04_v1_exact_partial m c hm h3 hs
    obtain ⟨p', a', b', -⟩ := C04_v1_exact_partial m' c' hm' (hd ▸ h3) (by rw [hd]; exact hs')
    exact ⟨_, _, p, p', a, a', shortest_shift hn h b (hd ▸ b')⟩
  · obtain ⟨p, a, b⟩ := C05_v2_exact m c hm (by omega)
    obtain ⟨p', a', b'⟩ := C05_v2_exact m' c' hm' (by omega)
    exact ⟨_, _, p, p', a, a', shortest_shift hn h b (hd ▸ b')⟩
  · intro hz hz'
    obtain ⟨p, a, b⟩ := C06_v3_exact m c hm (by omega) hz (by omega)
    obtain ⟨p', a', b'⟩ := C06_v3_exact m' c' hm' (by omega) (by rw [hd]; exact hz') (by omega)
    exact ⟨_, _, p, p', a, a', shortest_shift hn h b (hd ▸ b')⟩

private theorem mst_shift {n : Nat} {c c' : Nat → Nat → K} {δ : K}
    (h : ∀ i j, i < n → j < n → i ≠ j → c i j ≤ c' i j + δ) {ex : List Nat} {w : K}
    (hw : ∀ F, IsSpanningTree (citiesExcept n ex) F → w ≤ edgeSum c F) {E : List (Nat × Nat)}
    (hE : IsSpanningTree (citiesExcept n ex) E) :
    w ≤ edgeSum c' E + ((citiesExcept n ex).length - 1 : Nat) * δ := by
  refine (hw E hE).trans ((edgeSum_shift h fun e he => ?_).trans ?_)
  · obtain ⟨a, b, d⟩ := hE.ends e he
    exact ⟨(mem_citiesExcept.mp a).1, (mem_citiesExcept.mp b).1, d⟩
  · have := hE.count
    rw [show (citiesExcept n ex).length - 1 = E.length by omega]

/-- **C109, spanning trees.** The weight of the spanning tree of the first instance exceeds the one of the
second instance by at most `δ` for every edge of a tree. -/
theorem C109_mst {m m' : Mat (XNum K)} {c c' : Nat → Nat → K} (hm : Rep m c) (hm' : Rep m' c')
    (hd : m'.dim = m.dim) {δ : K} (h : ∀ i j, i < m.dim → j < m.dim → i ≠ j → c i j ≤ c' i j + δ)
    (hn : 1 ≤ m.dim) (hs : Symm m.dim c) (hs' : Symm m.dim c') :
    ∃ g g' w w', primSeq m [] = .ok g ∧ primSeq m' [] = .ok g' ∧ g.undirectedEdgeWeight = fin w ∧
      g'.undirectedEdgeWeight = fin w' ∧ w ≤ w' + (m.dim - 1 : Nat) * δ := by
  have hne : ∀ k, 1 ≤ k → citiesExcept k [] ≠ [] := by
    intro k hk h
    have : 0 ∈ citiesExcept k [] := mem_citiesExcept.mpr ⟨hk, by simp⟩
    rw [h] at this
    simp at this
  obtain ⟨g, w, h1, h2, h3, -, -⟩ := C29_prim_minimum hm hs [] (by simp) (hne _ hn)
  obtain ⟨g', w', h1', h2', -, -, F, h4, h5⟩ := C29_prim_minimum hm'
    (by rw [hd]; exact hs') [] (by simp) (hne _ (hd ▸ hn))
  rw [hd] at h4
  have := mst_shift h h3 h4
  rw [show (citiesExcept m.dim []).length = m.dim by simp [citiesExcept]] at this
  exact ⟨g, g', w, w', h1, h1', h2, h2', by rw [h5]; exact this⟩

/-- **C109, 1-trees.** The 1-tree bound of the first instance exceeds the one of the second instance by at
most `δ` for every edge of a 1-tree. -/
theorem C109_one_tree {m m' : Mat (XNum K)} {c c' : Nat → Nat → K} (hm : Rep m c) (hm' : Rep m' c')
    (hd : m'.dim = m.dim) {δ : K} (h : ∀ i j, i < m.dim → j < m.dim → i ≠ j → c i j ≤ c' i j + δ)
    (hn : 3 ≤ m.dim) (hs : Symm m.dim c) (hs' : Symm m.dim c') :
    ∃ w w', oneTreeLbSeq m = .ok (fin w) ∧ oneTreeLbSeq m' = .ok (fin w') ∧ w ≤ w' + m.dim * δ := by
  have hs'' : Symm m'.dim c' := by rw [hd]; exact hs'
  have hw : ∀ {k : Mat (XNum K)} {d : Nat → Nat → K} {u : Nat} {t E a b}, u < k.dim →
      oneTree k u = .ok t → IsSpanningTree (citiesExcept k.dim [u]) E → a < k.dim → b < k.dim →
      GraphOf k.dim d (E ++ [(u, a), (u, b)]) t →
      oneTreeWeight k u = .ok (fin (edgeSum d E + (d u a + d u b))) := by
    intro k d u t E a b hu ht hE ha hb hG
    unfold oneTreeWeight
    rw [ht, rm_bind_ok, hG.undirected]
    · simp [edgeSum]
    · intro e he
      rcases List.mem_append.mp he with he | he
      · obtain ⟨k1, k2, _⟩ := hE.ends e he
        exact ⟨(mem_citiesExcept.mp k1).1, (mem_citiesExcept.mp k2).1⟩
      · simp only [List.mem_cons, List.not_mem_nil, or_false] at he
        rcases he with rfl | rfl
        · exact ⟨hu, ha⟩
        · exact ⟨hu, hb⟩
  obtain ⟨wt, w, h1, h2, h3⟩ := oneTreeLbSeq_exact hm hs hn
  obtain ⟨wt', w', h1', h2', h3'⟩ := oneTreeLbSeq_exact hm' hs'' (hd ▸ hn)
  refine ⟨w, w', h2, h2', ?_⟩
  obtain ⟨v, hv, rfl⟩ := List.mem_map.mp h3.1
  rw [List.mem_range] at hv
  have hmax : wt' v ≤ w' := h3'.2 _ (List.mem_map.mpr ⟨v, by rw [hd]; simpa using hv, rfl⟩)
  suffices wt v ≤ wt' v + m.dim * δ by linarith
  obtain ⟨t, E, a, b, k1, k2, k3, k4, k5, k6, k7⟩ := oneTree_exact hm hs hn hv
  obtain ⟨t', E', a', b', k1', k2', k3', k4', k5', k6', k7'⟩ :=
    oneTree_exact hm' hs'' (hd ▸ hn) (v := v) (hd ▸ hv)
  have e1 := hw hv k1 k2 k4.1 k4.2.2.1 k7
  have e2 := hw (k := m') (hd ▸ hv) k1' k2' k4'.1 k4'.2.2.1 k7'
  rw [(h1 v hv).1] at e1
  rw [(h1' v (hd ▸ hv)).1] at e2
  rw [fin.inj (Except.ok.inj e1), fin.inj (Except.ok.inj e2)]
  rw [hd] at k2' k4'
  have t1 := mst_shift h k3 k2'
  obtain ⟨ha, hav, hb, hbv, hab⟩ := k4'
  have t2 : c v a + c v b ≤ c v a' + c v b' := by
    by_cases e : a' = a
    · have := k6 b' hb hbv (fun h => hab (e.trans h.symm))
      rw [e]
      linarith
    · have i1 := k6 a' ha hav e
      have i2 := k5 b' hb hbv
      linarith
  have t3 := h v a' hv ha (Ne.symm hav)
  have t4 := h v b' hv hb (Ne.symm hbv)
  have hcount := k2'.count
  have hlen : ((citiesExcept m.dim [v]).length - 1 : Nat) + 2 = m.dim := by
    have : (citiesExcept m.dim [v]).length + 1 = m.dim := by
      have := length_citiesExcept_start (n := m.dim) (ex := []) (start := v) hv (by simp)
      have e1 : (citiesExcept m.dim []).length = m.dim := by simp [citiesExcept]
      have e2 : remaining m.dim [] [v] = citiesExcept m.dim [v] := by
        simp [remaining, citiesExcept]
      rw [e1, e2] at this
      exact this
    omega
  have hk : (((citiesExcept m.dim [v]).length - 1 : Nat) : K) + 2 = m.dim := by
    exact_mod_cast congrArg (Nat.cast (R := K)) hlen
  rw [← hk]
  linarith

/-- four cities (a metric): one road becomes longer -/
def nnRoad (w : ℚ) : Nat → Nat → ℚ := ofRowsC
  [[0, w, 3, 4], [w, 0, 2, 3], [3, 2, 0, 5], [4, 3, 5, 0]]

/-- **C109, negation for nearest neighbour.** A longer road can make the answer better, for all
shuffles of the start cities: 13 becomes 12. -/
theorem C109_nearest_neighbour_not :
    (∀ i j, i < 4 → j < 4 → nnRoad 2 i j ≤ nnRoad 3 i j) ∧ Metric 4 (nnRoad 2) ∧ Metric 4 (nnRoad 3) ∧
    ∀ xs xs' : List Nat, xs.Perm (List.range 4) → xs'.Perm (List.range 4) → ∃ p p',
      nearestNeighbourSeq xs (Mat.ofFun 4 (nnRoad 2)) = .ok (fin 13, p) ∧
      nearestNeighbourSeq xs' (Mat.ofFun 4 (nnRoad 3)) = .ok (fin 12, p') := by
  have metric : ∀ w : ℚ, (∀ i < 4, nnRoad w i i = 0) → (∀ i < 4, ∀ j < 4, nnRoad w i j = nnRoad w j i) →
      (∀ i < 4, ∀ j < 4, ∀ k < 4, nnRoad w i k ≤ nnRoad w i j + nnRoad w j k) → Metric 4 (nnRoad w) :=
    fun w a b d => ⟨fun i hi => a i hi, fun i j hi hj => b i hi j hj, fun i j k hi hj hk => d i hi k hk j hj⟩
  have hle : ∀ i < 4, ∀ j < 4, nnRoad 2 i j ≤ nnRoad 3 i j := by decide +kernel
  refine ⟨fun i j hi hj => hle i hi j hj,
    metric 2 (by decide +kernel) (by decide +kernel) (by decide +kernel),
    metric 3 (by decide +kernel) (by decide +kernel) (by decide +kernel), ?_⟩
  intro xs xs' hx hx'
  have best : ∀ (w v : ℚ) (p : List Nat),
      nearestNeighbourSeq (List.range 4) (Mat.ofFun 4 (nnRoad w)) = .ok (fin v, p) →
      ∀ xs : List Nat, xs.Perm (List.range 4) → ∃ q,
        nearestNeighbourSeq xs (Mat.ofFun 4 (nnRoad w)) = .ok (fin v, q) := by
    intro w v p hp xs hx
    obtain ⟨u, -, -, h⟩ := C39_nearest_neighbour (rep_ofFun 4 (nnRoad w)) (by show 1 ≤ 4; decide)
    obtain ⟨q, a, -⟩ := h (List.range 4) (List.Perm.refl _)
    obtain ⟨q', b, -⟩ := h xs hx
    rw [hp] at a
    rw [fin.inj (congrArg Prod.fst (Except.ok.inj a))]
    exact ⟨q', b⟩
  obtain ⟨p, h⟩ := best 2 13 [0, 1, 2, 3] (by decide +kernel) xs hx
  obtain ⟨p', h'⟩ := best 3 12 [1, 2, 0, 3] (by decide +kernel) xs' hx'
  exact ⟨p, p', h, h'⟩

/-- four cities (a metric): one road becomes longer -/
def chRoad (w : ℚ) : Nat → Nat → ℚ := ofRowsC
  [[0, 2, 3, w], [2, 0, 5, 5], [3, 5, 0, 4], [w, 5, 4, 0]]

/-- **C109, negation for Christofides.** The same for Christofides' algorithm with the same shuffles
(here: none): 15 becomes 14. -/
theorem C109_christofides_not :
    (∀ i j, i < 4 → j < 4 → chRoad 4 i j ≤ chRoad 5 i j) ∧ (Mat.ofFun 4 (chRoad 4)).isMetric = true ∧
    (Mat.ofFun 4 (chRoad 5)).isMetric = true ∧
    (∀ dbg, christofidesSeq dbg (Mat.ofFun 4 (chRoad 4)) exRng = .ok (fin 15, [0, 1, 2, 3, 0])) ∧
    ∀ dbg, christofidesSeq dbg (Mat.ofFun 4 (chRoad 5)) exRng = .ok (fin 14, [0, 1, 3, 2, 0]) := by
  have hle : ∀ i < 4, ∀ j < 4, chRoad 4 i j ≤ chRoad 5 i j := by decide +kernel
  exact ⟨fun i j hi hj => hle i hi j hj, by decide +kernel, by decide +kernel, by decide +kernel,
    by decide +kernel⟩

/-- six cities (a metric): one road becomes longer -/
def v5Road (w : ℚ) : Nat → Nat → ℚ := ofRowsC
  [[0, w, 2, 3, 3, 3], [w, 0, 4, 5, 5, 4], [2, 4, 0, 3, 4, 3], [3, 5, 3, 0, 3, 3],
   [3, 5, 4, 3, 0, 2], [3, 4, 3, 3, 2, 0]]

/-- six cities with short roads -/
def v4Short : Nat → Nat → ℚ := ofRowsC
  [[0, 1, 5, 2, 9, 1], [1, 0, 1, 1, 1, 2], [5, 1, 0, 1, 1, 5], [2, 1, 1, 0, 9, 9],
   [9, 1, 1, 9, 0, 9], [1, 2, 5, 9, 9, 0]]

/-- the same cities with longer roads -/
def v4Long : Nat → Nat → ℚ := ofRowsC
  [[0, 5, 5, 2, 13, 2], [5, 0, 2, 1, 1, 2], [5, 2, 0, 1, 1, 9], [2, 1, 1, 0, 9, 17],
   [13, 1, 1, 9, 0, 10], [2, 2, 9, 17, 10, 0]]

/-- **C109, negation for v4 and v5.** The same for the solvers that cut off too much: with longer
roads v5 reports 18 instead of 19, and v4 reports 9 instead of 11. -/
theorem C109_v4_v5_not :
    (∀ i < 6, ∀ j < 6, v5Road 4 i j ≤ v5Road 5 i j) ∧ (Mat.ofFun 6 (v5Road 4)).isMetric = true ∧
    (Mat.ofFun 6 (v5Road 5)).isMetric = true ∧
    fifthImprovedSolver (Mat.ofFun 6 (v5Road 4)) = .ok (fin 19, [0, 1, 2, 3, 4, 5]) ∧
    fifthImprovedSolver (Mat.ofFun 6 (v5Road 5)) = .ok (fin 18, [0, 2, 1, 5, 4, 3]) ∧
    (∀ i < 6, ∀ j < 6, v4Short i j ≤ v4Long i j) ∧
    fourthImprovedSolver (Mat.ofFun 6 v4Short) = .ok (fin 11, [0, 3, 1, 4, 2, 5]) ∧
    fourthImprovedSolver (Mat.ofFun 6 v4Long) = .ok (fin 9, [0, 3, 2, 4, 1, 5]) := by
  refine ⟨by decide +kernel, by decide +kernel, by decide +kernel, by decide +kernel, by decide +kernel,
    by decide +kernel, by decide +kernel, by decide +kernel⟩

/-- the hypotheses of the theorems: a longer road; distances that are rounded to integers -/
example : Rep (Mat.ofFun 4 (chRoad 4)) (chRoad 4) ∧ Rep (Mat.ofFun 4 (chRoad 5)) (chRoad 5) ∧
    (∀ i < 4, ∀ j < 4, chRoad 4 i j ≤ chRoad 5 i j + 0) ∧
    (∀ i < 4, ∀ j < 4, chRoad (9 / 2) i j ≤ chRoad 4 i j + 1 / 2) :=
  ⟨rep_ofFun _ _, rep_ofFun _ _, by decide +kernel, by decide +kernel⟩

end Walky.Props
