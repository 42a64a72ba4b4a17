import Verif.Props.Exact
import Verif.Props.Mst
import Verif.Props.OneTree
import Verif.Props.NearestNeighbour
import Verif.Props.Ratio
import Verif.Lemmas.Renumber
import Verif.Lemmas.Shortcut

/-!
# Leaving out cities (C114)

The second instance consists of some of the cities of the first one, numbered in any way: city `i` of the
second instance is city `f i` of the first one. The distances are unchanged.
-/

set_option linter.unusedSectionVars false

namespace Walky.Props

open XNum Spec

variable {K : Type} [Field K] [LinearOrder K] [IsStrictOrderedRing K]

/-- `k` of the `n` cities are kept, and city `f i` gets the number `i`. -/
structure Keeps (k n : Nat) (f : Nat → Nat) : Prop where
  lt : ∀ i, i < k → f i < n
  inj : ∀ i j, i < k → j < k → f i = f j → i = j

theorem Keeps.le {k n : Nat} {f : Nat → Nat} (h : Keeps k n f) : k ≤ n := by
  have h1 : ((List.range k).map f).Nodup := by
    refine List.Nodup.map_on ?_ List.nodup_range
    intro i hi j hj e
    exact h.inj i j (List.mem_range.mp hi) (List.mem_range.mp hj) e
  have h2 : ((List.range k).map f) ⊆ List.range n := by
    intro x hx
    obtain ⟨i, hi, rfl⟩ := List.mem_map.mp hx
    exact List.mem_range.mpr (h.lt i (List.mem_range.mp hi))
  have := (h1.subperm h2).length_le
  simpa using this

private theorem Keeps.metric {k n : Nat} {f : Nat → Nat} (h : Keeps k n f) {c c' : Nat → Nat → K}
    (hc : ∀ i j, i < k → j < k → c' i j = c (f i) (f j)) (hd : Metric n c) : Metric k c' where
  diag i hi := by rw [hc i i hi hi]; exact hd.diag _ (h.lt i hi)
  symm i j hi hj := by rw [hc i j hi hj, hc j i hj hi]; exact hd.symm _ _ (h.lt i hi) (h.lt j hj)
  tri i j l hi hj hl := by
    rw [hc i j hi hj, hc i l hi hl, hc l j hl hj]
    exact hd.tri _ _ _ (h.lt i hi) (h.lt j hj) (h.lt l hl)

/-- every tour of all the cities has a shortcut through the cities that are kept -/
private theorem Keeps.shortcut {k n : Nat} {f : Nat → Nat} (h : Keeps k n f) (hk : 1 ≤ k)
    {c c' : Nat → Nat → K} (hc : ∀ i j, i < k → j < k → c' i j = c (f i) (f j)) (hd : Metric n c)
    {q : List Nat} (hq : IsTour n q) : ∃ p, IsTour k p ∧ tourCost c' p ≤ tourCost c q := by
  classical
  have h0 : f 0 < n := h.lt 0 hk
  obtain ⟨l, r, rfl⟩ := List.append_of_mem (hq.mem_iff.mpr (List.mem_range.mpr h0))
  have hq' : IsTour n (f 0 :: r ++ l) := (List.perm_append_comm).symm.trans hq
  rw [tourCost_append_comm]
  let S := (r ++ l).filter (fun x => decide (∃ i, i < k ∧ f i = x))
  let g : Nat → Nat := fun x => if hx : ∃ i, i < k ∧ f i = x then hx.choose else 0
  have hg : ∀ i, i < k → g (f i) = i := by
    intro i hi
    have hx : ∃ j, j < k ∧ f j = f i := ⟨i, hi, rfl⟩
    have : g (f i) = hx.choose := dif_pos hx
    rw [this]
    exact h.inj _ _ hx.choose_spec.1 hi hx.choose_spec.2
  have hfS : ∀ x ∈ f 0 :: S, ∃ i, i < k ∧ f i = x := by
    intro x hx
    rcases List.mem_cons.mp hx with rfl | hx
    · exact ⟨0, hk, rfl⟩
    · simpa using (List.mem_filter.mp hx).2
  have hnd : (f 0 :: S).Nodup := by
    refine List.Nodup.sublist ?_ hq'.nodup
    exact List.Sublist.cons_cons _ List.filter_sublist
  have ht : IsTour k ((f 0 :: S).map g) := by
    refine (List.perm_ext_iff_of_nodup ?_ List.nodup_range).mpr ?_
    · refine List.Nodup.map_on ?_ hnd
      intro x hx y hy e
      obtain ⟨i, hi, rfl⟩ := hfS x hx
      obtain ⟨j, hj, rfl⟩ := hfS y hy
      rw [hg i hi, hg j hj] at e
      rw [e]
    · intro x
      rw [List.mem_map, List.mem_range]
      constructor
      · rintro ⟨y, hy, rfl⟩
        obtain ⟨i, hi, rfl⟩ := hfS y hy
        rw [hg i hi]
        exact hi
      · intro hx
        refine ⟨f x, ?_, hg x hx⟩
        have hm : f x ∈ f 0 :: r ++ l := hq'.mem.mpr (h.lt x hx)
        rcases List.mem_cons.mp (by simpa using hm : f x ∈ f 0 :: (r ++ l)) with e | e
        · rw [e]; simp
        · exact List.mem_cons_of_mem _ (List.mem_filter.mpr ⟨e, by simpa using ⟨x, hx, rfl⟩⟩)
  refine ⟨_, ht, ?_⟩
  have hback : ((f 0 :: S).map g).map f = f 0 :: S := by
    rw [List.map_map]
    conv_rhs => rw [← List.map_id (f 0 :: S)]
    refine List.map_congr_left fun x hx => ?_
    obtain ⟨i, hi, rfl⟩ := hfS x hx
    simp [hg i hi]
  rw [← tourCost_renumber hc ht, hback]
  show pathCost c (f 0 :: (S ++ [f 0])) ≤ pathCost c (f 0 :: ((r ++ l) ++ [f 0]))
  refine pathCost_sublist hd (List.filter_sublist.append (List.Sublist.refl _)) _ h0 ?_
  intro x hx
  rcases List.mem_append.mp hx with e | e
  · exact hq'.mem.mp (by simpa using Or.inr (by simpa using e))
  · simp at e
    omega

private theorem Keeps.shortest {k n : Nat} {f : Nat → Nat} (h : Keeps k n f) (hk : 1 ≤ k)
    {c c' : Nat → Nat → K} (hc : ∀ i j, i < k → j < k → c' i j = c (f i) (f j)) (hd : Metric n c)
    {p q : List Nat} (hp : IsShortest k c' p) (hq : IsTour n q) : tourCost c' p ≤ tourCost c q := by
  obtain ⟨p', a, b⟩ := h.shortcut hk hc hd hq
  exact (hp.2 p' a).trans b

/-- **C114, exact solvers.** With distances that satisfy the triangle inequality, v0, v1, v2 and v3 never
report a longer tour when cities are left out. -/
theorem C114_exact {m m' : Mat (XNum K)} {c c' : Nat → Nat → K} (hm : Rep m c) (hm' : Rep m' c')
    {f : Nat → Nat} (hf : Keeps m'.dim m.dim f)
    (hc : ∀ i j, i < m'.dim → j < m'.dim → c' i j = c (f i) (f j)) (hd : Metric m.dim c) :
    (2 ≤ m'.dim → ∃ w w' p p', naiveSolver m = .ok (fin w, p) ∧ naiveSolver m' = .ok (fin w', p') ∧
      w' ≤ w) ∧
    (3 ≤ m'.dim → ∃ w w' p p', firstImprovedSolver m = .ok (fin w, p) ∧
      firstImprovedSolver m' = .ok (fin w', p') ∧ w' ≤ w) ∧
    (1 ≤ m'.dim → ∃ w w' p p', secondImprovedSolver m = .ok (fin w, p) ∧
      secondImprovedSolver m' = .ok (fin w', p') ∧ w' ≤ w) ∧
    (1 ≤ m'.dim → ∃ w w' p p', thirdImprovedSolver m = .ok (fin w, p) ∧
      thirdImprovedSolver m' = .ok (fin w', p') ∧ w' ≤ w) := by
  have hle := hf.le
  have hd' := hf.metric hc hd
  have hz : Nonneg m.dim c := fun i j hi hj _ => hd.nonneg hi hj
  have hz' : Nonneg m'.dim c' := fun i j hi hj _ => hd'.nonneg hi hj
  refine ⟨?_, ?_, ?_, ?_⟩
  · intro hk
    obtain ⟨p, a, b⟩ := C03_v0_exact_partial m c hm (by omega)
    obtain ⟨p', a', b'⟩ := C03_v0_exact_partial m' c' hm' hk
    exact ⟨_, _, p, p', a, a', hf.shortest (by omega) hc hd b' b.1⟩
  · intro hk
    obtain ⟨p, a, b, -⟩ := C04_v1_exact_partial m c hm (by omega) hd.symm
    obtain ⟨p', a', b', -⟩ := C04_v1_exact_partial m' c' hm' hk hd'.symm
    exact ⟨_, _, p, p', a, a', hf.shortest (by omega) hc hd b' b.1⟩
  · intro hk
    obtain ⟨p, a, b⟩ := C05_v2_exact m c hm (by omega)
    obtain ⟨p', a', b'⟩ := C05_v2_exact m' c' hm' hk
    exact ⟨_, _, p, p', a, a', hf.shortest (by omega) hc hd b' b.1⟩
  · intro hk
    obtain ⟨p, a, b⟩ := C06_v3_exact m c hm (by omega) hz
      (fun h => by rw [hd.diag 0 (by omega)])
    obtain ⟨p', a', b'⟩ := C06_v3_exact m' c' hm' hk hz'
      (fun h => by rw [hd'.diag 0 (by omega)])
    exact ⟨_, _, p, p', a, a', hf.shortest (by omega) hc hd b' b.1⟩

/-- **C114, bounds.** Leaving out cities at most doubles the weight of the spanning tree and the 1-tree
bound. -/
theorem C114_bounds {m m' : Mat (XNum K)} {c c' : Nat → Nat → K} (hm : Rep m c) (hm' : Rep m' c')
    {f : Nat → Nat} (hf : Keeps m'.dim m.dim f)
    (hc : ∀ i j, i < m'.dim → j < m'.dim → c' i j = c (f i) (f j)) (hd : Metric m.dim c) :
    (1 ≤ m'.dim → ∃ g g' w w', primSeq m [] = .ok g ∧ primSeq m' [] = .ok g' ∧
      g.undirectedEdgeWeight = fin w ∧ g'.undirectedEdgeWeight = fin w' ∧ w' ≤ 2 * w) ∧
    (3 ≤ m'.dim → ∃ w w', oneTreeLbSeq m = .ok (fin w) ∧ oneTreeLbSeq m' = .ok (fin w') ∧
      w' ≤ 2 * w) := by
  have hle := hf.le
  have hd' := hf.metric hc hd
  have hz' : Nonneg m'.dim c' := fun i j hi hj _ => hd'.nonneg hi hj
  constructor
  · intro hk
    obtain ⟨⟨w, ⟨q, hq, hqw⟩, ⟨g, a, b⟩, -⟩, -⟩ := C82_bounds_half hm (by omega) hd
    obtain ⟨g', w', a', b', h'⟩ := C32_mst_lower_bound hm' hd'.symm hz'
      (fun _ => by rw [hd'.diag 0 (by omega)]) hk
    obtain ⟨p, hp, hpq⟩ := hf.shortcut hk hc hd hq
    exact ⟨g, g', w, w', a, a', b, b', (h' p hp).trans (hpq.trans hqw)⟩
  · intro hk
    obtain ⟨w, ⟨q, hq, hqw⟩, a, -⟩ := (C82_bounds_half hm (by omega) hd).2 (by omega)
    obtain ⟨w', a', h'⟩ := C34_one_tree_bound_partial hm' hd'.symm hk
    obtain ⟨p, hp, hpq⟩ := hf.shortcut (by omega) hc hd hq
    exact ⟨w, w', a, a', (h' p hp).trans (hpq.trans hqw)⟩

private theorem metric_of {n : Nat} {c : Nat → Nat → ℚ} (a : ∀ i < n, c i i = 0)
    (b : ∀ i < n, ∀ j < n, c i j = c j i) (d : ∀ i < n, ∀ j < n, ∀ k < n, c i j ≤ c i k + c k j) :
    Metric n c :=
  ⟨fun i hi => a i hi, fun i j hi hj => b i hi j hj, fun i j k hi hj hk => d i hi j hj k hk⟩

/-- three cities far apart and one in the middle -/
def starRoads : Nat → Nat → ℚ := ofRowsC [[0, 2, 2, 1], [2, 0, 2, 1], [2, 2, 0, 1], [1, 1, 1, 0]]

/-- **C114, negation for spanning trees.** Leaving out a city can make the spanning tree heavier. -/
theorem C114_mst_not : Metric 4 starRoads ∧
    (∃ g, primSeq (Mat.ofFun 4 starRoads) [] = .ok g ∧ g.undirectedEdgeWeight = fin 3) ∧
    ∃ g, primSeq (Mat.ofFun 3 starRoads) [] = .ok g ∧ g.undirectedEdgeWeight = fin 4 := by
  have weight : ∀ (n : Nat) (v : ℚ),
      (primSeq (Mat.ofFun n starRoads) []).map (·.undirectedEdgeWeight) = .ok (fin v) →
      ∃ g, primSeq (Mat.ofFun n starRoads) [] = .ok g ∧ g.undirectedEdgeWeight = fin v := by
    intro n v hv
    cases h : primSeq (Mat.ofFun n starRoads) [] with
    | error e => rw [h] at hv; cases hv
    | ok g => rw [h] at hv; exact ⟨g, rfl, Except.ok.inj hv⟩
  exact ⟨metric_of (by decide +kernel) (by decide +kernel) (by decide +kernel),
    weight 4 3 (by decide +kernel), weight 3 4 (by decide +kernel)⟩

/-- five cities; the last one will be left out -/
def treeRoads : Nat → Nat → ℚ := ofRowsC
  [[0, 4, 3, 4, 2], [4, 0, 4, 3, 3], [3, 4, 0, 4, 1], [4, 3, 4, 0, 3], [2, 3, 1, 3, 0]]

/-- **C114, negation for 1-trees.** Leaving out a city can increase the 1-tree bound. -/
theorem C114_one_tree_not : Metric 5 treeRoads ∧
    oneTreeLbSeq (Mat.ofFun 5 treeRoads) = .ok (fin 13) ∧
    oneTreeLbSeq (Mat.ofFun 4 treeRoads) = .ok (fin 14) :=
  ⟨metric_of (by decide +kernel) (by decide +kernel) (by decide +kernel), by decide +kernel,
    by decide +kernel⟩

/-- the cities 4, 2 and 0 of the five, in this order: they are kept, and the answers are 14 and 6 -/
example : Keeps 3 5 (fun i => 4 - 2 * i) ∧
    (naiveSolver (Mat.ofFun 5 treeRoads)).map (·.1) = .ok (fin 14) ∧
    (naiveSolver (Mat.ofFun 3 fun i j => treeRoads (4 - 2 * i) (4 - 2 * j))).map (·.1) = .ok (fin 6) :=
  ⟨⟨fun i _ => by omega, fun i j hi hj h => by omega⟩, by decide +kernel, by decide +kernel⟩

/-- five cities; the last one will be left out -/
def greedyRoads : Nat → Nat → ℚ := ofRowsC
  [[0, 3, 2, 3, 1], [3, 0, 2, 4, 2], [2, 2, 0, 2, 3], [3, 4, 2, 0, 4], [1, 2, 3, 4, 0]]

/-- **C114, negation for nearest neighbour.** Leaving out a city can make the answer worse, for all shuffles
of the start cities. -/
theorem C114_nearest_neighbour_not : Metric 5 greedyRoads ∧
    ∀ xs xs' : List Nat, xs.Perm (List.range 5) → xs'.Perm (List.range 4) → ∃ p p',
      nearestNeighbourSeq xs (Mat.ofFun 5 greedyRoads) = .ok (fin 10, p) ∧
      nearestNeighbourSeq xs' (Mat.ofFun 4 greedyRoads) = .ok (fin 11, p') := by
  refine ⟨metric_of (by decide +kernel) (by decide +kernel) (by decide +kernel), ?_⟩
  intro xs xs' hx hx'
  have best : ∀ (n : Nat) (v : ℚ), 1 ≤ n →
      (nearestNeighbourSeq (List.range n) (Mat.ofFun n greedyRoads)).map (·.1) = .ok (fin v) →
      ∀ xs : List Nat, xs.Perm (List.range n) → ∃ q,
        nearestNeighbourSeq xs (Mat.ofFun n greedyRoads) = .ok (fin v, q) := by
    intro n v hn hv xs hx
    obtain ⟨u, -, -, h⟩ := C39_nearest_neighbour (rep_ofFun n greedyRoads) hn
    obtain ⟨q, a, -⟩ := h (List.range n) (List.Perm.refl _)
    obtain ⟨q', b, -⟩ := h xs hx
    rw [a] at hv
    rw [← fin.inj (Except.ok.inj hv)]
    exact ⟨q', b⟩
  obtain ⟨p, h⟩ := best 5 10 (by decide) (by decide +kernel) xs hx
  obtain ⟨p', h'⟩ := best 4 11 (by decide) (by decide +kernel) xs' hx'
  exact ⟨p, p', h, h'⟩

/-- a ring of four short roads with two long diagonals -/
def detourRoads : Nat → Nat → ℚ := ofRowsC
  [[0, 1, 9, 1], [1, 0, 1, 9], [9, 1, 0, 1], [1, 9, 1, 0]]

/-- **C114, negation without the triangle inequality.** Leaving out a city can make the shortest tour longer. -/
theorem C114_no_triangle_not :
    (naiveSolver (Mat.ofFun 4 detourRoads)).map (·.1) = .ok (fin 4) ∧
    (naiveSolver (Mat.ofFun 3 detourRoads)).map (·.1) = .ok (fin 11) ∧
    (thirdImprovedSolver (Mat.ofFun 4 detourRoads)).map (·.1) = .ok (fin 4) ∧
    (thirdImprovedSolver (Mat.ofFun 3 detourRoads)).map (·.1) = .ok (fin 11) := by
  refine ⟨?_, ?_, ?_, ?_⟩ <;> decide +kernel

end Walky.Props
