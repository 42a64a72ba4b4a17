import Verif.Lemmas.Renumber
import Verif.Lemmas.PythonNN
import Verif.Props.Permutation
import Verif.Props.Exact
import Verif.Props.Mst
import Verif.Props.OneTree
import Verif.Props.NearestNeighbour
import Verif.Props.ExactFactor

/-!
# The numbering of the cities (C107)

Two instances that differ only in the order in which the cities are listed: city `i` of the second one
is city `f i` of the first one.
-/

set_option linter.unusedSectionVars false

namespace Walky.Props

open XNum Spec

variable {K : Type} [Field K] [LinearOrder K] [IsStrictOrderedRing K]

/-- **C107, v0 – v3.** The exact solvers v0, v1, v2, v3 report the same length for both instances, and
the tour of the second one, written in the numbers of the first one, is a shortest tour there
(v0: at least 2 cities, v1: at least 3 cities and symmetric costs, v3: no negative costs). -/
theorem C107_exact {m m' : Mat (XNum K)} {c c' : Nat → Nat → K} (hm : Rep m c) (hm' : Rep m' c')
    (hd : m'.dim = m.dim) {f : Nat → Nat} (hf : Renumber m.dim f)
    (hc : ∀ i j, i < m.dim → j < m.dim → c' i j = c (f i) (f j)) (hn : 1 ≤ m.dim) :
    (2 ≤ m.dim → ∃ w p p', naiveSolver m = .ok (fin w, p) ∧ naiveSolver m' = .ok (fin w, p') ∧
      IsShortest m.dim c p ∧ IsShortest m.dim c (p'.map f)) ∧
    (3 ≤ m.dim → Symm m.dim c → ∃ w p p', firstImprovedSolver m = .ok (fin w, p) ∧
      firstImprovedSolver m' = .ok (fin w, p') ∧
      IsShortest m.dim c p ∧ IsShortest m.dim c (p'.map f)) ∧
    (∃ w p p', secondImprovedSolver m = .ok (fin w, p) ∧ secondImprovedSolver m' = .ok (fin w, p') ∧
      IsShortest m.dim c p ∧ IsShortest m.dim c (p'.map f)) ∧
    (Nonneg m.dim c → (m.dim = 1 → 0 ≤ c 0 0) → ∃ w p p', thirdImprovedSolver m = .ok (fin w, p) ∧
      thirdImprovedSolver m' = .ok (fin w, p') ∧
      IsShortest m.dim c p ∧ IsShortest m.dim c (p'.map f)) := by
  have fin' : ∀ {r r' : RM (Solution (XNum K))},
      (∃ p, r = .ok (fin (tourCost c p), p) ∧ IsShortest m.dim c p) →
      (∃ p, r' = .ok (fin (tourCost c' p), p) ∧ IsShortest m'.dim c' p) →
      ∃ w p p', r = .ok (fin w, p) ∧ r' = .ok (fin w, p') ∧
        IsShortest m.dim c p ∧ IsShortest m.dim c (p'.map f) := by
    rintro r r' ⟨p, h1, h2⟩ ⟨p', h1', h2'⟩
    rw [hd] at h2'
    obtain ⟨h3, h4⟩ := shortest_renumber hf hc h2 h2'
    exact ⟨_, p, p', h1, by rw [h1', h3], h2, h4⟩
  refine ⟨fun h => fin' (C03_v0_exact_partial m c hm h) (C03_v0_exact_partial m' c' hm' (hd ▸ h)),
    fun h hs => fin' ?_ ?_, fin' (C05_v2_exact m c hm hn) (C05_v2_exact m' c' hm' (hd ▸ hn)),
    fun h h1 => fin' (C06_v3_exact m c hm hn h h1) (C06_v3_exact m' c' hm' (hd ▸ hn) ?_ ?_)⟩
  · obtain ⟨p, a, b, -⟩ := C04_v1_exact_partial m c hm h hs
    exact ⟨p, a, b⟩
  · obtain ⟨p, a, b, -⟩ := C04_v1_exact_partial m' c' hm' (hd ▸ h) (by
      rw [hd]
      intro i j hi hj
      rw [hc i j hi hj, hc j i hj hi, hs _ _ (hf.lt i hi) (hf.lt j hj)])
    exact ⟨p, a, b⟩
  · rw [hd]
    intro i j hi hj hij
    rw [hc i j hi hj]
    exact h _ _ (hf.lt i hi) (hf.lt j hj) (fun e => hij (hf.inj i j hi hj e))
  · rw [hd]
    intro e
    rw [hc 0 0 (by omega) (by omega)]
    have : f 0 = 0 := by
      have := hf.lt 0 (by omega)
      omega
    rw [this]
    exact h1 e

private theorem symm' {n : Nat} {c c' : Nat → Nat → K} {f : Nat → Nat} (hf : Renumber n f)
    (hc : ∀ i j, i < n → j < n → c' i j = c (f i) (f j)) (hs : Symm n c) : Symm n c' := by
  intro i j hi hj
  rw [hc i j hi hj, hc j i hj hi, hs _ _ (hf.lt i hi) (hf.lt j hj)]

/-- **C107, spanning trees.** The minimum spanning tree bound is the same for both instances. -/
theorem C107_mst {m m' : Mat (XNum K)} {c c' : Nat → Nat → K} (hm : Rep m c) (hm' : Rep m' c')
    (hd : m'.dim = m.dim) {f : Nat → Nat} (hf : Renumber m.dim f)
    (hc : ∀ i j, i < m.dim → j < m.dim → c' i j = c (f i) (f j)) (hn : 1 ≤ m.dim)
    (hsym : Symm m.dim c) :
    ∃ g g' w, primSeq m [] = .ok g ∧ primSeq m' [] = .ok g' ∧ g.undirectedEdgeWeight = fin w ∧
      g'.undirectedEdgeWeight = fin w := by
  have hne : ∀ k, 1 ≤ k → citiesExcept k [] ≠ [] := by
    intro k hk h
    have : 0 ∈ citiesExcept k [] := mem_citiesExcept.mpr ⟨hk, by simp⟩
    rw [h] at this
    simp at this
  obtain ⟨g, w, h1, h2, h3, -, F, h4, h5⟩ := C29_prim_minimum hm hsym [] (by simp) (hne _ hn)
  obtain ⟨g', w', h1', h2', h3', -, F', h4', h5'⟩ := C29_prim_minimum hm'
    (by rw [hd]; exact symm' hf hc hsym) [] (by simp) (hne _ (hd ▸ hn))
  rw [hd] at h3' h4'
  have := mst_renumber hf hc (ex := []) (by simp) (E := F) (E' := F') h4
    (fun G hG => h5 ▸ h3 G hG) h4' (fun G hG => h5' ▸ h3' G hG)
  refine ⟨g, g', w, h1, h1', h2, ?_⟩
  rw [h2', h5', ← this, h5]

/-- **C107, 1-trees.** The 1-tree bound is the same for both instances. -/
theorem C107_one_tree {m m' : Mat (XNum K)} {c c' : Nat → Nat → K} (hm : Rep m c) (hm' : Rep m' c')
    (hd : m'.dim = m.dim) {f : Nat → Nat} (hf : Renumber m.dim f)
    (hc : ∀ i j, i < m.dim → j < m.dim → c' i j = c (f i) (f j)) (hn : 3 ≤ m.dim)
    (hsym : Symm m.dim c) :
    ∃ w, oneTreeLbSeq m = .ok (fin w) ∧ oneTreeLbSeq m' = .ok (fin w) := by
  have hsym' : Symm m'.dim c' := by rw [hd]; exact symm' hf hc hsym
  obtain ⟨g, hg, hfg, hgf⟩ := hf.inverse
  -- the 1-tree at `v` weighs as much as the one at `f v`
  have key : ∀ v, v < m.dim → ∃ x, oneTreeWeight m (f v) = .ok (fin x) ∧
      oneTreeWeight m' v = .ok (fin x) := by
    intro v hv
    obtain ⟨t, E, a, b, h1, h2, h3, h4, h5, h6, h7⟩ := oneTree_exact hm hsym hn (hf.lt v hv)
    obtain ⟨t', E', a', b', h1', h2', h3', h4', h5', h6', h7'⟩ :=
      oneTree_exact hm' hsym' (hd ▸ hn) (v := v) (hd ▸ hv)
    rw [hd] at h2' h3' h4' h5' h6'
    have hw : ∀ {k : Mat (XNum K)} {d : Nat → Nat → K} {u : Nat} {t E a b}, u < k.dim →
        oneTree k u = .ok t → IsSpanningTree (citiesExcept k.dim [u]) E → a < k.dim → b < k.dim →
        GraphOf k.dim d (E ++ [(u, a), (u, b)]) t →
        oneTreeWeight k u = .ok (fin (edgeSum d E + (d u a + d u b))) := by
      intro k d u t E a b hu ht hE ha hb hG
      unfold oneTreeWeight
      rw [ht, rm_bind_ok, hG.undirected]
      · simp [edgeSum]
      · intro e he
        rcases List.mem_append.mp he with he | he
        · obtain ⟨k1, k2, _⟩ := hE.ends e he
          exact ⟨(mem_citiesExcept.mp k1).1, (mem_citiesExcept.mp k2).1⟩
        · simp only [List.mem_cons, List.not_mem_nil, or_false] at he
          rcases he with rfl | rfl
          · exact ⟨hu, ha⟩
          · exact ⟨hu, hb⟩
    have e1 := hw (hf.lt v hv) h1 h2 h4.1 h4.2.2.1 h7
    have e2 := hw (k := m') (hd ▸ hv) h1' (by rw [hd]; exact h2') (hd ▸ h4'.1) (hd ▸ h4'.2.2.1) h7'
    have t1 := mst_renumber hf hc (ex := [v]) (by simpa using hv) h2 h3 h2' h3'
    have t2 := two_smallest hf hc hv h5 h6 h4'
    have hback := renumber_back hc hg hfg
    have t3 : c' v a' + c' v b' ≤ c (f v) a + c (f v) b := by
      have := two_smallest hg hback (v := f v) (hf.lt v hv) (a := a') (b := b') (a' := a) (b' := b)
        (by rw [hgf v hv]; exact h5') (by rw [hgf v hv]; exact h6') h4
      rwa [hgf v hv] at this
    refine ⟨_, e1, ?_⟩
    rw [e2, t1, le_antisymm t2 t3]
  obtain ⟨wt, w, h1, h2, h3⟩ := oneTreeLbSeq_exact hm hsym hn
  obtain ⟨wt', w', h1', h2', h3'⟩ := oneTreeLbSeq_exact hm' hsym' (hd ▸ hn)
  have hwt : ∀ v, v < m.dim → wt (f v) = wt' v := by
    intro v hv
    obtain ⟨x, x1, x2⟩ := key v hv
    rw [(h1 (f v) (hf.lt v hv)).1] at x1
    rw [(h1' v (hd ▸ hv)).1] at x2
    injection x1 with x1
    injection x1 with x1
    injection x2 with x2
    injection x2 with x2
    rw [x1, x2]
  have hw : w = w' := by
    rw [hd] at h3'
    apply le_antisymm
    · obtain ⟨v, hv, rfl⟩ := List.mem_map.mp h3.1
      have hv' : v < m.dim := by simpa using hv
      rw [← hfg v hv', hwt (g v) (hg.lt v hv')]
      exact h3'.2 _ (List.mem_map.mpr ⟨g v, by simpa using hg.lt v hv', rfl⟩)
    · obtain ⟨v, hv, rfl⟩ := List.mem_map.mp h3'.1
      have hv' : v < m.dim := by simpa using hv
      rw [← hwt v hv']
      exact h3.2 _ (List.mem_map.mpr ⟨f v, by simpa using hf.lt v hv', rfl⟩)
  exact ⟨w, h2, by rw [h2', hw]⟩

/-- **C107, nearest neighbour.** If no city has two others at the same distance, the tours of
the second instance are those of the first one with other numbers, and the best one is equally long.
With equal distances this is false (`C107_nearest_neighbour_ties`). -/
theorem C107_nearest_neighbour {m m' : Mat (XNum K)} {c c' : Nat → Nat → K} (hm : Rep m c)
    (hm' : Rep m' c') (hd : m'.dim = m.dim) {f : Nat → Nat} (hf : Renumber m.dim f)
    (hc : ∀ i j, i < m.dim → j < m.dim → c' i j = c (f i) (f j)) (hn : 1 ≤ m.dim)
    (hdist : ∀ i j k, i < m.dim → j < m.dim → k < m.dim → i ≠ j → i ≠ k → j ≠ k → c i j ≠ c i k) :
    (∀ i, i < m.dim → ∃ w p, singleNN m' i = .ok (fin w, p) ∧ singleNN m (f i) = .ok (fin w, p.map f)) ∧
    ∃ w, ∀ xs xs' : List Nat, xs.Perm (List.range m.dim) → xs'.Perm (List.range m.dim) →
      ∃ p p', nearestNeighbourSeq xs m = .ok (fin w, p) ∧ nearestNeighbourSeq xs' m' = .ok (fin w, p') := by
  have hone : ∀ i, i < m.dim → ∃ w p, singleNN m' i = .ok (fin w, p) ∧
      singleNN m (f i) = .ok (fin w, p.map f) := by
    intro i hi
    obtain ⟨p, h1, h2, h3, h4⟩ := singleNN_exact hm' (i := i) (hd ▸ hi)
    obtain ⟨q, k1, k2, k3, k4⟩ := singleNN_exact hm (hf.lt i hi)
    rw [hd] at h2 h4
    have hq : p.map f = q := by
      refine greedy_unique (hf.tour h2) k2 (greedy_renumber hf hc hdist h2 h4) k4 (s := f i) ?_ k3
      rw [List.head?_map, h3]
      rfl
    refine ⟨_, p, h1, ?_⟩
    rw [k1, ← hq, tourCost_renumber hc h2]
  refine ⟨hone, ?_⟩
  obtain ⟨w, ⟨i, hi, p, h1⟩, h2, h3⟩ := C39_nearest_neighbour hm hn
  obtain ⟨w', ⟨i', hi', p', h1'⟩, h2', h3'⟩ := C39_nearest_neighbour hm' (hd ▸ hn)
  rw [hd] at hi' h2' h3'
  obtain ⟨g, hg, hfg, -⟩ := hf.inverse
  have hw : w = w' := by
    apply le_antisymm
    · obtain ⟨x, q, a, b⟩ := hone i' hi'
      rw [h1'] at a
      injection a with a
      injection a with a _
      injection a with a
      rw [a]
      exact h2 (f i') (hf.lt i' hi') _ _ b
    · obtain ⟨x, q, a, b⟩ := hone (g i) (hg.lt i hi)
      rw [hfg i hi, h1] at b
      injection b with b
      injection b with b _
      injection b with b
      rw [b]
      exact h2' (g i) (hg.lt i hi) _ _ a
  refine ⟨w, fun xs xs' hx hx' => ?_⟩
  obtain ⟨p, a, -⟩ := h3 xs hx
  obtain ⟨p', a', -⟩ := h3' xs' hx'
  exact ⟨p, p', a, by rw [a', hw]⟩

/-- four cities, all at distance 1 except the last two -/
def nearTie (i j : Nat) : ℚ := if i = j then 0 else if (i = 2 ∧ j = 3) ∨ (i = 3 ∧ j = 2) then 2 else 1

/-- exchanges the numbers 1 and 2 -/
def swap12 (i : Nat) : Nat := if i = 1 then 2 else if i = 2 then 1 else i

/-- **C107, nearest neighbour (negation).** With equal distances the numbering matters: on four cities
of a metric space the best greedy tour has length 5 in one order and 4 in another, for all shuffles. -/
theorem C107_nearest_neighbour_ties : Metric 4 nearTie ∧ Renumber 4 swap12 ∧
    (∀ xs : List Nat, xs.Perm (List.range 4) →
      ∃ p, nearestNeighbourSeq xs (Mat.ofFun 4 nearTie) = .ok (fin 5, p)) ∧
    ∀ xs : List Nat, xs.Perm (List.range 4) →
      ∃ p, nearestNeighbourSeq xs (Mat.ofFun 4 fun i j => nearTie (swap12 i) (swap12 j)) =
        .ok (fin 4, p) := by
  have get : ∀ {c : Nat → Nat → ℚ} {x : ℚ} (k : Nat), k < 4 →
      (singleNN (Mat.ofFun 4 c) k).map Prod.fst = .ok (fin x) →
      (∀ i < 4, (singleNN (Mat.ofFun 4 c) i).map (fun r => FloatOps.le (fin x) r.1) = .ok true) →
      ∀ xs : List Nat, xs.Perm (List.range 4) →
        ∃ p, nearestNeighbourSeq xs (Mat.ofFun 4 c) = .ok (fin x, p) := by
    intro c x k hk hx hmin xs hxs
    obtain ⟨w, ⟨i, hi, p, h1⟩, h2, h3⟩ := C39_nearest_neighbour (rep_ofFun 4 c) (show 1 ≤ 4 by decide)
    obtain ⟨p', h4, -⟩ := h3 xs hxs
    have e1 : w ≤ x := by
      cases e : singleNN (Mat.ofFun 4 c) k with
      | error e' => rw [e] at hx; simp [Except.map] at hx
      | ok r =>
        rw [e] at hx
        have hr : r.1 = fin x := by simpa [Except.map] using hx
        exact h2 k hk x r.2 (by rw [e, ← hr])
    have e2 : x ≤ w := by
      have := hmin i hi
      rw [h1] at this
      simpa [Except.map] using this
    exact ⟨p', by rw [h4, le_antisymm e1 e2]⟩
  refine ⟨⟨by decide +kernel, ?_, ?_⟩, ⟨by decide, ?_⟩, get 0 (by decide) (by decide +kernel) (by decide +kernel),
    get 0 (by decide) (by decide +kernel) (by decide +kernel)⟩
  · have : ∀ i < 4, ∀ j < 4, nearTie i j = nearTie j i := by decide +kernel
    exact fun i j hi hj => this i hi j hj
  · have : ∀ i < 4, ∀ j < 4, ∀ k < 4, nearTie i j ≤ nearTie i k + nearTie k j := by decide +kernel
    exact fun i j k hi hj hk => this i hi j hj k hk
  · have : ∀ i < 4, ∀ j < 4, swap12 i = swap12 j → i = j := by decide
    exact fun i j hi hj => this i hi j hj

/-- the renumbering that lists the cities along an optimal tour of `ladder` -/
def alongOptimum (n i : Nat) : Nat := (evenOdd n).getD i 0

/-- the renumbering that lists the cities of `ringDist` along the ring -/
def alongRing (i : Nat) : Nat := [0, 10, 7, 9, 5, 8, 6, 11, 4, 3, 1, 2].getD i 0

private theorem v5_first : fifthImprovedSolver (Mat.ofFun 7 (ladder 1 : Nat → Nat → ℚ)) =
    .ok (fin 8, [0, 1, 2, 3, 4, 5, 6]) := by decide +kernel

private theorem v5_second : fifthImprovedSolver (Mat.ofFun 7 fun i j =>
    (ladder 1 (alongOptimum 7 i) (alongOptimum 7 j) : ℚ)) = .ok (fin 7, [0, 1, 2, 3, 4, 5, 6]) := by
  decide +kernel

private theorem v4_second : ∃ p, fourthImprovedSolver (Mat.ofFun 12 fun i j =>
    ringDist (alongRing i) (alongRing j)) = .ok (fin 12, p) := by
  have hm := rep_ofFun 12 (fun i j => ringDist (alongRing i) (alongRing j))
  obtain ⟨p, h1, h2, h3, -⟩ := solveDfs_truthful hm (test4_ok _) (show 0 < 12 by decide) (aux := ())
    trivial (test4_inf hm)
  have h4 : tourCost (fun i j => ringDist (alongRing i) (alongRing j)) (List.range 12) = 12 := by
    decide +kernel
  have h5 : ((12 : ℕ) : ℚ) ≤ tourCost (fun i j => ringDist (alongRing i) (alongRing j)) p := by
    have e := tourCost_renumber (n := 12) (f := id)
      (c := fun i j => if i < 12 ∧ j < 12 then ringDist (alongRing i) (alongRing j) else 1)
      (c' := fun i j => ringDist (alongRing i) (alongRing j))
      (fun i j hi hj => by simp [hi, hj]) h2
    rw [← e, List.map_id]
    refine tour_ge ?_ (by decide) h2
    have : ∀ i < 12, ∀ j < 12, i ≠ j → 1 ≤ ringDist (alongRing i) (alongRing j) := by decide +kernel
    intro i j hij
    split
    · rename_i h
      exact this i h.1 j h.2 hij
    · exact le_rfl
  have h6 : tourCost (fun i j => ringDist (alongRing i) (alongRing j)) p = 12 :=
    le_antisymm (h3.trans h4.le) (by exact_mod_cast h5)
  exact ⟨p, by unfold fourthImprovedSolver; rw [h1, h6]⟩

/-- **C107, v4 and v5 (negation).** The versions with the stronger pruning do depend on the numbering,
even on metrics: v5 returns length 8 for seven cities in one order and 7 in another; v4 returns 14 for
twelve cities on a ring in one order and 12 in another. -/
theorem C107_v4_v5 :
    (Metric 7 (ladder 1 : Nat → Nat → ℚ) ∧ Renumber 7 (alongOptimum 7) ∧
      (∃ p, fifthImprovedSolver (Mat.ofFun 7 (ladder 1 : Nat → Nat → ℚ)) = .ok (fin 8, p)) ∧
      ∃ p, fifthImprovedSolver (Mat.ofFun 7 fun i j =>
        (ladder 1 (alongOptimum 7 i) (alongOptimum 7 j) : ℚ)) = .ok (fin 7, p)) ∧
    (Metric 12 ringDist ∧ Renumber 12 alongRing ∧
      (∃ p, fourthImprovedSolver (Mat.ofFun 12 ringDist) = .ok (fin 14, p)) ∧
      ∃ p, fourthImprovedSolver (Mat.ofFun 12 fun i j => ringDist (alongRing i) (alongRing j)) =
        .ok (fin 12, p)) := by
  refine ⟨⟨ladder_metric _ _, ⟨?_, ?_⟩, ⟨_, v5_first⟩, ⟨_, v5_second⟩⟩,
    ⟨C105_v4_ring.1, ⟨?_, ?_⟩, ?_, v4_second⟩⟩
  · have : ∀ i < 7, alongOptimum 7 i < 7 := by decide
    exact this
  · have : ∀ i < 7, ∀ j < 7, alongOptimum 7 i = alongOptimum 7 j → i = j := by decide
    exact fun i j hi hj => this i hi j hj
  · have : ∀ i < 12, alongRing i < 12 := by decide
    exact this
  · have : ∀ i < 12, ∀ j < 12, alongRing i = alongRing j → i = j := by decide
    exact fun i j hi hj => this i hi j hj
  · obtain ⟨-, -, ⟨p, h1, -, h3⟩, -⟩ := C105_v4_ring
    exact ⟨p, by rw [h1, h3]⟩

/-! ## A concrete case -/

/-- the hypotheses of `C107_exact` and its companions: `Ex.m4` with two cities exchanged -/
example : Rep Ex.m4 Ex.c4 ∧
    Rep (Mat.ofFun 4 fun i j => Ex.c4 (swap12 i) (swap12 j)) (fun i j => Ex.c4 (swap12 i) (swap12 j)) ∧
    Symm Ex.m4.dim Ex.c4 ∧ Nonneg Ex.m4.dim Ex.c4 ∧ 3 ≤ Ex.m4.dim ∧ swap12 1 = 2 ∧ swap12 2 = 1 :=
  ⟨Ex.rep4, rep_ofFun _ _, Ex.symm4, Ex.nonneg4, by decide, rfl, rfl⟩

/-- three cities without equal distances, for `C107_nearest_neighbour` -/
example : ∀ i < 3, ∀ j < 3, ∀ k < 3, i ≠ j → i ≠ k → j ≠ k →
    (i + j + 2 : ℚ) ≠ i + k + 2 := by
  intro i _ j _ k _ _ _ h e
  apply h
  have : (j : ℚ) = k := by linarith
  exact_mod_cast this

end Walky.Props
