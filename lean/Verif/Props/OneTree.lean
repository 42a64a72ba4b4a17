import Verif.Lemmas.OneTree
import Verif.Props.Mst
import Verif.Examples

/-! # Properties C33–C36: the 1-tree bound -/

namespace Walky.Props

open FloatOps Spec

variable {K : Type} [Field K] [LinearOrder K] [IsStrictOrderedRing K]

/-- **C33** `one_tree(graph, v)` holds exactly the edges of a minimum spanning tree `E` of the
other cities and two edges `(v, a)`, `(v, b)` to different cities, which are the cheapest and the
second cheapest edge at `v`. -/
theorem C33_one_tree {m : Mat (XNum K)} {c : Nat → Nat → K} (hm : Rep m c) (hsym : Symm m.dim c)
    (hn : 3 ≤ m.dim) {v : Nat} (hv : v < m.dim) :
    ∃ g E a b, oneTree m v = .ok g ∧ GraphOf m.dim c (E ++ [(v, a), (v, b)]) g ∧
      IsSpanningTree (citiesExcept m.dim [v]) E ∧
      (∀ F, IsSpanningTree (citiesExcept m.dim [v]) F → edgeSum c E ≤ edgeSum c F) ∧
      (a < m.dim ∧ a ≠ v ∧ b < m.dim ∧ b ≠ v ∧ a ≠ b) ∧
      (∀ j < m.dim, j ≠ v → c v a ≤ c v j) ∧ (∀ j < m.dim, j ≠ v → j ≠ a → c v b ≤ c v j) := by
  obtain ⟨g, E, a, b, h1, h2, h3, h4, h5, h6, h7⟩ := oneTree_exact hm hsym hn hv
  exact ⟨g, E, a, b, h1, h7, h2, h3, h4, h5, h6⟩

/-- the hypotheses of C33, C34, C36 -/
example : Rep Ex.m4 Ex.c4 ∧ Symm Ex.m4.dim Ex.c4 ∧ 3 ≤ Ex.m4.dim ∧ 2 < Ex.m4.dim ∧
    Nonneg Ex.m4.dim Ex.c4 := ⟨Ex.rep4, Ex.symm4, by decide, by decide, Ex.nonneg4⟩

/-- values of `one_tree_lower_bound_seq` -/
theorem oneTreeLbSeq_exact {m : Mat (XNum K)} {c : Nat → Nat → K} (hm : Rep m c)
    (hsym : Symm m.dim c) (hn : 3 ≤ m.dim) :
    ∃ (wt : Nat → K) (w : K), (∀ v < m.dim, oneTreeWeight m v = .ok (.fin (wt v)) ∧
      (∀ q, IsTour m.dim q → wt v ≤ tourCost c q) ∧
      (Nonneg m.dim c → ∃ F, IsSpanningTree (List.range m.dim) F ∧ edgeSum c F ≤ wt v)) ∧
      oneTreeLbSeq m = .ok (.fin w) ∧ IsMax w ((List.range m.dim).map wt) := by
  have h : ∀ v : Nat, ∃ w : K, v < m.dim → oneTreeWeight m v = .ok (.fin w) ∧
      (∀ q, IsTour m.dim q → w ≤ tourCost c q) ∧
      (Nonneg m.dim c → ∃ F, IsSpanningTree (List.range m.dim) F ∧ edgeSum c F ≤ w) := by
    intro v
    by_cases hv : v < m.dim
    · obtain ⟨w, h⟩ := oneTreeWeight_exact hm hsym hn hv
      exact ⟨w, fun _ => h⟩
    · exact ⟨0, fun h => absurd h hv⟩
  choose wt hwt using h
  have hmap : (List.range m.dim).mapM (oneTreeWeight m) =
      .ok (((List.range m.dim).map wt).map XNum.fin) := by
    rw [mapM_ok (g := fun v => XNum.fin (wt v)) (fun v hv => (hwt v (by simpa using hv)).1)]
    simp
  obtain ⟨w, h1, h2⟩ := maxByL_fin (l := (List.range m.dim).map wt) (by simp; omega)
  refine ⟨wt, w, hwt, ?_, h2⟩
  unfold oneTreeLbSeq
  rw [hmap, rm_bind_ok, h1]
  rfl

/-- **C34 (partial)** The 1-tree bound is at most the length of every tour, for `n ≥ 3`. Missing:
`n = 2`, where the claim is false (`C34_two_cities`). -/
theorem C34_one_tree_bound_partial {m : Mat (XNum K)} {c : Nat → Nat → K} (hm : Rep m c)
    (hsym : Symm m.dim c) (hn : 3 ≤ m.dim) :
    ∃ w, oneTreeLbSeq m = .ok (.fin w) ∧ ∀ q, IsTour m.dim q → w ≤ tourCost c q := by
  obtain ⟨wt, w, h1, h2, h3⟩ := oneTreeLbSeq_exact hm hsym hn
  refine ⟨w, h2, ?_⟩
  intro q hq
  obtain ⟨v, hv, rfl⟩ := List.mem_map.mp h3.1
  exact (h1 v (by simpa using hv)).2.1 q hq

/-- **C34 (negation for two cities)** For every 2×2 matrix of finite numbers the 1-tree bound is
`+∞`, although the only tour has finite length. -/
theorem C34_two_cities (c : Nat → Nat → K) :
    oneTreeLbSeq (Mat.ofFun 2 c) = .ok XNum.inf := by
  have hp : ∀ v, v < 2 → primSeq (Mat.ofFun 2 c) [v] = .ok [[], []] := by
    intro v hv
    rcases primSeq_exact (rep_ofFun 2 c) [v] (by intro u hu; simp at hu; subst hu; exact hv) with ⟨h1, _⟩ | ⟨s, P, h1, h2, h3, h4, _⟩
    · have e0 := h1 0 (Nat.zero_lt_two)
      have e1 := h1 1 (Nat.one_lt_two)
      simp at e0 e1
      omega
    · have hP : P = [] := by
        have hl := h3.length
        have : remaining (Mat.ofFun 2 c).dim [v] [s] = [] := by
          rw [List.eq_nil_iff_forall_not_mem]
          intro j hj
          rw [mem_remaining] at hj
          have h1' : s < 2 := h1
          have hj1 : j < 2 := hj.1
          simp at hj h2
          omega
        rw [this] at hl
        simpa using hl
      rw [h4, hP]
      rfl
  have h0 : oneTreeWeight (Mat.ofFun 2 c) 0 = .ok XNum.inf := by
    unfold oneTreeWeight oneTree
    rw [hp 0 (by decide)]
    rfl
  have h1 : oneTreeWeight (Mat.ofFun 2 c) 1 = .ok XNum.inf := by
    unfold oneTreeWeight oneTree
    rw [hp 1 (by decide)]
    rfl
  unfold oneTreeLbSeq
  have : (List.range (Mat.ofFun 2 c).dim) = [0, 1] := rfl
  rw [this, List.mapM_cons, h0, rm_bind_ok, List.mapM_cons, h1]
  rfl

/-- **C35, rayon** In every arithmetic with a consistent order and for every reduction tree, the
parallel 1-tree bound equals the sequential one (including panics). -/
theorem C35_par_eq_seq {α : Type} [FloatOps α] (ho : StrictWeak (olt : α → α → Bool))
    (shape : List α → RTree α) (hshape : ∀ l, (shape l).flatten = l) (m : Mat α) :
    oneTreeLbPar shape m = oneTreeLbSeq m := by
  unfold oneTreeLbPar oneTreeLbSeq
  congr 1
  funext ws
  rw [RTree.reduceM_eq (maxPartial_kassoc ho) maxPartial_uerr, hshape, maxByL_eq]

/-- **C35, MPI (partial)** For every world size up to the number of cities and every order and tree
in which MPI combines the contributions, the root obtains the sequential value. Missing: larger
worlds, where the solver panics (`C35_mpi_too_many_ranks`). -/
theorem C35_mpi_partial {m : Mat (XNum K)} {c : Nat → Nat → K} (hm : Rep m c)
    (hsym : Symm m.dim c) (hn : 3 ≤ m.dim) {size : Nat} (h1 : 1 ≤ size) (h2 : size ≤ m.dim)
    (shape : List (XNum K) → RTree (XNum K)) (hshape : ∀ l, (shape l).flatten.Perm l) :
    oneTreeLbMpi shape size m = oneTreeLbSeq m := by
  obtain ⟨wt, w, hw, hseq, hmax⟩ := oneTreeLbSeq_exact hm hsym hn
  have hloc : ∀ r : Nat, ∃ x : K, r < size → oneTreeLocal m size r = .ok (.fin x) ∧
      IsMax x ((stepBy r size m.dim).map wt) := by
    intro r
    by_cases hr : r < size
    · have hmap : (stepBy r size m.dim).mapM (oneTreeWeight m) =
          .ok (((stepBy r size m.dim).map wt).map XNum.fin) := by
        rw [mapM_ok (g := fun v => XNum.fin (wt v)) (fun v hv => ?_)]
        · simp
        · refine (hw v ?_).1
          have := List.mem_of_mem_filter hv
          simpa using this
      have hne : (stepBy r size m.dim).map wt ≠ [] := by
        have : r ∈ stepBy r size m.dim := by
          simp [stepBy]
          omega
        intro h0
        rw [List.map_eq_nil_iff] at h0
        rw [h0] at this
        simp at this
      obtain ⟨x, k1, k2⟩ := maxByL_fin hne
      refine ⟨x, fun _ => ⟨?_, k2⟩⟩
      unfold oneTreeLocal
      rw [hmap, rm_bind_ok, k1]
      rfl
    · exact ⟨0, fun h => absurd h hr⟩
  choose x hx using hloc
  have hmap : (List.range size).mapM (oneTreeLocal m size) =
      .ok (((List.range size).map x).map XNum.fin) := by
    rw [mapM_ok (g := fun v => XNum.fin (x v)) (fun r hr => (hx r (by simpa using hr)).1)]
    simp
  obtain ⟨w', k1, k2⟩ := RTree.reduce_max (l := (List.range size).map x)
    (shape (((List.range size).map x).map XNum.fin)) (hshape _) (by simp; omega)
  have : IsMax w' ((List.range m.dim).map wt) := by
    obtain ⟨r, hr, hrw⟩ := List.mem_map.mp k2.1
    have hr' : r < size := by simpa using hr
    constructor
    · have := (hx r hr').2.1
      rw [hrw] at this
      obtain ⟨v, hv, hvw⟩ := List.mem_map.mp this
      exact List.mem_map.mpr ⟨v, List.mem_of_mem_filter hv, hvw⟩
    · intro y hy
      obtain ⟨v, hv, rfl⟩ := List.mem_map.mp hy
      have hr2 : v % size < size := Nat.mod_lt _ h1
      have hmem : v ∈ stepBy (v % size) size m.dim := by
        have hv : v < m.dim := by simpa using hv
        have hsub : (v - v % size) % size = 0 := Nat.sub_mod_eq_zero_of_mod_eq (by simp)
        simp [stepBy, hv, Nat.mod_le, hsub]
      exact ((hx _ hr2).2.2 _ (List.mem_map.mpr ⟨v, hmem, rfl⟩)).trans
        (k2.2 _ (List.mem_map.mpr ⟨_, by simpa using hr2, rfl⟩))
  unfold oneTreeLbMpi
  rw [hmap, rm_bind_ok, k1, hseq, this.unique hmax]
  rfl

/-- **C35 (negation for large worlds)** With more ranks than cities the MPI 1-tree bound panics
(`expect` on the empty maximum of the last rank), in every arithmetic and for every matrix. -/
theorem C35_mpi_too_many_ranks {α : Type} [FloatOps α] (shape : List α → RTree α) (m : Mat α)
    {size : Nat} (h : m.dim < size) : ∃ e, oneTreeLbMpi shape size m = .error e := by
  have hloc : oneTreeLocal m size m.dim = .error .unwrap := by
    have : stepBy m.dim size m.dim = [] := by
      rw [List.eq_nil_iff_forall_not_mem]
      intro i hi
      simp [stepBy] at hi
      omega
    unfold oneTreeLocal
    rw [this]
    rfl
  have key : ∀ (l : List Nat), m.dim ∈ l → ∃ e, l.mapM (oneTreeLocal m size) = .error e := by
    intro l
    induction l with
    | nil => intro h; simp at h
    | cons a t ih =>
      intro h
      rw [List.mapM_cons]
      cases ha : oneTreeLocal m size a with
      | error e => exact ⟨e, rfl⟩
      | ok v =>
        have ht : m.dim ∈ t := by
          rcases List.mem_cons.mp h with h | h
          · rw [← h, hloc] at ha; cases ha
          · exact h
        obtain ⟨e, he⟩ := ih ht
        exact ⟨e, by rw [he]; rfl⟩
  obtain ⟨e, he⟩ := key (List.range size) (by simpa using h)
  exact ⟨e, by unfold oneTreeLbMpi; rw [he]; rfl⟩

/-- the hypotheses of the C35 theorems: 3 ranks, contributions combined in reverse order -/
example : 1 ≤ 3 ∧ 3 ≤ Ex.m4.dim ∧ ∀ l : List (XNum ℚ),
    (l.foldl (fun t x => RTree.node (.leaf x) t) .empty).flatten.Perm l := by
  refine ⟨by decide, by decide, ?_⟩
  have key : ∀ (l : List (XNum ℚ)) (t : RTree (XNum ℚ)),
      (l.foldl (fun t x => RTree.node (.leaf x) t) t).flatten = l.reverse ++ t.flatten := by
    intro l
    induction l with
    | nil => simp
    | cons a l ih => intro t; simp [ih, RTree.flatten]
  intro l
  rw [key]
  simp [RTree.flatten]

/-- **C36** The 1-tree bound is at least the MST bound. -/
theorem C36_one_tree_ge_mst {m : Mat (XNum K)} {c : Nat → Nat → K} (hm : Rep m c)
    (hsym : Symm m.dim c) (hnn : Nonneg m.dim c) (hn : 3 ≤ m.dim) :
    ∃ w g w', oneTreeLbSeq m = .ok (.fin w) ∧ primSeq m [] = .ok g ∧
      g.undirectedEdgeWeight = .fin w' ∧ w' ≤ w := by
  obtain ⟨wt, w, h1, h2, h3⟩ := oneTreeLbSeq_exact hm hsym hn
  have hr : citiesExcept m.dim [] = List.range m.dim := by
    unfold citiesExcept
    exact List.filter_eq_self.mpr (by simp)
  obtain ⟨g, w', k1, k2, k3, _⟩ := C29_prim_minimum hm hsym [] (by simp) (by
    rw [hr]; simp; omega)
  refine ⟨w, g, w', h2, k1, k2, ?_⟩
  obtain ⟨v, hv, rfl⟩ := List.mem_map.mp h3.1
  obtain ⟨F, hF, hle⟩ := (h1 v (by simpa using hv)).2.2 hnn
  exact (k3 F (by rw [hr]; exact hF)).trans hle

end Walky.Props
