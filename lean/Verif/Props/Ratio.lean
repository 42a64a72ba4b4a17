import Verif.Lemmas.Ratio
import Verif.Lemmas.CliLines
import Verif.Props.CliMpi

/-! # Properties C82–C84: quality of bounds and approximations on metrics -/

namespace Walky.Props

open FloatOps XNum Spec

variable {K : Type} [Field K] [LinearOrder K] [IsStrictOrderedRing K]

/-- **C82** On every metric the lower bounds are at least half of the optimum: there is a tour of at most
twice the weight of the minimum spanning tree, and (three or more cities) one of at most twice the
1-tree bound. This holds for the variants of Prim's algorithm (sequential, rayon, priority queue) and of
the 1-tree bound (sequential, rayon, MPI with at most `n` processes). -/
theorem C82_bounds_half {m : Mat (XNum K)} {c : Nat → Nat → K} (hm : Rep m c) (hn : 1 ≤ m.dim)
    (hmet : Metric m.dim c) :
    (∃ w, (∃ p, IsTour m.dim p ∧ tourCost c p ≤ 2 * w) ∧
      (∃ t, primSeq m [] = .ok t ∧ t.undirectedEdgeWeight = .fin w) ∧
      (∀ (shape : Nat → List (Nat × Edge (XNum K)) → RTree (Nat × Edge (XNum K)))
        (update : Nat → Nat → List Nat), (∀ it l, (shape it l).flatten = l) →
        (∀ it n, (update it n).Perm (List.range n)) →
        ∃ t, primPar shape update m [] = .ok t ∧ t.undirectedEdgeWeight = .fin w) ∧
      ∀ peek : Nat → List (Nat × XNum K) → Option (Nat × XNum K), PeekOk peek →
        ∃ t, primQueue peek m [] = .ok t ∧ t.undirectedEdgeWeight = .fin w) ∧
    (3 ≤ m.dim → ∃ w, (∃ p, IsTour m.dim p ∧ tourCost c p ≤ 2 * w) ∧ oneTreeLbSeq m = .ok (.fin w) ∧
      (∀ shape : List (XNum K) → RTree (XNum K), (∀ l, (shape l).flatten = l) →
        oneTreeLbPar shape m = .ok (.fin w)) ∧
      ∀ (shape : List (XNum K) → RTree (XNum K)) (size : Nat), (∀ l, (shape l).flatten.Perm l) →
        1 ≤ size → size ≤ m.dim → oneTreeLbMpi shape size m = .ok (.fin w)) := by
  obtain ⟨t, E, h1, h2, h3, h4⟩ := prim_tree hm hn
  obtain ⟨p, p1, p2⟩ := double_tree hn hmet h2
  have hnn : Nonneg m.dim c := fun i j hi hj _ => hmet.nonneg hi hj
  refine ⟨⟨_, ⟨p, p1, p2⟩, ⟨t, h1, h4⟩, ?_, ?_⟩, ?_⟩
  · intro shape update a1 a2
    exact ⟨t, by rw [C30_par_eq_seq strictWeak_olt shape update a1 a2, h1], h4⟩
  · intro peek hpk
    obtain ⟨t', s, q1, q2, -, q3⟩ := C31_queue_weight_partial hm hmet.symm hpk [] (by simp)
    rw [h1] at q2
    injection q2 with q2
    subst q2
    exact ⟨t', q1, by rw [q3, h4]⟩
  · intro hn3
    obtain ⟨w, g, w', k1, k2, k3, k4⟩ := C36_one_tree_ge_mst hm hmet.symm hnn hn3
    rw [h1] at k2
    injection k2 with k2
    subst k2
    rw [h4] at k3
    injection k3 with k3
    subst k3
    refine ⟨w, ⟨p, p1, by linarith⟩, k1, ?_, ?_⟩
    · intro shape hs
      rw [C35_par_eq_seq strictWeak_olt shape hs, k1]
    · intro shape size hs s1 s2
      rw [C35_mpi_partial hm hmet.symm hn3 s1 s2 shape hs, k1]

example : Rep Ex.m4 Ex.c4 ∧ 3 ≤ Ex.m4.dim ∧ Metric Ex.m4.dim Ex.c4 := ⟨Ex.rep4, by decide, Ex.metric4⟩

/-- **C82 (why the triangle inequality is needed)** Costs that are not negative and symmetric, but all
lower bounds are 0 and the shortest tour has length 1: cities 0, 1 on one side and 2, 3, 4 on the other;
crossing is free. -/
theorem C82_not_metric : ∃ (m : Mat (XNum ℚ)) (c : Nat → Nat → ℚ), Rep m c ∧ Symm m.dim c ∧
    Nonneg m.dim c ∧ oneTreeLbSeq m = .ok (.fin 0) ∧
    (∃ t, primSeq m [] = .ok t ∧ t.undirectedEdgeWeight = .fin 0) ∧
    ∀ p, IsTour m.dim p → 1 ≤ tourCost c p := by
  refine ⟨Mat.ofFun 5 fun i j => if (i < 2) = (j < 2) then 1 else 0, _, rep_ofFun _ _, ?_, ?_,
    by decide +kernel, ?_, ?_⟩
  · intro i j _ _
    simp only [eq_comm]
  · intro i j _ _ _
    show (0 : ℚ) ≤ if (i < 2) = (j < 2) then 1 else 0
    split <;> norm_num
  · have h : ((primSeq (Mat.ofFun 5 fun i j => if (i < 2) = (j < 2) then (1 : ℚ) else 0) []).map
        Graph.undirectedEdgeWeight) = .ok (.fin 0) := by decide +kernel
    cases ht : primSeq (Mat.ofFun 5 fun i j => if (i < 2) = (j < 2) then (1 : ℚ) else 0) [] with
    | error e => rw [ht] at h; cases h
    | ok t =>
      rw [ht] at h
      injection h with h
      exact ⟨t, rfl, h⟩
  · obtain ⟨p, h1, h2⟩ := C05_v2_exact (Mat.ofFun 5 fun i j => if (i < 2) = (j < 2) then (1 : ℚ) else 0) _
      (rep_ofFun _ _) (by decide)
    have h : (secondImprovedSolver (Mat.ofFun 5 fun i j => if (i < 2) = (j < 2) then (1 : ℚ) else 0)).map
        Prod.fst = .ok (.fin 1) := by decide +kernel
    rw [h1] at h
    injection h with h
    injection h with h
    intro q hq
    exact (le_of_eq h.symm).trans (h2.2 q hq)

/-- **C83** On every metric, nearest neighbour tours are at most `(⌈log₂ n⌉ + 1) / 2` times as long as any
other tour: from every start (`single_nearest_neighbour`), for every number of random starts
(`n_nearest_neighbour`), and for all variants of `nearest_neighbour` (sequential, rayon, MPI with at most
`n` processes). -/
theorem C83_nearest_neighbour_ratio {m : Mat (XNum K)} {c : Nat → Nat → K} (hm : Rep m c)
    (hn : 1 ≤ m.dim) (hmet : Metric m.dim c) {q : List Nat} (hq : IsTour m.dim q) :
    (∀ i < m.dim, ∃ w p, singleNN m i = .ok (.fin w, p) ∧
      2 * w ≤ (Nat.clog 2 m.dim + 1 : ℕ) * tourCost c q) ∧
    (∀ xs : List Nat, xs.Perm (List.range m.dim) →
      (∀ k, 1 ≤ k → k ≤ m.dim → ∃ w p, nNNSeq xs m k = .ok (.fin w, p) ∧
        2 * w ≤ (Nat.clog 2 m.dim + 1 : ℕ) * tourCost c q) ∧
      (∃ w p, nearestNeighbourSeq xs m = .ok (.fin w, p) ∧
        2 * w ≤ (Nat.clog 2 m.dim + 1 : ℕ) * tourCost c q) ∧
      ∀ shape : List (Solution (XNum K)) → RTree (Solution (XNum K)), (∀ l, (shape l).flatten = l) →
        ∃ w p, nearestNeighbourPar shape xs m = .ok (.fin w, p) ∧
          2 * w ≤ (Nat.clog 2 m.dim + 1 : ℕ) * tourCost c q) ∧
    ∀ (shape : Nat → List (XNum K × Nat) → RTree (XNum K × Nat)) (size : Nat),
      (∀ r l, (shape r l).flatten.Perm l) → 1 ≤ size → size ≤ m.dim →
      ∃ w p, nnMpi shape size m = .ok (List.replicate size (.fin w, p)) ∧
        2 * w ≤ (Nat.clog 2 m.dim + 1 : ℕ) * tourCost c q := by
  have hone : ∀ i < m.dim, ∃ w p, singleNN m i = .ok (.fin w, p) ∧
      2 * w ≤ (Nat.clog 2 m.dim + 1 : ℕ) * tourCost c q := by
    intro i hi
    obtain ⟨p, h1, h2, -, h4⟩ := singleNN_exact hm hi
    exact ⟨_, p, h1, greedy_ratio hmet hn h2 h4 hq⟩
  have hmany : ∀ xs : List Nat, xs.Perm (List.range m.dim) → ∀ k, 1 ≤ k → k ≤ m.dim →
      ∃ w p, nNNSeq xs m k = .ok (.fin w, p) ∧ 2 * w ≤ (Nat.clog 2 m.dim + 1 : ℕ) * tourCost c q := by
    intro xs hxs k k1 k2
    obtain ⟨w, p, h1, -, -, -, ⟨i, h5, h6⟩, -⟩ := C39_n_nearest_neighbour hm hxs k1 k2
    obtain ⟨w', p', e1, e2⟩ := hone i (by simpa using hxs.subset (List.mem_of_mem_take h5))
    rw [e1] at h6
    injection h6 with h6
    injection h6 with h6 _
    injection h6 with h6
    exact ⟨w, p, h1, h6 ▸ e2⟩
  refine ⟨hone, fun xs hxs => ⟨hmany xs hxs, hmany xs hxs _ hn le_rfl, ?_⟩, ?_⟩
  · intro shape hs
    rw [C39_nearest_neighbour_par strictWeak_olt shape hs]
    exact hmany xs hxs _ hn le_rfl
  · intro shape size hs s1 s2
    obtain ⟨w, p, h1, -, -, h4⟩ := C40_mpi_partial hm s1 s2 shape hs
    obtain ⟨p', h5⟩ := h4 (List.range m.dim) (List.Perm.refl _)
    obtain ⟨w'', p'', e1, e2⟩ := hmany _ (List.Perm.refl _) m.dim hn le_rfl
    have e1' : nearestNeighbourSeq (List.range m.dim) m = .ok (.fin w'', p'') := e1
    rw [h5] at e1'
    injection e1' with e1'
    injection e1' with e1' _
    injection e1' with e1'
    exact ⟨w, p, h1, e1' ▸ e2⟩

/-- the factor for four cities is `3 / 2` -/
example : Nat.clog 2 4 + 1 = 3 := by decide

/-- What a line of the output says about the optimum: a lower bound is at least half of it, a nearest
neighbour tour is at most `(⌈log₂ n⌉ + 1) / 2` times as long, a Christofides tour at most `n / 2` times. -/
def GoodLine (n : Nat) (opt : K) (l : Line (XNum K)) : Prop :=
  (∀ x, lower l = some x → ∃ w, x = .fin w ∧ w ≤ opt ∧ opt ≤ 2 * w) ∧
  (∀ x, l = .nnWeight x → ∃ w, x = .fin w ∧ opt ≤ w ∧ 2 * w ≤ (Nat.clog 2 n + 1 : ℕ) * opt) ∧
  ∀ x, l = .christofidesWeight x → ∃ w, x = .fin w ∧ opt ≤ w ∧ 2 * w ≤ n * opt

omit [IsStrictOrderedRing K] in
private theorem good_bound {n : Nat} {opt : K} {l : Line (XNum K)} {w : K} (h1 : lower l = some (.fin w))
    (hw : w ≤ opt ∧ opt ≤ 2 * w) : GoodLine n opt l := by
  refine ⟨fun x hx => ?_, fun x hx => ?_, fun x hx => ?_⟩
  · rw [h1] at hx
    injection hx with hx
    exact ⟨w, hx.symm, hw⟩
  · rw [hx] at h1
    cases h1
  · rw [hx] at h1
    cases h1

omit [IsStrictOrderedRing K] in
private theorem good_nn {n : Nat} {opt w : K} (hw : opt ≤ w ∧ 2 * w ≤ (Nat.clog 2 n + 1 : ℕ) * opt) :
    GoodLine n opt (.nnWeight (.fin w)) := by
  refine ⟨fun x hx => (by cases hx), fun x hx => ?_, fun x hx => (by cases hx)⟩
  injection hx with hx
  exact ⟨w, hx.symm, hw⟩

/-- **C84** Every accepted instance with at least three cities whose costs are a metric; every command,
with and without MPI; all random numbers, schedules and message orders. If `opt` is the length of a
shortest tour, every lower bound in the output is between `opt / 2` and `opt`, and the length of every
nearest neighbour tour in the output is between `opt` and `(⌈log₂ n⌉ + 1) / 2 · opt`, and the length of every
Christofides tour between `opt` and `n / 2 · opt`, except that the last claim is made about release builds with
several threads only if the matching repeats no edge (`Trusted`). -/
theorem C84_cli_quality_partial {g : Graph (XNum K)} (hacc : doConditionsHold g = .ok true) (hl : NoLoop g)
    (hn : 3 ≤ g.length) {c : Nat → Nat → K} (hmet : Metric g.length c)
    (hc : ∀ (i : Nat) (es : List (Edge (XNum K))), g[i]? = some es → ∀ e ∈ es, e.cost = .fin (c i e.dst)) :
    ∃ opt : K, ((∃ p, IsTour g.length p ∧ tourCost c p = opt) ∧
        ∀ p, IsTour g.length p → opt ≤ tourCost c p) ∧
      (∀ (env : Env (XNum K)), env.Ok → ∀ cmd lines, Runs env g cmd (.ok lines) →
        ∀ l ∈ lines, Trusted env g cmd l → GoodLine g.length opt l) ∧
      ∀ (env : MpiEnv (XNum K)), env.Ok → ∀ cmd outs, MpiRuns env g cmd outs →
        ∀ o ∈ outs, ∀ l ∈ o.lines, GoodLine g.length opt l := by
  have hcomp := complete_of_accepted hacc hl
  obtain ⟨m, a1, hdim, a3, a4, a5⟩ := naFromGraph_complete hcomp
  have hm0 : (do naFromGraph (← parseChecked g)) = .ok m := by
    rw [(C55_complete_accepted hcomp).2, rm_bind_ok, a1]
  have hm : Rep m c := by
    refine ⟨?_, fun h => by omega⟩
    rw [hdim]
    intro i j hi hj hij
    have hg := List.getElem?_eq_getElem hi
    obtain ⟨e, he, hej⟩ := List.mem_map.mp ((hcomp.mem hg).mpr ⟨hj, hij.symm⟩)
    rw [← hej, a4 i _ hg e he, hc i _ hg e he]
  rw [← hdim] at hmet hn ⊢
  have hnn : Nonneg m.dim c := fun i j hi hj _ => hmet.nonneg hi hj
  obtain ⟨q, -, hq⟩ := C05_v2_exact m c hm (by omega)
  refine ⟨tourCost c q, ⟨⟨q, hq.1, rfl⟩, hq.2⟩, ?_⟩
  set opt := tourCost c q with hopt
  obtain ⟨⟨wt, ⟨pt, pt1, pt2⟩, ⟨t, ht1, ht2⟩, hpar, hqueue⟩, hone⟩ := C82_bounds_half hm (by omega) hmet
  obtain ⟨wo, ⟨po, po1, po2⟩, ho1, hopar, hompi⟩ := hone hn
  have hwt : wt ≤ opt ∧ opt ≤ 2 * wt := by
    refine ⟨?_, (hq.2 pt pt1).trans pt2⟩
    obtain ⟨t', w', e1, e2, e3⟩ := C32_mst_lower_bound hm hmet.symm hnn (fun h => by omega) (by omega)
    rw [ht1] at e1
    injection e1 with e1
    subst e1
    rw [ht2] at e2
    injection e2 with e2
    rw [e2]
    exact e3 q hq.1
  have hwo : wo ≤ opt ∧ opt ≤ 2 * wo := by
    refine ⟨?_, (hq.2 po po1).trans po2⟩
    obtain ⟨w', e1, e2⟩ := C34_one_tree_bound_partial hm hmet.symm hn
    rw [ho1] at e1
    injection e1 with e1
    injection e1 with e1
    rw [e1]
    exact e2 q hq.1
  obtain ⟨-, hnnseq, hnnmpi⟩ := C83_nearest_neighbour_ratio hm (by omega) hmet hq.1
  have hnnlow : ∀ xs : List Nat, xs.Perm (List.range m.dim) → ∀ w p,
      nearestNeighbourSeq xs m = .ok (.fin w, p) → opt ≤ w := by
    intro xs hxs w p h
    obtain ⟨w', -, -, e⟩ := C39_nearest_neighbour hm (by omega)
    obtain ⟨p', e1, e2, e3⟩ := e xs hxs
    rw [h] at e1
    injection e1 with e1
    injection e1 with e1 _
    injection e1 with e1
    rw [e1, e3]
    exact hq.2 _ e2
  have hgc : ∀ p, IsTour m.dim p → GoodLine m.dim opt (.christofidesWeight (.fin (tourCost c p))) := by
    intro p hp
    refine ⟨fun x hx => (by cases hx), fun x hx => (by cases hx), fun x hx => ?_⟩
    injection hx with hx
    exact ⟨_, hx.symm, hq.2 p hp, tour_ratio hmet hp hq.1⟩
  have hb : ∀ x, GoodLine m.dim opt (.bestCost x) := fun x =>
    ⟨fun _ h => (by cases h), fun _ h => (by cases h), fun _ h => (by cases h)⟩
  have hp : ∀ x, GoodLine m.dim opt (.bestPermutation x) := fun x =>
    ⟨fun _ h => (by cases h), fun _ h => (by cases h), fun _ h => (by cases h)⟩
  have ht : ∀ x, GoodLine m.dim opt (.nnTour x) := fun x =>
    ⟨fun _ h => (by cases h), fun _ h => (by cases h), fun _ h => (by cases h)⟩
  have hseq : ∀ xs : List Nat, xs.Perm (List.range m.dim) → ∀ r, nearestNeighbourSeq xs m = .ok r →
      GoodLine m.dim opt (.nnWeight r.1) := by
    intro xs hxs r hr
    obtain ⟨-, ⟨w, p, e1, e2⟩, -⟩ := hnnseq xs hxs
    have e3 := hnnlow xs hxs w p e1
    rw [e1] at hr
    injection hr with hr
    rw [← hr]
    exact good_nn ⟨e3, e2⟩
  constructor
  · intro env he cmd lines hrun
    refine run_lines hm0 (fun x _ => hb x) (fun x _ => hp x) (fun x _ => ht x) ?_ ?_ ?_ ?_ hrun
    · intro w hw _
      have : w = .fin wo := by
        rcases hw with hw | hw
        · rw [ho1] at hw; injection hw with hw; exact hw.symm
        · rw [hopar _ he.oneTreeShape] at hw; injection hw with hw; exact hw.symm
      rw [this]
      exact good_bound rfl hwo
    · intro t' h' _
      have : t'.undirectedEdgeWeight = .fin wt := by
        rcases h' with h' | h' | h'
        · rw [ht1] at h'; injection h' with h'; rw [← h', ht2]
        · obtain ⟨t'', e1, e2⟩ := hpar _ _ he.sched.shape he.sched.update
          rw [e1] at h'; injection h' with h'; rw [← h', e2]
        · obtain ⟨t'', e1, e2⟩ := hqueue _ he.peek
          rw [e1] at h'; injection h' with h'; rw [← h', e2]
      rw [this]
      exact good_bound rfl hwt
    · intro r hr _
      rw [C39_nearest_neighbour_par strictWeak_olt _ he.nnShape, or_self] at hr
      exact hseq _ (he.starts m.dim) r hr
    · intro r hr hsafe
      rcases hr with hr | hr
      · obtain ⟨p, e1, e2, -⟩ := C41_christofides_seq hm (by omega) (seq_isMetric hr) he.rng
        rw [e1] at hr
        injection hr with hr
        rw [← hr]
        exact hgc p e2
      · obtain ⟨⟨lb, rfl⟩, hr⟩ := hr
        obtain ⟨p, e1, e2, -⟩ := C41_christofides_par_returned_partial hm (by omega) he.rng he.sched
          (hsafe ⟨_, rfl⟩ m hm0) hr
        rw [e1]
        exact hgc p e2
  · intro env he cmd outs hrun
    refine mpi_lines hm0 hb hp ht ?_ ?_ ?_ ?_ hrun
    · intro w hw
      have hs : env.size ≤ m.dim := by
        by_contra hlt
        obtain ⟨e, he'⟩ := C35_mpi_too_many_ranks env.oneTreeShape m (not_le.mp hlt)
        rw [he'] at hw
        cases hw
      rw [hompi _ _ he.oneTreeShape he.size hs] at hw
      injection hw with hw
      rw [← hw]
      exact good_bound rfl hwo
    · intro t' h'
      have : t'.undirectedEdgeWeight = .fin wt := by
        rcases h' with h' | ⟨r, h'⟩
        · rw [ht1] at h'; injection h' with h'; rw [← h', ht2]
        · obtain ⟨t'', e1, e2⟩ := hqueue _ (he.peek r)
          rw [e1] at h'; injection h' with h'; rw [← h', e2]
      rw [this]
      exact good_bound rfl hwt
    · intro rs hrs r hr
      have hs : env.size ≤ m.dim := by
        by_contra hlt
        obtain ⟨e, he'⟩ := C40_too_many_ranks env.nnShape m (not_le.mp hlt)
        rw [he'] at hrs
        cases hrs
      obtain ⟨w, p', e1, e2⟩ := hnnmpi _ _ he.nnShape he.size hs
      obtain ⟨w', p'', f1, f2, f3, -⟩ := C40_mpi_partial hm he.size hs _ he.nnShape
      rw [e1] at hrs
      injection hrs with hrs
      rw [← hrs] at hr
      have hr1 := List.eq_of_mem_replicate hr
      rw [e1] at f1
      injection f1 with f1
      rw [f1] at hr
      have hr2 := List.eq_of_mem_replicate hr
      rw [hr1]
      rw [hr1] at hr2
      injection hr2 with hr2 _
      injection hr2 with hr2
      refine good_nn ⟨?_, e2⟩
      rw [hr2, f3]
      exact hq.2 _ f2
    · intro r hr
      obtain ⟨p, e1, e2, -⟩ := C62_christofides_mpi_partial hm (by omega) (mpi_isMetric hr) he.rng he.shufs he.size
      rw [e1] at hr
      injection hr with hr
      rw [← hr]
      exact hgc p e2

/-- the instance `six` of C59 is a metric: nearest neighbour prints 60, which is the optimum, and the
spanning tree has weight 50 -/
example : (doConditionsHold six = .ok true ∧ NoLoop six ∧ 3 ≤ six.length ∧
      Metric six.length (fun i j => if i = j then 0 else if i < 2 ∧ j < 2 then 11 else (10 : ℚ)) ∧
      ∀ (i : Nat) (es : List (Edge (XNum ℚ))), six[i]? = some es → ∀ e ∈ es,
        e.cost = .fin (if i = e.dst then 0 else if i < 2 ∧ e.dst < 2 then 11 else (10 : ℚ))) ∧
    Runs env1 six (.approx .nearestNeighbour .singleThreaded none)
      (.ok [.nnWeight (.fin 60), .nnTour [0, 2, 1, 3, 4, 5]]) := by
  refine ⟨⟨C59_threaded.1, six_noLoop, by decide, ⟨?_, ?_, ?_⟩, ?_⟩, C59_threaded.2.2⟩
  · intro i _
    simp
  · intro i j _ _
    simp only [eq_comm, and_comm]
  · have h : ∀ i < 6, ∀ j < 6, ∀ k < 6,
        (if i = k then 0 else if i < 2 ∧ k < 2 then 11 else (10 : ℚ)) ≤
          (if i = j then 0 else if i < 2 ∧ j < 2 then 11 else (10 : ℚ)) +
          (if j = k then 0 else if j < 2 ∧ k < 2 then 11 else (10 : ℚ)) := by decide +kernel
    intro i j k hi hj hk
    exact h i hi k hk j hj
  · have h : ∀ i < 6, ∀ e ∈ (six[i]?).getD [],
        e.cost = .fin (if i = e.dst then 0 else if i < 2 ∧ e.dst < 2 then 11 else (10 : ℚ)) := by
      decide +kernel
    intro i es hi e he
    have hlt : i < 6 := (List.getElem?_eq_some_iff.mp hi).1
    exact h i hlt e (by rw [hi]; exact he)

end Walky.Props
