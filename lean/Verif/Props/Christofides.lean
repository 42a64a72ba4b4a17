import Verif.Lemmas.EulerPartial
import Verif.Props.Matching
import Verif.Props.Exact
import Verif.Props.OneTree
import Verif.Props.NearestNeighbour
import Verif.Props.Permutation

/-! # Properties C41–C43, C50, C62: Christofides' algorithm -/

namespace Walky.Props

open FloatOps XNum Spec

variable {K : Type} [Field K] [LinearOrder K] [IsStrictOrderedRing K]

/-- **C41 (SEQ)** For every finite matrix and all shuffles, `christofides` returns a closed walk
`p ++ [0]` from city 0 in which `p` visits every city exactly once, with its length. In debug builds
the matrix must pass `is_metric`, in release builds (`dbg = false`) nothing is assumed. -/
theorem C41_christofides_seq {m : Mat (XNum K)} {c : Nat → Nat → K} (hm : Rep m c) (hn : 1 ≤ m.dim)
    {dbg : Bool} (hdbg : dbg = true → m.isMetric = true) {r : MatchRng} (hr : r.Ok) :
    ∃ p, christofidesSeq dbg m r = .ok (.fin (tourCost c p), p ++ [0]) ∧ IsTour m.dim p ∧
      p.head? = some 0 := by
  obtain ⟨mst, E, h1, h2, h3, _⟩ := prim_tree hm hn
  have hodd := oddVertices_eq h3.adjOf
  obtain ⟨M, k1, k2, _⟩ := approxMatchingSeq_ok (m := m) hr (V := oddSet m.dim E) oddSet_lt
    ((oddSet m.dim E).length ^ 2)
  obtain ⟨g, a1, a2, a3⟩ := christofidesGeneric_eq hdbg h1 h2 h3 (matcher := computeApproxMatching r)
    (by unfold computeApproxMatching; rw [hodd, k1]) k2
  unfold christofidesSeq
  rw [a3]
  exact tail_tour hm hn h2 a1 a2 dbg

example : Rep Ex.m4 Ex.c4 ∧ 1 ≤ Ex.m4.dim ∧ Ex.m4.isMetric = true ∧ exRng.Ok :=
  ⟨Ex.rep4, by decide, by decide +kernel, exRng_ok⟩
/-- the matching of this instance is not perfect, the result is a tour all the same -/
example : christofidesSeq true (Mat.ofFun 4 badC) exRng = .ok (.fin 29, [0, 3, 1, 2, 0]) := by
  decide +kernel

/-- **C41 (PAR, partial)** The same holds for every possible outcome of PAR mode, for all schedules, if
the computed matching repeats no edge; and there is an outcome. -/
theorem C41_christofides_par_partial {m : Mat (XNum K)} {c : Nat → Nat → K} (hm : Rep m c)
    (hn : 1 ≤ m.dim) {dbg : Bool} (hdbg : dbg = true → m.isMetric = true) {r : MatchRng} (hr : r.Ok)
    {s : ParSched (XNum K)} (hs : s.Ok)
    (hrep : ∀ mst M, primSeq m [] = .ok mst → computeApproxMatching r mst m = .ok M → NoRepeat M) :
    (∃ res, ChristofidesPar dbg m r s res) ∧ ∀ res, ChristofidesPar dbg m r s res →
      ∃ p, res = .ok (.fin (tourCost c p), p ++ [0]) ∧ IsTour m.dim p ∧ p.head? = some 0 := by
  obtain ⟨mst, E, h1, h2, h3, _⟩ := prim_tree hm hn
  have hodd := oddVertices_eq h3.adjOf
  obtain ⟨M, k1, k2, _⟩ := approxMatchingSeq_ok (m := m) hr (V := oddSet m.dim E) oddSet_lt
    ((oddSet m.dim E).length ^ 2)
  have hM : NoRepeat M := hrep mst M h1 (by unfold computeApproxMatching; rw [hodd, k1])
  obtain ⟨b1, b2⟩ := christofidesGenericPar_eq hdbg h1 h2 h3
    (matcher := computeApproxMatchingPar r s.chunks)
    (by unfold computeApproxMatchingPar; rw [hodd, approxMatchingPar_eq hr oddSet_lt hs.chunks, k1]) hM hs
  refine ⟨b1, fun res hres => ?_⟩
  obtain ⟨g, a1, a2, rfl⟩ := b2 res hres
  exact tail_tour hm hn h2 a1 a2 dbg

/-- **C41 (PAR, partial)** In particular this holds if no four cities have three pairings of three
different costs, for example for tree metrics. -/
theorem C41_christofides_par_noThree_partial {m : Mat (XNum K)} {c : Nat → Nat → K} (hm : Rep m c)
    (hn : 1 ≤ m.dim) (hsym : Symm m.dim c) (h3 : NoThree m.dim c) {dbg : Bool}
    (hdbg : dbg = true → m.isMetric = true) {r : MatchRng} (hr : r.Ok)
    {s : ParSched (XNum K)} (hs : s.Ok) :
    (∃ res, ChristofidesPar dbg m r s res) ∧ ∀ res, ChristofidesPar dbg m r s res →
      ∃ p, res = .ok (.fin (tourCost c p), p ++ [0]) ∧ IsTour m.dim p ∧ p.head? = some 0 := by
  refine C41_christofides_par_partial hm hn hdbg hr hs ?_
  intro mst M k1 k2
  obtain ⟨mst', E, e1, e2, e3, e4⟩ := C44_matching_perfect_partial hm hn hsym
  rw [k1] at e1
  injection e1 with e1
  subst e1
  obtain ⟨M', f1, f2⟩ := e4 (Or.inl h3) r hr
  rw [k2] at f1
  injection f1 with f1
  subst f1
  apply noRepeat_of_nodup
  exact f2.nodup_iff.mpr (List.nodup_range.filter _)

/-- Either subtractions are checked, as in debug builds, or the computed matching repeats no edge, so that
no two threads of PAR mode increment the same entry. -/
def Harmless {α : Type} [FloatOps α] (dbg : Bool) (m : Mat α) (r : MatchRng) : Prop :=
  dbg = true ∨ ∀ mst M, primSeq m [] = .ok mst → computeApproxMatching r mst m = .ok M → NoRepeat M

/-- **C41 (PAR, partial)** Whatever the race between the increments does: if PAR mode returns at all, in a
debug build or with a matching that repeats no edge, it returns a truthful Hamiltonian cycle from
city 0. -/
theorem C41_christofides_par_returned_partial {m : Mat (XNum K)} {c : Nat → Nat → K} (hm : Rep m c)
    (hn : 1 ≤ m.dim) {dbg : Bool} {r : MatchRng} (hr : r.Ok) {s : ParSched (XNum K)} (hs : s.Ok)
    (hh : Harmless dbg m r) {sol : Solution (XNum K)} (h : ChristofidesPar dbg m r s (.ok sol)) :
    ∃ p, sol = (.fin (tourCost c p), p ++ [0]) ∧ IsTour m.dim p ∧ p.head? = some 0 := by
  cases dbg with
  | true =>
    unfold ChristofidesPar ChristofidesGenericPar at h
    split at h
    · cases h
    · split at h
      · cases h
      · split at h
        · cases h
        · split at h
          · cases h
          · obtain ⟨g, -, hres⟩ := h
            exact christofidesTail_debug hm hres.symm
  | false =>
    obtain ⟨p, h1, h2, h3⟩ := (C41_christofides_par_partial hm hn (by simp) hr hs
      (hh.resolve_left (by simp))).2 _ h
    exact ⟨p, Except.ok.inj h1, h2, h3⟩

/-- **C41 (PAR, partial)** Whatever the race between the increments does, and in every build: if PAR mode
returns at all, it returns a closed walk from city 0 that visits no city twice, with its length. In a
release build it may leave out cities (`C41_par_release_wrong`). -/
theorem C41_christofides_par_walk_partial {m : Mat (XNum K)} {c : Nat → Nat → K} (hm : Rep m c)
    (hn : 1 ≤ m.dim) {dbg : Bool} {r : MatchRng} {s : ParSched (XNum K)} (hs : s.Ok)
    {sol : Solution (XNum K)} (h : ChristofidesPar dbg m r s (.ok sol)) :
    ∃ p, sol = (.fin (tourCost c p), p ++ [0]) ∧ p.head? = some 0 ∧ p.Nodup ∧ (∀ v ∈ p, v < m.dim) ∧
      (m.dim = 1 ∨ 2 ≤ p.length) := by
  obtain ⟨mst, E, h1, h2, h3, _⟩ := prim_tree hm hn
  have hlen : min mst.length m.dim = m.dim := by rw [h3.len]; exact min_self _
  obtain ⟨g0, a1, a2, a3⟩ := fillMstPar_ok rfl h3.adjOf (spanning_valid h2) (hs.columns m.dim)
  unfold ChristofidesPar ChristofidesGenericPar at h
  rw [C30_par_eq_seq strictWeak_olt s.shape s.update hs.shape hs.update, h1] at h
  simp only [hlen, a1] at h
  split at h
  · cases h
  · split at h
    · cases h
    · obtain ⟨g, hg, hres⟩ := h
      obtain ⟨b1, b2⟩ := fillMatchingPar_ge hg
      refine christofidesTail_any hm hn h2 (by rw [b1, a2]) ?_ hres.symm
      intro i j hi hj hJ
      have := (a3 i j hi hj).1 hJ
      have := b2 i j
      omega

/-- a schedule: everything in order -/
def exSched (α : Type) : ParSched α :=
  ⟨fun _ l => l.foldr (fun x t => .node (.leaf x) t) .empty, fun _ n => List.range n, fun _ n => List.range n,
    fun n => List.range n⟩

theorem exSched_ok (α : Type) : (exSched α).Ok := by
  refine ⟨?_, fun _ _ => .refl _, fun _ _ => .refl _, fun _ => .refl _⟩
  intro _ l
  induction l with
  | nil => rfl
  | cons x l ih =>
    simp only [exSched, List.foldr_cons, RTree.flatten] at ih ⊢
    simp [ih]

example : Rep (Mat.ofFun 4 lineC) lineC ∧ NoThree 4 lineC ∧ (Mat.ofFun 4 lineC).isMetric = true ∧
    exRng.Ok ∧ (exSched (XNum ℚ)).Ok :=
  ⟨rep_ofFun _ _, noThree_line, by decide +kernel, exRng_ok, exSched_ok _⟩

/-- a star metric on nine cities -/
def raceC : Nat → Nat → ℚ := ofRowsC
  [[0, 10, 10, 10, 10, 10, 10, 10, 10], [10, 0, 19, 18, 13, 16, 17, 17, 18],
   [10, 19, 0, 12, 20, 17, 14, 11, 13], [10, 18, 12, 0, 16, 19, 18, 16, 19],
   [10, 13, 20, 16, 0, 17, 15, 14, 15], [10, 16, 17, 19, 17, 0, 19, 16, 12],
   [10, 17, 14, 18, 15, 19, 0, 17, 11], [10, 17, 11, 16, 14, 16, 17, 0, 12],
   [10, 18, 13, 19, 15, 12, 11, 12, 0]]

/-- every shuffle of the edges moves the first one to the end -/
def raceRng : MatchRng := ⟨id, fun _ l => l.rotate 1⟩

/-- the tree of this instance -/
def raceTree : Graph (XNum ℚ) :=
  ((List.range 8).map fun i => (⟨i + 1, fin 10⟩ : Edge (XNum ℚ))) :: List.replicate 8 [⟨0, fin 10⟩]

/-- the multigraph after the tree has been entered -/
def raceBase : MGraph (XNum ℚ) :=
  (fillMstPar (List.range 9) (emptyMulti (Mat.ofFun 9 raceC)) raceTree).toOption.getD
    (emptyMulti (Mat.ofFun 9 raceC))

/-- the computed matching; it contains the edge between 3 and 7 twice -/
def raceMatching : List (Nat × Nat) := [(7, 3), (1, 4), (3, 7), (6, 8)]

/-- the multigraph after a lost update -/
def raceGraph : MGraph (XNum ℚ) :=
  (raceRun raceBase raceMatching [0, 2, 2, 2, 0, 2, 0, 0, 1, 1, 1, 1, 3, 3, 3, 3]).g

/-- **C41 (negation for PAR)** There are a metric matrix with nine cities, shuffles and an interleaving
of the unsynchronised increments for which PAR mode does not return: an increment is lost, and the loop
that looks for the Euler walk runs forever without progress. -/
theorem C41_par_can_hang : ∃ (m : Mat (XNum ℚ)) (c : Nat → Nat → ℚ) (r : MatchRng)
    (s : ParSched (XNum ℚ)) (mst : Graph (XNum ℚ)) (M : List (Nat × Nat)) (g0 g : MGraph (XNum ℚ)),
    Rep m c ∧ Metric m.dim c ∧ m.isMetric = true ∧ r.Ok ∧ s.Ok ∧
    primPar s.shape s.update m [] = .ok mst ∧ computeApproxMatchingPar r s.chunks mst m = .ok M ∧
    fillMstPar (s.columns (min mst.length m.dim)) (emptyMulti m) mst = .ok g0 ∧
    FillMatchingPar g0 M g ∧ (∀ dbg fuel, eulerLoop dbg fuel g (multiDegrees g) [0] = .error .fuel) ∧
    ∀ dbg, ChristofidesPar dbg m r s (.error .fuel) := by
  have h1 : primPar (exSched (XNum ℚ)).shape (exSched (XNum ℚ)).update (Mat.ofFun 9 raceC) [] = .ok raceTree := by
    rw [C30_par_eq_seq strictWeak_olt _ _ (exSched_ok _).shape (exSched_ok _).update]
    decide +kernel
  have h2 : computeApproxMatchingPar raceRng (exSched (XNum ℚ)).chunks raceTree (Mat.ofFun 9 raceC) =
      .ok raceMatching := by decide +kernel
  have h3 : fillMstPar ((exSched (XNum ℚ)).columns (min raceTree.length (Mat.ofFun 9 raceC).dim))
      (emptyMulti (Mat.ofFun 9 raceC)) raceTree = .ok raceBase := by
    have e : (exSched (XNum ℚ)).columns (min raceTree.length (Mat.ofFun 9 raceC).dim) = List.range 9 := by
      decide +kernel
    have hsome : (fillMstPar (List.range 9) (emptyMulti (Mat.ofFun 9 raceC)) raceTree).toOption.isSome = true := by
      decide +kernel
    rw [e]
    unfold raceBase
    cases h : fillMstPar (List.range 9) (emptyMulti (Mat.ofFun 9 raceC)) raceTree with
    | error e => rw [h] at hsome; simp [Except.toOption] at hsome
    | ok g => rfl
  have h4 : FillMatchingPar raceBase raceMatching raceGraph := raceRun_ok (by decide +kernel)
  have h5 : ∀ dbg fuel, eulerLoop dbg fuel raceGraph (multiDegrees raceGraph) [0] = .error .fuel := by
    intro dbg
    have h : ∀ dbg, stuckAfter dbg 3 raceGraph (multiDegrees raceGraph) [0] = true := by decide +kernel
    exact stuck_forever 3 _ _ _ (h dbg)
  have h6 : (Mat.ofFun 9 raceC).isMetric = true := by decide +kernel
  refine ⟨Mat.ofFun 9 raceC, raceC, raceRng, exSched _, raceTree, raceMatching, raceBase, raceGraph,
    rep_ofFun _ _, ?_, h6, ⟨fun _ => .refl _, fun _ l => List.rotate_perm l 1⟩, exSched_ok _, h1, h2, h3, h4, h5, ?_⟩
  · have h : ∀ i < 9, ∀ j < 9, ∀ k < 9, raceC i j ≤ raceC i k + raceC k j := by decide +kernel
    have h' : ∀ i < 9, ∀ j < 9, raceC i j = raceC j i := by decide +kernel
    have h'' : ∀ i < 9, raceC i i = 0 := by decide +kernel
    exact ⟨fun i hi => h'' i hi, fun i j hi hj => h' i hi j hj, fun i j k hi hj hk => h i hi j hj k hk⟩
  · intro dbg
    unfold ChristofidesPar ChristofidesGenericPar
    rw [h6, h1]
    simp only [Bool.not_true, Bool.and_false, Bool.false_eq_true, if_false, h2, h3]
    refine ⟨raceGraph, h4, ?_⟩
    unfold christofidesTail eulerianCycle
    rw [h5 dbg]
    rfl

omit [IsStrictOrderedRing K] in
/-- **C41 (negation for debug builds)** A debug build panics on every matrix that fails `is_metric`, in
every mode. -/
theorem C41_debug_not_metric {m : Mat (XNum K)} (h : m.isMetric = false) (r : MatchRng) :
    christofidesSeq true m r = .error .assert ∧
    ∀ s res, ChristofidesPar true m r s res → res = .error .assert := by
  refine ⟨?_, ?_⟩
  · unfold christofidesSeq christofidesGeneric
    simp [h]
  · intro s res hres
    unfold ChristofidesPar ChristofidesGenericPar at hres
    rw [h] at hres
    simpa using hres

example : (Mat.ofRowsFin [[0, 1, 5], [1, 0, 1], [5, 1, (0 : ℚ)]]).isMetric = false := by decide +kernel

/-- **C42** On every metric: if the matching computer returns a perfect matching `M` of the vertices of
odd degree in Prim's tree, the cost returned by `christofides_generic` is at most the weight of the
tree plus the weight of `M`. This is shown for SEQ and for every possible outcome of PAR. -/
theorem C42_christofides_bound {m : Mat (XNum K)} {c : Nat → Nat → K} (hm : Rep m c) (hn : 1 ≤ m.dim)
    (hmet : Metric m.dim c) {dbg : Bool} (hdbg : dbg = true → m.isMetric = true) :
    ∃ mst E w, primSeq m [] = .ok mst ∧ IsSpanningTree (List.range m.dim) E ∧ GraphOf m.dim c E mst ∧
      mst.undirectedEdgeWeight = .fin w ∧ ∀ matcher M, matcher mst m = .ok M →
        PerfectMatching (oddDegree m.dim E) M →
        (∃ p, christofidesGeneric dbg m matcher = .ok (.fin (tourCost c p), p ++ [0]) ∧
          IsTour m.dim p ∧ tourCost c p ≤ w + edgeSum c M) ∧
        ∀ s : ParSched (XNum K), s.Ok → (∃ res, ChristofidesGenericPar dbg m matcher s res) ∧
          ∀ res, ChristofidesGenericPar dbg m matcher s res →
            ∃ p, res = .ok (.fin (tourCost c p), p ++ [0]) ∧ IsTour m.dim p ∧
              tourCost c p ≤ w + edgeSum c M := by
  obtain ⟨mst, E, h1, h2, h3, h4⟩ := prim_tree hm hn
  refine ⟨mst, E, _, h1, h2, h3, h4, ?_⟩
  intro matcher M hmat hM
  refine ⟨?_, ?_⟩
  · obtain ⟨g, a1, a2, a3⟩ := christofidesGeneric_eq hdbg h1 h2 h3 hmat
      (valid_iff.mpr fun v hv => oddSet_lt v (hM.mem_iff.mp hv))
    obtain ⟨p, b1, b2, _, b3⟩ := tail_cost hm hn hmet h2 hM a1 a2 dbg
    exact ⟨p, by rw [a3, b1], b2, b3⟩
  · intro s hs
    have hrep : NoRepeat M := noRepeat_of_nodup (hM.nodup_iff.mpr (List.nodup_range.filter _))
    obtain ⟨b1, b2⟩ := christofidesGenericPar_eq hdbg h1 h2 h3 hmat hrep hs
    refine ⟨b1, fun res hres => ?_⟩
    obtain ⟨g, a1, a2, rfl⟩ := b2 res hres
    obtain ⟨p, b1, b2, _, b3⟩ := tail_cost hm hn hmet h2 hM a1 a2 dbg
    exact ⟨p, b1, b2, b3⟩

/-- the hypotheses of C42: a tree with four vertices of odd degree and a perfect matching of them -/
example : Rep (Mat.ofFun 4 badC) badC ∧ Metric 4 badC ∧ (Mat.ofFun 4 badC).isMetric = true ∧
    (primSeq (Mat.ofFun 4 badC) [] >>= fun mst => .ok (oddVertices mst)) = .ok [0, 1, 2, 3] ∧
    PerfectMatching [0, 1, 2, 3] [(3, 0), (1, 2)] ∧
    christofidesGeneric true (Mat.ofFun 4 badC) (fun _ _ => .ok [(3, 0), (1, 2)]) =
      .ok (.fin 32, [0, 1, 2, 3, 0]) := by
  refine ⟨rep_ofFun _ _, metric_bad, by decide +kernel, by decide +kernel, ?_, by decide +kernel⟩
  show [3, 0, 1, 2].Perm [0, 1, 2, 3]
  decide

/-- **C43** On every metric: if the matching computer returns a perfect matching of smallest weight of
the vertices of odd degree in Prim's tree, the cost returned by `christofides_generic` is at most 3/2 of
the length of every tour. This is shown for SEQ and for every possible outcome of PAR. -/
theorem C43_three_halves {m : Mat (XNum K)} {c : Nat → Nat → K} (hm : Rep m c) (hn : 1 ≤ m.dim)
    (hmet : Metric m.dim c) {dbg : Bool} (hdbg : dbg = true → m.isMetric = true) :
    ∃ mst E, primSeq m [] = .ok mst ∧ IsSpanningTree (List.range m.dim) E ∧ GraphOf m.dim c E mst ∧
      (∃ M, PerfectMatching (oddDegree m.dim E) M) ∧
      ∀ matcher M, matcher mst m = .ok M → MinMatching c (oddDegree m.dim E) M →
        (∃ p, christofidesGeneric dbg m matcher = .ok (.fin (tourCost c p), p ++ [0]) ∧
          IsTour m.dim p ∧ ∀ q, IsTour m.dim q → 2 * tourCost c p ≤ 3 * tourCost c q) ∧
        ∀ s : ParSched (XNum K), s.Ok → (∃ res, ChristofidesGenericPar dbg m matcher s res) ∧
          ∀ res, ChristofidesGenericPar dbg m matcher s res →
            ∃ p, res = .ok (.fin (tourCost c p), p ++ [0]) ∧ IsTour m.dim p ∧
              ∀ q, IsTour m.dim q → 2 * tourCost c p ≤ 3 * tourCost c q := by
  obtain ⟨mst, E, w, h1, h2, h3, h4, h5⟩ := C42_christofides_bound hm hn hmet hdbg
  have hnn : ∀ i j, i < m.dim → j < m.dim → 0 ≤ c i j := fun i j hi hj => hmet.nonneg hi hj
  obtain ⟨g, w', t1, t2, t3⟩ := C32_mst_lower_bound hm hmet.symm (fun i j hi hj _ => hnn i j hi hj)
    (fun h => hnn 0 0 (by omega) (by omega)) hn
  rw [h1] at t1
  injection t1 with t1
  subst t1
  rw [h4] at t2
  injection t2 with t2
  subst t2
  have hnd : (oddDegree m.dim E).Nodup := List.nodup_range.filter _
  have hlt : ∀ v ∈ oddDegree m.dim E, v < m.dim := oddSet_lt
  have hev : (oddDegree m.dim E).length % 2 = 0 := oddSet_even (spanning_valid h2)
  refine ⟨mst, E, h1, h2, h3, ?_, ?_⟩
  · obtain ⟨M, hM, _⟩ := half_tour hmet (List.Perm.refl _ : IsTour m.dim (List.range m.dim)) hnd hlt hev
    exact ⟨M, hM⟩
  · intro matcher M hmat hM
    have key : ∀ p, tourCost c p ≤ w + edgeSum c M → ∀ q, IsTour m.dim q →
        2 * tourCost c p ≤ 3 * tourCost c q := by
      intro p hp q hq
      obtain ⟨M', hM', hle⟩ := half_tour hmet hq hnd hlt hev
      have e1 := hM.2 M' hM'
      have e2 := t3 q hq
      linarith
    obtain ⟨⟨p, a1, a2, a3⟩, b⟩ := h5 matcher M hmat hM.1
    refine ⟨⟨p, a1, a2, key p a3⟩, fun s hs => ⟨(b s hs).1, fun res hres => ?_⟩⟩
    obtain ⟨p, a1, a2, a3⟩ := (b s hs).2 res hres
    exact ⟨p, a1, a2, key p a3⟩

/-- a matching of smallest weight for this tree with four vertices of odd degree -/
example : MinMatching (K := ℚ) starC [0, 1, 2, 3] [(0, 1), (2, 3)] := by
  refine ⟨.refl _, ?_⟩
  intro M' hM'
  have hnd : (ends M').Nodup := hM'.nodup_iff.mpr (by decide)
  have hlen : (ends M').length = 4 := hM'.length_eq
  have hlt : ∀ v ∈ ends M', v < 4 := fun v hv => by
    have := hM'.mem_iff.mp hv
    simp at this
    omega
  match M', hnd, hlen, hlt with
  | [(a, b), (x, y)], hnd, _, hlt =>
    have ha : a < 4 := hlt a (by simp [ends])
    have hb : b < 4 := hlt b (by simp [ends])
    have hx : x < 4 := hlt x (by simp [ends])
    have hy : y < 4 := hlt y (by simp [ends])
    have key : ∀ a < 4, ∀ b < 4, ∀ x < 4, ∀ y < 4, (ends [(a, b), (x, y)]).Nodup →
        edgeSum starC [(0, 1), (2, 3)] ≤ edgeSum starC [(a, b), (x, y)] := by decide +kernel
    exact key a ha b hb x hx y hy hnd
  | [], _, h, _ => simp [ends] at h
  | [_], _, h, _ => simp [ends] at h
  | _ :: _ :: _ :: _, _, h, _ => simp [ends] at h

/-- **C50** On every finite symmetric matrix without negative costs and with at least three cities: the
exact solvers v0–v3 all return the same cost, the MST bound and the 1-tree bound are at most that
cost, and the costs returned by `nearest_neighbour` (for every order of the start cities) and by
`christofides` (for all shuffles) are at least that cost. For PAR, every outcome has this property if
the matching repeats no edge, and in debug builds every returned solution has it in any case. -/
theorem C50_approximations_partial {m : Mat (XNum K)} {c : Nat → Nat → K} (hm : Rep m c) (hn : 3 ≤ m.dim)
    (hsym : Symm m.dim c) (hnn : Nonneg m.dim c) {dbg : Bool} (hdbg : dbg = true → m.isMetric = true) :
    ∃ opt, (∃ p, naiveSolver m = .ok (.fin opt, p)) ∧ (∃ p, firstImprovedSolver m = .ok (.fin opt, p)) ∧
      (∃ p, secondImprovedSolver m = .ok (.fin opt, p)) ∧
      (∃ p, thirdImprovedSolver m = .ok (.fin opt, p)) ∧
      (∃ g w, primSeq m [] = .ok g ∧ g.undirectedEdgeWeight = .fin w ∧ w ≤ opt) ∧
      (∃ w, oneTreeLbSeq m = .ok (.fin w) ∧ w ≤ opt) ∧
      (∀ xs : List Nat, xs.Perm (List.range m.dim) →
        ∃ w p, nearestNeighbourSeq xs m = .ok (.fin w, p) ∧ opt ≤ w) ∧
      (∀ r : MatchRng, r.Ok → ∃ w p, christofidesSeq dbg m r = .ok (.fin w, p) ∧ opt ≤ w) ∧
      (∀ (r : MatchRng) (s : ParSched (XNum K)), r.Ok → s.Ok →
        (∀ mst M, primSeq m [] = .ok mst → computeApproxMatching r mst m = .ok M → NoRepeat M) →
        ∀ res, ChristofidesPar dbg m r s res → ∃ w p, res = .ok (.fin w, p) ∧ opt ≤ w) ∧
      ∀ (r : MatchRng) (s : ParSched (XNum K)) (sol : Solution (XNum K)), r.Ok → s.Ok → Harmless dbg m r →
        ChristofidesPar dbg m r s (.ok sol) → ∃ w, sol.1 = .fin w ∧ opt ≤ w := by
  obtain ⟨p2, a1, a2⟩ := C05_v2_exact m c hm (by omega)
  obtain ⟨p0, b1, b2⟩ := C03_v0_exact_partial m c hm (by omega)
  obtain ⟨p1, c1, c2, _⟩ := C04_v1_exact_partial m c hm hn hsym
  obtain ⟨p3, d1, d2⟩ := C06_v3_exact m c hm (by omega) hnn (by omega)
  have same : ∀ p, IsShortest m.dim c p → tourCost c p = tourCost c p2 := fun p hp =>
    le_antisymm (hp.2 _ a2.1) (a2.2 _ hp.1)
  rw [same p0 b2] at b1
  rw [same p1 c2] at c1
  rw [same p3 d2] at d1
  obtain ⟨g, w, e1, e2, e3⟩ := C32_mst_lower_bound hm hsym hnn (by omega) (by omega)
  obtain ⟨w1, f1, f2⟩ := C34_one_tree_bound_partial hm hsym hn
  refine ⟨tourCost c p2, ⟨p0, b1⟩, ⟨p1, c1⟩, ⟨p2, a1⟩, ⟨p3, d1⟩, ⟨g, w, e1, e2, e3 _ a2.1⟩,
    ⟨w1, f1, f2 _ a2.1⟩, ?_, ?_, ?_, ?_⟩
  · intro xs hxs
    obtain ⟨w, _, _, h⟩ := C39_nearest_neighbour hm (by omega)
    obtain ⟨p, h1, h2, h3⟩ := h xs hxs
    exact ⟨w, p, h1, by rw [h3]; exact a2.2 p h2⟩
  · intro r hr
    obtain ⟨p, h1, h2, _⟩ := C41_christofides_seq hm (by omega) hdbg hr
    exact ⟨_, _, h1, a2.2 p h2⟩
  · intro r s hr hs hrep res hres
    obtain ⟨p, h1, h2, _⟩ := (C41_christofides_par_partial hm (by omega) hdbg hr hs hrep).2 res hres
    exact ⟨_, _, h1, a2.2 p h2⟩
  · intro r s sol hr hs hh h
    obtain ⟨p, h1, h2, _⟩ := C41_christofides_par_returned_partial hm (by omega) hr hs hh h
    exact ⟨_, by rw [h1], a2.2 p h2⟩

example : Rep Ex.m4 Ex.c4 ∧ 3 ≤ Ex.m4.dim ∧ Symm Ex.m4.dim Ex.c4 ∧ Nonneg Ex.m4.dim Ex.c4 ∧
    Ex.m4.isMetric = true := ⟨Ex.rep4, by decide, Ex.symm4, Ex.nonneg4, by decide +kernel⟩

/-- **C62 (partial)** For every number of processes and all shuffles on all ranks, the root of an MPI
run of `christofides` on at least two cities returns a truthful Hamiltonian cycle from city 0. -/
theorem C62_christofides_mpi_partial {m : Mat (XNum K)} {c : Nat → Nat → K} (hm : Rep m c)
    (hn : 2 ≤ m.dim) {dbg : Bool} (hdbg : dbg = true → m.isMetric = true) {r : MatchRng} (hr : r.Ok)
    {shufs : Nat → Nat → List (Nat × Nat) → List (Nat × Nat)} (hsh : ∀ k i l, (shufs k i l).Perm l)
    {size : Nat} (hsize : 1 ≤ size) :
    ∃ p, christofidesMpi dbg m r shufs size = .ok (.fin (tourCost c p), p ++ [0]) ∧ IsTour m.dim p ∧
      p.head? = some 0 := by
  obtain ⟨mst, E, h1, h2, h3, _⟩ := prim_tree hm (by omega)
  have hodd := oddVertices_eq h3.adjOf
  have hval : Valid m.dim (pairUp (r.vertices (oddSet m.dim E))) := valid_iff.mpr fun v hv =>
    oddSet_lt v ((hr.vertices _).mem_iff.mp ((flatten_pairUp_sublist _).subset hv))
  have hne : pairUp (r.vertices (oddSet m.dim E)) ≠ [] := by
    intro hc
    have := length_pairUp (r.vertices (oddSet m.dim E))
    rw [hc, (hr.vertices _).length_eq] at this
    have := oddSet_two hn h2
    simp at *
    omega
  obtain ⟨root, others, k1, k2⟩ := mpiImproveMatching_ok (m := m) hsh
    (tries := (oddSet m.dim E).length ^ 2) hsize hval hne (fun l' hl' => matchingCost_ok hl')
  have hM : Valid m.dim (mpiBest root others).2 := by
    have hmem := mpiBest_mem others root
    rw [← k1] at hmem
    obtain ⟨k, _, e⟩ := List.mem_map.mp hmem
    rw [← e]
    exact impRun_valid (hsh k) hval
  obtain ⟨g, a1, a2, a3⟩ := christofidesGeneric_eq hdbg h1 h2 h3
    (matcher := computeApproxMatchingMpi r shufs size) (M := (mpiBest root others).2) (by
      unfold computeApproxMatchingMpi
      rw [hodd, k2, rm_bind_ok]
      cases size with
      | zero => omega
      | succ k => rfl) hM
  unfold christofidesMpi
  rw [a3]
  exact tail_tour hm (by omega) h2 a1 a2 dbg

example : christofidesMpi true (Mat.ofFun 4 badC) exRng (fun k _ l => l.rotate k) 3 =
    .ok (.fin 29, [0, 3, 1, 2, 0]) := by decide +kernel

/-- **C62 (negation for one city)** With a single city the matching is empty and the MPI version
panics, although the other versions return `[0, 0]`. -/
theorem C62_one_city (x : K) (r : MatchRng) (hr : r.Ok)
    (shufs : Nat → Nat → List (Nat × Nat) → List (Nat × Nat)) (size : Nat) :
    christofidesMpi false (Mat.ofFun 1 fun _ _ => x) r shufs size = .error .index := by
  obtain ⟨mst, E, h1, h2, h3, _⟩ := prim_tree (rep_ofFun 1 fun _ _ => x) (le_refl 1)
  have hE : E = [] := List.length_eq_zero_iff.mp (by
    have := h2.count
    rw [List.length_range] at this
    exact Nat.succ.inj this)
  have h4 : oddVertices mst = [] := by
    rw [oddVertices_eq h3.adjOf, hE]
    rfl
  have h5 : r.vertices [] = [] := List.perm_nil.mp (hr.vertices [])
  unfold christofidesMpi christofidesGeneric computeApproxMatchingMpi
  simp only [h1, Bool.false_and, Bool.false_eq_true, if_false, rm_bind_ok]
  rw [h4, h5]
  rfl

end Walky.Props
