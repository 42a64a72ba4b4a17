import Verif.Props.RoadTree
import Verif.Props.Cli
import Verif.Props.CliMpi
import Verif.Props.OneTree
import Verif.Lemmas.CliLines

/-! # Property C133: the program on a road network without cycles -/

namespace Walky.Props

open FloatOps XNum Spec

variable {K : Type} [Field K] [LinearOrder K] [IsStrictOrderedRing K] {c : Nat → Nat → K}

/-- tour lengths are at least `2 w`, spanning tree bounds are `w` and 1-tree bounds are between `w` and `2 w` -/
def SaysRoads (w : K) (l : Line (XNum K)) : Prop :=
  (∀ y, l = .nnWeight y ∨ l = .christofidesWeight y → ∃ z, y = .fin z ∧ 2 * w ≤ z) ∧
  (∀ y, l = .mstBound y → y = .fin w) ∧ ∀ y, l = .oneTreeBound y → ∃ z, y = .fin z ∧ w ≤ z ∧ z ≤ 2 * w

/-- **C133** (the program) Every accepted instance with the distances along a road network of length `w` without cycles:
`walky exact` with v0 - v3, without threads and MPI, prints `2 w`. Of all commands, with and without threads and MPI,
every spanning tree bound is `w`, every 1-tree bound is between `w` and `2 w`, and no length of an approximate tour is
below `2 w` (Christofides tours in release builds with several threads: if the matching repeats no edge, `Trusted`). -/
theorem C133_program {g : Graph (XNum K)} (hacc : doConditionsHold g = .ok true) (hl : NoLoop g) (hn : 3 ≤ g.length)
    (hc : ∀ (i : Nat) (es : List (Edge (XNum K))), g[i]? = some es → ∀ e ∈ es, e.cost = .fin (c i e.dst))
    (hmet : Metric g.length c) {cities : List Nat} (hcities : cities.Perm (List.range g.length)) {w : K}
    (hroads : RoadTree c cities w) :
    (∀ env : Env (XNum K), env.Ok →
      (∀ alg out, (alg = .v0 ∨ alg = .v1 ∨ alg = .v2 ∨ alg = .v3) → Runs env g (.exact alg .singleThreaded) out →
        ∃ q, out = .ok [.bestCost (.fin (2 * w)), .bestPermutation q] ∧ IsTour g.length q) ∧
      ∀ cmd lines, Runs env g cmd (.ok lines) → ∀ l ∈ lines, Trusted env g cmd l → SaysRoads w l) ∧
    ∀ env : MpiEnv (XNum K), env.Ok → ∀ cmd outs, MpiRuns env g cmd outs → ∀ o ∈ outs, ∀ l ∈ o.lines,
      SaysRoads w l := by
  have hcomp := complete_of_accepted hacc hl
  obtain ⟨m, m1, hdim, -, m4, -⟩ := naFromGraph_complete hcomp
  have hm0 : (do naFromGraph (← parseChecked g)) = .ok m := by
    rw [(C55_complete_accepted hcomp).2, rm_bind_ok, m1]
  have hm : Rep m c := by
    refine ⟨fun i j hi hj hij => ?_, fun h => by omega⟩
    rw [hdim] at hi hj
    have hg := List.getElem?_eq_getElem hi
    obtain ⟨e, he, hej⟩ := List.mem_map.mp ((hcomp.mem hg).mpr ⟨hj, Ne.symm hij⟩)
    rw [← hej, m4 i _ hg e he, hc i _ hg e he]
  rw [← hdim] at hn hmet hcities ⊢
  obtain ⟨hlow, -⟩ := C133_shortest (by omega) hmet hcities hroads
  obtain ⟨hex, ⟨t, t1, t2⟩, t3, t4, w1, o1, o2⟩ := C133_road_tree hm hn hmet hcities hroads
  have num : ∀ (z : K) {f : XNum K → Line (XNum K)}, 2 * w ≤ z →
      (f = .nnWeight ∨ f = .christofidesWeight) → SaysRoads w (f (.fin z)) := by
    rintro z f hz (rfl | rfl) <;>
      refine ⟨fun y hy => ?_, fun y hy => (by cases hy), fun y hy => (by cases hy)⟩ <;>
      rcases hy with hy | hy <;> cases hy <;> exact ⟨z, rfl, hz⟩
  have none : ∀ l : Line (XNum K), (∀ y, l ≠ .nnWeight y ∧ l ≠ .christofidesWeight y ∧ l ≠ .mstBound y ∧
      l ≠ .oneTreeBound y) → SaysRoads w l := by
    refine fun l h => ⟨fun y hy => ?_, fun y hy => absurd hy (h y).2.2.1, fun y hy => absurd hy (h y).2.2.2⟩
    rcases hy with hy | hy
    · exact absurd hy (h y).1
    · exact absurd hy (h y).2.1
  have mst : SaysRoads w (.mstBound (.fin w)) := by
    refine ⟨fun y hy => ?_, fun y hy => ?_, fun y hy => (by cases hy)⟩
    · rcases hy with hy | hy <;> cases hy
    · injection hy with hy
      exact hy.symm
  have one : SaysRoads w (.oneTreeBound (.fin w1)) := by
    refine ⟨fun y hy => ?_, fun y hy => (by cases hy), fun y hy => ?_⟩
    · rcases hy with hy | hy <;> cases hy
    · injection hy with hy
      exact ⟨w1, hy.symm, o2⟩
  refine ⟨fun env he => ⟨fun alg out halg hrun => ?_, fun cmd lines hrun => ?_⟩, fun env he cmd outs hrun => ?_⟩
  · simp only [Runs, ExactRun, hm0] at hrun
    have key : ∀ res : RM (Solution (XNum K)), (∃ p, res = .ok (.fin (2 * w), p) ∧ IsTour m.dim p) →
        out = (fun r : Solution (XNum K) => [Line.bestCost r.1, Line.bestPermutation r.2]) <$> res →
        ∃ q, out = .ok [.bestCost (.fin (2 * w)), .bestPermutation q] ∧ IsTour m.dim q := by
      rintro res ⟨q, rfl, hq⟩ rfl
      exact ⟨q, rfl, hq⟩
    rcases halg with rfl | rfl | rfl | rfl
    · exact key _ (hex _ (.inl rfl)) hrun
    · exact key _ (hex _ (.inr (.inl rfl))) hrun
    · exact key _ (hex _ (.inr (.inr (.inl rfl)))) hrun
    · exact key _ (hex _ (.inr (.inr (.inr rfl)))) hrun
  · refine run_lines hm0 (fun _ _ => none _ (by simp)) (fun _ _ => none _ (by simp)) (fun _ _ => none _ (by simp))
      ?_ ?_ ?_ ?_ hrun
    · intro y hy _
      rw [C35_par_eq_seq strictWeak_olt _ he.oneTreeShape, or_self, o1] at hy
      rw [← Except.ok.inj hy]
      exact one
    · intro t' ht' _
      have : t'.undirectedEdgeWeight = .fin w := by
        rcases ht' with h | h | h
        · rw [t1] at h
          rw [← Except.ok.inj h, t2]
        · obtain ⟨t1, f1, f2⟩ := t3 _ _ he.sched.shape he.sched.update
          rw [f1] at h
          rw [← Except.ok.inj h, f2]
        · obtain ⟨t1, f1, f2⟩ := t4 _ he.peek
          rw [f1] at h
          rw [← Except.ok.inj h, f2]
      rw [this]
      exact mst
    · intro r hr _
      rw [C39_nearest_neighbour_par strictWeak_olt _ he.nnShape, or_self] at hr
      obtain ⟨z, -, -, hz⟩ := C39_nearest_neighbour hm (by omega)
      obtain ⟨p, p1, p2, p3⟩ := hz _ (he.starts m.dim)
      rw [p1] at hr
      rw [← Except.ok.inj hr]
      exact num z (p3 ▸ hlow p p2) (.inl rfl)
    · intro r hr hsafe
      rcases hr with hr | ⟨⟨lb, rfl⟩, hr⟩
      · obtain ⟨p, p1, p2, -⟩ := C41_christofides_seq hm (by omega) (seq_isMetric hr) he.rng
        rw [p1] at hr
        rw [← Except.ok.inj hr]
        exact num _ (hlow p p2) (.inr rfl)
      · obtain ⟨p, rfl, p2, -⟩ := C41_christofides_par_returned_partial hm (by omega) he.rng he.sched
          (hsafe ⟨_, rfl⟩ m hm0) hr
        exact num _ (hlow p p2) (.inr rfl)
  · refine mpi_lines hm0 (fun _ => none _ (by simp)) (fun _ => none _ (by simp)) (fun _ => none _ (by simp))
      ?_ ?_ ?_ ?_ hrun
    · intro y hy
      have hs : env.size ≤ m.dim := by
        by_contra hlt
        obtain ⟨e, he'⟩ := C35_mpi_too_many_ranks env.oneTreeShape m (not_le.mp hlt)
        rw [he'] at hy
        cases hy
      rw [C35_mpi_partial hm hmet.symm hn he.size hs _ he.oneTreeShape, o1] at hy
      rw [← Except.ok.inj hy]
      exact one
    · intro t' ht'
      have : t'.undirectedEdgeWeight = .fin w := by
        rcases ht' with h | ⟨r, h⟩
        · rw [t1] at h
          rw [← Except.ok.inj h, t2]
        · obtain ⟨t1, f1, f2⟩ := t4 _ (he.peek r)
          rw [f1] at h
          rw [← Except.ok.inj h, f2]
      rw [this]
      exact mst
    · intro rs hrs r hr
      have hs : env.size ≤ m.dim := by
        by_contra hlt
        obtain ⟨e, he'⟩ := C40_too_many_ranks env.nnShape m (not_le.mp hlt)
        rw [he'] at hrs
        cases hrs
      obtain ⟨z, p, p1, p2, p3, -⟩ := C40_mpi_partial hm he.size hs _ he.nnShape
      rw [p1] at hrs
      rw [← Except.ok.inj hrs] at hr
      rw [List.eq_of_mem_replicate hr]
      exact num z (p3 ▸ hlow p p2) (.inl rfl)
    · intro r hr
      obtain ⟨p, p1, p2, -⟩ := C62_christofides_mpi_partial hm (by omega) (mpi_isMetric hr) he.rng he.shufs he.size
      rw [p1] at hr
      rw [← Except.ok.inj hr]
      exact num _ (hlow p p2) (.inr rfl)

/-- `fiveRoads` as a file with edges -/
def fiveGraph : Graph (XNum ℚ) :=
  [[⟨1, .fin 1⟩, ⟨2, .fin 2⟩, ⟨3, .fin 4⟩, ⟨4, .fin 5⟩], [⟨0, .fin 1⟩, ⟨2, .fin 3⟩, ⟨3, .fin 3⟩, ⟨4, .fin 4⟩],
   [⟨0, .fin 2⟩, ⟨1, .fin 3⟩, ⟨3, .fin 6⟩, ⟨4, .fin 7⟩], [⟨0, .fin 4⟩, ⟨1, .fin 3⟩, ⟨2, .fin 6⟩, ⟨4, .fin 7⟩],
   [⟨0, .fin 5⟩, ⟨1, .fin 4⟩, ⟨2, .fin 7⟩, ⟨3, .fin 7⟩]]

/-- the hypotheses of `C133_program` (`RoadTree` and `Metric`: see `C133_road_tree`), and a run -/
example : doConditionsHold fiveGraph = .ok true ∧ NoLoop fiveGraph ∧ fiveGraph.length = 5 ∧
    (∀ (i : Nat) (es : List (Edge (XNum ℚ))), fiveGraph[i]? = some es → ∀ e ∈ es, e.cost = .fin (fiveRoads i e.dst)) ∧
    env1.Ok ∧ lowerBoundRun env1 fiveGraph .mst .singleThreaded = .ok [.mstBound (.fin 10)] := by
  have h : ∀ i < 5, ∀ e ∈ (fiveGraph[i]?).getD [], e.dst ≠ i ∧ e.cost = .fin (fiveRoads i e.dst) := by decide +kernel
  have h' : ∀ (i : Nat) (es : List (Edge (XNum ℚ))), fiveGraph[i]? = some es → ∀ e ∈ es, _ := fun i es hi e he =>
    h i (List.getElem?_eq_some_iff.mp hi).1 e (by rw [hi]; exact he)
  refine ⟨by decide +kernel, fun i es hi e he => (h' i es hi e he).1, rfl, fun i es hi e he => (h' i es hi e he).2,
    env1_ok, ?_⟩
  have key : (match lowerBoundRun env1 fiveGraph .mst .singleThreaded with
      | .ok [.mstBound x] => decide (x = .fin 10)
      | _ => false) = true := by decide +kernel
  split at key
  · rename_i x hx
    rw [hx, of_decide_eq_true key]
  · cases key

end Walky.Props
