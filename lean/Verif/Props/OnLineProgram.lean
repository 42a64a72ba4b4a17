import Verif.Props.OnLine
import Verif.Props.Cli
import Verif.Props.CliMpi
import Verif.Props.OneTree
import Verif.Lemmas.CliLines

/-! # Property C130: the program on cities on a line -/

namespace Walky.Props

open FloatOps XNum Spec

variable {K : Type} [Field K] [LinearOrder K] [IsStrictOrderedRing K] {x : Nat → K} {a b : Nat}

omit [IsStrictOrderedRing K] in
private theorem par_isMetric {m : Mat (XNum K)} {dbg : Bool} {r : MatchRng} {s : ParSched (XNum K)}
    {sol : Solution (XNum K)} (h : ChristofidesPar dbg m r s (.ok sol)) : dbg = true → m.isMetric = true := by
  intro hd
  unfold ChristofidesPar ChristofidesGenericPar at h
  split at h
  · cases h
  · rename_i hc
    simpa [hd] using hc

/-- every tour length of the approximations is `2 d`, every spanning tree bound is `d` -/
def SaysEnds (d : K) (l : Line (XNum K)) : Prop :=
  (∀ y, l = .nnWeight y ∨ l = .christofidesWeight y → y = .fin (2 * d)) ∧ ∀ y, l = .mstBound y → y = .fin d

/-- **C130** (the program) Every accepted instance whose cities lie at different places of a line, `a` and `b` being the
outermost ones: `walky exact` without MPI and threads prints twice their distance, together with a tour of this length
(v4 excepted, v6 for a hash function that is injective on the prefixes). All lines of all commands with lengths of tours
of `walky approx` show the same number and all with spanning tree bounds half of it, with threads and with MPI. -/
theorem C130_program {g : Graph (XNum K)} (hacc : doConditionsHold g = .ok true) (hl : NoLoop g) (hn : 3 ≤ g.length)
    (hc : ∀ (i : Nat) (es : List (Edge (XNum K))), g[i]? = some es → ∀ e ∈ es, e.cost = .fin |x i - x e.dst|)
    (ha : a < g.length) (hb : b < g.length) (hends : ∀ i, i < g.length → x a ≤ x i ∧ x i ≤ x b)
    (hinj : ∀ i j, i < g.length → j < g.length → x i = x j → i = j) :
    (∀ env : Env (XNum K), env.Ok →
      (∀ alg out, alg ≠ .v4 → (alg = .v6 → ∀ p q : List Nat, p.Nodup → q.Nodup → (∀ i ∈ p, i < g.length) →
          (∀ i ∈ q, i < g.length) → env.hash p = env.hash q → p = q) →
        Runs env g (.exact alg .singleThreaded) out →
        ∃ q, out = .ok [.bestCost (.fin (2 * (x b - x a))), .bestPermutation q] ∧ IsTour g.length q ∧
          tourCost (fun i j => |x i - x j|) q = 2 * (x b - x a)) ∧
      ∀ cmd lines, Runs env g cmd (.ok lines) → ∀ l ∈ lines, SaysEnds (x b - x a) l) ∧
    ∀ env : MpiEnv (XNum K), env.Ok → ∀ cmd outs, MpiRuns env g cmd outs → ∀ o ∈ outs, ∀ l ∈ o.lines,
      SaysEnds (x b - x a) l := by
  have hcomp := complete_of_accepted hacc hl
  obtain ⟨m, m1, hdim, -, m4, -⟩ := naFromGraph_complete hcomp
  have hm0 : (do naFromGraph (← parseChecked g)) = .ok m := by
    rw [(C55_complete_accepted hcomp).2, rm_bind_ok, m1]
  have hm : Rep m (fun i j => |x i - x j|) := by
    refine ⟨fun i j hi hj hij => ?_, fun h => by omega⟩
    rw [hdim] at hi hj
    have hg := List.getElem?_eq_getElem hi
    obtain ⟨e, he, hej⟩ := List.mem_map.mp ((hcomp.mem hg).mpr ⟨hj, Ne.symm hij⟩)
    rw [← hej, m4 i _ hg e he, hc i _ hg e he]
  rw [← hdim] at hn ha hb hends hinj ⊢
  obtain ⟨e0, e1, e2, e3, e5, e6⟩ := C130_exact hm ha hb hends
  obtain ⟨-, -, n1, n2⟩ := C130_nearest_neighbour hm ha hb hends
  obtain ⟨⟨t, t1, t2⟩, t3, t4⟩ := C130_spanning_tree hm ha hb hends
  have num : ∀ (y : XNum K) {f : XNum K → Line (XNum K)}, y = .fin (2 * (x b - x a)) →
      (f = .nnWeight ∨ f = .christofidesWeight) → SaysEnds (x b - x a) (f y) := by
    rintro y f rfl (rfl | rfl) <;> refine ⟨fun y hy => ?_, fun y hy => by cases hy⟩ <;>
      rcases hy with hy | hy <;> cases hy <;> rfl
  have none : ∀ l : Line (XNum K), (∀ y, l ≠ .nnWeight y ∧ l ≠ .christofidesWeight y ∧ l ≠ .mstBound y) →
      SaysEnds (x b - x a) l := by
    refine fun l h => ⟨fun y hy => ?_, fun y hy => absurd hy (h y).2.2⟩
    rcases hy with hy | hy
    · exact absurd hy (h y).1
    · exact absurd hy (h y).2.1
  have mst : SaysEnds (x b - x a) (.mstBound (.fin (x b - x a))) := by
    refine ⟨fun y hy => ?_, fun y hy => ?_⟩
    · rcases hy with hy | hy <;> cases hy
    · injection hy with hy
      exact hy.symm
  refine ⟨fun env he => ⟨fun alg out h4 h6 hrun => ?_, fun cmd lines hrun => ?_⟩, fun env he cmd outs hrun => ?_⟩
  · simp only [Runs, ExactRun, hm0] at hrun
    have key : ∀ res : RM (Solution (XNum K)), (∃ p, res = .ok (.fin (2 * (x b - x a)), p) ∧ IsTour m.dim p ∧
          tourCost (fun i j => |x i - x j|) p = 2 * (x b - x a)) →
        out = (fun r : Solution (XNum K) => [Line.bestCost r.1, Line.bestPermutation r.2]) <$> res →
        ∃ q, out = .ok [.bestCost (.fin (2 * (x b - x a))), .bestPermutation q] ∧ IsTour m.dim q ∧
          tourCost (fun i j => |x i - x j|) q = 2 * (x b - x a) := by
      rintro res ⟨q, rfl, hq⟩ rfl
      exact ⟨q, rfl, hq⟩
    cases alg
    · exact key _ (e0 (by omega)) hrun
    · exact key _ (e1 hn) hrun
    · exact key _ e2 hrun
    · exact key _ e3 hrun
    · exact absurd rfl h4
    · exact key _ e5 hrun
    · exact key _ (e6 env.hash (h6 rfl)) hrun
  · refine run_lines hm0 (fun _ => none _ (by simp)) (fun _ => none _ (by simp)) (fun _ => none _ (by simp))
      (fun _ _ => none _ (by simp)) ?_ ?_ ?_ hrun
    · intro t' ht'
      have : t'.undirectedEdgeWeight = .fin (x b - x a) := by
        rcases ht' with h | h | h
        · rw [t1] at h
          rw [← Except.ok.inj h, t2]
        · obtain ⟨t1, f1, f2⟩ := t3 _ _ he.sched.shape he.sched.update
          rw [f1] at h
          rw [← Except.ok.inj h, f2]
        · obtain ⟨t1, f1, f2⟩ := t4 _ he.peek
          rw [f1] at h
          rw [← Except.ok.inj h, f2]
      rw [this]
      exact mst
    · intro r hr
      refine num r.1 ?_ (.inl rfl)
      obtain ⟨⟨p, p1, -⟩, hpar⟩ := n1 _ (he.starts m.dim)
      rcases hr with hr | hr
      · rw [p1] at hr
        rw [← Except.ok.inj hr]
      · obtain ⟨p', p1', -⟩ := hpar _ he.nnShape
        rw [p1'] at hr
        rw [← Except.ok.inj hr]
    · intro r hr
      refine num r.1 ?_ (.inr rfl)
      rcases hr with hr | ⟨-, hr⟩
      · obtain ⟨⟨p, p1, -⟩, -⟩ := C130_christofides hm ha hb hends (by omega) hinj (seq_isMetric hr) env.rng he.rng
        rw [p1] at hr
        rw [← Except.ok.inj hr]
      · obtain ⟨-, hpar, -⟩ := C130_christofides hm ha hb hends (by omega) hinj (par_isMetric hr) env.rng he.rng
        obtain ⟨p, p1, -⟩ := (hpar _ he.sched).2 _ hr
        rw [Except.ok.inj p1]
  · refine mpi_lines hm0 (fun _ => none _ (by simp)) (fun _ => none _ (by simp)) (fun _ => none _ (by simp))
      (fun _ _ => none _ (by simp)) ?_ ?_ ?_ hrun
    · intro t' ht'
      have : t'.undirectedEdgeWeight = .fin (x b - x a) := by
        rcases ht' with h | ⟨r, h⟩
        · rw [t1] at h
          rw [← Except.ok.inj h, t2]
        · obtain ⟨t1, f1, f2⟩ := t4 _ (he.peek r)
          rw [f1] at h
          rw [← Except.ok.inj h, f2]
      rw [this]
      exact mst
    · intro rs hrs r hr
      have hs : env.size ≤ m.dim := by
        by_contra hlt
        obtain ⟨e, he'⟩ := C40_too_many_ranks env.nnShape m (not_le.mp hlt)
        rw [he'] at hrs
        cases hrs
      obtain ⟨p, p1, -⟩ := n2 _ _ he.nnShape he.size hs
      rw [p1] at hrs
      rw [← Except.ok.inj hrs] at hr
      exact num r.1 (by rw [List.eq_of_mem_replicate hr]) (.inl rfl)
    · intro r hr
      obtain ⟨-, -, hmpi⟩ := C130_christofides hm ha hb hends (by omega) hinj (mpi_isMetric hr) env.rng he.rng
      obtain ⟨p, p1, -⟩ := hmpi _ he.shufs _ he.size
      rw [p1] at hr
      exact num r.1 (by rw [← Except.ok.inj hr]) (.inr rfl)

/-- four cities on a line at 5, 0, 9 and 2 -/
def lineGraph : Graph (XNum ℚ) := [[⟨1, .fin 5⟩, ⟨2, .fin 4⟩, ⟨3, .fin 3⟩], [⟨0, .fin 5⟩, ⟨2, .fin 9⟩, ⟨3, .fin 2⟩],
  [⟨0, .fin 4⟩, ⟨1, .fin 9⟩, ⟨3, .fin 7⟩], [⟨0, .fin 3⟩, ⟨1, .fin 2⟩, ⟨2, .fin 7⟩]]

/-- the hypotheses of `C130_program`, and a run -/
example : let x : Nat → ℚ := fun i => [5, 0, 9, 2].getD i 0
    doConditionsHold lineGraph = .ok true ∧ NoLoop lineGraph ∧ 3 ≤ lineGraph.length ∧
    (∀ (i : Nat) (es : List (Edge (XNum ℚ))), lineGraph[i]? = some es → ∀ e ∈ es, e.cost = .fin |x i - x e.dst|) ∧
    (∀ i, i < lineGraph.length → x 1 ≤ x i ∧ x i ≤ x 2) ∧
    (∀ i j, i < lineGraph.length → j < lineGraph.length → x i = x j → i = j) ∧ env1.Ok ∧
    lowerBoundRun env1 lineGraph .mst .singleThreaded = .ok [.mstBound (.fin 9)] := by
  intro x
  have h : ∀ i < 4, ∀ e ∈ (lineGraph[i]?).getD [], e.dst ≠ i ∧ e.cost = .fin |x i - x e.dst| := by decide +kernel
  have h' : ∀ (i : Nat) (es : List (Edge (XNum ℚ))), lineGraph[i]? = some es → ∀ e ∈ es, _ := fun i es hi e he =>
    h i (List.getElem?_eq_some_iff.mp hi).1 e (by rw [hi]; exact he)
  refine ⟨by decide +kernel, fun i es hi e he => (h' i es hi e he).1, by decide, fun i es hi e he => (h' i es hi e he).2,
    ?_, ?_, env1_ok, ?_⟩
  · decide +kernel
  · have h : ∀ i, i < 4 → ∀ j, j < 4 → x i = x j → i = j := by decide +kernel
    exact fun i j hi hj => h i hi j hj
  · have key : (match lowerBoundRun env1 lineGraph .mst .singleThreaded with
        | .ok [.mstBound x] => decide (x = .fin 9)
        | _ => false) = true := by decide +kernel
    split at key
    · rename_i x hx
      rw [hx, of_decide_eq_true key]
    · cases key

end Walky.Props
