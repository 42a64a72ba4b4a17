import Verif.Props.DoubleMpi
import Verif.Props.CliMpi

/-! # C80, C81: the exact solvers and MPI on the command line in IEEE double precision -/

namespace Walky.Props

open FloatOps XNum Spec

/-- The matrix of an accepted instance whose costs are between 0 and `M`. -/
private theorem instance_bounded {g : Graph (XNum ℚ)} (hacc : doConditionsHold g = .ok true)
    (hl : NoLoop g) (hn : 3 ≤ g.length) {M : ℚ} {P : ℚ → Prop} (hP : P 0)
    (hc : ∀ es ∈ g, ∀ e ∈ es, ∃ x, e.cost = .fin x ∧ P x ∧ 0 ≤ x ∧ x ≤ M) :
    ∃ (m : Mat (XNum ℚ)) (c : Nat → Nat → ℚ),
      (do @naFromGraph _ binary64.ops (← @parseChecked _ binary64.ops g)) = .ok m ∧
      m.dim = g.length ∧ Rep m c ∧ Symm m.dim c ∧ 0 ≤ M ∧
      (∀ i j, i < m.dim → j < m.dim → ∀ x, m.get i j = .fin x → P x ∧ 0 ≤ x ∧ x ≤ M) ∧
      ∀ (i : Nat) (es : List (Edge (XNum ℚ))), g[i]? = some es → ∀ e ∈ es, e.cost = .fin (c i e.dst) := by
  have hnn : NonnegCosts g := by
    intro i es hi e he
    obtain ⟨x, hx, -, h0, -⟩ := hc es (List.mem_of_getElem? hi) e he
    exact ⟨x, hx, h0⟩
  obtain ⟨m, c, hm0, hdim, hm, hsym, -, hcost⟩ := instance_matrix hacc hl hnn hn
  have hM : 0 ≤ M := by
    have h0 : 0 < g.length := by omega
    have hcomp := complete_of_accepted hacc hl
    obtain ⟨e, he, -⟩ := List.mem_map.mp ((hcomp.mem (List.getElem?_eq_getElem h0)).mpr
      ⟨(by omega : 1 < g.length), (by decide)⟩)
    obtain ⟨x, -, -, k1, k2⟩ := hc _ (List.getElem_mem h0) e he
    exact k1.trans k2
  have hm1 : naFromGraph g = .ok m := by
    have hpg : parseChecked g = .ok g := by
      unfold parseChecked
      rw [hacc]
      rfl
    rw [hpg, rm_bind_ok] at hm0
    exact hm0
  refine ⟨m, c, hm0, hdim, hm, hsym, hM, ?_, hcost⟩
  obtain ⟨-, k⟩ := naFromGraph_pred (P := fun y => ∀ x, y = XNum.fin x → P x ∧ 0 ≤ x ∧ x ≤ M)
    (fun x hx => by rw [← XNum.fin.inj hx]; exact ⟨hP, le_rfl, hM⟩)
    (fun x hx => by cases hx) (fun es hes e he x hx => by
      obtain ⟨y, hy, k⟩ := hc es hes e he
      rw [hy] at hx
      rwa [← XNum.fin.inj hx]) hm1
  exact k

/-- **C80** An accepted instance of `3 ≤ n ≤ 2 ^ 25` cities without edges from a vertex to itself, whose costs
are between 0 and `M`, `4 n M ≤ 2 ^ k`. In IEEE double precision, for all numbers of CPUs, hash functions and
schedules, `walky exact` without MPI always has an outcome; every outcome is a tour and its length up to
`(2 n² + 1) · 2 ^ (k - 54)`.
* Single thread, v0 – v3: no tour is shorter by more than twice that.
* Single thread, v5, and v6 if the hash has no collisions, and several threads (whatever the algorithm): the
  printed number is at most `(2 n² + 3 n + 1) · 2 ^ (k - 54)` above twice the length of any tour.
(The costs need not be doubles.) Not claimed: a shortest tour for v4 – v6 and several threads (C07, C08,
`C59_threaded`). -/
theorem C80_exact_double {k : ℤ} (h1 : -1021 ≤ k) (h2 : k ≤ 1023) {g : Graph (XNum ℚ)}
    (hacc : doConditionsHold g = .ok true) (hl : NoLoop g) (hn : 3 ≤ g.length) (hn' : g.length ≤ 2 ^ 25)
    {M : ℚ} (hc : ∀ es ∈ g, ∀ e ∈ es, ∃ x, e.cost = .fin x ∧ 0 ≤ x ∧ x ≤ M)
    (hB : 4 * g.length * M ≤ (2 : ℚ) ^ k) :
    ∃ c : Nat → Nat → ℚ,
      (∀ (i : Nat) (es : List (Edge (XNum ℚ))), g[i]? = some es → ∀ e ∈ es, e.cost = .fin (c i e.dst)) ∧
      ∀ env : Env (XNum ℚ), 1 ≤ env.cpus → ∀ a p,
        (∃ out, @Runs _ binary64.ops env g (.exact a p) out) ∧
        ∀ out, @Runs _ binary64.ops env g (.exact a p) out →
          ∃ q w, out = .ok [.bestCost (.fin w), .bestPermutation q] ∧ IsTour g.length q ∧
            |w - tourCost c q| ≤ (2 * g.length ^ 2 + 1) * (2 : ℚ) ^ (k - 54) ∧
            (p = .singleThreaded → a ∈ [ExactAlgorithm.v0, .v1, .v2, .v3] → ∀ q', IsTour g.length q' →
              tourCost c q ≤ tourCost c q' + 2 * ((2 * g.length ^ 2 + 1) * (2 : ℚ) ^ (k - 54))) ∧
            (p = .multiThreaded ∨ a = .v5 ∨ (a = .v6 ∧ ∀ p q : List Nat, p.Nodup → q.Nodup →
                (∀ i ∈ p, i < g.length) → (∀ i ∈ q, i < g.length) → env.hash p = env.hash q → p = q) →
              ∀ q', IsTour g.length q' →
                w ≤ 2 * tourCost c q' + (2 * g.length ^ 2 + 3 * g.length + 1) * (2 : ℚ) ^ (k - 54)) := by
  obtain ⟨m, c, hm0, hdim, hm, hsym, hM, hD, hcost⟩ := instance_bounded hacc hl hn (P := fun _ => True)
    trivial (fun es hes e he => by
      obtain ⟨x, a, b⟩ := hc es hes e he
      exact ⟨x, a, trivial, b⟩)
  refine ⟨c, hcost, ?_⟩
  rw [← hdim] at hn hn' hB ⊢
  have hnn : Nonneg m.dim c := fun i j hi hj hij => (hD i j hi hj _ (hm.off i j hi hj hij)).2.1
  have hca : ∀ i j, i < m.dim → j < m.dim → i ≠ j → |c i j| ≤ M := fun i j hi hj hij => by
    rw [abs_of_nonneg (hnn i j hi hj hij)]
    exact (hD i j hi hj _ (hm.off i j hi hj hij)).2.2
  have hB' : 2 * m.dim * M ≤ (2 : ℚ) ^ k := by
    refine le_trans ?_ hB
    have : 0 ≤ (m.dim : ℚ) * M := mul_nonneg (Nat.cast_nonneg _) hM
    linarith
  obtain ⟨v0, v1, v2, v3⟩ := C65_accuracy h1 h2 hm hM hca hn hn' hB'
  have hle : (m.dim : ℚ) * (2 : ℚ) ^ (k - 54) ≤ (2 * m.dim ^ 2 + 1) * (2 : ℚ) ^ (k - 54) := by
    refine mul_le_mul_of_nonneg_right ?_ (zpow_nonneg (by norm_num) _)
    have : m.dim ≤ 2 * m.dim ^ 2 + 1 := by nlinarith
    exact_mod_cast this
  intro env he a p
  obtain ⟨v4, v5, v6⟩ := C78_exact_double h1 h2 hm hM hca (by omega) hn' hB env.hash
  have key : ∀ (f : RM (Solution (XNum ℚ))) (Q : ℚ → List Nat → Prop), (∃ q w, f = .ok (.fin w, q) ∧ Q w q) →
      ∀ (G : RM (List (Line (XNum ℚ))) → Prop), (∀ out, G out ↔ out =
        (fun r : Solution (XNum ℚ) => [Line.bestCost r.1, Line.bestPermutation r.2]) <$> f) →
      (∃ out, G out) ∧ ∀ out, G out → ∃ q w, out = .ok [.bestCost (.fin w), .bestPermutation q] ∧ Q w q := by
    rintro f Q ⟨q, w, rfl, hq⟩ G hG
    exact ⟨⟨_, (hG _).mpr rfl⟩, fun out h => ⟨q, w, (hG _).mp h, hq⟩⟩
  have hruns : ∀ a out, @Runs _ binary64.ops env g (.exact a .singleThreaded) out ↔ out =
      (fun r : Solution (XNum ℚ) => [Line.bestCost r.1, Line.bestPermutation r.2]) <$>
        match a with
        | .v0 => @naiveSolver _ binary64.ops m
        | .v1 => @firstImprovedSolver _ binary64.ops m
        | .v2 => @secondImprovedSolver _ binary64.ops m
        | .v3 => @thirdImprovedSolver _ binary64.ops m
        | .v4 => @fourthImprovedSolver _ binary64.ops m
        | .v5 => @fifthImprovedSolver _ binary64.ops m
        | .v6 => @sixthImprovedSolver _ binary64.ops m env.hash := by
    intro a out
    simp only [Runs, ExactRun, hm0]
    exact Iff.rfl
  cases p with
  | singleThreaded =>
    cases a with
    | v0 =>
      refine key _ _ ?_ _ (hruns .v0)
      obtain ⟨q, w, a1, a2, a3, a4⟩ := v0
      exact ⟨q, w, a1, a2, a3.trans hle, fun _ _ q' hq' => (a4 q' hq').trans (by linarith), by simp⟩
    | v1 =>
      refine key _ _ ?_ _ (hruns .v1)
      obtain ⟨q, w, a1, a2, a3, a4⟩ := v1 hsym
      exact ⟨q, w, a1, a2, a3.trans hle, fun _ _ q' hq' => (a4 q' hq').trans (by linarith), by simp⟩
    | v2 =>
      refine key _ _ ?_ _ (hruns .v2)
      obtain ⟨q, w, a1, a2, a3, a4⟩ := v2
      exact ⟨q, w, a1, a2, a3, fun _ _ q' hq' => a4 q' hq', by simp⟩
    | v3 =>
      refine key _ _ ?_ _ (hruns .v3)
      obtain ⟨q, w, a1, a2, a3, a4⟩ := v3 hnn
      exact ⟨q, w, a1, a2, a3, fun _ _ q' hq' => a4 q' hq', by simp⟩
    | v4 =>
      refine key _ _ ?_ _ (hruns .v4)
      obtain ⟨q, w, a1, a2, a3⟩ := v4
      exact ⟨q, w, a1, a2, a3, by simp, by simp⟩
    | v5 =>
      refine key _ _ ?_ _ (hruns .v5)
      obtain ⟨q, w, a1, a2, a3, a4⟩ := v5
      exact ⟨q, w, a1, a2, a3, by simp, fun _ => a4 hsym hnn⟩
    | v6 =>
      refine key _ _ ?_ _ (hruns .v6)
      obtain ⟨q, w, a1, a2, a3, a4⟩ := v6
      refine ⟨q, w, a1, a2, a3, by simp, fun h => a4 hsym hnn ?_⟩
      rcases h with h | h | h
      · cases h
      · cases h
      · exact h.2
  | multiThreaded =>
    obtain ⟨-, ⟨r, hr⟩, w, a1, a2⟩ := C78_threaded_double h1 h2 hm hM hca (by omega) hn' hB he (by omega)
    have hrun : ∀ out, @Runs _ binary64.ops env g (.exact a .multiThreaded) out ↔
        ∃ r, @ThreadedResult _ binary64.ops m 3 env.cpus r ∧
          out = .ok [Line.bestCost r.1, Line.bestPermutation r.2] := by
      intro out
      simp only [Runs, ExactRun, hm0]
    refine ⟨⟨_, (hrun _).mpr ⟨r, hr, rfl⟩⟩, fun out h => ?_⟩
    obtain ⟨r, hr, rfl⟩ := (hrun out).mp h
    obtain ⟨b1, b2, b3⟩ := a1 r hr
    exact ⟨r.2, w, by rw [b1], b2, b3, (fun h => by cases h), fun _ => a2 hsym hnn⟩

/-- What is printed after an approximation with the option `lb`, and how the process ends (C68): nothing; a lower
bound (up to the factor of C77); or it fails. -/
def After (n : Nat) (c : Nat → Nat → ℚ) : Option LowerBoundAlgorithm → Out (XNum ℚ) → Prop
  | none, o => o = ⟨[], .ok ()⟩
  | some .oneTree, o => o = ⟨[], .error .unwrap⟩
  | some .mst, o => ∃ l, o = ⟨[l], .ok ()⟩ ∧ BoundLine n c l
  | some .mstQueue, o => ∃ l, o = ⟨[l], .ok ()⟩ ∧ BoundLine n c l

theorem christofidesMpi_metric {m : Mat (XNum ℚ)} {dbg : Bool} {r : MatchRng}
    {shufs : Nat → Nat → List (Nat × Nat) → List (Nat × Nat)} {size : Nat} {sol : Solution (XNum ℚ)}
    (h : @christofidesMpi _ binary64.ops dbg m r shufs size = .ok sol) :
    dbg = true → @Mat.isMetric _ binary64.ops m = true := by
  intro hd
  unfold christofidesMpi christofidesGeneric at h
  split at h
  · cases h
  · rename_i hc
    simpa [hd] using hc

private theorem rootAnd_eq {α : Type} {env : MpiEnv α} (h : 1 ≤ env.size) (a b : Out α) :
    env.rootAnd a b = a :: List.replicate (env.size - 1) b := by
  obtain ⟨k, hk⟩ : ∃ k, env.size = k + 1 := ⟨env.size - 1, by omega⟩
  rw [MpiEnv.rootAnd, hk, List.range_succ_eq_map, List.map_cons, List.map_map, if_pos rfl]
  congr 1
  rw [Nat.add_sub_cancel]
  apply List.ext_getElem
  · simp
  · intro i h1 h2
    simp

/-- **C81 (partial)** An accepted instance of `3 ≤ n ≤ 2 ^ 25` cities without edges from a vertex to itself whose
costs are doubles between 0 and `M`, `4 n M ≤ 2 ^ k` and `2 n M (1 + 2⁻⁵³)^(3n+6) ≤ 2^1023`. In IEEE double
precision, for all random numbers and message orders, with MPI:
* `walky exact` with v0 and between two and `n` processes: there is an outcome, and in every outcome all ranks
  print the same tour, and its length up to `(2 n² + 1) · 2 ^ (k - 54)`; the printed number is at most
  `(2 n² + 3 n + 1) · 2 ^ (k - 54)` above twice the length of any tour;
* `walky exact` with v1, at least four cities and at least two processes: there is an outcome, and in every
  outcome either all ranks fail (not with two processes), or the same holds;
* `walky approx nearest-neighbour` with at most `n` processes: all ranks print the same tour, and its length up
  to a relative error of `(1 + 2⁻⁵³)ⁿ - 1`;
* `walky approx christofides`: all ranks fail (only in a debug build, if the matrix does not pass `is_metric`), or
  the root prints the length of a tour up to the same error and the other ranks print nothing;
* `walky lower-bound one-tree` with at most `n` processes: the root prints a number that is at most
  `(1 + 2⁻⁵³)^(3n+6)` times the length of every tour, the other ranks nothing; `mst` and `mst-queue`: all ranks
  print such a number;
* after an approximation the bounds `mst` and `mst-queue` are such numbers, `one-tree` fails (C68).

Missing: as in C67. -/
theorem C81_mpi_double_partial {k : ℤ} (h1 : -1021 ≤ k) (h2 : k ≤ 1023) {g : Graph (XNum ℚ)}
    (hacc : doConditionsHold g = .ok true) (hl : NoLoop g) (hn : 3 ≤ g.length) (hn' : g.length ≤ 2 ^ 25)
    {M : ℚ} (hc : ∀ es ∈ g, ∀ e ∈ es, ∃ x, e.cost = .fin x ∧ IsDouble x ∧ 0 ≤ x ∧ x ≤ M)
    (hB : 4 * g.length * M ≤ (2 : ℚ) ^ k)
    (hB2 : growth (3 * g.length + 6) * (2 * (g.length * M)) ≤ (2 : ℚ) ^ (1023 : ℤ)) :
    ∃ c : Nat → Nat → ℚ,
      (∀ (i : Nat) (es : List (Edge (XNum ℚ))), g[i]? = some es → ∀ e ∈ es, e.cost = .fin (c i e.dst)) ∧
      ∀ env : MpiEnv (XNum ℚ), env.Ok →
      (2 ≤ env.size → env.size ≤ g.length →
        (∃ outs, @MpiRuns _ binary64.ops env g (.exact .v0) outs) ∧
        ∀ outs, @MpiRuns _ binary64.ops env g (.exact .v0) outs →
          ∃ w p, outs = List.replicate env.size ⟨[.bestCost (.fin w), .bestPermutation p], .ok ()⟩ ∧
            IsTour g.length p ∧ |w - tourCost c p| ≤ (2 * g.length ^ 2 + 1) * (2 : ℚ) ^ (k - 54) ∧
            ∀ q, IsTour g.length q →
              w ≤ 2 * tourCost c q + (2 * g.length ^ 2 + 3 * g.length + 1) * (2 : ℚ) ^ (k - 54)) ∧
      (2 ≤ env.size → 4 ≤ g.length →
        (∃ outs, @MpiRuns _ binary64.ops env g (.exact .v1) outs) ∧
        ∀ outs, @MpiRuns _ binary64.ops env g (.exact .v1) outs →
          (env.size ≠ 2 ∧ ∃ e, outs = List.replicate env.size ⟨[], .error e⟩) ∨
          ∃ w p, outs = List.replicate env.size ⟨[.bestCost (.fin w), .bestPermutation p], .ok ()⟩ ∧
            IsTour g.length p ∧ |w - tourCost c p| ≤ (2 * g.length ^ 2 + 1) * (2 : ℚ) ^ (k - 54) ∧
            ∀ q, IsTour g.length q →
              w ≤ 2 * tourCost c q + (2 * g.length ^ 2 + 3 * g.length + 1) * (2 : ℚ) ^ (k - 54)) ∧
      (env.size ≤ g.length → ∃ w p, IsTour g.length p ∧ Accurate g.length w (tourCost c p) ∧
        ∀ lb, (∃ outs, @MpiRuns _ binary64.ops env g (.approx .nearestNeighbour lb) outs) ∧
        ∀ outs, @MpiRuns _ binary64.ops env g (.approx .nearestNeighbour lb) outs → outs.length = env.size ∧
          ∀ o ∈ outs, ∃ o', After g.length c lb o' ∧
            o = ⟨.nnWeight (.fin w) :: .nnTour p :: o'.lines, o'.exit⟩) ∧
      (∃ w p, IsTour g.length p ∧ Accurate g.length w (tourCost c p) ∧
        ∀ lb, (∃ outs, @MpiRuns _ binary64.ops env g (.approx .christofides lb) outs) ∧
        ∀ outs, @MpiRuns _ binary64.ops env g (.approx .christofides lb) outs →
          (env.dbg = true ∧ (∃ m, (do naFromGraph (← parseChecked g)) = .ok m ∧ @Mat.isMetric _ binary64.ops m = false) ∧
            ∃ e, outs = List.replicate env.size ⟨[], .error e⟩) ∨
          ∃ o', After g.length c lb o' ∧ outs = ⟨.christofidesWeight (.fin w) :: o'.lines, o'.exit⟩ ::
            List.replicate (env.size - 1) ⟨[], .ok ()⟩) ∧
      (env.size ≤ g.length → ∃ w, (∀ q, IsTour g.length q → w ≤ growth (3 * g.length + 6) * tourCost c q) ∧
        ∀ outs, @MpiRuns _ binary64.ops env g (.lowerBound .oneTree) outs ↔
          outs = ⟨[.oneTreeBound (.fin w)], .ok ()⟩ :: List.replicate (env.size - 1) ⟨[], .ok ()⟩) ∧
      ∀ a ∈ [LowerBoundAlgorithm.mst, .mstQueue],
        (∃ outs, @MpiRuns _ binary64.ops env g (.lowerBound a) outs) ∧
        ∀ outs, @MpiRuns _ binary64.ops env g (.lowerBound a) outs → outs.length = env.size ∧
          ∀ o ∈ outs, ∃ l, o = ⟨[l], .ok ()⟩ ∧ BoundLine g.length c l := by
  obtain ⟨m, c, hm0, hdim, hm, hsym, hM, hD, hcost⟩ := instance_bounded hacc hl hn (P := IsDouble)
    isDouble_zero hc
  refine ⟨c, hcost, ?_⟩
  rw [← hdim] at hn hn' hB hB2 ⊢
  have hD' : DoubleCosts M m := hD
  have hF : DoubleFits k M m c := ⟨h1, h2, hm, hM, fun i j hi hj hij => (hD'.cost hm hi hj hij).1,
    fun i j hi hj hij => (hD'.cost hm hi hj hij).2.1, fun i j hi hj hij => (hD'.cost hm hi hj hij).2.2,
    by omega, hn', hB⟩
  have h0 : 0 ≤ (m.dim : ℚ) * M := mul_nonneg (Nat.cast_nonneg _) hM
  have hB1 : growth (3 * m.dim + 2) * (2 * (m.dim * M)) ≤ (2 : ℚ) ^ (1023 : ℤ) :=
    (mul_le_mul_of_nonneg_right (growth_mono (by omega)) (by linarith)).trans hB2
  have hB3 : growth m.dim * (m.dim * M) ≤ (2 : ℚ) ^ (1023 : ℤ) :=
    (mul_le_mul (growth_mono (by omega)) (by linarith) h0
      (by have := one_le_growth (3 * m.dim + 6); linarith)).trans hB2
  intro env he
  have hsz := he.size
  have hruns : ∀ cmd outs, @MpiRuns _ binary64.ops env g cmd outs ↔ (match cmd with
      | .exact a => @MpiExactRun _ binary64.ops env m a outs
      | .approx a lb => outs = @mpiApprox _ binary64.ops env m lb a
      | .lowerBound a => outs = @mpiLowerBound _ binary64.ops env m a) := by
    intro cmd outs
    simp only [MpiRuns, hm0]
    exact Iff.rfl
  -- minimum spanning trees
  have hmst : ∀ r q, ∃ l, @mpiMst _ binary64.ops env m r q = ⟨[l], .ok ()⟩ ∧ BoundLine m.dim c l := by
    intro r q
    obtain ⟨F, -, -, f1, ⟨t, wt, t1, t2, t3, -⟩, f2⟩ := C74_mst hm hsym hD' (by omega) hB1
    have hline : ∀ w, Accurate (3 * m.dim + 2) w (edgeSum c F) → BoundLine m.dim c (.mstBound (.fin w)) := by
      intro w hw
      refine ⟨w, rfl, fun q hq => (f1 w hw q hq).trans ?_⟩
      exact mul_le_mul_of_nonneg_right (growth_mono (by omega)) (hD'.tour hm hq).1
    unfold mpiMst
    cases q
    · exact ⟨_, by simp only [Bool.false_eq_true, if_false, t1, Out.print, t2], hline wt t3⟩
    · obtain ⟨t', w', k1, k2, k3⟩ := f2 _ (he.peek r)
      exact ⟨_, by simp only [if_true, k1, Out.print, k2], hline w' k3⟩
  have hafter : ∀ r lb, After m.dim c lb (@mpiBoundAfter _ binary64.ops env m r lb) := by
    intro r lb
    rcases lb with _ | lb
    · rfl
    · cases lb with
      | oneTree => rfl
      | mst => exact hmst r false
      | mstQueue => exact hmst r true
  refine ⟨?_, ?_, ?_, ?_, ?_, ?_⟩
  · intro hs1 hs2
    obtain ⟨⟨r, hr⟩, hall⟩ := C79_static_result hF hn (nW := env.size - 1) (by omega) (by omega)
    refine ⟨⟨_, (hruns _ _).mpr ⟨r, hr, rfl⟩⟩, fun outs h => ?_⟩
    obtain ⟨r, hr, rfl⟩ := (hruns _ _).mp h
    obtain ⟨p, w, rfl, a2, a3, a4⟩ := hall r hr
    exact ⟨w, p, rfl, a2, a3, a4 hsym⟩
  · intro hs1 hs2
    refine ⟨?_, fun outs h => ?_⟩
    · obtain ⟨r, hr⟩ : ∃ r, @DynamicResult _ binary64.ops m (env.size - 1) r := by
        by_cases h : env.size = 2
        · rw [h]
          exact (C79_dynamic_one_worker hF hs2).1
        · exact ⟨_, C79_dynamic_mismatch hF hs2 (by omega)⟩
      exact ⟨_, (hruns _ _).mpr ⟨r, hr, rfl⟩⟩
    obtain ⟨r, hr, rfl⟩ := (hruns _ _).mp h
    have hq := hr
    obtain ⟨n, s, e1, e2, e3⟩ := hq
    obtain ⟨-, i, w, x, b1, b2, -, b4, b5, b6, b7⟩ := C79_dynamic_winner hF hs2 (by omega) e1 e2
    cases r with
    | error e =>
      refine Or.inl ⟨fun h => ?_, e, rfl⟩
      rw [h] at hr
      obtain ⟨p, y, hp, -⟩ := (C79_dynamic_one_worker hF hs2).2 _ hr
      cases hp
    | ok sol =>
      right
      have hsol : sol = (s.winner.1, w.sol.2) := by
        unfold wrapUp at e3
        have hb : idx (s.buffers m.dim) s.winner.2 = .ok w.sol.2 := by
          rw [b1]
          simp [idx, DSys.buffers, b2]
        rw [hb, rm_bind_ok] at e3
        split at e3
        · injection e3
        · cases e3
      rw [b5] at hsol
      subst hsol
      exact ⟨x, w.sol.2, rfl, b4, b6, b7 hsym⟩
  · intro hs
    obtain ⟨p, w, hp, -, -, hmpi⟩ := C75_nearest_neighbour hm hD' hB3
    obtain ⟨j, hj, e1, -⟩ := hmpi env.nnShape env.size he.nnShape hsz hs
    refine ⟨w j, p j, (hp j hj).1, (hp j hj).2.2.2, fun lb => ⟨⟨_, (hruns _ _).mpr rfl⟩, fun outs h => ?_⟩⟩
    have h := (hruns _ _).mp h
    simp only [mpiApprox, e1] at h
    subst h
    refine ⟨by simp, fun o ho => ?_⟩
    obtain ⟨x, hx, rfl⟩ := List.mem_map.mp ho
    have hx1 : x.1 = (.fin (w j), p j) := by
      have := (List.mem_zipIdx hx).2.2
      rw [this]
      simp
    rw [hx1]
    exact ⟨_, hafter x.2 lb, rfl⟩
  · cases hch : @christofidesMpi _ binary64.ops env.dbg m env.rng env.shufs env.size with
    | error e =>
      have hd : env.dbg = true ∧ @Mat.isMetric _ binary64.ops m = false := by
        by_contra hd
        obtain ⟨-, k2, -⟩ := C76_christofides_partial hm hD' (by omega) hB3 (dbg := env.dbg)
          (fun h => by
            cases hb : @Mat.isMetric _ binary64.ops m
            · exact absurd ⟨h, hb⟩ hd
            · rfl) he.rng
        obtain ⟨p, w, k, -⟩ := k2 (by omega) env.shufs he.shufs env.size hsz
        rw [hch] at k
        cases k
      obtain ⟨⟨p, w, -, a2, -, a3⟩, -⟩ := C76_christofides_partial hm hD' (by omega) hB3 (dbg := false)
        (by simp) he.rng
      refine ⟨w, p, a2, a3, fun lb => ⟨⟨_, (hruns _ _).mpr rfl⟩, fun outs h => Or.inl ⟨hd.1, ⟨m, hm0, hd.2⟩, e, ?_⟩⟩⟩
      have h := (hruns _ _).mp h
      simp only [mpiApprox, hch] at h
      exact h
    | ok s =>
      obtain ⟨-, k2, -⟩ := C76_christofides_partial hm hD' (by omega) hB3 (dbg := env.dbg)
        (christofidesMpi_metric hch) he.rng
      obtain ⟨p, w, a1, a2, -, a3⟩ := k2 (by omega) env.shufs he.shufs env.size hsz
      rw [hch] at a1
      refine ⟨w, p, a2, a3, fun lb => ⟨⟨_, (hruns _ _).mpr rfl⟩, fun outs h => Or.inr
        ⟨_, hafter 0 lb, ?_⟩⟩⟩
      have h := (hruns _ _).mp h
      simp only [mpiApprox, hch] at h
      rw [h, rootAnd_eq hsz, Except.ok.inj a1]
      rfl
  · intro hs
    obtain ⟨W, w, -, -, -, -, w2, -, w4⟩ := C74_one_tree hm hsym hD' hn hB2
    refine ⟨w, w2, fun outs => ?_⟩
    rw [hruns]
    simp only [mpiLowerBound, w4 _ _ he.oneTreeShape hsz hs, rootAnd_eq hsz]
  · intro a ha
    refine ⟨⟨_, (hruns _ _).mpr rfl⟩, fun outs h => ?_⟩
    have h := (hruns _ _).mp h
    simp only [List.mem_cons, List.not_mem_nil, or_false] at ha
    rcases ha with rfl | rfl
    · simp only [mpiLowerBound] at h
      subst h
      refine ⟨by simp, fun o ho => ?_⟩
      obtain ⟨r, -, rfl⟩ := List.mem_map.mp ho
      exact hmst r false
    · simp only [mpiLowerBound] at h
      subst h
      refine ⟨by simp, fun o ho => ?_⟩
      obtain ⟨r, -, rfl⟩ := List.mem_map.mp ho
      exact hmst r true

private theorem six_costs : ∀ es ∈ six, ∀ e ∈ es, ∃ x, e.cost = .fin x ∧ IsDouble x ∧ 0 ≤ x ∧ x ≤ 11 := by
  intro es hes e he
  unfold six at hes
  obtain ⟨k, -, rfl⟩ := List.mem_map.mp hes
  obtain ⟨j, -, rfl⟩ := List.mem_map.mp he
  simp only
  split
  · exact ⟨11, rfl, small_isDouble (by norm_num) (by norm_num) rfl, by norm_num, by norm_num⟩
  · exact ⟨10, rfl, small_isDouble (by norm_num) (by norm_num) rfl, by norm_num, by norm_num⟩

private theorem six_size : 4 * (six.length : ℚ) * 11 ≤ (2 : ℚ) ^ (9 : ℤ) := by
  rw [show six.length = 6 by decide]
  norm_num

/-- the hypotheses of C80: six cities with the costs 10 and 11 -/
example : ∃ q w, @Runs _ binary64.ops env1 six (.exact .v4 .singleThreaded)
      (.ok [.bestCost (.fin w), .bestPermutation q]) ∧ IsTour 6 q := by
  obtain ⟨c, -, h⟩ := C80_exact_double (k := 9) (by norm_num) (by norm_num) (g := six) (by decide +kernel)
    six_noLoop (by decide) (by decide) (fun es hes e he => by
      obtain ⟨x, a, -, b⟩ := six_costs es hes e he
      exact ⟨x, a, b⟩) six_size
  obtain ⟨⟨out, ho⟩, hall⟩ := h env1 env1_ok.cpus .v4 .singleThreaded
  obtain ⟨q, w, rfl, a2, -⟩ := hall out ho
  exact ⟨q, w, ho, a2⟩

/-- the hypotheses of C81: the same cities and three processes -/
example : ∃ (w : ℚ) (p : List Nat), @MpiRuns _ binary64.ops mpi3 six (.exact .v0)
      (List.replicate 3 ⟨[.bestCost (.fin w), .bestPermutation p], .ok ()⟩) ∧ IsTour 6 p := by
  obtain ⟨c, -, h⟩ := C81_mpi_double_partial (k := 9) (by norm_num) (by norm_num) (g := six)
    (by decide +kernel) six_noLoop (by decide) (by decide) six_costs six_size (by
      rw [show six.length = 6 by decide]
      exact ex_size (by decide) (by norm_num) (by norm_num))
  obtain ⟨h, -⟩ := h mpi3 mpi3_ok
  obtain ⟨⟨outs, ho⟩, hall⟩ := h (by decide) (by decide)
  obtain ⟨w, p, rfl, a2, -⟩ := hall outs ho
  exact ⟨w, p, ho, a2⟩

end Walky.Props
