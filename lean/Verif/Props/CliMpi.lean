import Verif.Model.CliMpi
import Verif.Props.Cli
import Verif.Props.StaticMpi
import Verif.Props.DynamicMpi
import Verif.Props.OneTree
import Verif.Props.NearestNeighbour

/-! # Properties C67–C69: the command line with MPI -/

namespace Walky.Props

open FloatOps XNum Spec

variable {K : Type} [Field K] [LinearOrder K] [IsStrictOrderedRing K]

/-- What is assumed about the machine: there is a process; shuffles are permutations; MPI combines every
contribution exactly once, in any order; the heap returns a minimum. -/
structure _root_.Walky.MpiEnv.Ok (env : MpiEnv (XNum K)) : Prop where
  size : 1 ≤ env.size
  nnShape : ∀ r l, (env.nnShape r l).flatten.Perm l
  oneTreeShape : ∀ l, (env.oneTreeShape l).flatten.Perm l
  peek : ∀ r, PeekOk (env.peek r)
  rng : env.rng.Ok
  shufs : ∀ k i l, (env.shufs k i l).Perm l

omit [Field K] [LinearOrder K] [IsStrictOrderedRing K] in
private theorem mem_rootAnd {env : MpiEnv (XNum K)} {a b o : Out (XNum K)} (h : o ∈ env.rootAnd a b) :
    o = a ∨ o = b := by
  simp only [MpiEnv.rootAnd, List.mem_map] at h
  obtain ⟨r, -, rfl⟩ := h
  split
  · exact Or.inl rfl
  · exact Or.inr rfl

/-- the cost reported by the static solver -/
private theorem static_cost {m : Mat (XNum K)} {c : Nat → Nat → K} (hm : Rep m c) (hd : 0 < m.dim)
    {nW : Nat} {x : XNum K} {p : List Nat} (h : StaticResult m 3 nW (.ok (x, p))) :
    x = .inf ∨ ∃ q, IsTour m.dim q ∧ x = .fin (tourCost c q) := by
  obtain ⟨s0, n, s, e1, e2, e3, e4⟩ := h
  have h2 : nW < m.dim ^ 3 := by
    rcases Nat.eq_zero_or_pos nW with h | h
    · rw [h]; positivity
    · by_contra hc
      rw [(C21_too_many_workers m h (not_lt.mp hc)).2] at e1
      cases e1
  have hx : x = s.winner.1 := by
    unfold wrapUp at e4
    cases hb : idx (s.buffers m.dim) s.winner.2 with
    | error e => rw [hb] at e4; cases e4
    | ok b =>
      rw [hb, rm_bind_ok] at e4
      split at e4
      · injection e4 with e4
        injection e4 with e4 _
      · cases e4
  rcases (C22_static_winner_partial hm hd h2 e1 e2 e3).2 with ⟨i, w, -, -, -, k1, k2⟩ | ⟨k1, -⟩
  · exact Or.inr ⟨_, k1, hx.trans k2⟩
  · left
    rw [hx, k1]

/-- the cost reported by the dynamic solver -/
private theorem dynamic_cost {m : Mat (XNum K)} {c : Nat → Nat → K} (hm : Rep m c)
    (hc : Nonneg m.dim c) {nW : Nat} {x : XNum K} {p : List Nat} (h : DynamicResult m nW (.ok (x, p))) :
    x = .inf ∨ ∃ q, IsTour m.dim q ∧ x = .fin (tourCost c q) := by
  rcases Nat.eq_zero_or_pos nW with h0 | h0
  · subst h0
    left
    have := (C25_single_process m _).mp h
    injection this with this
    injection this with this _
  by_cases hn : 4 ≤ m.dim
  · obtain ⟨n, s, e1, e2, e3⟩ := h
    obtain ⟨-, i, w, -, -, -, k1, k2⟩ := C26_dynamic_winner_partial hm hn hc h0 e1 e2
    right
    refine ⟨_, k1, ?_⟩
    rw [← k2]
    unfold wrapUp at e3
    cases hb : idx (s.buffers m.dim) s.winner.2 with
    | error e => rw [hb] at e3; cases e3
    | ok b =>
      rw [hb, rm_bind_ok] at e3
      split at e3
      · injection e3 with e4
        injection e4 with e4 _
      · cases e3
  · exact absurd h (C25_small_no_result m (by omega) h0 _)

/-- bounds on the numbers in a line -/
private def LineOk (opt : K) (l : Line (XNum K)) : Prop :=
  (∀ x, lower l = some x → ∃ w, x = .fin w ∧ w ≤ opt) ∧
  ∀ x, upper l = some x → x = .inf ∨ ∃ w, x = .fin w ∧ opt ≤ w

omit [Field K] [IsStrictOrderedRing K] in
private theorem outcome_ok {opt : K} {a : List (Line (XNum K))} (ha : ∀ l ∈ a, LineOk opt l)
    {o : Out (XNum K)} (ho : ∀ l ∈ o.lines, LineOk opt l) {e : RM Unit} :
    ∀ l ∈ (Out.andThen ⟨a, e⟩ o).lines, LineOk opt l := by
  unfold Out.andThen
  cases e with
  | error e => exact ha
  | ok _ =>
    intro l hl
    rcases List.mem_append.mp hl with h | h
    · exact ha l h
    · exact ho l h

/-- **C67 (partial)** Every accepted instance with at least three cities, finite costs that are not
negative and no edge from a vertex to itself; every command with `--parallelism mpi`; every number of
processes; debug and release builds; all random numbers and message orders. There is a number `opt`,
the length of a shortest tour, such that
* every lower bound printed by any rank is at most `opt`, and every tour length printed by any rank is
  at least `opt` (possibly infinite);
* `walky exact` with v0 and between two and `n` processes: there is an outcome, and in every outcome
  all ranks print the same tour; its length is at most `2 opt`, and `opt` for at most five cities;
* `walky exact` with v1, at least four cities and at least two processes: there is an outcome, and in
  every outcome either all ranks fail, or all print the same length, at most `2 opt`, and `opt` for at most five cities; with
  two processes they do not fail;
* `walky approx nearest-neighbour` with at most `n` processes: all ranks print the number that the
  sequential program prints;
* `walky approx christofides` in a release build: the root prints a number and the other ranks nothing;
* `walky lower-bound one-tree` with at most `n` processes: the root prints the number that the sequential
  program prints, the other ranks nothing; `mst` and `mst-queue`: all ranks print the number that the
  sequential program prints.

Missing: `opt` itself for the exact solvers, which is not always found (the pruning is wrong, C07);
`walky exact` with v2 – v6 (`C67_unimplemented`) or a single process (`C67_single_process`); more
processes than cities (C21, C35, C40). -/
theorem C67_mpi_bounds_partial {g : Graph (XNum K)} (hacc : doConditionsHold g = .ok true)
    (hl : NoLoop g) (hc : NonnegCosts g) (hn : 3 ≤ g.length) :
    ∃ opt : K,
      (∃ c : Nat → Nat → K,
        (∀ (i : Nat) (es : List (Edge (XNum K))), g[i]? = some es → ∀ e ∈ es, e.cost = .fin (c i e.dst)) ∧
        (∃ p, IsTour g.length p ∧ tourCost c p = opt) ∧ ∀ p, IsTour g.length p → opt ≤ tourCost c p) ∧
      ∀ (env : MpiEnv (XNum K)), env.Ok →
      (∀ cmd outs, MpiRuns env g cmd outs → outs.length = env.size ∧
        ∀ o ∈ outs, ∀ l ∈ o.lines,
          (∀ x, lower l = some x → ∃ w, x = .fin w ∧ w ≤ opt) ∧
          ∀ x, upper l = some x → x = .inf ∨ ∃ w, x = .fin w ∧ opt ≤ w) ∧
      (2 ≤ env.size → env.size ≤ g.length →
        (∃ outs, MpiRuns env g (.exact .v0) outs) ∧ ∀ outs, MpiRuns env g (.exact .v0) outs →
          ∃ w p, outs = List.replicate env.size ⟨[.bestCost (.fin w), .bestPermutation p], .ok ()⟩ ∧
            IsTour g.length p ∧ opt ≤ w ∧ w ≤ 2 * opt ∧ (g.length ≤ 5 → w = opt)) ∧
      (2 ≤ env.size → 4 ≤ g.length →
        (∃ outs, MpiRuns env g (.exact .v1) outs) ∧ ∀ outs, MpiRuns env g (.exact .v1) outs →
          (env.size ≠ 2 ∧ ∃ e, outs = List.replicate env.size ⟨[], .error e⟩) ∨
          ∃ w p, outs = List.replicate env.size ⟨[.bestCost (.fin w), .bestPermutation p], .ok ()⟩ ∧
            IsTour g.length p ∧ opt ≤ w ∧ w ≤ 2 * opt ∧ (g.length ≤ 5 → w = opt)) ∧
      (env.size ≤ g.length → ∃ w p, IsTour g.length p ∧
        (∀ outs, MpiRuns env g (.approx .nearestNeighbour none) outs ↔
          outs = List.replicate env.size ⟨[.nnWeight (.fin w), .nnTour p], .ok ()⟩) ∧
        ∀ env' : Env (XNum K), env'.Ok → ∃ p',
          Runs env' g (.approx .nearestNeighbour .singleThreaded none) (.ok [.nnWeight (.fin w), .nnTour p'])) ∧
      (env.dbg = false → ∃ w, ∀ outs, MpiRuns env g (.approx .christofides none) outs ↔
        outs = ⟨[.christofidesWeight (.fin w)], .ok ()⟩ :: List.replicate (env.size - 1) ⟨[], .ok ()⟩) ∧
      (env.size ≤ g.length → ∃ w, (∀ outs, MpiRuns env g (.lowerBound .oneTree) outs ↔
          outs = ⟨[.oneTreeBound (.fin w)], .ok ()⟩ :: List.replicate (env.size - 1) ⟨[], .ok ()⟩) ∧
        ∀ env' : Env (XNum K), Runs env' g (.lowerBound .oneTree .singleThreaded) (.ok [.oneTreeBound (.fin w)])) ∧
      ∃ w, (∀ a ∈ [LowerBoundAlgorithm.mst, .mstQueue], ∀ outs, MpiRuns env g (.lowerBound a) outs ↔
          outs = List.replicate env.size ⟨[.mstBound (.fin w)], .ok ()⟩) ∧
        ∀ env' : Env (XNum K), Runs env' g (.lowerBound .mst .singleThreaded) (.ok [.mstBound (.fin w)]) := by
  obtain ⟨m, c, hm0, hdim, hm, hsym, hnn, hcost⟩ := instance_matrix hacc hl hc hn
  have hn3 : 3 ≤ m.dim := by omega
  have hm1 : (parseChecked g >>= fun __x => naFromGraph __x) = .ok m := hm0
  have hstart : ∀ f : Mat (XNum K) → RM (List (Line (XNum K))),
      (do let m ← naFromGraph (← parseChecked g); f m) = f m := by
    intro f
    cases hp : parseChecked g with
    | error e => rw [hp] at hm1; simp at hm1
    | ok g' =>
      rw [hp, rm_bind_ok] at hm1
      rw [rm_bind_ok, hm1, rm_bind_ok]
  rw [← hdim]
  obtain ⟨opt, ⟨p0, h0⟩, -, -, -, ⟨gt, wt, ht1, ht2, ht3⟩, ⟨wo, ho1, ho2⟩, hnn', -, -, -⟩ :=
    C50_approximations_partial hm hn3 hsym hnn (dbg := false) (by simp)
  obtain ⟨hopt, hatt⟩ : (∀ q, IsTour m.dim q → opt ≤ tourCost c q) ∧
      ∃ q, IsTour m.dim q ∧ tourCost c q = opt := by
    obtain ⟨p, e, hs⟩ := C03_v0_exact_partial m c hm (by omega)
    rw [h0] at e
    injection e with e
    injection e with e _
    injection e with e
    rw [e]
    exact ⟨fun q hq => hs.2 q hq, p, hs.1, rfl⟩
  have hshort : ∀ q, IsShortest m.dim c q → tourCost c q = opt := by
    intro q hq
    obtain ⟨q', k1, k2⟩ := hatt
    exact le_antisymm (k2 ▸ hq.2 q' k1) (hopt q hq.1)
  have htwo : ∀ q, (∀ q', IsTour m.dim q' → tourCost c q ≤ 2 * tourCost c q') → tourCost c q ≤ 2 * opt := by
    intro q h
    obtain ⟨q', k1, k2⟩ := hatt
    exact k2 ▸ h q' k1
  refine ⟨opt, ⟨c, hcost, hatt, hopt⟩, ?_⟩
  intro env he
  have hsz := he.size
  have hbestline : ∀ (x : XNum K) (p : List Nat), (x = .inf ∨ ∃ q, IsTour m.dim q ∧ x = .fin (tourCost c q)) →
      ∀ l ∈ [Line.bestCost x, Line.bestPermutation p], LineOk opt l := by
    intro x p hx l hl
    simp only [List.mem_cons, List.not_mem_nil, or_false] at hl
    rcases hl with rfl | rfl
    · refine ⟨(fun y hy => by cases hy), fun y hy => ?_⟩
      injection hy with hy
      subst hy
      rcases hx with hx | ⟨q, k1, k2⟩
      · exact Or.inl hx
      · exact Or.inr ⟨_, k2, hopt q k1⟩
    · exact ⟨(fun y hy => by cases hy), fun y hy => by cases hy⟩
  have hmstline : ∀ r q, mpiMst env m r q = ⟨[Line.mstBound (.fin wt)], .ok ()⟩ := by
    intro r q
    unfold mpiMst
    cases q
    · simp only [Bool.false_eq_true, if_false, ht1, Out.print, ht2]
    · obtain ⟨t, t', q1, q2, -, q3⟩ := C31_queue_weight_partial hm hsym (he.peek r) [] (by simp)
      rw [ht1] at q2
      injection q2 with q2
      subst q2
      simp only [if_true, q1, Out.print, q3, ht2]
  have hafter : ∀ r lb, ∀ l ∈ (mpiBoundAfter env m r lb).lines, LineOk opt l := by
    intro r lb l hl
    have hmst : ∀ q, l ∈ (mpiMst env m r q).lines → LineOk opt l := by
      intro q h
      rw [hmstline] at h
      rw [List.mem_singleton.mp h]
      refine ⟨fun y hy => ?_, fun y hy => by cases hy⟩
      injection hy with hy
      exact ⟨wt, hy.symm, ht3⟩
    unfold mpiBoundAfter at hl
    split at hl
    · simp at hl
    · simp at hl
    · exact hmst _ hl
    · exact hmst _ hl
  have hruns : ∀ cmd outs, MpiRuns env g cmd outs ↔ (match cmd with
      | .exact a => MpiExactRun env m a outs
      | .approx a lb => outs = mpiApprox env m lb a
      | .lowerBound a => outs = mpiLowerBound env m a) := by
    intro cmd outs
    simp only [MpiRuns, hm0]
    exact Iff.rfl
  have hroot : ∀ a b : Out (XNum K), env.rootAnd a b = a :: List.replicate (env.size - 1) b := by
    intro a b
    obtain ⟨k, hk⟩ : ∃ k, env.size = k + 1 := ⟨env.size - 1, by omega⟩
    rw [MpiEnv.rootAnd, hk, List.range_succ_eq_map, List.map_cons, List.map_map, if_pos rfl]
    congr 1
    rw [Nat.add_sub_cancel]
    apply List.ext_getElem
    · simp
    · intro i h1 h2
      simp
  have hprint : ∀ (r : RM (Solution (XNum K))), (∀ x p, r = .ok (x, p) → x = .inf ∨
      ∃ q, IsTour m.dim q ∧ x = .fin (tourCost c q)) →
      ∀ l ∈ (Out.print (fun r : Solution (XNum K) => [Line.bestCost r.1, Line.bestPermutation r.2]) r).lines,
        LineOk opt l := by
    intro r hr l hl
    cases r with
    | error e => simp [Out.print] at hl
    | ok s => exact hbestline s.1 s.2 (hr s.1 s.2 rfl) l hl
  have hmpinn : env.size ≤ m.dim → ∃ w p,
      nnMpi env.nnShape env.size m = .ok (List.replicate env.size (.fin w, p)) ∧ IsTour m.dim p ∧
      w = tourCost c p ∧ ∀ xs : List Nat, xs.Perm (List.range m.dim) →
        ∃ p', nearestNeighbourSeq xs m = .ok (.fin w, p') := fun h =>
    C40_mpi_partial hm hsz h env.nnShape he.nnShape
  have hone : env.size ≤ m.dim → oneTreeLbMpi env.oneTreeShape env.size m = .ok (.fin wo) := fun h =>
    (C35_mpi_partial hm hsym hn3 hsz h env.oneTreeShape he.oneTreeShape).trans ho1
  have hall : ∀ o : Out (XNum K), env.all o = List.replicate env.size o := fun o => rfl
  refine ⟨?_, ?_, ?_, ?_, ?_, ?_, ?_⟩
  · intro cmd outs h
    rw [hruns] at h
    have hrep : ∀ o : Out (XNum K), outs = env.all o → (∀ l ∈ o.lines, LineOk opt l) →
        outs.length = env.size ∧ ∀ o ∈ outs, ∀ l ∈ o.lines, LineOk opt l := by
      rintro o rfl ho
      refine ⟨by simp [hall], fun o' ho' => ?_⟩
      rw [(List.mem_replicate.mp ho').2]
      exact ho
    cases cmd with
    | exact a =>
      simp only [MpiExactRun] at h
      cases a with
      | v0 =>
        obtain ⟨r, h1, h2⟩ := h
        exact hrep _ h2 (hprint r fun x p e => static_cost hm (by omega) (e ▸ h1))
      | v1 =>
        obtain ⟨r, h1, h2⟩ := h
        exact hrep _ h2 (hprint r fun x p e => dynamic_cost hm hnn (e ▸ h1))
      | v2 => exact hrep _ h (by simp)
      | v3 => exact hrep _ h (by simp)
      | v4 => exact hrep _ h (by simp)
      | v5 => exact hrep _ h (by simp)
      | v6 => exact hrep _ h (by simp)
    | lowerBound a =>
      have hmst : ∀ q, outs = (List.range env.size).map (fun r => mpiMst env m r q) →
          outs.length = env.size ∧ ∀ o ∈ outs, ∀ l ∈ o.lines, LineOk opt l := by
        rintro q rfl
        refine ⟨by simp, fun o ho l hl => ?_⟩
        obtain ⟨r, -, rfl⟩ := List.mem_map.mp ho
        cases q
        · exact hafter r (some .mst) l hl
        · exact hafter r (some .mstQueue) l hl
      cases a with
      | mst => exact hmst _ h
      | mstQueue => exact hmst _ h
      | oneTree =>
        simp only [mpiLowerBound] at h
        by_cases hs : env.size ≤ m.dim
        · rw [hone hs] at h
          simp only at h
          subst h
          refine ⟨by simp [MpiEnv.rootAnd], fun o ho l hl => ?_⟩
          rcases mem_rootAnd ho with rfl | rfl
          · rw [List.mem_singleton.mp hl]
            refine ⟨fun y hy => ?_, fun y hy => by cases hy⟩
            injection hy with hy
            exact ⟨wo, hy.symm, ho2⟩
          · simp at hl
        · obtain ⟨e, he'⟩ := C35_mpi_too_many_ranks env.oneTreeShape m (not_le.mp hs)
          rw [he'] at h
          exact hrep _ h (by simp)
    | approx a lb =>
      cases a with
      | christofides =>
        simp only [mpiApprox] at h
        cases hch : christofidesMpi env.dbg m env.rng env.shufs env.size with
        | error e =>
          rw [hch] at h
          exact hrep _ h (by simp)
        | ok s =>
          rw [hch] at h
          simp only at h
          have hd : env.dbg = true → m.isMetric = true := by
            intro hd
            unfold christofidesMpi christofidesGeneric at hch
            split at hch
            · cases hch
            · rename_i hc
              simpa [hd] using hc
          obtain ⟨q, k1, k2, -⟩ := C62_christofides_mpi_partial hm (by omega) hd he.rng he.shufs hsz
          rw [hch] at k1
          injection k1 with k1
          subst k1
          subst h
          refine ⟨by simp [MpiEnv.rootAnd], fun o ho => ?_⟩
          rcases mem_rootAnd ho with rfl | rfl
          · refine outcome_ok ?_ (hafter 0 lb)
            intro l hl
            rw [List.mem_singleton.mp hl]
            refine ⟨(fun y hy => by cases hy), fun y hy => ?_⟩
            injection hy with hy
            exact Or.inr ⟨_, hy.symm, hopt q k2⟩
          · simp
      | nearestNeighbour =>
        simp only [mpiApprox] at h
        by_cases hs : env.size ≤ m.dim
        · obtain ⟨w, p, k1, k2, k3, -⟩ := hmpinn hs
          rw [k1] at h
          simp only at h
          subst h
          refine ⟨by simp, fun o ho => ?_⟩
          obtain ⟨x, hx, rfl⟩ := List.mem_map.mp ho
          have hx1 : x.1 = (.fin w, p) := by
            have := (List.mem_zipIdx hx).2.2
            rw [this]
            simp
          rw [hx1]
          refine outcome_ok ?_ (hafter _ lb)
          intro l hl
          simp only [List.mem_cons, List.not_mem_nil, or_false] at hl
          rcases hl with rfl | rfl
          · refine ⟨(fun y hy => by cases hy), fun y hy => ?_⟩
            injection hy with hy
            exact Or.inr ⟨_, hy.symm, k3 ▸ hopt p k2⟩
          · exact ⟨(fun y hy => by cases hy), fun y hy => by cases hy⟩
        · obtain ⟨e, he'⟩ := C40_too_many_ranks env.nnShape m (not_le.mp hs)
          rw [he'] at h
          exact hrep _ h (by simp)
  · intro hs1 hs2
    have hfew : env.size - 1 < m.dim ^ 3 := by
      calc env.size - 1 < m.dim := by omega
        _ = m.dim ^ 1 := (pow_one _).symm
        _ ≤ m.dim ^ 3 := Nat.pow_le_pow_right (by omega) (by omega)
    refine ⟨?_, fun outs h => ?_⟩
    · obtain ⟨s0, N, e1, -, ⟨n, s, e2, e3⟩, -⟩ := C21_static_no_deadlock_partial hm hnn
        (nW := env.size - 1) (by omega) hfew
      exact ⟨_, (hruns _ _).mpr ⟨_, ⟨s0, n, s, e1, e2, e3, rfl⟩, rfl⟩⟩
    · rw [hruns] at h
      obtain ⟨r, h1, h2⟩ := h
      obtain ⟨p, k1, k2, k3, k4⟩ := C60_static_quality hm hn3 hsym hnn (nW := env.size - 1) (by omega)
        (by omega) h1
      subst k1
      exact ⟨_, p, h2, k2, hopt p k2, htwo p k3, fun h => hshort p (k4 h)⟩
  · intro hs1 hs2
    refine ⟨?_, fun outs h => ?_⟩
    · obtain ⟨r, hr⟩ : ∃ r, DynamicResult m (env.size - 1) r := by
        by_cases h : env.size = 2
        · rw [h]
          exact (C27_dynamic_one_worker_partial hm hs2 hnn).1
        · exact ⟨_, C27_dynamic_mismatch hm hs2 (by omega)⟩
      exact ⟨_, (hruns _ _).mpr ⟨r, hr, rfl⟩⟩
    rw [hruns] at h
    obtain ⟨r, h1, h2⟩ := h
    have hr2 : env.size = 2 → ∃ p, r = .ok (.fin (tourCost c p), p) ∧ IsTour m.dim p := by
      intro h
      refine (C27_dynamic_one_worker_partial hm hs2 hnn).2 r ?_
      rw [h] at h1
      exact h1
    have hq := h1
    obtain ⟨n, s, e1, e2, e3⟩ := hq
    obtain ⟨-, i, w, b1, b2, -, b4, b5⟩ := C26_dynamic_winner_partial hm hs2 hnn (by omega) e1 e2
    obtain ⟨p', k1, k2, k3, k4⟩ := C61_dynamic_quality hm hs2 hsym hnn (by omega) e1 e2
    cases r with
    | error e =>
      refine Or.inl ⟨fun h => ?_, e, h2⟩
      obtain ⟨p, hp, -⟩ := hr2 h
      cases hp
    | ok sol =>
      right
      have hsol : sol = (s.winner.1, w.sol.2) := by
        unfold wrapUp at e3
        have hb : idx (s.buffers m.dim) s.winner.2 = .ok w.sol.2 := by
          rw [b1]
          simp [idx, DSys.buffers, b2]
        rw [hb, rm_bind_ok] at e3
        split at e3
        · injection e3
        · cases e3
      subst hsol
      have hw : tourCost c w.sol.2 = tourCost c p' := by
        rw [b5] at k1
        injection k1
      refine ⟨tourCost c w.sol.2, w.sol.2, ?_, b4, hopt _ b4, hw ▸ htwo p' k3, fun h => hw ▸ hshort p' (k4 h)⟩
      rw [b5] at h2
      exact h2
  · intro hs
    obtain ⟨w, p, k1, k2, k3, k4⟩ := hmpinn hs
    refine ⟨w, p, k2, fun outs => ?_, fun env' he' => ?_⟩
    · rw [hruns]
      simp only [mpiApprox, k1]
      have : (List.replicate env.size ((XNum.fin w, p) : Solution (XNum K))).zipIdx.map (fun x =>
          Out.andThen ⟨[Line.nnWeight x.1.1, Line.nnTour x.1.2], .ok ()⟩ (mpiBoundAfter env m x.2 none)) =
          List.replicate env.size ⟨[.nnWeight (.fin w), .nnTour p], .ok ()⟩ := by
        apply List.ext_getElem
        · simp
        · intro i h1 h2
          simp [Out.andThen, mpiBoundAfter]
      rw [this]
    · obtain ⟨p', e⟩ := k4 (env'.starts m.dim) (he'.starts m.dim)
      refine ⟨p', ?_⟩
      simp only [Runs, ApproxRun, hm0]
      exact ⟨_, e.symm, rfl⟩
  · intro hd
    obtain ⟨q, k1, k2, -⟩ := C62_christofides_mpi_partial hm (by omega) (dbg := env.dbg) (by simp [hd])
      he.rng he.shufs hsz
    refine ⟨tourCost c q, fun outs => ?_⟩
    rw [hruns]
    simp only [mpiApprox, k1, Out.andThen, mpiBoundAfter, List.append_nil, hroot]
  · intro hs
    refine ⟨wo, fun outs => ?_, fun env' => ?_⟩
    · rw [hruns]
      simp only [mpiLowerBound, hone hs, hroot]
    · simp only [Runs, lowerBoundRun, hstart, ho1, rm_bind_ok, rm_pure]
  · refine ⟨wt, ?_, fun env' => ?_⟩
    · intro a ha outs
      rw [hruns]
      have hrep : ∀ q, (List.range env.size).map (fun r => mpiMst env m r q) =
          List.replicate env.size ⟨[.mstBound (.fin wt)], .ok ()⟩ := by
        intro q
        apply List.ext_getElem
        · simp
        · intro i h1 h2
          simp [hmstline]
      simp only [List.mem_cons, List.not_mem_nil, or_false] at ha
      rcases ha with rfl | rfl
      · simp only [mpiLowerBound, hrep]
      · simp only [mpiLowerBound, hrep]
    · simp only [Runs, lowerBoundRun, hstart, ht1, rm_bind_ok, rm_pure, ht2]

/-- a job of three processes -/
def mpi3 : MpiEnv (XNum ℚ) where
  dbg := false
  size := 3
  nnShape := fun _ l => l.foldr (fun x t => .node (.leaf x) t) .empty
  oneTreeShape := fun l => l.foldr (fun x t => .node (.leaf x) t) .empty
  peek := fun _ _ l => minByFirst (fun a b => olt a.2 b.2) l
  rng := { vertices := id, edges := fun _ l => l }
  shufs := fun _ _ l => l

theorem mpi3_ok : mpi3.Ok := by
  have hfl : ∀ {β : Type} (l : List β), (l.foldr (fun x t => RTree.node (.leaf x) t) .empty).flatten = l := by
    intro β l
    induction l with
    | nil => rfl
    | cons a l ih => simp only [List.foldr_cons, RTree.flatten, ih]; rfl
  exact ⟨by decide, fun _ l => by rw [mpi3, hfl], fun l => by rw [mpi3, hfl], fun _ => peekOk_first,
    ⟨fun l => List.Perm.refl _, fun _ l => List.Perm.refl _⟩, fun _ _ l => List.Perm.refl _⟩

/-- C67 for the instance of C59 with six cities and three processes -/
example : ∃ (w : ℚ) (p : List Nat), IsTour 6 p ∧ ∀ outs, MpiRuns mpi3 six (.approx .nearestNeighbour none) outs ↔
    outs = List.replicate 3 ⟨[.nnWeight (.fin w), .nnTour p], .ok ()⟩ := by
  obtain ⟨_, -, h⟩ := C67_mpi_bounds_partial C59_threaded.1 six_noLoop six_nonneg (by decide)
  obtain ⟨-, -, -, h, -⟩ := h mpi3 mpi3_ok
  obtain ⟨w, p, h1, h2, -⟩ := h (by decide)
  exact ⟨w, p, h1, h2⟩

/-- **C67 (negation)** `walky exact` with MPI and one of v2 – v6 fails on all ranks. -/
theorem C67_unimplemented {α : Type} [FloatOps α] (env : MpiEnv α) (g : Graph α) {a : ExactAlgorithm}
    (h0 : a ≠ .v0) (h1 : a ≠ .v1) {outs : List (Out α)} (h : MpiRuns env g (.exact a) outs) :
    ∃ e, outs = List.replicate env.size ⟨[], .error e⟩ := by
  simp only [MpiRuns] at h
  split at h
  · exact ⟨_, h⟩
  · cases a
    · exact absurd rfl h0
    · exact absurd rfl h1
    all_goals exact ⟨_, h⟩

/-- **C67 (negation)** `walky exact` with MPI, v0 or v1 and a single process prints an infinite cost and
the path `[0, …, 0]`. -/
theorem C67_single_process {g : Graph (XNum K)} (hacc : doConditionsHold g = .ok true)
    (hl : NoLoop g) (hc : NonnegCosts g) (hn : 3 ≤ g.length) {env : MpiEnv (XNum K)} (h1 : env.size = 1)
    {a : ExactAlgorithm} (ha : a = .v0 ∨ a = .v1) (outs : List (Out (XNum K))) :
    MpiRuns env g (.exact a) outs ↔
      outs = [⟨[.bestCost .inf, .bestPermutation (List.replicate g.length 0)], .ok ()⟩] := by
  obtain ⟨m, c, hm0, hdim, -, -, -, -⟩ := instance_matrix hacc hl hc hn
  simp only [MpiRuns, hm0, MpiExactRun, MpiEnv.all, h1]
  rcases ha with rfl | rfl
  · simp only [Nat.sub_self, (C23_single_process m (by omega) _).1, exists_eq_left, hdim, Out.print]
    exact Iff.rfl
  · simp only [Nat.sub_self, C25_single_process m _, exists_eq_left, hdim, Out.print]
    exact Iff.rfl

theorem mapM_length {β γ : Type} {f : β → RM γ} : ∀ {l : List β} {r : List γ}, l.mapM f = .ok r →
    r.length = l.length
  | [], r, h => by
    injection h with h
    simp [← h]
  | a :: l, r, h => by
    rw [List.mapM_cons] at h
    cases h1 : f a with
    | error e => rw [h1] at h; cases h
    | ok b =>
      rw [h1, rm_bind_ok] at h
      cases h2 : l.mapM f with
      | error e => rw [h2] at h; cases h
      | ok bs =>
        rw [h2, rm_bind_ok] at h
        injection h with h
        rw [← h, List.length_cons, List.length_cons, mapM_length h2]

/-! ## C68: a lower bound together with an approximation -/

/-- **C68 (negation)** `walky approx … --lower-bound one-tree` with MPI never succeeds: for every input
and every algorithm the root fails (`lib.rs:186` initialises MPI a second time), whatever the number
of processes. In the nearest neighbour algorithm all ranks fail. -/
theorem C68_one_tree_fails {α : Type} [FloatOps α] (env : MpiEnv α) (hs : 1 ≤ env.size) (g : Graph α)
    (a : ApproxAlgorithm) {outs : List (Out α)} (h : MpiRuns env g (.approx a (some .oneTree)) outs) :
    (∃ o, outs[0]? = some o ∧ ∃ e, o.exit = .error e) ∧
      (a = .nearestNeighbour → ∀ o ∈ outs, ∃ e, o.exit = .error e) ∧
      ∀ o ∈ outs, ∀ x, Line.oneTreeBound x ∉ o.lines := by
  obtain ⟨k, hk⟩ : ∃ k, env.size = k + 1 := ⟨env.size - 1, by omega⟩
  have hall : ∀ e, outs = env.all ⟨[], .error e⟩ → (∃ o, outs[0]? = some o ∧ ∃ e, o.exit = .error e) ∧
      (a = .nearestNeighbour → ∀ o ∈ outs, ∃ e, o.exit = .error e) ∧
      ∀ o ∈ outs, ∀ x, Line.oneTreeBound x ∉ o.lines := by
    rintro e rfl
    refine ⟨⟨⟨[], .error e⟩, by simp [MpiEnv.all, hk], e, rfl⟩, fun _ o ho => ?_, fun o ho x => ?_⟩
    · rw [(List.mem_replicate.mp ho).2]
      exact ⟨e, rfl⟩
    · rw [(List.mem_replicate.mp ho).2]
      simp
  simp only [MpiRuns] at h
  split at h
  · exact hall _ h
  · rename_i m _
    cases a with
    | christofides =>
      simp only [mpiApprox] at h
      split at h
      · rename_i r _
        subst h
        refine ⟨⟨⟨[Line.christofidesWeight r.1], .error .unwrap⟩, ?_, _, rfl⟩, (fun h => by cases h), ?_⟩
        · simp [MpiEnv.rootAnd, hk, Out.andThen, mpiBoundAfter]
        · intro o ho x
          simp only [MpiEnv.rootAnd, List.mem_map] at ho
          obtain ⟨j, -, rfl⟩ := ho
          split
          · simp [Out.andThen, mpiBoundAfter]
          · simp
      · exact hall _ h
    | nearestNeighbour =>
      simp only [mpiApprox] at h
      split at h
      · rename_i rs hrs
        have hlen : rs.length = env.size := by
          simp only [nnMpi] at hrs
          cases h1 : (List.range env.size).mapM (nnLocal m env.size) with
          | error e => rw [h1] at hrs; cases hrs
          | ok ls =>
            rw [h1, rm_bind_ok] at hrs
            cases h2 : (List.range env.size).mapM (fun r => unwrapO
                ((env.nnShape r ((ls.map Prod.fst).zip (List.range env.size))).reduce costRankOp)) with
            | error e => rw [h2] at hrs; cases hrs
            | ok us =>
              rw [h2, rm_bind_ok] at hrs
              have hl := mapM_length h2
              rw [List.length_range] at hl
              cases us with
              | nil => simp at hl; omega
              | cons r0 us =>
                simp only at hrs
                split at hrs
                · cases h3 : idx ls r0.2 with
                  | error e => rw [h3] at hrs; cases hrs
                  | ok win =>
                    rw [h3, rm_bind_ok] at hrs
                    injection hrs with hrs
                    rw [← hrs, List.length_map, hl]
                · cases hrs
        subst h
        refine ⟨⟨⟨[Line.nnWeight (rs[0]'(by omega)).1, Line.nnTour (rs[0]'(by omega)).2], .error .unwrap⟩, ?_, _, rfl⟩,
          fun _ o ho => ?_, fun o ho x => ?_⟩
        · rw [List.getElem?_eq_getElem (by simp; omega)]
          simp [Out.andThen, mpiBoundAfter]
        · obtain ⟨y, -, rfl⟩ := List.mem_map.mp ho
          exact ⟨.unwrap, rfl⟩
        · obtain ⟨y, -, rfl⟩ := List.mem_map.mp ho
          simp [Out.andThen, mpiBoundAfter]
      · exact hall _ h

/-- the hypothesis of C68: three processes, and there are outcomes -/
example : 1 ≤ mpi3.size ∧ ∀ a, ∃ outs, MpiRuns mpi3 six (.approx a (some .oneTree)) outs := by
  refine ⟨by decide, fun a => ?_⟩
  simp only [MpiRuns]
  split
  · exact ⟨_, rfl⟩
  · exact ⟨_, rfl⟩

/-- **C68 (partial)** The other two lower bounds: accepted instances as in C67. With at most `n` processes
every rank of the nearest neighbour algorithm prints a tour and the bound, and the root of Christofides'
algorithm does so in a release build.
Missing: the bound `one-tree`, for which the claim is false (`C68_one_tree_fails`). -/
theorem C68_bound_after_approx_partial {g : Graph (XNum K)} (hacc : doConditionsHold g = .ok true)
    (hl : NoLoop g) (hc : NonnegCosts g) (hn : 3 ≤ g.length) {env : MpiEnv (XNum K)} (he : env.Ok)
    {lb : LowerBoundAlgorithm} (hlb : lb = .mst ∨ lb = .mstQueue) :
    ∃ b, (∀ env' : Env (XNum K), Runs env' g (.lowerBound .mst .singleThreaded) (.ok [.mstBound (.fin b)])) ∧
      (env.size ≤ g.length → ∃ w p, ∀ outs, MpiRuns env g (.approx .nearestNeighbour (some lb)) outs ↔
        outs = List.replicate env.size
          ⟨[.nnWeight (.fin w), .nnTour p, .mstBound (.fin b)], .ok ()⟩) ∧
      (env.dbg = false → ∃ w, ∀ outs, MpiRuns env g (.approx .christofides (some lb)) outs ↔
        outs = ⟨[.christofidesWeight (.fin w), .mstBound (.fin b)], .ok ()⟩ ::
          List.replicate (env.size - 1) ⟨[], .ok ()⟩) := by
  obtain ⟨_, -, h⟩ := C67_mpi_bounds_partial hacc hl hc hn
  obtain ⟨-, -, -, hnn, hch, -, b, hb, hb'⟩ := h env he
  obtain ⟨m, c, hm0, hdim, -⟩ := instance_matrix hacc hl hc hn
  obtain ⟨k, hk⟩ : ∃ k, env.size = k + 1 := ⟨env.size - 1, by have := he.size; omega⟩
  have hmst : ∀ r < env.size, mpiBoundAfter env m r (some lb) = ⟨[.mstBound (.fin b)], .ok ()⟩ := by
    intro r hr
    have h1 := (hb lb (by rcases hlb with rfl | rfl <;> simp) (mpiLowerBound env m lb)).mp (by
      simp only [MpiRuns, hm0])
    have h2 : (mpiLowerBound env m lb)[r]? = some (mpiBoundAfter env m r (some lb)) := by
      rcases hlb with rfl | rfl
      · simp [mpiLowerBound, mpiBoundAfter, hr]
      · simp [mpiLowerBound, mpiBoundAfter, hr]
    rw [h1] at h2
    simp only [List.getElem?_replicate, hr, if_true, Option.some.injEq] at h2
    exact h2.symm
  refine ⟨b, hb', fun hs => ?_, fun hd => ?_⟩
  · obtain ⟨w, p, -, h2, -⟩ := hnn hs
    refine ⟨w, p, fun outs => ?_⟩
    have h1 := (h2 (mpiApprox env m none .nearestNeighbour)).mp (by simp only [MpiRuns, hm0])
    simp only [MpiRuns, hm0]
    rw [← show mpiApprox env m (some lb) .nearestNeighbour = List.replicate env.size
          ⟨[.nnWeight (.fin w), .nnTour p, .mstBound (.fin b)], .ok ()⟩ from ?_]
    simp only [mpiApprox] at h1 ⊢
    cases hr : nnMpi env.nnShape env.size m with
    | error e =>
      rw [hr] at h1
      simp [MpiEnv.all, hk, List.replicate_succ] at h1
    | ok rs =>
      rw [hr] at h1
      simp only at h1 ⊢
      have hlen : rs.length = env.size := by
        have := congrArg List.length h1
        simpa using this
      apply List.ext_getElem
      · simp [hlen]
      · intro i a1 a2
        have hi : i < env.size := by simpa [hlen] using a1
        have h3 := congrArg (fun l => l[i]?) h1
        simp [hi, hlen, Out.andThen, mpiBoundAfter] at h3
        simp [hmst i hi, Out.andThen, h3]
  · obtain ⟨w, h2⟩ := hch hd
    refine ⟨w, fun outs => ?_⟩
    have h1 := (h2 (mpiApprox env m none .christofides)).mp (by simp only [MpiRuns, hm0])
    simp only [MpiRuns, hm0]
    rw [← show mpiApprox env m (some lb) .christofides =
        ⟨[.christofidesWeight (.fin w), .mstBound (.fin b)], .ok ()⟩ ::
          List.replicate (env.size - 1) ⟨[], .ok ()⟩ from ?_]
    simp only [mpiApprox] at h1 ⊢
    cases hr : christofidesMpi env.dbg m env.rng env.shufs env.size with
    | error e =>
      rw [hr] at h1
      simp [MpiEnv.all, hk, List.replicate_succ] at h1
    | ok r =>
      rw [hr] at h1
      simp only [hmst 0 (by omega)]
      simp only [MpiEnv.rootAnd, hk, List.range_succ_eq_map, List.map_cons, if_true, Out.andThen,
        mpiBoundAfter, List.append_nil, List.cons.injEq, Nat.add_sub_cancel] at h1 ⊢
      obtain ⟨k1, k2⟩ := h1
      refine ⟨?_, ?_⟩
      swap
      · apply List.ext_getElem
        · simp
        · intro i a1 a2
          simp
      simp only [Out.mk.injEq, List.cons.injEq, Line.christofidesWeight.injEq, and_true] at k1
      rw [k1]
      rfl

example : ∃ b w : ℚ, ∀ outs, MpiRuns mpi3 six (.approx .christofides (some .mst)) outs ↔
    outs = [⟨[.christofidesWeight (.fin w), .mstBound (.fin b)], .ok ()⟩, ⟨[], .ok ()⟩, ⟨[], .ok ()⟩] := by
  obtain ⟨b, -, -, h⟩ := C68_bound_after_approx_partial C59_threaded.1 six_noLoop six_nonneg (by decide)
    mpi3_ok (lb := .mst) (Or.inl rfl)
  obtain ⟨w, h⟩ := h rfl
  exact ⟨b, w, h⟩

/-! ## C69: who prints -/

/-- **C69 (partial)** In Christofides' algorithm and the 1-tree bound only the root prints anything, for
all inputs, numbers of processes and outcomes (`lib.rs:126,191-194`).
Missing: in all other commands every rank prints the result (`C69_everyone_prints`). -/
theorem C69_only_root_partial {α : Type} [FloatOps α] (env : MpiEnv α) (g : Graph α) {cmd : MpiCommand}
    (hcmd : (∃ lb, cmd = .approx .christofides lb) ∨ cmd = .lowerBound .oneTree) {outs : List (Out α)}
    (h : MpiRuns env g cmd outs) : ∀ r o, 1 ≤ r → outs[r]? = some o → o.lines = [] := by
  have hall : ∀ e, outs = env.all ⟨[], .error e⟩ → ∀ r o, 1 ≤ r → outs[r]? = some o → o.lines = [] := by
    rintro e rfl r o _ ho
    rw [(List.mem_replicate.mp (List.mem_of_getElem? ho)).2]
  have hroot : ∀ a, outs = env.rootAnd a ⟨[], .ok ()⟩ →
      ∀ r o, 1 ≤ r → outs[r]? = some o → o.lines = [] := by
    rintro a rfl r o hr ho
    simp only [MpiEnv.rootAnd, List.getElem?_map, Option.map_eq_some_iff] at ho
    obtain ⟨j, h1, rfl⟩ := ho
    obtain ⟨h2, h3⟩ := List.getElem?_eq_some_iff.mp h1
    rw [List.getElem_range] at h3
    rw [if_neg (by omega)]
  simp only [MpiRuns] at h
  split at h
  · exact hall _ h
  · rcases hcmd with ⟨lb, rfl⟩ | rfl
    · simp only [mpiApprox] at h
      split at h
      · exact hroot _ h
      · exact hall _ h
    · simp only [mpiLowerBound] at h
      split at h
      · exact hroot _ h
      · exact hall _ h

/-- **C69 (negation)** In all other commands the output appears once per process: every rank that ends
without a failure prints something. -/
theorem C69_everyone_prints {α : Type} [FloatOps α] (env : MpiEnv α) (g : Graph α) {cmd : MpiCommand}
    (hcmd : (∃ a, cmd = .exact a) ∨ (∃ lb, cmd = .approx .nearestNeighbour lb) ∨
      cmd = .lowerBound .mst ∨ cmd = .lowerBound .mstQueue) {outs : List (Out α)}
    (h : MpiRuns env g cmd outs) : ∀ o ∈ outs, o.exit = .ok () → o.lines ≠ [] := by
  have hall : ∀ e, outs = env.all ⟨[], .error e⟩ → ∀ o ∈ outs, o.exit = .ok () → o.lines ≠ [] := by
    rintro e rfl o ho hx
    rw [(List.mem_replicate.mp ho).2] at hx
    cases hx
  have hprint : ∀ {β : Type} (f : β → List (Line α)) (hf : ∀ b, f b ≠ []) (r : RM β),
      (Out.print f r).exit = .ok () → (Out.print f r).lines ≠ [] := by
    intro β f hf r hr
    cases r with
    | error e => cases hr
    | ok b => exact hf b
  simp only [MpiRuns] at h
  split at h
  · exact hall _ h
  · rename_i m _
    rcases hcmd with ⟨a, rfl⟩ | ⟨lb, rfl⟩ | rfl | rfl
    · have hex : ∀ r, outs = env.all (Out.print (fun r : Solution α =>
          [Line.bestCost r.1, Line.bestPermutation r.2]) r) → ∀ o ∈ outs, o.exit = .ok () → o.lines ≠ [] := by
        rintro r rfl o ho hx
        rw [(List.mem_replicate.mp ho).2] at hx ⊢
        exact hprint _ (by simp) r hx
      cases a with
      | v0 => obtain ⟨r, -, h⟩ := h; exact hex r h
      | v1 => obtain ⟨r, -, h⟩ := h; exact hex r h
      | v2 => exact hall _ h
      | v3 => exact hall _ h
      | v4 => exact hall _ h
      | v5 => exact hall _ h
      | v6 => exact hall _ h
    · simp only [mpiApprox] at h
      split at h
      · subst h
        intro o ho _
        obtain ⟨x, -, rfl⟩ := List.mem_map.mp ho
        simp [Out.andThen]
      · exact hall _ h
    · simp only [mpiLowerBound] at h
      subst h
      intro o ho hx
      obtain ⟨x, -, rfl⟩ := List.mem_map.mp ho
      exact hprint _ (by simp) _ hx
    · simp only [mpiLowerBound] at h
      subst h
      intro o ho hx
      obtain ⟨x, -, rfl⟩ := List.mem_map.mp ho
      exact hprint _ (by simp) _ hx

/-- three processes print the bound three times -/
example : ∃ b : ℚ, ∀ outs, MpiRuns mpi3 six (.lowerBound .mst) outs ↔
    outs = List.replicate 3 ⟨[.mstBound (.fin b)], .ok ()⟩ := by
  obtain ⟨_, -, h⟩ := C67_mpi_bounds_partial C59_threaded.1 six_noLoop six_nonneg (by decide)
  obtain ⟨-, -, -, -, -, -, b, h, -⟩ := h mpi3 mpi3_ok
  exact ⟨b, h .mst (by simp)⟩

end Walky.Props
