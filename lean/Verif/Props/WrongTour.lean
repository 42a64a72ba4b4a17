import Verif.Props.Rounding

/-! # Property C41, negation for release builds: a tour that leaves out a city

In PAR mode the multiplicities of the matching edges are incremented without synchronisation. If the
matching contains an edge twice, one of the increments can be lost. The subtractions of `find_cycle`
then wrap around in a release build. -/

namespace Walky.Props

open FloatOps XNum Spec

deriving instance DecidableEq for Line

/-- a metric on eight cities: all costs are between 20 and 40 -/
def wrapC : Nat → Nat → ℚ := ofRowsC
  [[0, 26, 20, 20, 30, 20, 23, 23], [26, 0, 27, 34, 40, 27, 20, 20],
   [20, 27, 0, 30, 21, 40, 31, 24], [20, 34, 30, 0, 27, 28, 20, 34],
   [30, 40, 21, 27, 0, 39, 20, 26], [20, 27, 40, 28, 39, 0, 39, 27],
   [23, 20, 31, 20, 20, 39, 0, 31], [23, 20, 24, 34, 26, 27, 31, 0]]

/-- the list in another order -/
def reorder {β : Type} (p : List Nat) (l : List β) : List β :=
  if p.isPerm (List.range l.length) then p.filterMap (l[·]?) else l

theorem reorder_perm {β : Type} (p : List Nat) (l : List β) : (reorder p l).Perm l := by
  unfold reorder
  split
  · rename_i h
    have h1 := (List.isPerm_iff.mp h).filterMap (l[·]?)
    have h2 : (List.range l.length).filterMap (l[·]?) = l := by
      apply List.ext_getElem?
      intro i
      have : ∀ n, n ≤ l.length → (List.range n).filterMap (l[·]?) = l.take n := by
        intro n hn
        induction n with
        | zero => rfl
        | succ n ih =>
          rw [List.range_succ, List.filterMap_append, ih (by omega), List.take_add_one]
          rw [List.getElem?_eq_getElem (by omega : n < l.length)]
          simp [List.getElem?_eq_getElem (by omega : n < l.length)]
      rw [this _ le_rfl, List.take_length]
    rwa [h2] at h1
  · exact .refl _

/-- the shuffles: of the vertices of odd degree, and of the edges in the first three rounds -/
def wrapRng : MatchRng where
  vertices := reorder [0, 2, 1, 5, 4, 3]
  edges k := match k with
    | 0 => reorder [1, 0, 2]
    | 1 => reorder [1, 2, 0]
    | 2 => reorder [0, 2, 1]
    | _ => id

theorem wrapRng_ok : wrapRng.Ok := by
  refine ⟨fun l => reorder_perm _ l, fun k l => ?_⟩
  match k with
  | 0 => exact reorder_perm _ l
  | 1 => exact reorder_perm _ l
  | 2 => exact reorder_perm _ l
  | _ + 3 => exact .refl _

/-- the instance as a graph -/
def wrapG : Graph (XNum ℚ) :=
  (List.range 8).map fun i => ((List.range 8).erase i).map fun j => ⟨j, .fin (wrapC i j)⟩

/-- the matrix of this instance -/
def wrapM : Mat (XNum ℚ) := (do naFromGraph (← parseChecked wrapG)).toOption.getD (Mat.ofFun 8 wrapC)

theorem wrapG_matrix : (do naFromGraph (← parseChecked wrapG)) = .ok wrapM := by
  have h : (do naFromGraph (← parseChecked wrapG)).toOption.isSome = true := by decide +kernel
  unfold wrapM
  cases e : (do naFromGraph (← parseChecked wrapG)) with
  | error e' => rw [e] at h; simp [Except.toOption] at h
  | ok m => rfl

theorem wrapM_dim : wrapM.dim = 8 := by decide +kernel

theorem wrapM_rep : Rep wrapM wrapC := by
  have h : ∀ i < 8, ∀ j < 8, wrapM.get i j = .fin (wrapC i j) := by decide +kernel
  refine ⟨?_, fun h => ?_⟩
  · rw [wrapM_dim]
    exact fun i j hi hj _ => h i hi j hj
  · rw [wrapM_dim] at h
    omega

/-- the tree of this instance -/
def wrapTree : Graph (XNum ℚ) := (primSeq wrapM []).toOption.getD []

/-- the multigraph after the tree has been entered -/
def wrapBase : MGraph (XNum ℚ) :=
  (fillMstPar (List.range 8) (emptyMulti wrapM) wrapTree).toOption.getD (emptyMulti wrapM)

/-- the computed matching; it contains the edge between 0 and 6 twice -/
def wrapMatching : List (Nat × Nat) := [(7, 2), (6, 0), (0, 6)]

/-- the multigraph after a lost update -/
def wrapGraph : MGraph (XNum ℚ) := (raceRun wrapBase wrapMatching [0, 0, 0, 0, 1, 1, 1, 2, 2, 1, 2, 2]).g

theorem wrap_metric : Metric 8 wrapC := by
  have h : ∀ i < 8, ∀ j < 8, ∀ k < 8, wrapC i j ≤ wrapC i k + wrapC k j := by decide +kernel
  have h' : ∀ i < 8, ∀ j < 8, wrapC i j = wrapC j i := by decide +kernel
  have h'' : ∀ i < 8, wrapC i i = 0 := by decide +kernel
  exact ⟨fun i hi => h'' i hi, fun i j hi hj => h' i hi j hj, fun i j k hi hj hk => h i hi j hj k hk⟩

/-- every tour of these cities is longer than 152 -/
theorem wrap_bound {q : List Nat} (hq : IsTour 8 q) : 168 ≤ tourCost wrapC q := by
  obtain ⟨w, h1, h2⟩ := C34_one_tree_bound_partial wrapM_rep
    (by rw [wrapM_dim]; exact wrap_metric.symm) (by rw [wrapM_dim]; decide)
  have h3 : oneTreeLbSeq wrapM = .ok (.fin 168) := by decide +kernel
  rw [h3] at h1
  have : w = 168 := (XNum.fin.inj (Except.ok.inj h1)).symm
  rw [← this]
  exact h2 q (by rw [wrapM_dim]; exact hq)

/-- the shuffles above and the usual schedule, in a release build and in a debug build -/
def wrapEnv (dbg : Bool) : Env (XNum ℚ) := { env1 with dbg := dbg, rng := wrapRng }

theorem wrapEnv_ok (dbg : Bool) : (wrapEnv dbg).Ok := { env1_ok with rng := wrapRng_ok }

/-- the two outcomes of this interleaving -/
theorem wrap_runs :
    ChristofidesPar false wrapM wrapRng env1.sched (.ok (.fin 152, [0, 2, 7, 1, 6, 3, 5, 0])) ∧
    ChristofidesPar true wrapM wrapRng env1.sched (.error .assert) := by
  have h0 : primSeq wrapM [] = .ok wrapTree := by decide +kernel
  have h1 : primPar env1.sched.shape env1.sched.update wrapM [] = .ok wrapTree := by
    rw [C30_par_eq_seq strictWeak_olt _ _ env1_ok.sched.shape env1_ok.sched.update, h0]
  have h2 : computeApproxMatchingPar wrapRng env1.sched.chunks wrapTree wrapM = .ok wrapMatching := by
    decide +kernel
  have h3 : fillMstPar (env1.sched.columns (min wrapTree.length wrapM.dim)) (emptyMulti wrapM) wrapTree =
      .ok wrapBase := by
    have e : env1.sched.columns (min wrapTree.length wrapM.dim) = List.range 8 := by decide +kernel
    have hsome : (fillMstPar (List.range 8) (emptyMulti wrapM) wrapTree).toOption.isSome = true := by
      decide +kernel
    rw [e]
    unfold wrapBase
    cases h : fillMstPar (List.range 8) (emptyMulti wrapM) wrapTree with
    | error e => rw [h] at hsome; simp [Except.toOption] at hsome
    | ok g => rfl
  have h4 : FillMatchingPar wrapBase wrapMatching wrapGraph := raceRun_ok (by decide +kernel)
  have h5 : wrapM.isMetric = true := by decide +kernel
  constructor
  · unfold ChristofidesPar ChristofidesGenericPar
    rw [h5, h1]
    simp only [Bool.not_true, Bool.and_false, Bool.false_eq_true, if_false, h2, h3]
    refine ⟨wrapGraph, h4, ?_⟩
    decide +kernel
  · unfold ChristofidesPar ChristofidesGenericPar
    rw [h5, h1]
    simp only [Bool.not_true, Bool.and_false, Bool.false_eq_true, if_false, h2, h3]
    refine ⟨wrapGraph, h4, ?_⟩
    decide +kernel

/-- **C41 (negation for PAR in release builds)** There are a metric matrix with eight cities, shuffles and an
interleaving of the unsynchronised increments for which PAR mode, built in release mode, returns a
closed route that leaves out city 4, with the length of this route, 152. Every tour through all cities has at
least the length 168. With the same interleaving a debug build panics. -/
theorem C41_par_release_wrong : ∃ (m : Mat (XNum ℚ)) (c : Nat → Nat → ℚ) (r : MatchRng) (s : ParSched (XNum ℚ))
    (p : List Nat), Rep m c ∧ m.dim = 8 ∧ Metric 8 c ∧ m.isMetric = true ∧ r.Ok ∧ s.Ok ∧
    ChristofidesPar false m r s (.ok (.fin 152, p ++ [0])) ∧ tourCost c p = 152 ∧ 4 ∉ p ∧
    (∀ q, IsTour 8 q → 168 ≤ tourCost c q) ∧ ChristofidesPar true m r s (.error .assert) :=
  ⟨wrapM, wrapC, wrapRng, env1.sched, [0, 2, 7, 1, 6, 3, 5], wrapM_rep, wrapM_dim, wrap_metric, by decide +kernel,
    wrapRng_ok, env1_ok.sched, wrap_runs.1, by decide +kernel, by decide, fun _ hq => wrap_bound hq, wrap_runs.2⟩

theorem wrap_exact :
    Runs (wrapEnv false) wrapG (.approx .christofides .multiThreaded (some .oneTree))
      (.ok [.christofidesWeight (.fin 152), .oneTreeBound (.fin 168)]) := by
  simp only [Runs, ApproxRun, wrapG_matrix]
  refine ⟨_, wrap_runs.1, ?_⟩
  decide +kernel

/-- **C59 (negation for multi-threaded Christofides in release builds)** There is an accepted instance whose
costs are a metric of small integers for which `walky approx christofides --parallelism multi-threaded
--lower-bound one-tree` can print that its solution has the weight 152 and that 168 is a lower bound for
the length of every tour; in exact arithmetic and in IEEE double precision. The lower bound is right. -/
theorem C59_christofides_below_bound : ∃ (g : Graph (XNum ℚ)) (c : Nat → Nat → ℚ) (env : Env (XNum ℚ)),
    doConditionsHold g = .ok true ∧ NoLoop g ∧ NonnegCosts g ∧ g.length = 8 ∧ Metric 8 c ∧
    (∀ (i : Nat) (es : List (Edge (XNum ℚ))), g[i]? = some es → ∀ e ∈ es, e.cost = .fin (c i e.dst)) ∧ env.Ok ∧
    env.dbg = false ∧
    Runs env g (.approx .christofides .multiThreaded (some .oneTree))
      (.ok [.christofidesWeight (.fin 152), .oneTreeBound (.fin 168)]) ∧
    @Runs _ binary64.ops env g (.approx .christofides .multiThreaded (some .oneTree))
      (.ok [.christofidesWeight (.fin 152), .oneTreeBound (.fin 168)]) ∧
    ∀ q, IsTour 8 q → 168 ≤ tourCost c q := by
  have hacc : doConditionsHold wrapG = .ok true := by decide +kernel
  have hk : ∀ i < 8, ∀ e ∈ (wrapG[i]?).getD [], e.dst ≠ i ∧ e.cost = .fin (wrapC i e.dst) ∧
      (0 ≤ wrapC i e.dst) ∧ wrapC i e.dst ≤ 40 ∧ (wrapC i e.dst).den = 1 := by decide +kernel
  have hk' : ∀ (i : Nat) (es : List (Edge (XNum ℚ))), wrapG[i]? = some es → ∀ e ∈ es, e.dst ≠ i ∧
      e.cost = .fin (wrapC i e.dst) ∧ (0 ≤ wrapC i e.dst) ∧ wrapC i e.dst ≤ 40 ∧ (wrapC i e.dst).den = 1 := by
    intro i es hi e he
    exact hk i (List.getElem?_eq_some_iff.mp hi).1 e (by rw [hi]; exact he)
  refine ⟨wrapG, wrapC, wrapEnv false, hacc, fun i es hi e he => (hk' i es hi e he).1,
    fun i es hi e he => ⟨_, (hk' i es hi e he).2.1, (hk' i es hi e he).2.2.1⟩, rfl, wrap_metric,
    fun i es hi e he => (hk' i es hi e he).2.1, wrapEnv_ok _, rfl, wrap_exact, ?_, fun _ hq => wrap_bound hq⟩
  rw [C63_same_output (q := 0) (by norm_num) (by norm_num) (M := 40) (by norm_num) ?_ ?_ (wrapEnv_ok _)]
  · exact wrap_exact
  · intro es hes e he x hx
    obtain ⟨i, hi⟩ := List.getElem?_of_mem hes
    obtain ⟨-, k1, k2, k3, k4⟩ := hk' i es hi e he
    rw [k1] at hx
    obtain rfl := XNum.fin.inj hx
    refine ⟨⟨(wrapC i e.dst).num, ?_⟩, by rw [abs_of_nonneg k2]; exact k3⟩
    rw [zpow_zero, mul_one]
    exact ((Rat.den_eq_one_iff _).mp k4).symm
  · have : wrapG.length = 8 := rfl
    rw [this]
    norm_num

end Walky.Props
