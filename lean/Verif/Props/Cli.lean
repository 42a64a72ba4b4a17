import Verif.Model.Cli
import Verif.Lemmas.Instance
import Verif.Props.Instance
import Verif.Props.Christofides
import Verif.Props.Threaded

/-! # Property C59: the command line -/

namespace Walky.Props

open FloatOps XNum Spec

variable {K : Type} [Field K] [LinearOrder K] [IsStrictOrderedRing K]

/-- What is assumed about the machine: at least one CPU; shuffles are permutations; rayon, the heap and
the threads do everything exactly once; the heap returns a minimum. -/
structure _root_.Walky.Env.Ok (env : Env (XNum K)) : Prop where
  cpus : 1 ≤ env.cpus
  starts : ∀ n, (env.starts n).Perm (List.range n)
  nnShape : ∀ l, (env.nnShape l).flatten = l
  oneTreeShape : ∀ l, (env.oneTreeShape l).flatten = l
  peek : PeekOk env.peek
  rng : env.rng.Ok
  sched : env.sched.Ok

/-- the number in a line that reports a lower bound -/
def lower {α : Type} : Line α → Option α
  | .oneTreeBound x => some x
  | .mstBound x => some x
  | _ => none

/-- the number in a line that reports the length of a tour -/
def upper {α : Type} : Line α → Option α
  | .bestCost x => some x
  | .christofidesWeight x => some x
  | .nnWeight x => some x
  | _ => none

/-- all edges have a finite cost that is not negative -/
def NonnegCosts (g : Graph (XNum K)) : Prop :=
  ∀ (i : Nat) (es : List (Edge (XNum K))), g[i]? = some es → ∀ e ∈ es, ∃ x, e.cost = .fin x ∧ 0 ≤ x

/-- the matrix of an accepted instance -/
theorem instance_matrix {g : Graph (XNum K)} (hacc : doConditionsHold g = .ok true)
    (hl : NoLoop g) (hc : NonnegCosts g) (hn : 3 ≤ g.length) :
    ∃ (m : Mat (XNum K)) (c : Nat → Nat → K), (do naFromGraph (← parseChecked g)) = .ok m ∧
      m.dim = g.length ∧ Rep m c ∧ Symm m.dim c ∧ Nonneg m.dim c ∧
      ∀ (i : Nat) (es : List (Edge (XNum K))), g[i]? = some es → ∀ e ∈ es, e.cost = .fin (c i e.dst) := by
  have hcomp := complete_of_accepted hacc hl
  obtain ⟨m, a1, a2, a3, a4, a5⟩ := naFromGraph_complete hcomp
  have hfin : ∀ i j, i < g.length → j < g.length → i ≠ j → ∃ x, m.get i j = .fin x ∧ 0 ≤ x := by
    intro i j hi hj hij
    have hg := List.getElem?_eq_getElem hi
    obtain ⟨e, he, hej⟩ := List.mem_map.mp ((hcomp.mem hg).mpr ⟨hj, hij.symm⟩)
    obtain ⟨x, hx, h0⟩ := hc i _ hg e he
    refine ⟨x, ?_, h0⟩
    rw [← hx, ← hej]
    exact a4 i _ hg e he
  have hk : ∀ i j, i < g.length → j < g.length → i ≠ j → m.get i j = .fin (m.get i j).toK := by
    intro i j hi hj hij
    obtain ⟨x, hx, -⟩ := hfin i j hi hj hij
    rw [hx]
    rfl
  refine ⟨m, fun i j => (m.get i j).toK, ?_, a2, ⟨?_, ?_⟩, ?_, ?_, ?_⟩
  · rw [(C55_complete_accepted hcomp).2, rm_bind_ok, a1]
  · rw [a2]; exact hk
  · intro h; omega
  · rw [a2]
    intro i j hi hj
    by_cases hij : i = j
    · rw [hij]
    · simp only
      rw [a5 i j hi hj hij, a5 j i hj hi (Ne.symm hij), hcomp.symm hi hj hij]
  · rw [a2]
    intro i j hi hj hij
    obtain ⟨x, hx, h0⟩ := hfin i j hi hj hij
    simp only [hx]
    exact h0
  · intro i es hi e he
    obtain ⟨x, hx, -⟩ := hc i es hi e he
    simp only [a4 i es hi e he, hx]
    rfl

omit [IsStrictOrderedRing K] in
/-- an assertion that did not fail can be left out -/
private theorem christofidesSeq_metric {m : Mat (XNum K)} {dbg : Bool} {r : MatchRng}
    {sol : Solution (XNum K)} (h : christofidesSeq dbg m r = .ok sol) : dbg = true → m.isMetric = true := by
  intro hd
  unfold christofidesSeq christofidesGeneric at h
  split at h
  · cases h
  · rename_i hc
    simpa [hd] using hc

omit [IsStrictOrderedRing K] in
private theorem christofidesPar_metric {m : Mat (XNum K)} {dbg : Bool} {r : MatchRng}
    {s : ParSched (XNum K)} {sol : Solution (XNum K)} (h : ChristofidesPar dbg m r s (.ok sol)) :
    dbg = true → m.isMetric = true := by
  intro hd
  unfold ChristofidesPar ChristofidesGenericPar at h
  split at h
  · cases h
  · rename_i hc
    simpa [hd] using hc

/-- Nothing is asked of a command, except of `walky approx christofides` on several threads: there the build
is a debug build, or the matching that is computed repeats no edge. In release builds of
this command the tour may be incomplete otherwise (`C41_par_release_wrong`). -/
def Safe {α : Type} [FloatOps α] (env : Env α) (g : Graph α) : Command → Prop
  | .approx .christofides .multiThreaded _ =>
    ∀ m, (do naFromGraph (← parseChecked g)) = .ok m → Harmless env.dbg m env.rng
  | _ => True

/-- A line of the output of a command: if it is the length of a Christofides tour, the command is `Safe`. -/
def Trusted {α : Type} [FloatOps α] (env : Env α) (g : Graph α) (cmd : Command) (l : Line α) : Prop :=
  (∃ x, l = .christofidesWeight x) → Safe env g cmd

/-- **C59 (partial)** Every accepted instance with at least three cities, finite costs that are not
negative and no edge from a vertex to itself; every command without MPI; debug and release builds;
all random numbers, numbers of CPUs and schedules. There is a number `opt`, the length of a shortest
tour, such that
* every lower bound in the output of any command is at most `opt`;
* every tour length in the output of any command that is `Safe` is at least `opt`;
* `walky exact` with v0 – v3 on a single thread always prints `opt`;
* `walky lower-bound` always prints a number, `walky exact` and `walky approx nearest-neighbour` never
  panic, and neither does single-threaded `walky approx christofides` in a release build.

Missing: `walky exact` with several threads need not print `opt`, so that the claim is false for it
(`C59_threaded`); instances with an edge from a vertex to itself. -/
theorem C59_bounds_partial {g : Graph (XNum K)} (hacc : doConditionsHold g = .ok true)
    (hl : NoLoop g) (hc : NonnegCosts g) (hn : 3 ≤ g.length) :
    ∃ opt : K,
      (∃ c : Nat → Nat → K,
        (∀ (i : Nat) (es : List (Edge (XNum K))), g[i]? = some es → ∀ e ∈ es, e.cost = .fin (c i e.dst)) ∧
        (∃ p, IsTour g.length p ∧ tourCost c p = opt) ∧ ∀ p, IsTour g.length p → opt ≤ tourCost c p) ∧
      (∀ (env : Env (XNum K)), env.Ok → ∀ cmd lines, Runs env g cmd (.ok lines) → ∀ l ∈ lines,
        (∀ x, lower l = some x → ∃ w, x = .fin w ∧ w ≤ opt) ∧
        (Safe env g cmd → ∀ x, upper l = some x → ∃ w, x = .fin w ∧ opt ≤ w)) ∧
      (∀ (env : Env (XNum K)) (a : ExactAlgorithm), a ∈ [.v0, .v1, .v2, .v3] → ∀ out,
        Runs env g (.exact a .singleThreaded) out →
          ∃ p, out = .ok [.bestCost (.fin opt), .bestPermutation p]) ∧
      (∀ (env : Env (XNum K)), env.Ok → ∀ a p, ∃ line w,
        Runs env g (.lowerBound a p) (.ok [line]) ∧ lower line = some (.fin w)) ∧
      (∀ (env : Env (XNum K)), env.Ok → ∀ a p, (∃ lines, Runs env g (.exact a p) (.ok lines)) ∧
        ∀ out, Runs env g (.exact a p) out → ∃ lines, out = .ok lines) ∧
      (∀ (env : Env (XNum K)), env.Ok → ∀ p lb, ∃ lines, Runs env g (.approx .nearestNeighbour p lb) (.ok lines)) ∧
      ∀ (env : Env (XNum K)), env.Ok → env.dbg = false → ∀ lb, ∃ lines,
        Runs env g (.approx .christofides .singleThreaded lb) (.ok lines) := by
  obtain ⟨m, c, hm0, hdim, hm, hsym, hnn, hcost⟩ := instance_matrix hacc hl hc hn
  have hn3 : 3 ≤ m.dim := by omega
  obtain ⟨opt, ⟨p0, h0⟩, ⟨p1, h1⟩, ⟨p2, h2⟩, ⟨p3, h3⟩, hmst, hone, hnn', -, -, -⟩ :=
    C50_approximations_partial hm hn3 hsym hnn (dbg := false) (by simp)
  -- `opt` is the length of a shortest tour
  obtain ⟨hopt, hatt⟩ : (∀ q, IsTour m.dim q → opt ≤ tourCost c q) ∧
      ∃ q, IsTour m.dim q ∧ tourCost c q = opt := by
    obtain ⟨p, e, hs⟩ := C03_v0_exact_partial m c hm (by omega)
    rw [h0] at e
    injection e with e
    injection e with e _
    injection e with e
    rw [e]
    exact ⟨fun q hq => hs.2 q hq, p, hs.1, rfl⟩
  obtain ⟨gt, wt, ht1, ht2, ht3⟩ := hmst
  obtain ⟨wo, ho1, ho2⟩ := hone
  -- lower bounds
  have hlb : ∀ (env : Env (XNum K)), env.Ok → ∀ a p, ∃ line w,
      lowerBoundRun env g a p = .ok [line] ∧ lower line = some (.fin w) ∧ w ≤ opt ∧ upper line = none := by
    intro env he a p
    have hm1 : (parseChecked g >>= fun __x => naFromGraph __x) = .ok m := hm0
    have hstart : ∀ f : Mat (XNum K) → RM (List (Line (XNum K))),
        (do let m ← naFromGraph (← parseChecked g); f m) = f m := by
      intro f
      cases hp : parseChecked g with
      | error e => rw [hp] at hm1; simp at hm1
      | ok g' =>
        rw [hp, rm_bind_ok] at hm1
        rw [rm_bind_ok, hm1, rm_bind_ok]
    unfold lowerBoundRun
    rw [hstart]
    cases a
    · refine ⟨.oneTreeBound (.fin wo), wo, ?_, rfl, ho2, rfl⟩
      have e := C35_par_eq_seq strictWeak_olt _ he.oneTreeShape m
      cases p
      · simp only [ho1, rm_bind_ok, rm_pure]
      · simp only [e, ho1, rm_bind_ok, rm_pure]
    · refine ⟨.mstBound gt.undirectedEdgeWeight, wt, ?_, by rw [lower, ht2], ht3, rfl⟩
      have e := C30_par_eq_seq strictWeak_olt _ _ he.sched.shape he.sched.update m []
      cases p
      · simp only [ht1, rm_bind_ok, rm_pure]
      · simp only [e, ht1, rm_bind_ok, rm_pure]
    · obtain ⟨t, t', q1, q2, -, q3⟩ := C31_queue_weight_partial hm hsym he.peek [] (by simp)
      rw [ht1] at q2
      injection q2 with q2
      subst q2
      simp only [q1, rm_bind_ok, rm_pure]
      exact ⟨.mstBound t.undirectedEdgeWeight, wt, rfl, by rw [lower, q3, ht2], ht3, rfl⟩
  -- an approximation with an optional lower bound
  have hwith : ∀ (S : Prop) (env : Env (XNum K)), env.Ok → ∀ p lb (l : List (Line (XNum K))),
      (∀ x ∈ l, lower x = none ∧ (S → ∀ y, upper x = some y → ∃ w, y = .fin w ∧ opt ≤ w)) →
      ∃ lines, withBound env g p lb (.ok l) = .ok lines ∧ ∀ x ∈ lines,
        (∀ y, lower x = some y → ∃ w, y = .fin w ∧ w ≤ opt) ∧
        (S → ∀ y, upper x = some y → ∃ w, y = .fin w ∧ opt ≤ w) := by
    intro S env he p lb l h
    have hl' : ∀ x ∈ l, (∀ y, lower x = some y → ∃ w, y = XNum.fin w ∧ w ≤ opt) ∧
        (S → ∀ y, upper x = some y → ∃ w, y = .fin w ∧ opt ≤ w) := by
      intro x hx
      refine ⟨fun y hy => ?_, (h x hx).2⟩
      rw [(h x hx).1] at hy
      cases hy
    unfold withBound
    rw [rm_bind_ok]
    cases lb with
    | none => exact ⟨l, rfl, hl'⟩
    | some a =>
      obtain ⟨line, w, k1, k2, k3, k4⟩ := hlb env he a p
      simp only [k1, rm_bind_ok, rm_pure]
      refine ⟨_, rfl, ?_⟩
      intro x hx
      rcases List.mem_append.mp hx with hx | hx
      · exact hl' x hx
      · rw [List.mem_singleton.mp hx]
        refine ⟨fun y hy => ?_, fun _ y hy => ?_⟩
        · rw [k2] at hy
          injection hy with hy
          exact ⟨w, hy.symm, k3⟩
        · rw [k4] at hy
          cases hy
  have hwith_err : ∀ (env : Env (XNum K)) p lb e lines, withBound env g p lb (.error e) ≠ .ok lines := by
    intro env p lb e lines h
    unfold withBound at h
    rw [rm_bind_err] at h
    cases h
  -- exact runs
  have hex : ∀ (env : Env (XNum K)), env.Ok → ∀ a p out, Runs env g (.exact a p) out →
      ∃ w q, out = .ok [.bestCost (.fin w), .bestPermutation q] ∧ opt ≤ w := by
    intro env he a p out h
    simp only [Runs, ExactRun, hm0] at h
    have htour : ∀ {s : RM (Solution (XNum K))}, (∃ q, s = .ok (fin (tourCost c q), q) ∧ IsTour m.dim q ∧
        tourCost c q ≤ tourCost c (List.range m.dim)) →
        out = (fun r : Solution (XNum K) => [Line.bestCost r.1, Line.bestPermutation r.2]) <$> s →
        ∃ w q, out = .ok [.bestCost (.fin w), .bestPermutation q] ∧ opt ≤ w := by
      rintro s ⟨q, rfl, hq, -⟩ e
      exact ⟨_, q, e, hopt q hq⟩
    cases p
    · cases a
      · simp only [h0] at h; exact ⟨opt, p0, h, le_rfl⟩
      · simp only [h1] at h; exact ⟨opt, p1, h, le_rfl⟩
      · simp only [h2] at h; exact ⟨opt, p2, h, le_rfl⟩
      · simp only [h3] at h; exact ⟨opt, p3, h, le_rfl⟩
      · exact htour (C10_truthful m c hm (by omega) env.hash _ (by simp)) h
      · exact htour (C10_truthful m c hm (by omega) env.hash _ (by simp)) h
      · exact htour (C10_truthful m c hm (by omega) env.hash _ (by simp)) h
    · obtain ⟨r, hr, rfl⟩ := h
      obtain ⟨k1, k2⟩ := C19_threaded_tour_partial hm (by omega) he.cpus (by omega) hr
      exact ⟨_, r.2, by rw [k2], hopt _ k1⟩
  -- nearest neighbour
  have hnnl : ∀ (env : Env (XNum K)), env.Ok → ∀ p : Parallelism, ∃ w q, opt ≤ w ∧ (match p with
      | .singleThreaded => nearestNeighbourSeq (env.starts m.dim) m
      | .multiThreaded => nearestNeighbourPar env.nnShape (env.starts m.dim) m) =
        (.ok (.fin w, q) : RM (Solution (XNum K))) := by
    intro env he p
    obtain ⟨w, q, k1, k2⟩ := hnn' (env.starts m.dim) (he.starts m.dim)
    refine ⟨w, q, k2, ?_⟩
    cases p
    · exact k1
    · simp only
      rw [← k1]
      exact C39_par_eq_seq strictWeak_olt _ he.nnShape _ _ _
  have hnnlines : ∀ (S : Prop) w (q : List Nat), opt ≤ w → ∀ x ∈ [Line.nnWeight (XNum.fin w), Line.nnTour q],
      lower x = none ∧ (S → ∀ y, upper x = some y → ∃ w, y = .fin w ∧ opt ≤ w) := by
    intro S w q hw x hx
    simp only [List.mem_cons, List.not_mem_nil, or_false] at hx
    rcases hx with rfl | rfl
    · refine ⟨rfl, fun _ y hy => ?_⟩
      injection hy with hy
      exact ⟨w, hy.symm, hw⟩
    · exact ⟨rfl, fun _ y hy => by cases hy⟩
  have hchlines : ∀ (S : Prop) (y : XNum K), (S → ∃ w, y = .fin w ∧ opt ≤ w) →
      ∀ x ∈ [Line.christofidesWeight y],
      lower x = none ∧ (S → ∀ y, upper x = some y → ∃ w, y = .fin w ∧ opt ≤ w) := by
    intro S y hw x hx
    rw [List.mem_singleton.mp hx]
    refine ⟨rfl, fun h y hy => ?_⟩
    injection hy with hy
    rw [← hy]
    exact hw h
  refine ⟨opt, ⟨c, hcost, hdim ▸ hatt, hdim ▸ hopt⟩, ?_, ?_, ?_, ?_, ?_, ?_⟩
  · intro env he cmd lines h
    cases cmd with
    | exact a p =>
      obtain ⟨w, q, k1, k2⟩ := hex env he a p _ h
      injection k1 with k1
      subst k1
      intro l hl
      simp only [List.mem_cons, List.not_mem_nil, or_false] at hl
      rcases hl with rfl | rfl
      · refine ⟨(fun x hx => by cases hx), fun _ x hx => ?_⟩
        injection hx with hx
        exact ⟨w, hx.symm, k2⟩
      · exact ⟨(fun x hx => by cases hx), fun _ x hx => by cases hx⟩
    | lowerBound a p =>
      obtain ⟨line, w, k1, k2, k3, k4⟩ := hlb env he a p
      simp only [Runs] at h
      rw [k1] at h
      injection h with h
      subst h
      intro l hl
      rw [List.mem_singleton.mp hl]
      refine ⟨fun x hx => ?_, fun _ x hx => by rw [k4] at hx; cases hx⟩
      rw [k2] at hx
      injection hx with hx
      exact ⟨w, hx.symm, k3⟩
    | approx a p lb =>
      simp only [Runs, ApproxRun, hm0] at h
      obtain ⟨res, h⟩ := h
      cases a with
      | nearestNeighbour =>
        obtain ⟨ha, hb⟩ := h
        obtain ⟨w, q, k1, k2⟩ := hnnl env he p
        have hres : res = .ok (.fin w, q) := by
          rw [← k2]
          cases p <;> exact ha
        subst hres
        obtain ⟨lines', l1, l2⟩ := hwith (Safe env g (.approx .nearestNeighbour p lb)) env he p lb _
          (hnnlines _ w q k1)
        have e : Except.ok lines = (.ok lines' : RM (List (Line (XNum K)))) := hb.trans l1
        injection e with e
        rw [e]
        exact l2
      | christofides =>
        obtain ⟨ha, hb⟩ := h
        cases res with
        | error e => exact absurd hb.symm (hwith_err env p lb e lines)
        | ok sol =>
          have hw : Safe env g (.approx .christofides p lb) → ∃ w, sol.1 = .fin w ∧ opt ≤ w := by
            intro hsafe
            cases p
            · simp only at ha
              have hd := christofidesSeq_metric ha.symm
              obtain ⟨q, k1, k2, -⟩ := C41_christofides_seq hm (by omega) hd he.rng
              rw [← ha] at k1
              injection k1 with k1
              rw [k1]
              exact ⟨_, rfl, hopt q k2⟩
            · simp only at ha
              have hd := christofidesPar_metric ha
              obtain ⟨opt', ⟨q0, e0⟩, -, -, -, -, -, -, -, -, hp⟩ :=
                C50_approximations_partial hm hn3 hsym hnn (dbg := env.dbg) hd
              rw [h0] at e0
              injection e0 with e0
              injection e0 with e0 _
              injection e0 with e0
              rw [e0]
              exact hp env.rng env.sched sol he.rng he.sched (hsafe m hm0) ha
          obtain ⟨lines', l1, l2⟩ := hwith _ env he p lb _ (hchlines _ sol.1 hw)
          have e : Except.ok lines = (.ok lines' : RM (List (Line (XNum K)))) := by
            rw [← l1]
            exact hb
          injection e with e
          rw [e]
          exact l2
  · intro env a ha out h
    simp only [Runs, ExactRun, hm0] at h
    simp only [List.mem_cons, List.not_mem_nil, or_false] at ha
    rcases ha with rfl | rfl | rfl | rfl
    · simp only [h0] at h; exact ⟨p0, h⟩
    · simp only [h1] at h; exact ⟨p1, h⟩
    · simp only [h2] at h; exact ⟨p2, h⟩
    · simp only [h3] at h; exact ⟨p3, h⟩
  · intro env he a p
    obtain ⟨line, w, k1, k2, -, -⟩ := hlb env he a p
    exact ⟨line, w, k1.symm, k2⟩
  · intro env he a p
    refine ⟨?_, fun out h => ?_⟩
    · have hr : ∃ out, Runs env g (.exact a p) out := by
        simp only [Runs, ExactRun, hm0]
        cases p
        · exact ⟨_, rfl⟩
        · obtain ⟨r, hr⟩ := C17_result_exists hm (by omega) he.cpus
          exact ⟨_, r, hr, rfl⟩
      obtain ⟨out, h⟩ := hr
      obtain ⟨w, q, k, -⟩ := hex env he a p out h
      exact ⟨_, k ▸ h⟩
    · obtain ⟨w, q, k, -⟩ := hex env he a p out h
      exact ⟨_, k⟩
  · intro env he p lb
    obtain ⟨w, q, k1, k2⟩ := hnnl env he p
    obtain ⟨lines, l1, -⟩ := hwith True env he p lb _ (hnnlines _ w q k1)
    refine ⟨lines, ?_⟩
    simp only [Runs, ApproxRun, hm0]
    refine ⟨.ok (.fin w, q), ?_, l1.symm⟩
    cases p <;> exact k2.symm
  · intro env he hd lb
    obtain ⟨q, k1, k2, -⟩ := C41_christofides_seq hm (by omega) (dbg := env.dbg) (by simp [hd]) he.rng
    obtain ⟨lines, l1, -⟩ := hwith True env he .singleThreaded lb _
      (hchlines _ _ fun _ => ⟨_, rfl, hopt q k2⟩)
    refine ⟨lines, ?_⟩
    simp only [Runs, ApproxRun, hm0]
    exact ⟨_, k1.symm, l1.symm⟩

/-- an environment -/
def env1 : Env (XNum ℚ) where
  dbg := false
  hash := fun _ => 0
  cpus := 8
  starts := List.range
  nnShape := fun l => l.foldr (fun x t => .node (.leaf x) t) .empty
  oneTreeShape := fun l => l.foldr (fun x t => .node (.leaf x) t) .empty
  peek := fun _ l => minByFirst (fun a b => olt a.2 b.2) l
  rng := { vertices := id, edges := fun _ l => l }
  sched := { shape := fun _ l => l.foldr (fun x t => .node (.leaf x) t) .empty
             update := fun _ => List.range, chunks := fun _ => List.range, columns := List.range }

theorem env1_ok : env1.Ok := by
  have hfl : ∀ {β : Type} (l : List β), (l.foldr (fun x t => RTree.node (.leaf x) t) .empty).flatten = l := by
    intro β l
    induction l with
    | nil => rfl
    | cons x t ih => simp [RTree.flatten, ih]
  exact ⟨by decide, fun n => List.Perm.refl _, fun l => hfl l, fun l => hfl l, peekOk_first, ⟨fun l => List.Perm.refl _,
    fun k l => List.Perm.refl _⟩, ⟨fun _ l => hfl l, fun _ n => List.Perm.refl _,
    fun _ n => List.Perm.refl _, fun n => List.Perm.refl _⟩⟩

/-- six cities; all costs are 10 except 11 between cities 0 and 1 -/
def six : Graph (XNum ℚ) :=
  (List.range 6).map fun i => ((List.range 6).erase i).map fun j =>
    ⟨j, .fin (if (i = 0 ∧ j = 1) ∨ (i = 1 ∧ j = 0) then 11 else 10)⟩

theorem six_noLoop : NoLoop six := by
  have h : ∀ i < 6, ∀ e ∈ (six[i]?).getD [], e.dst ≠ i := by decide +kernel
  intro i es hi e he
  have hl : i < 6 := (List.getElem?_eq_some_iff.mp hi).1
  exact h i hl e (by rw [hi]; exact he)

theorem six_nonneg : NonnegCosts six := by
  intro i es hi e he
  unfold six at hi
  rw [List.getElem?_map] at hi
  obtain ⟨k, -, rfl⟩ := Option.map_eq_some_iff.mp hi
  obtain ⟨j, -, rfl⟩ := List.mem_map.mp he
  refine ⟨_, rfl, ?_⟩
  split <;> norm_num

example : doConditionsHold six = .ok true ∧ NoLoop six ∧ NonnegCosts six ∧ 3 ≤ six.length ∧ env1.Ok :=
  ⟨by decide +kernel, six_noLoop, six_nonneg, by decide, env1_ok⟩

/-- **C59 (negation for several threads)** An accepted instance of six cities on a machine with eight
CPUs: `walky exact v0 -p multi-threaded` prints 61, but `walky approx nearest-neighbour` prints 60. -/
theorem C59_threaded : doConditionsHold six = .ok true ∧
    Runs env1 six (.exact .v0 .multiThreaded)
      (.ok [.bestCost (.fin 61), .bestPermutation [0, 1, 2, 3, 4, 5]]) ∧
    Runs env1 six (.approx .nearestNeighbour .singleThreaded none)
      (.ok [.nnWeight (.fin 60), .nnTour [0, 2, 1, 3, 4, 5]]) := by
  have h1 : ((do naFromGraph (← parseChecked six)) >>= fifthImprovedSolver) =
      .ok (.fin 61, [0, 1, 2, 3, 4, 5]) := by decide +kernel
  have h2 : ((do naFromGraph (← parseChecked six)) >>= nearestNeighbourSeq (List.range 6)) =
      .ok (.fin 60, [0, 2, 1, 3, 4, 5]) := by decide +kernel
  have h3 : ((do naFromGraph (← parseChecked six)) >>= fun m => .ok m.dim) = .ok 6 := by decide +kernel
  refine ⟨by decide +kernel, ?_, ?_⟩
  · simp only [Runs, ExactRun]
    cases hm : (do naFromGraph (← parseChecked six)) with
    | error e => rw [hm] at h1; cases h1
    | ok m =>
      rw [hm, rm_bind_ok] at h1 h3
      injection h3 with h3
      refine ⟨(.fin 61, [0, 1, 2, 3, 4, 5]), ?_, rfl⟩
      unfold ThreadedResult
      rw [if_pos (by rw [h3]; decide)]
      exact h1
  · simp only [Runs, ApproxRun]
    cases hm : (do naFromGraph (← parseChecked six)) with
    | error e => rw [hm] at h1; cases h1
    | ok m =>
      rw [hm, rm_bind_ok] at h2 h3
      injection h3 with h3
      refine ⟨.ok (.fin 60, [0, 2, 1, 3, 4, 5]), ?_, rfl⟩
      simp only [h3]
      exact h2.symm

end Walky.Props
