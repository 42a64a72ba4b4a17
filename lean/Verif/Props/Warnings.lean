import Verif.Model.Warnings
import Verif.Props.Prints
import Verif.Props.RobustMpi

/-! # Property C128: the warnings on stderr -/

namespace Walky.Props

open FloatOps XNum Spec

variable {α : Type}

/-- The command asks for several threads and for the bound of the priority queue. -/
def AsksParallelQueue (c : Command) : Prop :=
  c = .lowerBound .mstQueue .multiThreaded ∨ ∃ a, c = .approx a .multiThreaded (some .mstQueue)

/-- stderr does not change what is printed: `Reports` and `Prints` have the same outcomes. -/
theorem reports_prints [FloatOps α] {env : Env α} {g : Graph α} {c : Command} {o : Out α} :
    Prints env g c o ↔ ∃ ws, Reports env g c o ws := by
  cases c with
  | exact a p => exact ⟨fun h => ⟨[], h, rfl⟩, fun ⟨_, h, _⟩ => h⟩
  | lowerBound a p => exact ⟨fun h => ⟨_, h, rfl⟩, fun ⟨_, h, _⟩ => h⟩
  | approx a p lb =>
    exact ⟨fun ⟨r, h1, h2⟩ => ⟨_, r, h1, h2, rfl⟩, fun ⟨_, r, h1, h2, _⟩ => ⟨r, h1, h2⟩⟩

theorem lowerBound_read [FloatOps α] {env : Env α} {g : Graph α} {a : LowerBoundAlgorithm} {p : Parallelism}
    {l : List (Line α)} (h : lowerBoundRun env g a p = .ok l) :
    ∃ m : Mat α, (do naFromGraph (← parseChecked g)) = .ok m := by
  unfold lowerBoundRun at h
  cases hp : parseChecked g with
  | error e => rw [hp] at h; cases h
  | ok g' =>
    rw [hp] at h
    cases hm : naFromGraph g' with
    | error e => simp only [rm_bind_ok, hm] at h; cases h
    | ok m => exact ⟨m, hm⟩

theorem approx_read [FloatOps α] {env : Env α} {g : Graph α} {a : ApproxAlgorithm} {p : Parallelism}
    {lb : Option LowerBoundAlgorithm} {l : List (Line α)} (h : ApproxRun env g a p lb (.ok l)) :
    ∃ m : Mat α, (do naFromGraph (← parseChecked g)) = .ok m := by
  unfold ApproxRun at h
  cases hm : (do naFromGraph (← parseChecked g) : RM (Mat α)) with
  | error e => rw [hm] at h; cases h
  | ok m => exact ⟨m, rfl⟩

theorem approx_lines [FloatOps α] {env : Env α} {g : Graph α} {a : ApproxAlgorithm} {p : Parallelism}
    {l : List (Line α)} (h : ApproxRun env g a p none (.ok l)) : l ≠ [] := by
  unfold ApproxRun at h
  cases hm : (do naFromGraph (← parseChecked g) : RM (Mat α)) with
  | error e => rw [hm] at h; cases h
  | ok m =>
    rw [hm] at h
    obtain ⟨res, h⟩ := h
    cases a <;> obtain ⟨-, h⟩ := h <;> cases res with
    | error e => cases h
    | ok r => cases h; simp

theorem boundWarnings_cases [FloatOps α] (g : Graph α) (b : LowerBoundAlgorithm) (p : Parallelism) :
    boundWarnings g b p = [] ∨
      (boundWarnings g b p = [.onlySequential] ∧ b = .mstQueue ∧ p = .multiThreaded) := by
  unfold boundWarnings
  cases (do naFromGraph (← parseChecked g) : RM (Mat α)) with
  | error e => exact Or.inl rfl
  | ok m => cases b <;> cases p <;> simp

theorem boundWarnings_queue [FloatOps α] {g : Graph α} {m : Mat α}
    (h : (do naFromGraph (← parseChecked g)) = .ok m) :
    boundWarnings g .mstQueue .multiThreaded = [.onlySequential] := by
  unfold boundWarnings
  rw [h]

/-- **C128, when** Any arithmetic and any graph, without `--parallelism mpi`. A run writes at most one line to stderr,
namely that only the sequential computation is supported, and only if several threads and the bound of the priority
queue have been asked for. If such a run succeeds, it has written this line; more exactly, it has written it if and
only if it could read the instance and the approximation before the bound (if any) has succeeded. -/
theorem C128_when [FloatOps α] {env : Env α} {g : Graph α} {c : Command} {o : Out α} {ws : List Warning}
    (h : Reports env g c o ws) :
    (ws = [] ∨ ws = [.onlySequential] ∧ AsksParallelQueue c) ∧
    (AsksParallelQueue c → o.exit = .ok () → ws = [.onlySequential]) ∧
    (AsksParallelQueue c → ∀ m : Mat α, (do naFromGraph (← parseChecked g)) = .ok m →
      (ws = [] ↔ ∃ a e, c = .approx a .multiThreaded (some .mstQueue) ∧ o = ⟨[], .error e⟩ ∧
        Runs env g (.approx a .multiThreaded none) (.error e))) := by
  cases c with
  | exact a p =>
    obtain ⟨-, rfl⟩ := h
    refine ⟨Or.inl rfl, fun h => ?_, fun h => ?_⟩ <;>
    · rcases h with h | ⟨a, h⟩ <;> cases h
  | lowerBound a p =>
    obtain ⟨h1, rfl⟩ := h
    refine ⟨?_, ?_, ?_⟩
    · rcases boundWarnings_cases g a p with h | ⟨h, rfl, rfl⟩
      · exact Or.inl h
      · exact Or.inr ⟨h, Or.inl rfl⟩
    · rintro (h | ⟨a, h⟩) he <;> cases h
      have h1 : o = Out.print id (lowerBoundRun env g .mstQueue .multiThreaded) := h1
      cases hb : lowerBoundRun env g .mstQueue .multiThreaded with
      | error e => rw [h1, hb] at he; cases he
      | ok l =>
        obtain ⟨m, hm⟩ := lowerBound_read hb
        exact boundWarnings_queue hm
    · rintro (h | ⟨a, h⟩) m hm <;> cases h
      rw [boundWarnings_queue hm]
      constructor
      · intro h; cases h
      · rintro ⟨a, e, h, -⟩; cases h
  | approx a p lb =>
    obtain ⟨r, h1, rfl, rfl⟩ := h
    refine ⟨?_, ?_, ?_⟩
    · cases r with
      | error e => exact Or.inl rfl
      | ok l =>
        cases lb with
        | none => exact Or.inl rfl
        | some b =>
          rcases boundWarnings_cases g b p with h | ⟨h, rfl, rfl⟩
          · exact Or.inl h
          · exact Or.inr ⟨h, Or.inr ⟨a, rfl⟩⟩
    · rintro (h | ⟨a, h⟩) he <;> cases h
      cases r with
      | error e => cases he
      | ok l =>
        obtain ⟨m, hm⟩ := approx_read h1
        exact boundWarnings_queue hm
    · rintro (h | ⟨a, h⟩) m hm <;> cases h
      cases r with
      | error e => exact ⟨fun _ => ⟨a, e, rfl, rfl, h1⟩, fun _ => rfl⟩
      | ok l =>
        have hw : boundWarnings g .mstQueue .multiThreaded = [] ↔ False := by
          rw [boundWarnings_queue hm]; simp
        refine hw.trans ⟨False.elim, ?_⟩
        rintro ⟨a', e, h, ho, -⟩
        have hl := approx_lines h1
        cases hb : lowerBoundRun env g .mstQueue .multiThreaded with
        | error e' =>
          simp only [boundAfter, hb] at ho
          have : l ++ [] = [] := congrArg Out.lines ho
          exact hl (by simpa using this)
        | ok l' =>
          simp only [boundAfter, hb] at ho
          cases (Out.mk.inj ho).2

/-- **C128, threads** When the warning has been written, the bound is the one of a single thread: the run has printed
the lines of the approximation with several threads (if one was asked for) and then what
`walky lower-bound mst-queue` prints with one thread, and has ended like it. -/
theorem C128_sequential [FloatOps α] {env : Env α} {g : Graph α} {c : Command} {o : Out α} {ws : List Warning}
    (h : Reports env g c o ws) (hw : .onlySequential ∈ ws) :
    (c = .lowerBound .mstQueue .multiThreaded ∧ Reports env g (.lowerBound .mstQueue .singleThreaded) o []) ∨
    ∃ a l o', c = .approx a .multiThreaded (some .mstQueue) ∧
      Runs env g (.approx a .multiThreaded none) (.ok l) ∧
      Reports env g (.lowerBound .mstQueue .singleThreaded) o' [] ∧
      o.lines = l ++ o'.lines ∧ o.exit = o'.exit := by
  have hs : boundWarnings g .mstQueue .singleThreaded = [] := by
    rcases boundWarnings_cases g .mstQueue .singleThreaded with h | ⟨-, -, h⟩
    · exact h
    · cases h
  have hb : lowerBoundRun env g .mstQueue .multiThreaded = lowerBoundRun env g .mstQueue .singleThreaded := rfl
  obtain ⟨h0 | ⟨-, rfl | ⟨a, rfl⟩⟩, -⟩ := C128_when h
  · rw [h0] at hw; cases hw
  · left
    refine ⟨rfl, ?_, hs.symm⟩
    obtain ⟨h1, -⟩ := h
    exact h1
  · right
    obtain ⟨r, h1, rfl, rfl⟩ := h
    cases r with
    | error e => cases hw
    | ok l =>
      exact ⟨a, l, Out.print id (lowerBoundRun env g .mstQueue .singleThreaded), rfl, h1, ⟨rfl, hs.symm⟩,
        rfl, rfl⟩

/-- **C128, silence** There is no warning when `walky exact --parallelism multi-threaded` ignores the algorithm: all
seven algorithms have the same outcomes and stderr stays empty. -/
theorem C128_algorithm_ignored [FloatOps α] {env : Env α} {g : Graph α} (a a' : ExactAlgorithm) {o : Out α}
    {ws : List Warning} :
    (Reports env g (.exact a .multiThreaded) o ws ↔ Reports env g (.exact a' .multiThreaded) o ws) ∧
    (Reports env g (.exact a .multiThreaded) o ws → ws = []) :=
  ⟨Iff.rfl, fun h => h.2⟩

/-- what the bound after an approximation adds to stderr -/
def AfterBound (lb : Option LowerBoundAlgorithm) (before w : List Warning) : Prop :=
  lb ≠ some .oneTree ∧ (lb = none → w = before) ∧ (lb = some .mst → w = before ++ [.primSequential]) ∧
    (lb = some .mstQueue → w = before ++ [.onlySequential])

theorem afterBound {lb : Option LowerBoundAlgorithm} (h : lb ≠ some .oneTree) (x : Warning) :
    AfterBound lb [x] (x :: mpiBoundWarningsAfter lb) := by
  refine ⟨h, ?_, ?_, ?_⟩ <;> rintro rfl <;> rfl

/-- **C128, MPI** Any arithmetic and any graph. What the ranks of a job that succeeds have written to stderr. Nothing
with an exact solver and the 1-tree bound. With the bounds of the spanning tree every rank says that it computes
sequentially. With nearest neighbour every rank says that MPI only supports all start nodes, with Christofides only
the root warns, about the sequential computation of the spanning tree; the bound that follows warns as it does alone
(after Christofides only on the root). -/
theorem C128_mpi [FloatOps α] {env : MpiEnv α} (hs : 1 ≤ env.size) {g : Graph α} {c : MpiCommand}
    {outs : List (Out α)} {ws : List (List Warning)} (h : MpiReports env g c outs ws)
    (hok : ∀ o ∈ outs, o.exit = .ok ()) :
    ws.length = env.size ∧ ∀ (r : Nat) (w : List Warning), ws[r]? = some w →
      (∀ a, c = .exact a → w = []) ∧
      (c = .lowerBound .oneTree → w = []) ∧
      (c = .lowerBound .mst → w = [.primSequential]) ∧
      (c = .lowerBound .mstQueue → w = [.onlySequential]) ∧
      (∀ lb, c = .approx .nearestNeighbour lb → AfterBound lb [.everyStart] w) ∧
      (∀ lb, c = .approx .christofides lb →
        (r = 0 → AfterBound lb [.primSequential] w) ∧ (r ≠ 0 → w = [])) := by
  obtain ⟨h1, h2⟩ := h
  have hrep : ∀ {β : Type} {x w : β} {r : Nat}, (List.replicate env.size x)[r]? = some w → w = x := by
    intro β x w r h
    exact List.eq_of_mem_replicate (List.mem_of_getElem? h)
  have hall : ∀ (e : Panic), outs ≠ env.all ⟨[], .error e⟩ := by
    rintro e rfl
    have := hok ⟨[], .error e⟩ (List.mem_replicate.mpr ⟨by omega, rfl⟩)
    cases this
  unfold MpiRuns at h1
  cases hm : (do naFromGraph (← parseChecked g) : RM (Mat α)) with
  | error e => rw [hm] at h1; exact absurd h1 (hall e)
  | ok m =>
    rw [hm] at h1 h2
    cases c with
    | exact a =>
      have h2 : ws = List.replicate env.size [] := h2
      subst h2
      refine ⟨List.length_replicate, fun r w hw => ?_⟩
      have := hrep hw
      simp [this]
    | lowerBound a =>
      have h2 : ws = List.replicate env.size (mpiBoundWarnings a) := h2
      subst h2
      refine ⟨List.length_replicate, fun r w hw => ?_⟩
      have := hrep hw
      subst this
      cases a <;> simp [mpiBoundWarnings]
    | approx a lb =>
      have h1 : outs = mpiApprox env m lb a := h1
      cases a with
      | nearestNeighbour =>
        cases hn : nnMpi env.nnShape env.size m with
        | error e => simp only [mpiApprox, hn] at h1; exact absurd h1 (hall e)
        | ok rs =>
          simp only [hn] at h2
          subst h2
          have hlen : rs.length = env.size := nnMpi_length hn
          have hlb : lb ≠ some .oneTree := by
            rintro rfl
            simp only [mpiApprox, hn] at h1
            obtain ⟨x, rs', rfl⟩ := List.exists_cons_of_length_pos (by omega : 0 < rs.length)
            have := hok (Out.andThen ⟨[Line.nnWeight x.1, Line.nnTour x.2], .ok ()⟩
              (mpiBoundAfter env m 0 (some .oneTree))) (by subst h1; simp)
            cases this
          refine ⟨List.length_replicate, fun r w hw => ?_⟩
          have := hrep hw
          subst this
          refine ⟨by simp, by simp, by simp, by simp, ?_, by simp⟩
          intro lb' h
          cases h
          exact afterBound hlb _
      | christofides =>
        cases hn : christofidesMpi env.dbg m env.rng env.shufs env.size with
        | error e => simp only [mpiApprox, hn] at h1; exact absurd h1 (hall e)
        | ok q =>
          have hmet : (env.dbg && !m.isMetric) = false := by
            cases hd : (env.dbg && !m.isMetric) with
            | false => rfl
            | true =>
              unfold christofidesMpi christofidesGeneric at hn
              rw [hd] at hn
              cases hn
          have hlb : lb ≠ some .oneTree := by
            rintro rfl
            simp only [mpiApprox, hn, MpiEnv.rootAnd] at h1
            have := hok (Out.andThen ⟨[Line.christofidesWeight q.1], .ok ()⟩
              (mpiBoundAfter env m 0 (some .oneTree)))
              (by subst h1; exact List.mem_map.mpr ⟨0, List.mem_range.mpr (by omega), rfl⟩)
            cases this
          simp only [hn, hmet, Bool.false_eq_true, or_false] at h2
          subst h2
          refine ⟨by simp, fun r w hw => ?_⟩
          obtain ⟨hr, hw⟩ : r < env.size ∧ (if r ≠ 0 then [] else Warning.primSequential :: mpiBoundWarningsAfter lb) = w := by
            rw [List.getElem?_map] at hw
            obtain ⟨k, hk, hw⟩ := Option.map_eq_some_iff.mp hw
            obtain ⟨hr, hk⟩ := List.getElem?_eq_some_iff.mp hk
            rw [List.getElem_range] at hk
            subst hk
            exact ⟨by simpa using hr, hw⟩
          refine ⟨by simp, by simp, by simp, by simp, by simp, ?_⟩
          intro lb' h
          cases h
          constructor
          · rintro rfl
            subst hw
            exact afterBound hlb _
          · intro h
            rw [← hw, if_pos h]

/-- **C128, MPI, alone** Any arithmetic, an instance that can be read, any number of processes. A rank of
`walky lower-bound --parallelism mpi` warns if and only if the bound is not the 1-tree bound, and a rank that warns
does exactly what a single process without MPI does on its own. -/
theorem C128_mpi_alone [FloatOps α] {env : MpiEnv α} {g : Graph α} {m : Mat α}
    (hm : (do naFromGraph (← parseChecked g)) = .ok m) {a : LowerBoundAlgorithm}
    {outs : List (Out α)} {ws : List (List Warning)} (h : MpiReports env g (.lowerBound a) outs ws)
    {r : Nat} (hr : r < env.size) :
    ∃ w, ws[r]? = some w ∧ (w ≠ [] ↔ a ≠ .oneTree) ∧
      (w ≠ [] → ∃ o, outs[r]? = some o ∧ ∀ env1 : Env α, env1.peek = env.peek r →
        Prints env1 g (.lowerBound a .singleThreaded) o) := by
  obtain ⟨h1, h2⟩ := h
  unfold MpiRuns at h1
  rw [hm] at h1 h2
  have h2 : ws = List.replicate env.size (mpiBoundWarnings a) := h2
  have h1 : outs = mpiLowerBound env m a := h1
  subst h1 h2
  have hm' : ∀ f : Mat α → RM (List (Line α)), (do let m ← naFromGraph (← parseChecked g); f m) = f m := by
    intro f
    have : (do let m ← naFromGraph (← parseChecked g); f m) =
        ((do naFromGraph (← parseChecked g)) >>= f) := by
      cases parseChecked g <;> rfl
    rw [this, hm]
    rfl
  refine ⟨mpiBoundWarnings a, by simp [hr], by cases a <;> simp [mpiBoundWarnings], fun hw => ?_⟩
  cases a with
  | oneTree => exact absurd rfl hw
  | mst =>
    refine ⟨mpiMst env m r false, by simp [mpiLowerBound, hr], fun env1 he => ?_⟩
    show _ = Out.print id (lowerBoundRun env1 g .mst .singleThreaded)
    unfold lowerBoundRun
    rw [hm']
    simp only [mpiMst]
    cases primSeq m [] <;> rfl
  | mstQueue =>
    refine ⟨mpiMst env m r true, by simp [mpiLowerBound, hr], fun env1 he => ?_⟩
    show _ = Out.print id (lowerBoundRun env1 g .mstQueue .singleThreaded)
    unfold lowerBoundRun
    rw [hm', he]
    simp only [mpiMst]
    cases primQueue (env.peek r) m [] <;> rfl

namespace WarningsExample

deriving instance DecidableEq for Line

end WarningsExample

/-- four cities; the cost of the edges at city 0 is 2, of the others 3 -/
private abbrev q : Graph (XNum ℚ) := quad (.fin 2) (.fin 3)

private theorem q_read : ∃ m : Mat (XNum ℚ), (do naFromGraph (← parseChecked q)) = .ok m := by
  obtain ⟨m, hm, -⟩ := instance_total (g := q) (by decide +kernel)
  exact ⟨m, hm⟩

/-- **C128, it happens** The warnings do occur: with four cities the runs `walky lower-bound mst-queue` and
`walky approx nearest-neighbour --lower-bound mst-queue` with several threads succeed and warn, without threads they do
not warn, and a job of three processes has three warnings. -/
theorem C128_happens :
    Reports env1 q (.lowerBound .mstQueue .multiThreaded) ⟨[.mstBound (.fin 6)], .ok ()⟩ [.onlySequential] ∧
    Reports env1 q (.lowerBound .mstQueue .singleThreaded) ⟨[.mstBound (.fin 6)], .ok ()⟩ [] ∧
    Reports env1 q (.approx .nearestNeighbour .multiThreaded (some .mstQueue))
      ⟨[.nnWeight (.fin 10), .nnTour [0, 1, 2, 3], .mstBound (.fin 6)], .ok ()⟩ [.onlySequential] ∧
    MpiReports mpi3 q (.lowerBound .mst) (List.replicate 3 ⟨[.mstBound (.fin 6)], .ok ()⟩)
      [[.primSequential], [.primSequential], [.primSequential]] := by
  obtain ⟨m, hm⟩ := q_read
  have hq : boundWarnings q .mstQueue .multiThreaded = [.onlySequential] := boundWarnings_queue hm
  have hb : lowerBoundRun env1 q .mstQueue .multiThreaded = .ok [.mstBound (.fin 6)] := by decide +kernel
  have hb1 : lowerBoundRun env1 q .mstQueue .singleThreaded = .ok [.mstBound (.fin 6)] := hb
  have hs : boundWarnings q .mstQueue .singleThreaded = [] := by unfold boundWarnings; rw [hm]
  have bindm : ∀ {β : Type} (f : Mat (XNum ℚ) → RM β),
      ((do naFromGraph (← parseChecked q) : RM (Mat (XNum ℚ))) >>= f) = f m := by
    intro β f; rw [hm]; rfl
  have hnn : nearestNeighbourPar env1.nnShape (env1.starts m.dim) m = .ok (.fin 10, [0, 1, 2, 3]) := by
    rw [← bindm fun m => nearestNeighbourPar env1.nnShape (env1.starts m.dim) m]
    decide +kernel
  have hmst : (primSeq m [] >>= fun t => .ok t.undirectedEdgeWeight) = .ok (.fin 6) := by
    rw [← bindm fun m => primSeq m [] >>= fun t => .ok t.undirectedEdgeWeight]
    decide +kernel
  refine ⟨⟨?_, hq.symm⟩, ⟨?_, hs.symm⟩, ⟨.ok [.nnWeight (.fin 10), .nnTour [0, 1, 2, 3]], ?_, ?_, hq.symm⟩, ?_, ?_⟩
  · show _ = Out.print id _
    rw [hb]; rfl
  · show _ = Out.print id _
    rw [hb1]; rfl
  · unfold ApproxRun
    rw [hm]
    refine ⟨_, rfl, ?_⟩
    rw [hnn]; rfl
  · simp only [boundAfter, hb]; rfl
  · unfold MpiRuns
    rw [hm]
    cases ht : primSeq m [] with
    | error e => rw [ht] at hmst; cases hmst
    | ok t =>
      rw [ht] at hmst
      have hw : t.undirectedEdgeWeight = .fin 6 := Except.ok.inj hmst
      simp [mpiLowerBound, mpiMst, ht, hw, mpi3, Out.print, List.range_succ]
  · rw [hm]; rfl

end Walky.Props
