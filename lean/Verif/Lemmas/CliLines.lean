import Verif.Model.CliMpi
import Verif.Lemmas.Basic

/-! # What the lines of the output can be, for any arithmetic -/

namespace Walky

open FloatOps

variable {α : Type} [FloatOps α]

/-- Every line of a run without MPI comes from one of the solvers. -/
theorem run_lines {g : Graph α} {m : Mat α} (hm0 : (do naFromGraph (← parseChecked g)) = .ok m)
    {env : Env α} {cmd : Command} {Good : Line α → Prop} (hbest : ∀ x, Good (.bestCost x))
    (hperm : ∀ p, Good (.bestPermutation p)) (htour : ∀ p, Good (.nnTour p))
    (h1 : ∀ w, oneTreeLbSeq m = .ok w ∨ oneTreeLbPar env.oneTreeShape m = .ok w → Good (.oneTreeBound w))
    (h2 : ∀ t, primSeq m [] = .ok t ∨ primPar env.sched.shape env.sched.update m [] = .ok t ∨
      primQueue env.peek m [] = .ok t → Good (.mstBound t.undirectedEdgeWeight))
    (h3 : ∀ r, nearestNeighbourSeq (env.starts m.dim) m = .ok r ∨
      nearestNeighbourPar env.nnShape (env.starts m.dim) m = .ok r → Good (.nnWeight r.1))
    (h4 : ∀ r, christofidesSeq env.dbg m env.rng = .ok r ∨
      (∃ lb, cmd = .approx .christofides .multiThreaded lb) ∧ ChristofidesPar env.dbg m env.rng env.sched (.ok r) →
      Good (.christofidesWeight r.1))
    {lines : List (Line α)} (hrun : Runs env g cmd (.ok lines)) : ∀ l ∈ lines, Good l := by
  have hbind : ∀ {β γ : Type} {x : RM β} {f : β → RM γ} {y : γ}, (x >>= f) = .ok y →
      ∃ b, x = .ok b ∧ f b = .ok y := by
    intro β γ x f y h
    cases x with
    | error e => cases h
    | ok b => exact ⟨b, rfl, h⟩
  have hstart : ∀ f : Mat α → RM (List (Line α)),
      (do let m ← naFromGraph (← parseChecked g); f m) = f m := by
    intro f
    obtain ⟨g', e1, e2⟩ := hbind hm0
    rw [e1, rm_bind_ok, e2, rm_bind_ok]
  have hlb : ∀ a p l', lowerBoundRun env g a p = .ok l' → ∀ l ∈ l', Good l := by
    intro a p l' h
    unfold lowerBoundRun at h
    rw [hstart] at h
    have hone : ∀ {β : Type} {x : RM β} {f : β → Line α}, (do let w ← x; pure [f w]) = .ok l' →
        (∀ w, x = .ok w → Good (f w)) → ∀ l ∈ l', Good l := by
      intro β x f h hf
      obtain ⟨w, e1, e2⟩ := hbind h
      injection e2 with e2
      rw [← e2]
      intro l hl
      rw [List.mem_singleton.mp hl]
      exact hf w e1
    cases a
    · cases p
      · exact hone h fun w hw => h1 w (.inl hw)
      · exact hone h fun w hw => h1 w (.inr hw)
    · cases p
      · exact hone h fun w hw => h2 w (.inl hw)
      · exact hone h fun w hw => h2 w (.inr (.inl hw))
    · exact hone h fun w hw => h2 w (.inr (.inr hw))
  have hwith : ∀ p lb (r : RM (List (Line α))), (∀ l', r = .ok l' → ∀ x ∈ l', Good x) →
      withBound env g p lb r = .ok lines → ∀ x ∈ lines, Good x := by
    intro p lb r hr h
    unfold withBound at h
    obtain ⟨l', e1, e2⟩ := hbind h
    cases lb with
    | none =>
      injection e2 with e2
      rw [← e2]
      exact hr l' e1
    | some a =>
      simp only at e2
      obtain ⟨l'', e3, e4⟩ := hbind e2
      injection e4 with e4
      rw [← e4]
      intro x hx
      rcases List.mem_append.mp hx with hx | hx
      · exact hr l' e1 x hx
      · exact hlb a p l'' e3 x hx
  cases cmd with
  | exact a p =>
    simp only [Runs, ExactRun, hm0] at hrun
    have hpair : ∀ (r : Solution α), ∀ l ∈ [Line.bestCost r.1, .bestPermutation r.2], Good l := by
      intro r l hl
      simp only [List.mem_cons, List.not_mem_nil, or_false] at hl
      rcases hl with rfl | rfl
      · exact hbest _
      · exact hperm _
    have hmap : ∀ s : RM (Solution α),
        Except.ok lines = (fun r : Solution α => [Line.bestCost r.1, Line.bestPermutation r.2]) <$> s →
        ∀ l ∈ lines, Good l := by
      intro s h
      cases s with
      | error e => cases h
      | ok r =>
        injection h with h
        rw [h]
        exact hpair r
    cases p
    · exact hmap _ hrun
    · obtain ⟨r, -, h⟩ := hrun
      injection h with h
      rw [h]
      exact hpair r
  | lowerBound a p => exact hlb a p lines hrun.symm
  | approx a p lb =>
    simp only [Runs, ApproxRun, hm0] at hrun
    obtain ⟨res, hres⟩ := hrun
    cases a
    · obtain ⟨k1, k2⟩ := hres
      refine hwith p lb _ ?_ k2.symm
      intro l' hl'
      cases res with
      | error e => cases hl'
      | ok r =>
        injection hl' with hl'
        rw [← hl']
        intro x hx
        simp only [List.mem_cons, List.not_mem_nil, or_false] at hx
        rcases hx with rfl | rfl
        · cases p
          · exact h3 r (.inl k1.symm)
          · exact h3 r (.inr k1.symm)
        · exact htour _
    · obtain ⟨k1, k2⟩ := hres
      refine hwith p lb _ ?_ k2.symm
      intro l' hl'
      cases res with
      | error e => cases hl'
      | ok r =>
        injection hl' with hl'
        rw [← hl']
        intro x hx
        rw [List.mem_singleton.mp hx]
        cases p
        · exact h4 r (.inl k1.symm)
        · exact h4 r (.inr ⟨⟨lb, rfl⟩, k1⟩)

/-- Every line of a run with MPI comes from one of the solvers. -/
theorem mpi_lines {g : Graph α} {m : Mat α} (hm0 : (do naFromGraph (← parseChecked g)) = .ok m)
    {env : MpiEnv α} {Good : Line α → Prop} (hbest : ∀ x, Good (.bestCost x))
    (hperm : ∀ p, Good (.bestPermutation p)) (htour : ∀ p, Good (.nnTour p))
    (h1 : ∀ w, oneTreeLbMpi env.oneTreeShape env.size m = .ok w → Good (.oneTreeBound w))
    (h2 : ∀ t, (primSeq m [] = .ok t ∨ ∃ r, primQueue (env.peek r) m [] = .ok t) →
      Good (.mstBound t.undirectedEdgeWeight))
    (h3 : ∀ rs, nnMpi env.nnShape env.size m = .ok rs → ∀ r ∈ rs, Good (.nnWeight r.1))
    (h4 : ∀ r, christofidesMpi env.dbg m env.rng env.shufs env.size = .ok r → Good (.christofidesWeight r.1))
    {cmd : MpiCommand} {outs : List (Out α)} (hrun : MpiRuns env g cmd outs) :
    ∀ o ∈ outs, ∀ l ∈ o.lines, Good l := by
  simp only [MpiRuns, hm0] at hrun
  have hfail : ∀ (e : Panic), ∀ o ∈ env.all ⟨[], .error e⟩, ∀ l ∈ o.lines, Good l := by
    intro e o ho l hl
    rw [List.eq_of_mem_replicate ho] at hl
    cases hl
  have hroot : ∀ a b : Out α, (∀ l ∈ a.lines, Good l) →
      (∀ l ∈ b.lines, Good l) → ∀ o ∈ env.rootAnd a b, ∀ l ∈ o.lines, Good l := by
    intro a b ha hb o ho
    simp only [MpiEnv.rootAnd, List.mem_map] at ho
    obtain ⟨r, -, rfl⟩ := ho
    split
    · exact ha
    · exact hb
  have hmst : ∀ r b, ∀ l ∈ (mpiMst env m r b).lines, Good l := by
    intro r b l hl
    unfold mpiMst at hl
    cases b
    · cases ht : primSeq m [] with
      | error e => simp [ht, Out.print] at hl
      | ok t =>
        simp only [Bool.false_eq_true, if_false, ht, Out.print, List.mem_singleton] at hl
        rw [hl]
        exact h2 t (.inl ht)
    · cases ht : primQueue (env.peek r) m [] with
      | error e => simp [ht, Out.print] at hl
      | ok t =>
        simp only [if_true, ht, Out.print, List.mem_singleton] at hl
        rw [hl]
        exact h2 t (.inr ⟨r, ht⟩)
  have hafter : ∀ r lb, ∀ l ∈ (mpiBoundAfter env m r lb).lines, Good l := by
    intro r lb
    match lb with
    | none => intro l hl; cases hl
    | some .oneTree => intro l hl; cases hl
    | some .mst => exact hmst r false
    | some .mstQueue => exact hmst r true
  have hthen : ∀ a b : Out α, (∀ l ∈ a.lines, Good l) →
      (∀ l ∈ b.lines, Good l) → ∀ l ∈ (Out.andThen a b).lines, Good l := by
    intro a b ha hb l hl
    unfold Out.andThen at hl
    split at hl
    · rcases List.mem_append.mp hl with h | h
      · exact ha l h
      · exact hb l h
    · exact ha l hl
  have hprint : ∀ r : RM (Solution α), ∀ o ∈ env.all (Out.print (fun r : Solution α =>
      [Line.bestCost r.1, Line.bestPermutation r.2]) r), ∀ l ∈ o.lines, Good l := by
    intro r o ho l hl
    rw [List.eq_of_mem_replicate ho] at hl
    cases r with
    | error e => cases hl
    | ok r =>
      simp only [Out.print, List.mem_cons, List.not_mem_nil, or_false] at hl
      rcases hl with rfl | rfl
      · exact hbest _
      · exact hperm _
  cases cmd with
  | exact a =>
    cases a
    case v0 =>
      obtain ⟨r, -, rfl⟩ := hrun
      exact hprint r
    case v1 =>
      obtain ⟨r, -, rfl⟩ := hrun
      exact hprint r
    all_goals
      simp only [MpiExactRun] at hrun
      rw [hrun]
      exact hfail _
  | lowerBound a =>
    simp only at hrun
    rw [hrun]
    cases a
    · unfold mpiLowerBound
      simp only
      split
      · rename_i w hw
        refine hroot _ _ ?_ (by intro l hl; cases hl)
        intro l hl
        rw [List.mem_singleton.mp hl]
        exact h1 w hw
      · exact hfail _
    · intro o ho
      obtain ⟨r, -, rfl⟩ := List.mem_map.mp ho
      exact hmst r false
    · intro o ho
      obtain ⟨r, -, rfl⟩ := List.mem_map.mp ho
      exact hmst r true
  | approx a lb =>
    simp only at hrun
    rw [hrun]
    cases a
    · unfold mpiApprox
      simp only
      split
      · rename_i rs hrs
        intro o ho
        obtain ⟨x, hx, rfl⟩ := List.mem_map.mp ho
        refine hthen _ _ ?_ (hafter _ _)
        intro l hl
        simp only [List.mem_cons, List.not_mem_nil, or_false] at hl
        rcases hl with rfl | rfl
        · exact h3 rs hrs _ (List.fst_mem_of_mem_zipIdx hx)
        · exact htour _
      · exact hfail _
    · unfold mpiApprox
      simp only
      split
      · rename_i r hr
        refine hroot _ _ (hthen _ _ ?_ (hafter _ _)) (by intro l hl; cases hl)
        intro l hl
        rw [List.mem_singleton.mp hl]
        exact h4 r hr
      · exact hfail _

/-- an assertion that did not fail can be left out -/
theorem seq_isMetric {m : Mat α} {dbg : Bool} {r : MatchRng} {sol : Solution α}
    (h : christofidesSeq dbg m r = .ok sol) : dbg = true → m.isMetric = true := by
  intro hd
  unfold christofidesSeq christofidesGeneric at h
  split at h
  · cases h
  · rename_i hc
    simpa [hd] using hc

theorem mpi_isMetric {m : Mat α} {dbg : Bool} {r : MatchRng}
    {shufs : Nat → Nat → List (Nat × Nat) → List (Nat × Nat)} {size : Nat} {sol : Solution α}
    (h : christofidesMpi dbg m r shufs size = .ok sol) : dbg = true → m.isMetric = true := by
  intro hd
  unfold christofidesMpi christofidesGeneric at h
  split at h
  · cases h
  · rename_i hc
    simpa [hd] using hc

end Walky
