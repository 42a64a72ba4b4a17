import Verif.Model.Cli
import Verif.Lemmas.FixedApprox
import Verif.Lemmas.FixedPar
import Verif.Props.Cli

/-! # The command line computes the same in a rounded arithmetic that is exact on the costs -/

namespace Walky

open FloatOps XNum

variable {K : Type} [Field K] [LinearOrder K] [IsStrictOrderedRing K] {R : Rounding K}
  {T : AddSubgroup K} {N M : K}

/-- all costs that are finite are in `T` and of size at most `M` -/
def FixedGraph (T : AddSubgroup K) (M : K) (g : Graph (XNum K)) : Prop :=
  ∀ es ∈ g, ∀ e ∈ es, FX T M e.cost

omit [IsStrictOrderedRing K] in
theorem parseChecked_same (g : Graph (XNum K)) : @parseChecked _ R.ops g = parseChecked g := rfl

omit [IsStrictOrderedRing K] in
theorem naFromGraph_same (g : Graph (XNum K)) : @naFromGraph _ R.ops g = naFromGraph g := rfl

theorem foldlM_inv' {β γ : Type} {f : γ → β → RM γ} {P : γ → Prop} {l : List β}
    (h : ∀ s, P s → ∀ x ∈ l, ∀ s', f s x = .ok s' → P s') : ∀ {s r : γ}, P s →
    l.foldlM f s = .ok r → P r := by
  induction l with
  | nil =>
    intro s r hs hr
    rw [← Except.ok.inj hr]
    exact hs
  | cons x t ih =>
    intro s r hs hr
    rw [List.foldlM_cons] at hr
    cases hx : f s x with
    | error => rw [hx] at hr; cases hr
    | ok s' =>
      rw [hx, rm_bind_ok] at hr
      exact ih (fun s hs y hy => h s hs y (List.mem_cons_of_mem _ hy)) (h s hs x (by simp) s' hx) hr

omit [IsStrictOrderedRing K] in
theorem naFromGraph_pred {P : XNum K → Prop} (h0 : P (.fin 0)) (hinf : P .inf) {g : Graph (XNum K)}
    {m : Mat (XNum K)} (hg : ∀ es ∈ g, ∀ e ∈ es, P e.cost) (h : naFromGraph g = .ok m) :
    m.dim = g.length ∧ ∀ i j, i < m.dim → j < m.dim → P (m.get i j) := by
  unfold naFromGraph at h
  refine foldlM_inv' (P := fun m : Mat (XNum K) => m.dim = g.length ∧
    ∀ i j, i < m.dim → j < m.dim → P (m.get i j)) ?_ ?_ h
  · intro m hm x hx m' hm'
    have hx1 : x.1 ∈ g := by
      obtain ⟨n, hn⟩ := List.mem_iff_getElem?.mp hx
      rw [List.getElem?_zipIdx] at hn
      obtain ⟨y, hy, rfl⟩ := Option.map_eq_some_iff.mp hn
      exact List.mem_of_getElem? hy
    refine foldlM_inv' (P := fun m : Mat (XNum K) => m.dim = g.length ∧
      ∀ i j, i < m.dim → j < m.dim → P (m.get i j)) ?_ hm hm'
    intro m hm e he m' hm'
    unfold Mat.setEntry at hm'
    split at hm'
    · rw [← Except.ok.inj hm']
      refine ⟨hm.1, fun i j hi hj => ?_⟩
      simp only [Mat.set]
      split
      · exact hg _ hx1 e he
      · exact hm.2 i j hi hj
    · cases hm'
  · refine ⟨rfl, fun i j _ _ => ?_⟩
    simp only [Mat.fromDim]
    split
    · exact h0
    · exact hinf

theorem naFromGraph_fixed {g : Graph (XNum K)} {m : Mat (XNum K)} (hM : 0 ≤ M)
    (hg : FixedGraph T M g) (h : naFromGraph g = .ok m) : m.dim = g.length ∧ FixedMat T M m :=
  naFromGraph_pred (fx_zero T hM) (fx_inf T M) hg h

section
variable {m : Mat (XNum K)} {g : Graph (XNum K)}

theorem lowerBoundRun_same (hR : R.ExactOn T N) (hM : 0 ≤ M) (hg : FixedGraph T M g)
    (hN : (4 * g.length + 8) * M ≤ N) {env : Env (XNum K)} (he : env.Ok) (a : LowerBoundAlgorithm)
    (p : Parallelism) :
    @lowerBoundRun _ R.ops env g a p = lowerBoundRun env g a p := by
  unfold lowerBoundRun
  rw [parseChecked_same]
  cases hp : parseChecked g with
  | error => rfl
  | ok g' =>
    have hg' : g' = g := by
      unfold parseChecked at hp
      cases hd : doConditionsHold g with
      | error => rw [hd] at hp; cases hp
      | ok b =>
        rw [hd] at hp
        cases b
        · cases hp
        · exact (Except.ok.inj hp).symm
    subst hg'
    simp only [rm_bind_ok]
    rw [naFromGraph_same]
    cases hm : naFromGraph g' with
    | error => rfl
    | ok m =>
      obtain ⟨h1, h2⟩ := naFromGraph_fixed hM hg hm
      have h0 : 0 ≤ (g'.length : K) * M := mul_nonneg (Nat.cast_nonneg _) hM
      have hN1 : (2 * m.dim + 6) * M ≤ N := by rw [h1]; linarith
      have hN2 : ((2 * m.dim + 2 : Nat) : K) * M ≤ N := by rw [h1]; push_cast; linarith
      simp only [rm_bind_ok]
      cases a with
      | oneTree =>
        simp only
        rw [oneTreeLbSeq_same hR hM h2 hN1, oneTreeLbPar_same hR hM h2 hN1]
      | mst =>
        simp only
        rw [primSeq_same, primPar_same]
        have key : ∀ t, GE (FX T M) (2 * m.dim + 2) t →
            @Graph.undirectedEdgeWeight _ R.ops t = t.undirectedEdgeWeight := fun t ht =>
          undirectedEdgeWeight_same hR hM ht hN2
        cases p with
        | singleThreaded =>
          simp only
          cases ht : primSeq m [] with
          | error => rfl
          | ok t => simp only [rm_bind_ok, key t (primSeq_ge (fx_good T hM) h2 ht)]
        | multiThreaded =>
          simp only
          cases ht : primPar env.sched.shape env.sched.update m [] with
          | error => rfl
          | ok t =>
            simp only [rm_bind_ok, key t (primPar_ge (fx_good T hM) h2 he.sched.shape he.sched.update ht)]
      | mstQueue =>
        simp only
        rw [primQueue_same]
        cases ht : primQueue env.peek m [] with
        | error => rfl
        | ok t =>
          simp only [rm_bind_ok]
          rw [undirectedEdgeWeight_same hR hM (primQueue_ge (fx_good T hM) h2 he.peek.mem ht) hN2]

/-- Every run prints the same in the rounded arithmetic. -/
theorem runs_same (hR : R.ExactOn T N) (hM : 0 ≤ M) (hg : FixedGraph T M g)
    (hN : (4 * g.length + 8) * M ≤ N) {env : Env (XNum K)} (he : env.Ok)
    (hd : env.dbg = true → ∀ m, naFromGraph g = .ok m → @Mat.isMetric _ R.ops m = m.isMetric)
    (c : Command) (out : RM (List (Line (XNum K)))) :
    @Runs _ R.ops env g c out ↔ Runs env g c out := by
  have h0 : 0 ≤ (g.length : K) * M := mul_nonneg (Nat.cast_nonneg _) hM
  have hcase : ∀ {m}, (do naFromGraph (← parseChecked g)) = .ok m →
      naFromGraph g = .ok m := by
    intro m h
    cases hp : parseChecked g with
    | error => rw [hp] at h; cases h
    | ok g' =>
      rw [hp] at h
      have hg' : g' = g := by
        unfold parseChecked at hp
        cases hd : doConditionsHold g with
        | error => rw [hd] at hp; cases hp
        | ok b =>
          rw [hd] at hp
          cases b
          · cases hp
          · exact (Except.ok.inj hp).symm
      rw [← hg']
      exact h
  cases c with
  | lowerBound a p =>
    simp only [Runs]
    rw [lowerBoundRun_same hR hM hg hN he]
  | exact a p =>
    unfold Runs ExactRun
    have e : (do @naFromGraph _ R.ops (← @parseChecked _ R.ops g)) =
      (do naFromGraph (← parseChecked g)) := rfl
    simp only [e]
    cases hm0 : (do naFromGraph (← parseChecked g)) with
    | error => exact Iff.rfl
    | ok m =>
      have hm := hcase hm0
      obtain ⟨h1, h2⟩ := naFromGraph_fixed hM hg hm
      have hN1 : (3 * m.dim + 3) * M ≤ N := by rw [h1]; linarith
      have hN2 : ((m.dim : K) + 1) * M ≤ N := by rw [h1]; linarith
      have hN3 : (3 * m.dim + (3 : Nat) + 3) * M ≤ N := by rw [h1]; push_cast; linarith
      cases p with
      | singleThreaded =>
        simp only
        rw [naiveSolver_same hR hM h2 hN2, firstImprovedSolver_same hR hM h2 hN2,
          secondImprovedSolver_same hR hM h2 hN1, thirdImprovedSolver_same hR hM h2 hN1,
          fourthImprovedSolver_same hR hM h2 hN1, fifthImprovedSolver_same hR hM h2 hN1,
          sixthImprovedSolver_same hR hM h2 hN1]
      | multiThreaded =>
        simp only
        exact exists_congr fun r => and_congr (threadedResult_same hR hM h2 hN3 _ _) Iff.rfl
  | approx a p lb =>
    unfold Runs ApproxRun
    have e : (do @naFromGraph _ R.ops (← @parseChecked _ R.ops g)) =
      (do naFromGraph (← parseChecked g)) := rfl
    simp only [e]
    cases hm0 : (do naFromGraph (← parseChecked g)) with
    | error => exact Iff.rfl
    | ok m =>
      have hm := hcase hm0
      obtain ⟨h1, h2⟩ := naFromGraph_fixed hM hg hm
      have hN2 : ((m.dim : K) + 1) * M ≤ N := by rw [h1]; linarith
      have hN3 : 2 * M ≤ N := by linarith
      have hb : ∀ l, @withBound _ R.ops env g p lb l = withBound env g p lb l := by
        intro l
        unfold withBound
        cases lb with
        | none => rfl
        | some a => simp only [lowerBoundRun_same hR hM hg hN he]
      have hd' : env.dbg = true → @Mat.isMetric _ R.ops m = m.isMetric := fun h => hd h m hm
      refine exists_congr fun res => ?_
      cases a with
      | christofides =>
        cases p with
        | singleThreaded =>
          simp only
          rw [hb, christofidesSeq_same hR hM h2 hN2 hN3 hd']
        | multiThreaded =>
          simp only
          rw [hb, christofidesPar_same hR hM h2 hN2 hN3 hd']
      | nearestNeighbour =>
        have k1 := nNNSeq_same hR hM h2 hN2
        have k2 := nNNPar_same hR hM h2 hN2
        unfold nearestNeighbourSeq nearestNeighbourPar
        cases p with
        | singleThreaded =>
          simp only
          rw [hb, k1]
        | multiThreaded =>
          simp only
          rw [hb, k2]

end

end Walky
