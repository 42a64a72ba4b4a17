import Verif.Lemmas.FixedPrim
import Verif.Model.Exact
import Verif.Model.Permutation

/-! # Lemmas: the exact solvers in rounded arithmetic -/

set_option linter.unusedSectionVars false

namespace Walky

open XNum

variable {K : Type} [Field K] [LinearOrder K] [IsStrictOrderedRing K]
variable {R : Rounding K} {T : AddSubgroup K} {N M : K}

/-! ## v0 and v1 -/

theorem nextPermutation_length {a b : List Nat} {more : Bool} (h : nextPermutation a = .ok (more, b)) :
    b.length = a.length := by
  rcases nextPermutation_spec a with ⟨h1, -⟩ | ⟨c, h1, h2, -⟩
  · rw [h1] at h
    have := Except.ok.inj h
    rw [← (Prod.mk.inj this).2]
  · rw [h1] at h
    have := Except.ok.inj h
    rw [← (Prod.mk.inj this).2]
    exact h2.length_eq

theorem nextPermutationTail_length {a b : List Nat} {more : Bool}
    (h : nextPermutationTail a = .ok (more, b)) : b.length = a.length := by
  cases a with
  | nil => cases h
  | cons x t =>
    unfold nextPermutationTail at h
    cases ht : nextPermutation t with
    | error => simp [ht] at h
    | ok r =>
      obtain ⟨more', t'⟩ := r
      simp only [ht, rm_bind_ok, rm_pure] at h
      have := Except.ok.inj h
      rw [← (Prod.mk.inj this).2]
      simp [nextPermutation_length ht]

theorem naiveSolver_same (hR : R.ExactOn T N) (hM : 0 ≤ M) {m : Mat (XNum K)} (hm : FixedMat T M m)
    (hN : ((m.dim : K) + 1) * M ≤ N) : @naiveSolver _ R.ops m = naiveSolver m :=
  permLoop_same hR hm hM hN _ (fun _ _ _ h => nextPermutation_length h) _ _ _ (by simp)

theorem firstImprovedSolver_same (hR : R.ExactOn T N) (hM : 0 ≤ M) {m : Mat (XNum K)}
    (hm : FixedMat T M m) (hN : ((m.dim : K) + 1) * M ≤ N) :
    @firstImprovedSolver _ R.ops m = firstImprovedSolver m :=
  permLoop_same hR hm hM hN _ (fun _ _ _ h => nextPermutationTail_length h) _ _ _ (by simp)

/-! ## The recursion -/

theorem dfs_same {σ : Type} (hR : R.ExactOn T N) (hM : 0 ≤ M) {m : Mat (XNum K)} (hm : FixedMat T M m)
    {test' test : PruneTest σ (XNum K)} {I : σ → Prop} {B : K} (hB : B + M ≤ N)
    (ht : ∀ aux pre cur best, I aux → FX T B cur → test' aux pre cur best = test aux pre cur best ∧
      ∀ b aux', test aux pre cur best = .ok (b, aux') → I aux') :
    ∀ (fuel : Nat) pre cost s (A : K), FX T A cost → A + fuel * M ≤ B → I s.2 →
      @dfs _ R.ops σ m test' fuel pre cost s = dfs m test fuel pre cost s ∧
      ∀ s', dfs m test fuel pre cost s = .ok s' → I s'.2 := by
  intro fuel
  induction fuel with
  | zero => exact fun _ _ _ _ _ _ _ => ⟨rfl, fun s' h => by cases h⟩
  | succ fuel ih =>
    intro pre cost s A hA hAB hI
    push_cast at hAB
    have hf : 0 ≤ (fuel : K) * M := mul_nonneg (Nat.cast_nonneg _) hM
    unfold dfs
    split
    · cases hl : unwrapO pre.getLast? with
      | error => exact ⟨rfl, fun s' h => by cases h⟩
      | ok l =>
        cases hh : unwrapO pre.head? with
        | error => exact ⟨rfl, fun s' h => by cases h⟩
        | ok f =>
          cases hw : m.entry l f with
          | error => simp only [rm_bind_ok, hw, rm_bind_err]; exact ⟨trivial, fun s' h => by cases h⟩
          | ok w =>
            simp only [rm_bind_ok, hw, rm_pure]
            obtain ⟨h1, -⟩ := hA.add hR (entry_fx hm hw) (by linarith)
            rw [h1]
            refine ⟨rfl, fun s' h => ?_⟩
            split at h <;> rw [← Except.ok.inj h] <;> exact hI
    · have key := foldlM_same (fun (st : XNum K × Solution (XNum K) × σ) i => do
          let (cur, s) := st
          if pre.contains i then return (cur, s)
          let pre' := pre ++ [i]
          if pre'.length = 1 then do
            let s ← @dfs _ R.ops σ m test' fuel pre' cur s
            return (cur, s)
          else do
            let a ← idx pre' (pre'.length - 2)
            let b ← idx pre' (pre'.length - 2 + 1)
            let w ← m.entry a b
            let cur := @FloatOps.add _ R.ops cur w
            let (go, aux) ← test' s.2 pre' cur s.1.1
            let s ← if go then @dfs _ R.ops σ m test' fuel pre' cur (s.1, aux) else pure (s.1, aux)
            return (@FloatOps.sub _ R.ops cur w, s))
        (fun (st : XNum K × Solution (XNum K) × σ) i => do
          let (cur, s) := st
          if pre.contains i then return (cur, s)
          let pre' := pre ++ [i]
          if pre'.length = 1 then do
            let s ← dfs m test fuel pre' cur s
            return (cur, s)
          else do
            let a ← idx pre' (pre'.length - 2)
            let b ← idx pre' (pre'.length - 2 + 1)
            let w ← m.entry a b
            let cur := FloatOps.add cur w
            let (go, aux) ← test s.2 pre' cur s.1.1
            let s ← if go then dfs m test fuel pre' cur (s.1, aux) else pure (s.1, aux)
            return (FloatOps.sub cur w, s))
        (fun _ st => FX T A st.1 ∧ I st.2.2) (List.range m.dim) (cost, s) ⟨hA, hI⟩ ?_
      · rw [key.1]
        refine ⟨rfl, fun s' h => ?_⟩
        cases hr : (List.range m.dim).foldlM (fun (st : XNum K × Solution (XNum K) × σ) i => do
          let (cur, s) := st
          if pre.contains i then return (cur, s)
          let pre' := pre ++ [i]
          if pre'.length = 1 then do
            let s ← dfs m test fuel pre' cur s
            return (cur, s)
          else do
            let a ← idx pre' (pre'.length - 2)
            let b ← idx pre' (pre'.length - 2 + 1)
            let w ← m.entry a b
            let cur := FloatOps.add cur w
            let (go, aux) ← test s.2 pre' cur s.1.1
            let s ← if go then dfs m test fuel pre' cur (s.1, aux) else pure (s.1, aux)
            return (FloatOps.sub cur w, s)) (cost, s) with
        | error => rw [hr] at h; cases h
        | ok r =>
          rw [hr] at h
          rw [← Except.ok.inj h]
          exact (key.2 r hr).2
      · rintro - i - ⟨cur, s⟩ - ⟨hc, hs⟩
        simp only
        split
        · refine ⟨rfl, fun b' h => ?_⟩
          rw [← Except.ok.inj h]
          exact ⟨hc, hs⟩
        · split
          · obtain ⟨h1, h2⟩ := ih (pre ++ [i]) cur s A hc (by linarith) hs
            rw [h1]
            cases hd : dfs m test fuel (pre ++ [i]) cur s with
            | error => exact ⟨rfl, fun b' h => by cases h⟩
            | ok s1 =>
              refine ⟨rfl, fun b' h => ?_⟩
              rw [← Except.ok.inj h]
              exact ⟨hc, h2 s1 hd⟩
          · cases ha : idx (pre ++ [i]) ((pre ++ [i]).length - 2) with
            | error => exact ⟨rfl, fun b' h => by cases h⟩
            | ok a =>
              cases hb : idx (pre ++ [i]) ((pre ++ [i]).length - 2 + 1) with
              | error => exact ⟨rfl, fun b' h => by cases h⟩
              | ok b =>
                cases hw : m.entry a b with
                | error => simp only [rm_bind_ok, hw, rm_bind_err]; exact ⟨trivial, fun s' h => by cases h⟩
                | ok w =>
                  simp only [rm_bind_ok, hw, rm_pure]
                  have hwx := entry_fx hm hw
                  obtain ⟨h1, h2⟩ := hc.add hR hwx (by linarith)
                  obtain ⟨h3, -⟩ := h2.sub hR hwx (by linarith)
                  rw [h1]
                  obtain ⟨h4, h5⟩ := ht s.2 (pre ++ [i]) (FloatOps.add cur w) s.1.1 hs
                    (h2.mono (by linarith))
                  rw [h4]
                  cases htest : test s.2 (pre ++ [i]) (FloatOps.add cur w) s.1.1 with
                  | error => exact ⟨rfl, fun b' h => by cases h⟩
                  | ok r =>
                    obtain ⟨go, aux⟩ := r
                    have haux := h5 go aux htest
                    simp only [rm_bind_ok]
                    cases go with
                    | false =>
                      simp only [Bool.false_eq_true, if_false]
                      rw [h3]
                      refine ⟨rfl, fun b' h => ?_⟩
                      rw [← Except.ok.inj h]
                      exact ⟨hc.cancel, haux⟩
                    | true =>
                      simp only [if_true]
                      obtain ⟨h6, h7⟩ := ih (pre ++ [i]) (FloatOps.add cur w) (s.1, aux) (A + M) h2
                        (by linarith) haux
                      rw [h6]
                      cases hd : dfs m test fuel (pre ++ [i]) (FloatOps.add cur w) (s.1, aux) with
                      | error => exact ⟨rfl, fun b' h => by cases h⟩
                      | ok s1 =>
                        simp only [rm_bind_ok]
                        rw [h3]
                        refine ⟨rfl, fun b' h => ?_⟩
                        rw [← Except.ok.inj h]
                        exact ⟨hc.cancel, h7 s1 hd⟩

/-! ## The bounds -/

theorem shortestLaterEdge_fx {m : Mat (XNum K)} (hm : FixedMat T M m) (sub : List Nat) {i : Nat}
    (hi : i < m.dim) : FX T M (shortestLaterEdge m sub i) := by
  unfold shortestLaterEdge
  refine foldl_mem _ (FX T M) _ _ (fx_inf T M) ?_
  intro b hb j hj
  have hj : j < m.dim := by
    have := List.mem_range'_1.mp hj
    omega
  split
  · exact hb
  · split
    · exact hm i j hi hj
    · exact hb

theorem nnOfRemaining_same (hR : R.ExactOn T N) (hM : 0 ≤ M) {m : Mat (XNum K)} (hm : FixedMat T M m)
    (hN : m.dim * M ≤ N) (sub : List Nat) :
    @nnOfRemaining _ R.ops m sub = nnOfRemaining m sub ∧ FX T (m.dim * M) (nnOfRemaining m sub) := by
  unfold nnOfRemaining
  have hr : ∀ i ∈ List.range m.dim, i < m.dim := fun i hi => List.mem_range.mp hi
  have hlen : (List.range m.dim).length ≤ m.dim := by simp
  generalize List.range m.dim = l at hr hlen
  suffices H : ∀ (A : K) (acc : XNum K), FX T A acc → A + l.length * M ≤ N →
      l.foldl (fun res i =>
        if sub.contains i then res
        else
          let e := shortestLaterEdge m sub i
          if !(FloatOps.eq e FloatOps.inf) then @FloatOps.add _ R.ops res e else res) acc =
      l.foldl (fun res i =>
        if sub.contains i then res
        else
          let e := shortestLaterEdge m sub i
          if !(FloatOps.eq e FloatOps.inf) then FloatOps.add res e else res) acc ∧
      FX T (A + l.length * M) (l.foldl (fun res i =>
        if sub.contains i then res
        else
          let e := shortestLaterEdge m sub i
          if !(FloatOps.eq e FloatOps.inf) then FloatOps.add res e else res) acc) by
    have hl : (l.length : K) * M ≤ m.dim * M :=
      mul_le_mul_of_nonneg_right (by exact_mod_cast hlen) hM
    have := H 0 (.fin 0) (fx_zero T le_rfl) (by linarith)
    exact ⟨this.1, this.2.mono (by linarith)⟩
  clear hlen
  induction l with
  | nil => intro A acc ha h; exact ⟨rfl, by simpa using ha⟩
  | cons i t ih =>
    intro A acc ha h
    have ih := ih (fun j hj => hr j (by simp [hj]))
    simp only [List.length_cons, Nat.cast_add, Nat.cast_one, List.foldl_cons] at h ⊢
    have ht : 0 ≤ (t.length : K) * M := mul_nonneg (Nat.cast_nonneg _) hM
    obtain ⟨h1, h2⟩ := ha.add hR (shortestLaterEdge_fx hm sub (hr i (by simp))) (by linarith)
    rw [h1]
    split
    · have := ih A _ ha (by linarith)
      exact ⟨this.1, this.2.mono (by linarith)⟩
    · split
      · have := ih (A + M) _ h2 (by linarith)
        exact ⟨this.1, this.2.mono (by linarith)⟩
      · have := ih A _ ha (by linarith)
        exact ⟨this.1, this.2.mono (by linarith)⟩

theorem mstBound_same (hR : R.ExactOn T N) (hM : 0 ≤ M) {m : Mat (XNum K)} (hm : FixedMat T M m)
    (hN : (2 * m.dim + 2) * M ≤ N) (pre : List Nat) :
    @mstBound _ R.ops m pre = mstBound m pre ∧
    ∀ x, mstBound m pre = .ok x → FX T ((2 * m.dim + 2) * M) x := by
  unfold mstBound
  rw [primSeq_same]
  cases h : primSeq m pre with
  | error => exact ⟨rfl, fun x hx => by cases hx⟩
  | ok g =>
    simp only [rm_bind_ok, rm_pure]
    obtain ⟨h1, h2⟩ := directedEdgeWeight_same hR hM (primSeq_ge (fx_good T hM) hm h) (by push_cast; exact hN)
    rw [h1]
    push_cast at h2
    refine ⟨rfl, fun x hx => ?_⟩
    rw [← Except.ok.inj hx]
    exact h2

/-! ## The tests -/

section
variable {B : K} {m : Mat (XNum K)}

theorem test4_same (hR : R.ExactOn T N) (hM : 0 ≤ M) (hm : FixedMat T M m)
    (hB : 0 ≤ B) (hN : B + (2 * m.dim + 2) * M ≤ N) (aux : Unit) (pre : List Nat) (cur best : XNum K)
    (hc : FX T B cur) : @test4 _ R.ops m aux pre cur best = test4 m aux pre cur best := by
  have h0 : 0 ≤ (m.dim : K) * M := mul_nonneg (Nat.cast_nonneg _) hM
  obtain ⟨h1, h2⟩ := nnOfRemaining_same hR hM hm (by linarith) pre
  unfold test4
  rw [h1, (hc.add hR h2 (by linarith)).1]
  rfl

theorem test5_same (hR : R.ExactOn T N) (hM : 0 ≤ M) (hm : FixedMat T M m)
    (hB : 0 ≤ B) (hN : B + (2 * m.dim + 2) * M ≤ N) (aux : Unit) (pre : List Nat) (cur best : XNum K)
    (hc : FX T B cur) : @test5 _ R.ops m aux pre cur best = test5 m aux pre cur best := by
  obtain ⟨h1, h2⟩ := mstBound_same hR hM hm (by linarith) pre
  unfold test5
  rw [h1]
  cases h : mstBound m pre with
  | error => rfl
  | ok lb =>
    simp only [rm_bind_ok, rm_pure]
    rw [(hc.add hR (h2 lb h) hN).1]
    rfl

theorem testMpi_same (hR : R.ExactOn T N) (hM : 0 ≤ M) (hm : FixedMat T M m)
    (hB : 0 ≤ B) (hN : B + (2 * m.dim + 2) * M ≤ N) (global : XNum K) (aux : Unit) (pre : List Nat)
    (cur best : XNum K) (hc : FX T B cur) :
    @testMpi _ R.ops m global aux pre cur best = testMpi m global aux pre cur best := by
  obtain ⟨h1, h2⟩ := mstBound_same hR hM hm (by linarith) pre
  unfold testMpi
  rw [h1]
  cases h : mstBound m pre with
  | error => rfl
  | ok lb =>
    simp only [rm_bind_ok, rm_pure]
    rw [(hc.add hR (h2 lb h) hN).1]
    rfl

theorem test6_same (hR : R.ExactOn T N) (hM : 0 ≤ M) (hm : FixedMat T M m)
    (hB : 0 ≤ B) (hN : B + (2 * m.dim + 2) * M ≤ N) (hash : List Nat → Nat) (aux : Cache (XNum K))
    (pre : List Nat) (cur best : XNum K) (ha : ∀ x ∈ aux, FX T ((2 * m.dim + 2) * M) x.2)
    (hc : FX T B cur) :
    @test6 _ R.ops m hash aux pre cur best = test6 m hash aux pre cur best ∧
      ∀ b aux', test6 m hash aux pre cur best = .ok (b, aux') →
        ∀ x ∈ aux', FX T ((2 * m.dim + 2) * M) x.2 := by
  obtain ⟨h1, h2⟩ := mstBound_same hR hM hm (by linarith) pre
  unfold test6
  rw [h1]
  cases h : mstBound m pre with
  | error => exact ⟨rfl, fun b aux' h => by cases h⟩
  | ok lb =>
    simp only [rm_bind_ok, rm_pure]
    cases hl : aux.lookup (hash pre) with
    | none =>
      simp only
      rw [(hc.add hR (h2 lb h) hN).1]
      refine ⟨rfl, fun b aux' h' => ?_⟩
      rw [← (Prod.mk.inj (Except.ok.inj h')).2]
      intro x hx
      rcases List.mem_cons.mp hx with h3 | h3
      · rw [h3]; exact h2 lb h
      · exact ha x h3
    | some v =>
      simp only
      have hk := lookup_mem hl
      rw [(hc.add hR (ha _ hk) hN).1]
      refine ⟨rfl, fun b aux' h' => ?_⟩
      rw [← (Prod.mk.inj (Except.ok.inj h')).2]
      exact ha

end

/-! ## The solvers -/

section
variable {m : Mat (XNum K)}

theorem solveDfs_same {σ : Type} (hR : R.ExactOn T N) (hM : 0 ≤ M) (hm : FixedMat T M m)
    (hN : (3 * m.dim + 3) * M ≤ N) {test' test : PruneTest σ (XNum K)} {I : σ → Prop}
    (ht : ∀ aux pre cur best, I aux → FX T ((m.dim + 1) * M) cur →
      test' aux pre cur best = test aux pre cur best ∧
      ∀ b aux', test aux pre cur best = .ok (b, aux') → I aux') (aux : σ) (haux : I aux) :
    @solveDfs _ R.ops σ m test' aux = solveDfs m test aux := by
  have h0 : 0 ≤ (m.dim : K) * M := mul_nonneg (Nat.cast_nonneg _) hM
  unfold solveDfs
  have := (dfs_same hR hM hm (I := I) (B := (m.dim + 1) * M) (by linarith) ht (m.dim + 1) []
    (.fin 0) ((.inf, []), aux) 0 (fx_zero T le_rfl) (by push_cast; linarith) haux).1
  show (@dfs _ R.ops σ m test' (m.dim + 1) [] (.fin 0) ((.inf, []), aux) >>= _) = _
  rw [this]
  rfl

theorem secondImprovedSolver_same (hR : R.ExactOn T N) (hM : 0 ≤ M) (hm : FixedMat T M m)
    (hN : (3 * m.dim + 3) * M ≤ N) : @secondImprovedSolver _ R.ops m = secondImprovedSolver m :=
  solveDfs_same hR hM hm hN (I := fun _ => True) (fun _ _ _ _ _ _ => ⟨rfl, fun _ _ _ => trivial⟩) ()
    trivial

theorem thirdImprovedSolver_same (hR : R.ExactOn T N) (hM : 0 ≤ M) (hm : FixedMat T M m)
    (hN : (3 * m.dim + 3) * M ≤ N) : @thirdImprovedSolver _ R.ops m = thirdImprovedSolver m :=
  solveDfs_same hR hM hm hN (I := fun _ => True) (fun _ _ _ _ _ _ => ⟨rfl, fun _ _ _ => trivial⟩) ()
    trivial

theorem fourthImprovedSolver_same (hR : R.ExactOn T N) (hM : 0 ≤ M) (hm : FixedMat T M m)
    (hN : (3 * m.dim + 3) * M ≤ N) : @fourthImprovedSolver _ R.ops m = fourthImprovedSolver m :=
  solveDfs_same hR hM hm hN (I := fun _ => True) (fun _ _ _ _ _ hc =>
    ⟨test4_same hR hM hm (mul_nonneg (by positivity) hM) (by linarith) _ _ _ _ hc,
      fun _ _ _ => trivial⟩) () trivial

theorem fifthImprovedSolver_same (hR : R.ExactOn T N) (hM : 0 ≤ M) (hm : FixedMat T M m)
    (hN : (3 * m.dim + 3) * M ≤ N) : @fifthImprovedSolver _ R.ops m = fifthImprovedSolver m :=
  solveDfs_same hR hM hm hN (I := fun _ => True) (fun _ _ _ _ _ hc =>
    ⟨test5_same hR hM hm (mul_nonneg (by positivity) hM) (by linarith) _ _ _ _ hc,
      fun _ _ _ => trivial⟩) () trivial

theorem sixthImprovedSolver_same (hR : R.ExactOn T N) (hM : 0 ≤ M) (hm : FixedMat T M m)
    (hN : (3 * m.dim + 3) * M ≤ N) (hash : List Nat → Nat) :
    @sixthImprovedSolver _ R.ops m hash = sixthImprovedSolver m hash :=
  solveDfs_same hR hM hm hN (I := fun aux => ∀ x ∈ aux, FX T ((2 * m.dim + 2) * M) x.2)
    (fun _ _ _ _ ha hc =>
      test6_same hR hM hm (mul_nonneg (by positivity) hM) (by linarith) hash _ _ _ _ ha hc)
    [] (by simp)

end

end Walky
