import Verif.Props.RobustStatic

/-! # Property C127, nearest neighbour with negative and infinite costs -/

namespace Walky.Props

open FloatOps XNum Spec

variable {K : Type} [Field K] [LinearOrder K] [IsStrictOrderedRing K] {R : Rounding K}

/-- infinite, or a number that is not less than `-i * B` -/
def AtLeast (B : K) (i : Nat) (x : XNum K) : Prop := x = .inf ∨ ∃ v, x = .fin v ∧ -(i * B) ≤ v

/-- Rounding does not go below `-i * B`, for `i ≤ N`. -/
def KeepsAbove (R : Rounding K) (B : K) (N : Nat) : Prop :=
  ∀ i : Nat, i ≤ N → ∀ x, -(i * B) ≤ x → AtLeast B i (R.rnd x)

theorem AtLeast.add {B : K} {N i : Nat} (hR : KeepsAbove R B N) (hi : i + 1 ≤ N) {x y : XNum K} (hx : AtLeast B i x)
    (hy : AtLeast B 1 y) : AtLeast B (i + 1) (@FloatOps.add _ R.ops x y) := by
  rcases hx with rfl | ⟨v, rfl, hv⟩ <;> rcases hy with rfl | ⟨w, rfl, hw⟩
  · exact Or.inl rfl
  · exact Or.inl rfl
  · exact Or.inl rfl
  · show AtLeast B (i + 1) (R.rnd (v + w))
    refine hR (i + 1) hi _ ?_
    push_cast at hw ⊢
    linarith

private theorem nnLoop_above {B : K} {N : Nat} (hR : KeepsAbove R B N) {m : Mat (XNum K)} (hN : m.dim ≤ N)
    (hm : ∀ i j, i < m.dim → j < m.dim → AtLeast B 1 (m.get i j)) :
    ∀ (fuel : Nat) (s r : NNState (XNum K)), s.path.length ≤ m.dim → AtLeast B s.path.length s.distance →
      @nnLoop _ R.ops m fuel s = .ok r → r.path.length ≤ m.dim ∧ AtLeast B r.path.length r.distance := by
  intro fuel
  induction fuel with
  | zero =>
    intro s r hl hs h
    unfold nnLoop at h
    split at h
    · cases h
    · rw [← Except.ok.inj h]; exact ⟨hl, hs⟩
  | succ fuel ih =>
    intro s r hl hs h
    unfold nnLoop at h
    split at h
    · rename_i hlen
      obtain ⟨⟨near, d⟩, h1, h2⟩ := bindOk h
      have hd : AtLeast B 1 d := by
        refine foldlM_inv' (P := fun q : Option Nat × XNum K => AtLeast B 1 q.2) ?_ (s := (none, .inf)) (Or.inl rfl) h1
        intro q hq x _ q' hq'
        unfold nnScanStep at hq'
        obtain ⟨v, -, hq'⟩ := bindOk hq'
        split at hq'
        · rw [← Except.ok.inj hq']; exact hq
        · obtain ⟨e, he, hq'⟩ := bindOk hq'
          split at hq'
          · rw [← Except.ok.inj hq']
            unfold Mat.entry at he
            split at he
            · rename_i hlt
              rw [← Except.ok.inj he]
              exact hm _ _ hlt.1 hlt.2
            · cases he
          · rw [← Except.ok.inj hq']; exact hq
      cases near with
      | none => cases h2
      | some x =>
        simp only at h2
        split at h2
        · refine ih _ r ?_ ?_ h2
          · simp only [List.length_append, List.length_singleton]; omega
          · simp only [List.length_append, List.length_singleton]
            exact hs.add hR (by omega) hd
        · cases h2
    · rw [← Except.ok.inj h]; exact ⟨hl, hs⟩

private theorem singleNN_above {B : K} (hB : 0 ≤ B) {N : Nat} (hR : KeepsAbove R B N) {m : Mat (XNum K)}
    (hN : m.dim + 1 ≤ N) (hm : ∀ i j, i < m.dim → j < m.dim → AtLeast B 1 (m.get i j)) {i : Nat}
    {r : Solution (XNum K)} (h : @singleNN _ R.ops m i = .ok r) : AtLeast B (m.dim + 1) r.1 := by
  unfold singleNN at h
  split at h
  · rename_i hi
    obtain ⟨s, h1, h⟩ := bindOk h
    obtain ⟨d, h2, h⟩ := bindOk h
    rw [← Except.ok.inj h]
    obtain ⟨k1, k2⟩ := nnLoop_above hR (by omega) hm _ _ _ (by simp; omega)
      (Or.inr ⟨0, rfl, by simpa using hB⟩) h1
    have hd : AtLeast B 1 d := by
      unfold Mat.entry at h2
      split at h2
      · rename_i hlt
        rw [← Except.ok.inj h2]
        exact hm _ _ hlt.1 hlt.2
      · cases h2
    have := k2.add hR (by omega) hd
    rcases this with e | ⟨v, e, hv⟩
    · exact Or.inl e
    · refine Or.inr ⟨v, e, le_trans ?_ hv⟩
      have : ((s.path.length + 1 : Nat) : K) * B ≤ ((m.dim + 1 : Nat) : K) * B :=
        mul_le_mul_of_nonneg_right (by exact_mod_cast (by omega : s.path.length + 1 ≤ m.dim + 1)) hB
      linarith
  · cases h

/-- **C127** (nearest neighbour, costs of both signs and infinite ones) Every accepted instance with at least one
city, without edges from a vertex to itself, whose costs are infinite or at least `-B`, and a rounding that does not go
below the first multiples of `-B`; at most as many processes as cities, any order of the reduction: in every outcome of
`walky approx nearest-neighbour` under MPI all ranks fail without output, which only happens if a cost is infinite, or
all ranks print the same number, which is infinite or finite, and the same tour of all cities, followed by a number if a
spanning tree bound was asked for. -/
theorem C127_nearest_neighbour_mixed {B : K} (hB : 0 ≤ B) {N : Nat} (hR : KeepsAbove R B N) {g : Graph (XNum K)}
    (hacc : @doConditionsHold _ R.ops g = .ok true) (hl : NoLoop g) (hN : g.length + 1 ≤ N)
    (hc : ∀ es ∈ g, ∀ e ∈ es, e.cost = .inf ∨ ∃ v, e.cost = .fin v ∧ -B ≤ v)
    {env : MpiEnv (XNum K)} (henv : env.Ok) (hs : env.size ≤ g.length) {lb : Option LowerBoundAlgorithm}
    (hlb : lb ≠ some .oneTree) (outs : List (Out (XNum K)))
    (hout : @MpiRuns _ R.ops env g (.approx .nearestNeighbour lb) outs) :
    (outs = List.replicate env.size ⟨[], .error .explicit⟩ ∧ ∃ es ∈ g, ∃ e ∈ es, e.cost = .inf) ∨
    ∃ x q, (x = .inf ∨ ∃ v, x = .fin v) ∧ IsTour g.length q ∧ outs.length = env.size ∧
      ∀ o ∈ outs, (lb = none ∧ o = ⟨[.nnWeight x, .nnTour q], .ok ()⟩) ∨
        (lb ≠ none ∧ ∃ y, o = ⟨[.nnWeight x, .nnTour q, .mstBound y], .ok ()⟩) := by
  obtain ⟨m, hm, hdim, hE⟩ := matrix hacc
  have hm1 : naFromGraph g = .ok m := by
    have hpg : @parseChecked _ R.ops g = .ok g := by
      unfold parseChecked
      rw [hacc]
      rfl
    rw [hpg, rm_bind_ok] at hm
    exact hm
  have habove : ∀ i j, i < m.dim → j < m.dim → AtLeast B 1 (m.get i j) :=
    (naFromGraph_pred (P := AtLeast B 1) (Or.inr ⟨0, rfl, by simpa using hB⟩) (Or.inl rfl)
      (fun es hes e he => by simpa [AtLeast] using hc es hes e he) hm1).2
  simp only [MpiRuns, hm, mpiApprox] at hout
  rcases nnMpi_total (P := AtLeast B (m.dim + 1))
    (by rintro x (rfl | ⟨v, rfl, -⟩) h <;> cases h)
    (fun i r h => singleNN_above hB hR (by omega) habove h) henv.size (by omega) henv.nnShape with
    ⟨x, q, h1, h2, h3⟩ | ⟨h1, x, hx, y, hy, hxy, h2⟩
  · right
    rw [h1] at hout
    simp only at hout
    refine ⟨x, q, h2.imp_right fun ⟨v, h, _⟩ => ⟨v, h⟩, hdim ▸ h3, by rw [hout]; simp, ?_⟩
    intro o ho
    rw [hout] at ho
    obtain ⟨⟨s, r⟩, hmem, rfl⟩ := List.mem_map.mp ho
    have hs' : s = (x, q) := by
      have := (List.mem_zipIdx hmem).2.2
      rw [this]
      simp
    subst hs'
    have key := mpiMst_total (R := R) (m := m) henv
    cases lb with
    | none => exact Or.inl ⟨rfl, rfl⟩
    | some a =>
      right
      refine ⟨by simp, ?_⟩
      cases a with
      | oneTree => exact absurd rfl hlb
      | mst =>
        obtain ⟨y, hy⟩ := key r false
        exact ⟨y, by simp [mpiBoundAfter, hy, Out.andThen]⟩
      | mstQueue =>
        obtain ⟨y, hy⟩ := key r true
        exact ⟨y, by simp [mpiBoundAfter, hy, Out.andThen]⟩
  · left
    rw [h1] at hout
    refine ⟨hout, ?_⟩
    obtain ⟨es, hes, e, he, hxy'⟩ := (hE hl).2 x y hx hy hxy
    refine ⟨es, hes, e, he, ?_⟩
    rcases hc es hes e he with h | ⟨v, h, -⟩
    · exact h
    · rw [hxy', h] at h2
      exact absurd rfl h2

/-- IEEE double precision does not go below the first multiples of a power of two -/
theorem keepsAbove64 {k : ℤ} (h1 : -1074 ≤ k) (h2 : k ≤ 970) : KeepsAbove binary64 (pow2 k) (2 ^ 53) := by
  intro i hi x hx
  have hd : IsDouble (-(i * pow2 k)) := by
    have := isDouble_of_int (z := -(i : ℤ)) (q := k) (by rw [abs_neg, Nat.abs_cast]; exact_mod_cast hi) h1 h2
    simpa using this
  have hlow : -(i * pow2 k) ≤ (0 : ℚ) := by
    have := mul_nonneg (Nat.cast_nonneg (α := ℚ) i) (pow2_pos k).le
    linarith
  show AtLeast (pow2 k) i (round64 x)
  unfold round64
  by_cases hx0 : x = 0
  · rw [if_pos hx0]
    exact Or.inr ⟨0, rfl, hlow⟩
  rw [if_neg hx0]
  have hge : -(i * pow2 k) ≤ nearest64 x := by
    by_contra hlt
    have := nearest64_nearest hx0 hd
    rw [abs_of_nonpos (by linarith), abs_of_nonpos (by linarith)] at this
    linarith
  split
  · exact Or.inl rfl
  · split
    · rename_i h
      obtain ⟨-, -, -, -, -, h3⟩ := hd
      rw [abs_of_nonpos hlow] at h3
      linarith
    · exact Or.inr ⟨_, rfl, hge⟩

/-- four cities at cost -2, except that the edge between the first two is infinite -/
def oneGap : Graph (XNum ℚ) :=
  [[⟨1, .inf⟩, ⟨2, .fin (-2)⟩, ⟨3, .fin (-2)⟩], [⟨0, .inf⟩, ⟨2, .fin (-2)⟩, ⟨3, .fin (-2)⟩],
   [⟨0, .fin (-2)⟩, ⟨1, .fin (-2)⟩, ⟨3, .fin (-2)⟩], [⟨0, .fin (-2)⟩, ⟨1, .fin (-2)⟩, ⟨2, .fin (-2)⟩]]

theorem oneGap_noLoop : NoLoop oneGap := by
  intro i es hi e he
  match i, hi with
  | 0, hi => simp [oneGap] at hi; subst hi; simp at he; rcases he with rfl | rfl | rfl <;> simp
  | 1, hi => simp [oneGap] at hi; subst hi; simp at he; rcases he with rfl | rfl | rfl <;> simp
  | 2, hi => simp [oneGap] at hi; subst hi; simp at he; rcases he with rfl | rfl | rfl <;> simp
  | 3, hi => simp [oneGap] at hi; subst hi; simp at he; rcases he with rfl | rfl | rfl <;> simp
  | _ + 4, hi => simp [oneGap] at hi

/-- **C127** (nearest neighbour, double precision) Costs that are infinite or at least `-2 ^ k` with `k ≤ 970`, fewer
than `2 ^ 53` cities: as in `C127_nearest_neighbour_mixed`. -/
theorem C127_nearest_neighbour_mixed64 {k : ℤ} (h1 : -1074 ≤ k) (h2 : k ≤ 970) {g : Graph (XNum ℚ)}
    (hacc : @doConditionsHold _ binary64.ops g = .ok true) (hl : NoLoop g) (hN : g.length < 2 ^ 53)
    (hc : ∀ es ∈ g, ∀ e ∈ es, e.cost = .inf ∨ ∃ v, e.cost = .fin v ∧ -pow2 k ≤ v)
    {env : MpiEnv (XNum ℚ)} (henv : env.Ok) (hs : env.size ≤ g.length) {lb : Option LowerBoundAlgorithm}
    (hlb : lb ≠ some .oneTree) (outs : List (Out (XNum ℚ)))
    (hout : @MpiRuns _ binary64.ops env g (.approx .nearestNeighbour lb) outs) :
    (outs = List.replicate env.size ⟨[], .error .explicit⟩ ∧ ∃ es ∈ g, ∃ e ∈ es, e.cost = .inf) ∨
    ∃ x q, (x = .inf ∨ ∃ v, x = .fin v) ∧ IsTour g.length q ∧ outs.length = env.size ∧
      ∀ o ∈ outs, (lb = none ∧ o = ⟨[.nnWeight x, .nnTour q], .ok ()⟩) ∨
        (lb ≠ none ∧ ∃ y, o = ⟨[.nnWeight x, .nnTour q, .mstBound y], .ok ()⟩) :=
  C127_nearest_neighbour_mixed (pow2_pos k).le (keepsAbove64 h1 h2) hacc hl hN hc henv hs hlb outs hout

/-- The theorem applies to costs of -2 and infinity; all ranks print `-8` for `oneGap`, and they fail if city 0 has edges
of cost -2 and all others are infinite. -/
example : @doConditionsHold _ binary64.ops oneGap = .ok true ∧ NoLoop oneGap ∧
    (∀ es ∈ oneGap, ∀ e ∈ es, e.cost = .inf ∨ ∃ v, e.cost = .fin v ∧ -pow2 1 ≤ v) ∧ mpi3.Ok ∧
    @MpiRuns _ binary64.ops mpi3 oneGap (.approx .nearestNeighbour none)
      (List.replicate 3 ⟨[.nnWeight (.fin (-8)), .nnTour [0, 2, 1, 3]], .ok ()⟩) ∧
    @MpiRuns _ binary64.ops mpi3 (quad (.fin (-2)) .inf) (.approx .nearestNeighbour none)
      (List.replicate 3 ⟨[], .error .explicit⟩) := by
  have hacc : @doConditionsHold _ binary64.ops oneGap = .ok true := by decide +kernel
  have hacc' : @doConditionsHold _ binary64.ops (quad (.fin (-2)) .inf) = .ok true := by decide +kernel
  obtain ⟨m, hm, -⟩ := @instance_total _ binary64.ops _ hacc
  obtain ⟨m', hm', -⟩ := @instance_total _ binary64.ops _ hacc'
  have h1 : ((do @naFromGraph _ binary64.ops (← @parseChecked _ binary64.ops oneGap)) >>=
      fun m => @nnMpi _ binary64.ops mpi3.nnShape mpi3.size m) = .ok (List.replicate 3 (.fin (-8), [0, 2, 1, 3])) := by
    decide +kernel
  have h1' : ((do @naFromGraph _ binary64.ops (← @parseChecked _ binary64.ops (quad (.fin (-2)) .inf))) >>=
      fun m => @nnMpi _ binary64.ops mpi3.nnShape mpi3.size m) = .error .explicit := by
    decide +kernel
  rw [hm, rm_bind_ok] at h1
  rw [hm', rm_bind_ok] at h1'
  have h2 : -pow2 1 ≤ (-2 : ℚ) := by decide +kernel
  refine ⟨hacc, oneGap_noLoop, ?_, mpi3_ok, ?_, ?_⟩
  · intro es hes e he
    simp [oneGap] at hes
    rcases hes with rfl | rfl | rfl | rfl <;> simp at he <;> rcases he with rfl | rfl | rfl <;>
      first | exact Or.inl rfl | exact Or.inr ⟨-2, rfl, h2⟩
  · simp only [MpiRuns, hm, mpiApprox, h1]
    rfl
  · simp only [MpiRuns, hm', mpiApprox, h1']
    rfl

end Walky.Props
