import Verif.Lemmas.FixedGrid
import Verif.Lemmas.Near
import Verif.Props.Exact

/-! # Properties C63–C66: double precision -/

namespace Walky.Props

open FloatOps XNum Spec

/-- all finite costs are multiples of `2 ^ q` between `-M` and `M` -/
def MultipleCosts (q : ℤ) (M : ℚ) (g : Graph (XNum ℚ)) : Prop :=
  ∀ es ∈ g, ∀ e ∈ es, ∀ x, e.cost = .fin x → (∃ z : ℤ, x = z * (2 : ℚ) ^ q) ∧ |x| ≤ M

private theorem fixedGraph {q : ℤ} {M : ℚ} {g : Graph (XNum ℚ)} (h : MultipleCosts q M g) :
    FixedGraph (grid q) M g := by
  intro es hes e he x hx
  obtain ⟨⟨z, hz⟩, h2⟩ := h es hes e he x hx
  exact ⟨mem_grid.mpr ⟨z, by rw [pow2_eq]; exact hz⟩, h2⟩

private theorem gridMax_eq (q : ℤ) : gridMax q = 2 ^ 53 * (2 : ℚ) ^ q := by
  unfold gridMax
  rw [pow2_add, pow2_eq, pow2_eq]
  norm_num

/-- **C63** If all costs are multiples of a power of two `2 ^ q ≥ 2 ^ -32` (for `q = 0`: integers) of
size at most `M` with `(4 n + 8) M ≤ 2 ^ 53 · 2 ^ q`, then every command without MPI prints in IEEE
double precision exactly what it would print in exact arithmetic; also in debug builds, and also for
instances that are not accepted. -/
theorem C63_same_output {q : ℤ} (h1 : -32 ≤ q) (h2 : q ≤ 960) {g : Graph (XNum ℚ)} {M : ℚ}
    (hM : 0 ≤ M) (hg : MultipleCosts q M g) (hN : (4 * g.length + 8) * M ≤ 2 ^ 53 * (2 : ℚ) ^ q)
    {env : Env (XNum ℚ)} (he : env.Ok) (cmd : Command) (out : RM (List (Line (XNum ℚ)))) :
    @Runs _ binary64.ops env g cmd out ↔ Runs env g cmd out := by
  rw [← gridMax_eq] at hN
  refine runs_same (binary64_exactOn (by omega) (by omega)) hM (fixedGraph hg) hN he ?_ cmd out
  intro _ m hm
  have h0 : 0 ≤ (g.length : ℚ) * M := mul_nonneg (Nat.cast_nonneg _) hM
  exact isMetric_same h1 h2 (naFromGraph_fixed hM (fixedGraph hg) hm).2 (by linarith)

/-- **C63 (shortest tours)** An accepted instance of at least three cities without edges from a vertex
to itself whose costs are integers between 0 and `M`, `(4 n + 8) M ≤ 2 ^ 53`: in IEEE double precision
`walky exact` with v0 – v3 on a single thread prints the length of a shortest tour, exactly; and every
lower bound and every tour length that any command without MPI prints is on the right side of it
(tour lengths: if the command is `Safe` in exact arithmetic). -/
theorem C63_integer_costs {g : Graph (XNum ℚ)} (hacc : doConditionsHold g = .ok true) (hl : NoLoop g)
    (hn : 3 ≤ g.length) {M : Nat} (hN : (4 * g.length + 8) * M ≤ 2 ^ 53)
    (hc : ∀ es ∈ g, ∀ e ∈ es, ∃ k : Nat, e.cost = .fin (k : ℚ) ∧ k ≤ M) :
    ∃ (c : Nat → Nat → ℚ) (best : List Nat),
      (∀ (i : Nat) (es : List (Edge (XNum ℚ))), g[i]? = some es → ∀ e ∈ es, e.cost = .fin (c i e.dst)) ∧
      IsTour g.length best ∧ (∀ p, IsTour g.length p → tourCost c best ≤ tourCost c p) ∧
      ∀ env : Env (XNum ℚ), env.Ok →
        (∀ a ∈ [ExactAlgorithm.v0, .v1, .v2, .v3], ∀ out,
          @Runs _ binary64.ops env g (.exact a .singleThreaded) out →
            ∃ p, out = .ok [.bestCost (.fin (tourCost c best)), .bestPermutation p]) ∧
        ∀ cmd lines, @Runs _ binary64.ops env g cmd (.ok lines) → ∀ l ∈ lines,
          (∀ x, lower l = some x → ∃ w, x = .fin w ∧ w ≤ tourCost c best) ∧
          (Safe env g cmd → ∀ x, upper l = some x → ∃ w, x = .fin w ∧ tourCost c best ≤ w) := by
  have hnn : NonnegCosts g := by
    intro i es hi e he
    obtain ⟨k, hk, -⟩ := hc es (List.mem_of_getElem? hi) e he
    exact ⟨k, hk, by positivity⟩
  have hmul : MultipleCosts 0 M g := by
    intro es hes e he x hx
    obtain ⟨k, hk, hkM⟩ := hc es hes e he
    rw [hk] at hx
    injection hx with hx
    refine ⟨⟨k, by rw [← hx]; simp⟩, ?_⟩
    rw [← hx, abs_of_nonneg (by positivity)]
    exact_mod_cast hkM
  have hN' : (4 * g.length + 8) * (M : ℚ) ≤ 2 ^ 53 * (2 : ℚ) ^ (0 : ℤ) := by
    rw [zpow_zero, mul_one]
    exact_mod_cast hN
  obtain ⟨opt, ⟨c, c1, ⟨best, c2, c3⟩, c4⟩, h1, h2, -⟩ := C59_bounds_partial hacc hl hnn hn
  refine ⟨c, best, c1, c2, c3 ▸ c4, fun env he => ⟨fun a ha out h => ?_, fun cmd lines h => ?_⟩⟩
  · rw [C63_same_output (by norm_num) (by norm_num) (by positivity) hmul hN' he] at h
    rw [c3]
    exact h2 env a ha out h
  · rw [C63_same_output (by norm_num) (by norm_num) (by positivity) hmul hN' he] at h
    rw [c3]
    exact h1 env he cmd lines h

/-- the hypotheses of C63: six cities with the costs 10 and 11 -/
example : ∃ opt, ∀ out, @Runs _ binary64.ops env1 six (.exact .v3 .singleThreaded) out →
    ∃ p, out = .ok [.bestCost (.fin opt), .bestPermutation p] := by
  obtain ⟨c, best, -, -, -, h⟩ := C63_integer_costs (g := six) (by decide +kernel) six_noLoop
    (by decide) (M := 11) (by decide) (by
      intro es hes e he
      unfold six at hes
      obtain ⟨k, -, rfl⟩ := List.mem_map.mp hes
      obtain ⟨j, -, rfl⟩ := List.mem_map.mp he
      simp only
      split
      · exact ⟨11, rfl, le_rfl⟩
      · exact ⟨10, rfl, by norm_num⟩)
  exact ⟨_, (h env1 env1_ok).1 .v3 (by simp)⟩

/-- **C64** The same for the MPI programs: for every matrix whose finite entries are multiples of
`2 ^ q ≥ 2 ^ -32` of size at most `M` with `(4 n + 8) M ≤ 2 ^ 53 · 2 ^ q`, for every number of
processes, every order of the messages and all random numbers, the possible results in IEEE double
precision are exactly the possible results in exact arithmetic. -/
theorem C64_mpi_same {q : ℤ} (h1 : -32 ≤ q) (h2 : q ≤ 960) {m : Mat (XNum ℚ)} {M : ℚ} (hM : 0 ≤ M)
    (hm : ∀ i j x, i < m.dim → j < m.dim → m.get i j = .fin x → (∃ z : ℤ, x = z * (2 : ℚ) ^ q) ∧ |x| ≤ M)
    (hN : (4 * m.dim + 8) * M ≤ 2 ^ 53 * (2 : ℚ) ^ q) :
    (∀ nW r, @StaticResult _ binary64.ops m 3 nW r ↔ StaticResult m 3 nW r) ∧
    (∀ nW r, @DynamicResult _ binary64.ops m nW r ↔ DynamicResult m nW r) ∧
    (∀ shape size, @nnMpi _ binary64.ops shape size m = nnMpi shape size m) ∧
    (∀ shape size, @oneTreeLbMpi _ binary64.ops shape size m = oneTreeLbMpi shape size m) ∧
    ∀ (dbg : Bool) (r : MatchRng), r.Ok → ∀ shufs : Nat → Nat → List (Nat × Nat) → List (Nat × Nat),
      (∀ k i l, (shufs k i l).Perm l) → ∀ size,
        @christofidesMpi _ binary64.ops dbg m r shufs size = christofidesMpi dbg m r shufs size := by
  have hR := binary64_exactOn (q := q) (by omega) (by omega)
  have hf : FixedMat (grid q) M m := by
    intro i j hi hj x hx
    obtain ⟨⟨z, hz⟩, h3⟩ := hm i j x hi hj hx
    exact ⟨mem_grid.mpr ⟨z, by rw [pow2_eq]; exact hz⟩, h3⟩
  rw [← gridMax_eq] at hN
  have h0 : 0 ≤ (m.dim : ℚ) * M := mul_nonneg (Nat.cast_nonneg _) hM
  refine ⟨fun nW r => staticResult_same hR hM hf (by push_cast; linarith) nW r,
    fun nW r => dynamicResult_same hR hM hf (by linarith) nW r,
    fun shape size => nnMpi_same hR hM hf (by linarith) shape size,
    fun shape size => oneTreeLbMpi_same hR hM hf (by linarith) shape size,
    fun dbg r hr shufs hs size => christofidesMpi_same hR hM hf (by linarith) (by linarith)
      (fun _ => isMetric_same h1 h2 hf (by linarith)) hr hs size⟩

/-! ## Accuracy -/

/-- Numbers of size at most `2 ^ k` are rounded with an error of at most `2 ^ (k - 54)`. -/
theorem near64 {k : ℤ} (h1 : -1021 ≤ k) (h2 : k ≤ 1023) :
    binary64.Near (pow2 k) (pow2 (k - 54)) := by
  intro x hx
  have hp := pow2_pos (k - 54)
  by_cases h0 : x = 0
  · subst h0
    exact ⟨0, by simp [binary64, round64], by simpa using hp.le⟩
  rcases hx.lt_or_eq with hlt | heq
  · have hq := pow2_pos (quantum x)
    have hexp : exponent x < k := by
      rw [← pow2_lt_iff]
      exact lt_of_le_of_lt (exponent_spec h0).1 hlt
    have hqu : quantum x ≤ k - 53 := by
      unfold quantum
      omega
    have herr : |nearest64 x - x| ≤ pow2 (k - 54) := by
      have e1 : nearest64 x - x =
          ((roundEven (x / pow2 (quantum x)) : ℚ) - x / pow2 (quantum x)) * pow2 (quantum x) := by
        unfold nearest64
        field_simp
      rw [e1, abs_mul, abs_of_pos hq]
      have k1 := mul_le_mul_of_nonneg_right (roundEven_near (x / pow2 (quantum x))) hq.le
      have k2 := pow2_le hqu
      have k3 := pow2_half (k - 53)
      rw [show k - 53 - 1 = k - 54 by ring] at k3
      linarith
    refine ⟨nearest64 x, round64_of_nearest h0 ?_, herr⟩
    have k1 : |nearest64 x| ≤ |x| + |nearest64 x - x| := by
      have := abs_add_le x (nearest64 x - x)
      rwa [add_sub_cancel] at this
    have k2 : pow2 (k - 54) ≤ pow2 k := pow2_le (by omega)
    have k3 := pow2_half (k + 1)
    rw [show k + 1 - 1 = k by ring] at k3
    have k4 : pow2 (k + 1) ≤ pow2 1024 := pow2_le (by omega)
    linarith
  · have hd : IsDouble x := by
      refine ⟨if 0 < x then 1 else -1, k, ?_, ?_, by omega, ?_⟩
      · rcases lt_or_gt_of_ne h0 with h | h
        · rw [abs_of_neg h] at heq
          rw [if_neg (by linarith)]
          push_cast
          linarith
        · rw [abs_of_pos h] at heq
          rw [if_pos h]
          push_cast
          linarith
      · split <;> norm_num
      · rw [heq, pow2_lt_iff]
        omega
    exact ⟨x, round64_isDouble hd, by simpa using hp.le⟩

/-- **C65** Costs of size at most `M` between `n ≤ 2 ^ 25` cities, `2 n M ≤ 2 ^ k`. In IEEE double precision
* v0 and (for symmetric costs) v1 return a tour, the reported cost differs from its length by at most
  `n · 2 ^ (k - 54)`, and no tour is shorter by more than twice that;
* v2 and (for costs that are not negative) v3 return a tour, the reported cost differs from its length
  by at most `(2 n² + 1) · 2 ^ (k - 54)`, and no tour is shorter by more than twice that.
(The costs need not be doubles.) -/
theorem C65_accuracy {k : ℤ} (h1 : -1021 ≤ k) (h2 : k ≤ 1023) {m : Mat (XNum ℚ)} {c : Nat → Nat → ℚ}
    (hm : Rep m c) {M : ℚ} (hM : 0 ≤ M)
    (hc : ∀ i j, i < m.dim → j < m.dim → i ≠ j → |c i j| ≤ M) (hn : 3 ≤ m.dim)
    (hn' : m.dim ≤ 2 ^ 25) (hB : 2 * m.dim * M ≤ (2 : ℚ) ^ k) :
    (∃ p w, @naiveSolver _ binary64.ops m = .ok (.fin w, p) ∧ IsTour m.dim p ∧
      |w - tourCost c p| ≤ m.dim * (2 : ℚ) ^ (k - 54) ∧
      ∀ q, IsTour m.dim q → tourCost c p ≤ tourCost c q + 2 * (m.dim * (2 : ℚ) ^ (k - 54))) ∧
    (Symm m.dim c → ∃ p w, @firstImprovedSolver _ binary64.ops m = .ok (.fin w, p) ∧ IsTour m.dim p ∧
      |w - tourCost c p| ≤ m.dim * (2 : ℚ) ^ (k - 54) ∧
      ∀ q, IsTour m.dim q → tourCost c p ≤ tourCost c q + 2 * (m.dim * (2 : ℚ) ^ (k - 54))) ∧
    (∃ p w, @secondImprovedSolver _ binary64.ops m = .ok (.fin w, p) ∧ IsTour m.dim p ∧
      |w - tourCost c p| ≤ (2 * m.dim ^ 2 + 1) * (2 : ℚ) ^ (k - 54) ∧
      ∀ q, IsTour m.dim q → tourCost c p ≤ tourCost c q + 2 * ((2 * m.dim ^ 2 + 1) * (2 : ℚ) ^ (k - 54))) ∧
    (Nonneg m.dim c → ∃ p w, @thirdImprovedSolver _ binary64.ops m = .ok (.fin w, p) ∧ IsTour m.dim p ∧
      |w - tourCost c p| ≤ (2 * m.dim ^ 2 + 1) * (2 : ℚ) ^ (k - 54) ∧
      ∀ q, IsTour m.dim q →
        tourCost c p ≤ tourCost c q + 2 * ((2 * m.dim ^ 2 + 1) * (2 : ℚ) ^ (k - 54))) := by
  have hR := near64 h1 h2
  have hkk : (2 : ℚ) ^ (k - 54) = pow2 (k - 54) := (pow2_eq _).symm
  rw [← pow2_eq] at hB
  rw [hkk]
  generalize he' : pow2 (k - 54) = e at *
  have he : 0 ≤ e := he' ▸ (pow2_pos _).le
  -- the sizes fit
  have hsize : m.dim * M + (2 * m.dim * m.dim + 1 : Nat) * e ≤ pow2 k := by
    have a1 : 2 * m.dim * m.dim + 1 ≤ 2 ^ 53 := by
      have := Nat.mul_le_mul hn' hn'
      norm_num at this ⊢
      nlinarith
    have a2 : ((2 * m.dim * m.dim + 1 : Nat) : ℚ) ≤ 2 ^ 53 := by exact_mod_cast a1
    have a3 := mul_le_mul_of_nonneg_right a2 he
    have a4 : (2 ^ 53 : ℚ) * e = pow2 k / 2 := by
      rw [← he', ← pow2_half, show (2 ^ 53 : ℚ) = pow2 53 by norm_num [pow2_eq], ← pow2_add]
      congr 1
      ring
    linarith
  have hMe : 0 ≤ (m.dim : ℚ) * e := mul_nonneg (Nat.cast_nonneg _) he
  have hle : (m.dim : ℚ) * e ≤ (2 * m.dim * m.dim + 1 : Nat) * e := by
    refine mul_le_mul_of_nonneg_right ?_ he
    have : m.dim ≤ 2 * m.dim * m.dim + 1 := by nlinarith
    exact_mod_cast this
  have hsmall : (m.dim : ℚ) * (M + e) ≤ pow2 k := by linarith
  -- evaluation of tours
  have hev : ∀ p, IsTour m.dim p → ∃ y, @Mat.evaluateCircle _ binary64.ops m p = .ok (fin y) ∧
      |y - tourCost c p| ≤ m.dim * e := by
    intro p hp
    have := evaluateCircle_near hR he hM hm hc (validPre_prefix hp (List.prefix_refl _))
      (by rw [hp.length]; omega) (by rw [hp.length]; exact hsmall)
    rwa [hp.length] at this
  obtain ⟨f, hf⟩ : ∃ f : List Nat → ℚ, ∀ p, IsTour m.dim p →
      @Mat.evaluateCircle _ binary64.ops m p = .ok (fin (f p)) ∧ |f p - tourCost c p| ≤ m.dim * e := by
    choose! f hf using hev
    exact ⟨f, hf⟩
  -- the search of v2 and v3
  have hdfs : ∀ test : PruneTest Unit (XNum ℚ), (∀ p x b, Proper b → ∃ go, test () p (fin x) b = .ok (go, ()) ∧
      (go = false → ∀ q, IsTour m.dim q → p <+: q → |x - pathCost c p| ≤ drift m.dim p.length e →
        FloatOps.le b (fin (tourCost c q + drift m.dim m.dim e)) = true)) →
      ∃ p w, @solveDfs _ binary64.ops _ m test () = .ok (.fin w, p) ∧ IsTour m.dim p ∧
      |w - tourCost c p| ≤ (2 * m.dim ^ 2 + 1) * e ∧
      ∀ q, IsTour m.dim q → tourCost c p ≤ tourCost c q + 2 * ((2 * m.dim ^ 2 + 1) * e) := by
    intro test ht
    have hE : drift m.dim m.dim e + e = (2 * m.dim ^ 2 + 1) * e := by
      unfold drift
      push_cast
      ring
    have hE' : ((2 * m.dim * m.dim + 1 : Nat) : ℚ) * e = (2 * m.dim ^ 2 + 1) * e := by
      push_cast
      ring
    obtain ⟨r, r1, -, r2, r3⟩ := dfs_near (J := fun _ => True)
      (G := fun b q => FloatOps.le b (fin (tourCost c q + (2 * m.dim ^ 2 + 1) * e)) = true)
      hR he hM hm hc (by omega) hsize (fun _ _ _ h1 h2 => XNum.le_trans' h1 h2)
      (fun b y q _ hy hb => XNum.le_trans' hb (by
        rw [hE'] at hy
        simp only [XNum.le_fin, decide_eq_true_eq]
        have := (abs_le.mp hy).2
        linarith))
      (fun _ p x b _ _ _ hb hx => by
        obtain ⟨go, g1, g2⟩ := ht p x b hb
        refine ⟨go, (), g1, trivial, fun hgo q hq hpq => XNum.le_trans' (g2 hgo q hq hpq hx) ?_⟩
        simp only [XNum.le_fin, decide_eq_true_eq]
        linarith) (m.dim + 1) [] 0
      ((XNum.inf, []), ()) ⟨by simp, by simp⟩ (by simp) (by simp [drift]) trivial proper_inf
    rw [hE] at r2
    rcases r2 with r2 | ⟨k1, -, -, w, k2, k3⟩
    · have := r3 _ (isTour_range _) (List.nil_prefix)
      rw [r2] at this
      simp at this
    · refine ⟨r.1.2, w, ?_, k1, k3, ?_⟩
      · unfold solveDfs
        have r1' : @dfs _ binary64.ops _ m test (m.dim + 1) [] (@FloatOps.zero _ binary64.ops)
          ((@FloatOps.inf _ binary64.ops, []), ()) = .ok r := r1
        rw [r1', rm_bind_ok, rm_pure, ← k2]
      · intro q hq
        have := r3 q hq (List.nil_prefix)
        rw [k2] at this
        simp only [XNum.le_fin, decide_eq_true_eq] at this
        have := (abs_le.mp k3).1
        linarith
  refine ⟨?_, ?_, ?_, ?_⟩
  · obtain ⟨p, p1, p2, p3⟩ := naive_any (R := binary64) (by omega) (fun p hp => (hf p hp).1)
    refine ⟨p, f p, p1, p2, (hf p p2).2, fun q hq => ?_⟩
    have key : ∀ q, IsTour m.dim q → q ≠ List.range m.dim →
        tourCost c p ≤ tourCost c q + 2 * (m.dim * e) := by
      intro q hq hne
      have a1 := p3 q hq hne
      have a2 := (abs_le.mp (hf p p2).2).1
      have a3 := (abs_le.mp (hf q hq).2).2
      linarith
    by_cases hq' : q = List.range m.dim
    · rw [hq', ← tourCost_rotate c (List.range m.dim) 1]
      refine key _ ((isTour_range _).rotate 1) ?_
      obtain ⟨k, hk⟩ : ∃ k, m.dim = k + 2 := ⟨m.dim - 2, by omega⟩
      rw [hk, List.range_succ_eq_map, List.range_succ_eq_map]
      simp
    · exact key q hq hq'
  · intro hsym
    obtain ⟨p, p1, p2, p3⟩ := first_any (R := binary64) hn (fun p hp => (hf p hp).1)
    refine ⟨p, f p, p1, p2, (hf p p2).2, fun q hq => ?_⟩
    have key : ∀ t, IsTour m.dim (0 :: t) → 0 :: t ≠ List.range m.dim →
        tourCost c p ≤ tourCost c (0 :: t) + 2 * (m.dim * e) := by
      intro t ht hne
      have a1 := p3 t ht hne
      have a2 := (abs_le.mp (hf p p2).2).1
      have a3 := (abs_le.mp (hf _ ht).2).2
      linarith
    obtain ⟨u, v, rfl⟩ := List.append_of_mem (hq.mem.mpr (show 0 < m.dim by omega))
    have e1 : tourCost c (u ++ 0 :: v) = tourCost c (0 :: (v ++ u)) := by
      rw [tourCost_append_comm]; rfl
    have hq' : IsTour m.dim (0 :: (v ++ u)) := List.perm_append_comm.trans hq
    rw [e1]
    by_cases h : 0 :: (v ++ u) = List.range m.dim
    · have hrev : tourCost c (0 :: (v ++ u).reverse) = tourCost c (0 :: (v ++ u)) := by
        rw [← tourCost_reverse_of_symm hsym (p := 0 :: (v ++ u)) (fun i hi => hq'.mem.mp hi),
          List.reverse_cons, tourCost_append_comm]
        rfl
      rw [← hrev]
      refine key _ ?_ ?_
      · exact ((v ++ u).reverse_perm.cons 0).trans hq'
      · rw [← h]
        obtain ⟨k, hk⟩ : ∃ k, m.dim = k + 3 := ⟨m.dim - 3, by omega⟩
        have hvu : v ++ u = (List.range (k + 2)).map (· + 1) := by
          rw [hk, List.range_succ_eq_map] at h
          exact (List.cons.inj h).2
        rw [hvu, List.range_succ_eq_map, List.range_succ]
        simp
    · exact key _ hq' h
  · exact hdfs test2 fun p x b _ => ⟨true, rfl, by simp⟩
  · intro hnn
    refine hdfs (@test3 _ binary64.ops) fun p x b hb => ⟨FloatOps.le (fin x) b, rfl, ?_⟩
    intro hgo q hq hpq hx
    have hpb : pathCost c p ≤ tourCost c q := (pathCost_prefix_le hnn
      (validPre_prefix hq (List.prefix_refl _)) hpq).trans (closing_nonneg hnn (by omega) hq)
    have hx1 := (abs_le.mp hx).2
    have hd : drift m.dim p.length e ≤ drift m.dim m.dim e := by
      unfold drift
      refine mul_le_mul_of_nonneg_right ?_ he
      have := hpq.length_le
      rw [hq.length] at this
      exact_mod_cast Nat.mul_le_mul_left _ this
    rcases hb with rfl | ⟨b, rfl⟩
    · cases hgo
    · simp only [XNum.le_fin, decide_eq_false_iff_not, not_le] at hgo
      simp only [XNum.le_fin, decide_eq_true_eq]
      linarith

/-- the hypotheses of C65 for the four cities of the examples -/
example : ∃ p w, @thirdImprovedSolver _ binary64.ops (Mat.ofFun 4 Ex.c4) = .ok (.fin w, p) ∧ IsTour 4 p ∧
    |w - tourCost Ex.c4 p| ≤ (2 * (4 : Nat) ^ 2 + 1) * (2 : ℚ) ^ ((7 : ℤ) - 54) := by
  have hb : ∀ i < 4, ∀ j < 4, i ≠ j → 0 ≤ Ex.c4 i j ∧ |Ex.c4 i j| ≤ 10 := by decide +kernel
  obtain ⟨-, -, -, h⟩ := C65_accuracy (k := 7) (by norm_num) (by norm_num) (rep_ofFun 4 Ex.c4) (M := 10)
    (by norm_num) (fun i j hi hj hij => (hb i hi j hj hij).2) (by decide) (by decide)
    (by simp only [Mat.ofFun]; norm_num)
  obtain ⟨p, w, h1, h2, h3, -⟩ := h fun i j hi hj hij => (hb i hi j hj hij).1
  exact ⟨p, w, h1, h2, h3⟩

/-- Sums of doubles. -/
private theorem rel64 : binary64.Rel IsDouble (pow2 1023) (pow2 (-53)) := by
  intro a b ha hb ha0 hb0 h
  have hab : 0 ≤ a + b := add_nonneg ha0 hb0
  obtain ⟨y, y1, y2, y3⟩ := round64_add ha hb ((abs_of_nonneg hab).le.trans h)
  rw [abs_of_nonneg hab] at y3
  refine ⟨y, y1, y2, ?_, y3⟩
  have h53 : pow2 (-53) ≤ 1 := by norm_num [pow2_eq]
  have := (abs_le.mp y3).1
  nlinarith

/-- **C66 (partial)** If the costs are doubles that are not negative and nothing overflows, then v0 and
(for symmetric costs) v1 return in IEEE double precision a tour, and the reported cost is its length up
to a relative error of `(1 + 2⁻⁵³)ⁿ - 1` (about `n · 10⁻¹⁶`); up to the same factors no tour is shorter.

Missing: v2 – v6, for which the claim is false (`C66_v2_rounding`). -/
theorem C66_relative_partial {m : Mat (XNum ℚ)} {c : Nat → Nat → ℚ} (hm : Rep m c) {M : ℚ}
    (hc : ∀ i j, i < m.dim → j < m.dim → i ≠ j → IsDouble (c i j) ∧ 0 ≤ c i j ∧ c i j ≤ M)
    (hn : 3 ≤ m.dim) (hB : (1 + (2 : ℚ) ^ (-53 : ℤ)) ^ m.dim * (m.dim * M) ≤ (2 : ℚ) ^ (1023 : ℤ)) :
    (∃ p w, @naiveSolver _ binary64.ops m = .ok (.fin w, p) ∧ IsTour m.dim p ∧
      |w - tourCost c p| ≤ ((1 + (2 : ℚ) ^ (-53 : ℤ)) ^ m.dim - 1) * tourCost c p ∧
      ∀ q, IsTour m.dim q → w ≤ (1 + (2 : ℚ) ^ (-53 : ℤ)) ^ m.dim * tourCost c q) ∧
    (Symm m.dim c → ∃ p w, @firstImprovedSolver _ binary64.ops m = .ok (.fin w, p) ∧ IsTour m.dim p ∧
      |w - tourCost c p| ≤ ((1 + (2 : ℚ) ^ (-53 : ℤ)) ^ m.dim - 1) * tourCost c p ∧
      ∀ q, IsTour m.dim q → w ≤ (1 + (2 : ℚ) ^ (-53 : ℤ)) ^ m.dim * tourCost c q) := by
  have hu : (2 : ℚ) ^ (-53 : ℤ) = pow2 (-53) := (pow2_eq _).symm
  have h1023 : (2 : ℚ) ^ (1023 : ℤ) = pow2 1023 := (pow2_eq _).symm
  rw [hu] at hB ⊢
  rw [h1023] at hB
  have hB : ∀ p, IsTour m.dim p → (1 + pow2 (-53)) ^ m.dim * tourCost c p ≤ pow2 1023 := by
    intro p hp
    refine le_trans (mul_le_mul_of_nonneg_left ?_ ?_) hB
    · have := tourCost_bound (M := M) (c := c) (n := m.dim) (fun i j hi hj hij => by
        obtain ⟨-, k1, k2⟩ := hc i j hi hj hij
        rwa [abs_of_nonneg k1]) (validPre_prefix hp (List.prefix_refl _)) (by rw [hp.length]; omega)
      rw [hp.length] at this
      exact (le_abs_self _).trans this
    · have := (pow2_pos (-53)).le
      positivity
  have hc : ∀ i j, i < m.dim → j < m.dim → i ≠ j → IsDouble (c i j) ∧ 0 ≤ c i j := fun i j hi hj hij =>
    ⟨(hc i j hi hj hij).1, (hc i j hi hj hij).2.1⟩
  have hev : ∀ p, IsTour m.dim p → ∃ y, @Mat.evaluateCircle _ binary64.ops m p = .ok (fin y) ∧
      |y - tourCost c p| ≤ ((1 + pow2 (-53)) ^ m.dim - 1) * tourCost c p := by
    intro p hp
    have := evaluateCircle_rel rel64 (pow2_pos _).le isDouble_zero hm hc
      (validPre_prefix hp (List.prefix_refl _)) (by rw [hp.length]; omega)
      (by rw [hp.length]; exact hB p hp)
    rwa [hp.length] at this
  choose! f hf using hev
  have hup : ∀ q, IsTour m.dim q → f q ≤ (1 + pow2 (-53)) ^ m.dim * tourCost c q := by
    intro q hq
    have := (abs_le.mp (hf q hq).2).2
    linarith
  refine ⟨?_, fun hsym => ?_⟩
  · obtain ⟨p, p1, p2, p3⟩ := naive_any (R := binary64) (by omega) (fun p hp => (hf p hp).1)
    refine ⟨p, f p, p1, p2, (hf p p2).2, fun q hq => ?_⟩
    by_cases hq' : q = List.range m.dim
    · rw [hq', ← tourCost_rotate c (List.range m.dim) 1]
      refine (p3 _ ((isTour_range _).rotate 1) ?_).trans (hup _ ((isTour_range _).rotate 1))
      obtain ⟨k, hk⟩ : ∃ k, m.dim = k + 2 := ⟨m.dim - 2, by omega⟩
      rw [hk, List.range_succ_eq_map, List.range_succ_eq_map]
      simp
    · exact (p3 q hq hq').trans (hup q hq)
  · obtain ⟨p, p1, p2, p3⟩ := first_any (R := binary64) hn (fun p hp => (hf p hp).1)
    refine ⟨p, f p, p1, p2, (hf p p2).2, fun q hq => ?_⟩
    obtain ⟨u, v, rfl⟩ := List.append_of_mem (hq.mem.mpr (show 0 < m.dim by omega))
    have e1 : tourCost c (u ++ 0 :: v) = tourCost c (0 :: (v ++ u)) := by
      rw [tourCost_append_comm]; rfl
    have hq' : IsTour m.dim (0 :: (v ++ u)) := List.perm_append_comm.trans hq
    rw [e1]
    by_cases h : 0 :: (v ++ u) = List.range m.dim
    · have hrev : tourCost c (0 :: (v ++ u).reverse) = tourCost c (0 :: (v ++ u)) := by
        rw [← tourCost_reverse_of_symm hsym (p := 0 :: (v ++ u)) (fun i hi => hq'.mem.mp hi),
          List.reverse_cons, tourCost_append_comm]
        rfl
      have ht : IsTour m.dim (0 :: (v ++ u).reverse) := ((v ++ u).reverse_perm.cons 0).trans hq'
      rw [← hrev]
      refine (p3 _ ht ?_).trans (hup _ ht)
      rw [← h]
      obtain ⟨k, hk⟩ : ∃ k, m.dim = k + 3 := ⟨m.dim - 3, by omega⟩
      have hvu : v ++ u = (List.range (k + 2)).map (· + 1) := by
        rw [hk, List.range_succ_eq_map] at h
        exact (List.cons.inj h).2
      rw [hvu, List.range_succ_eq_map, List.range_succ]
      simp
    · exact (p3 _ hq' h).trans (hup _ hq')

/-- the hypotheses of C66 for the four cities of the examples -/
example : ∃ p w, @naiveSolver _ binary64.ops (Mat.ofFun 4 Ex.c4) = .ok (.fin w, p) ∧ IsTour 4 p ∧
    |w - tourCost Ex.c4 p| ≤ ((1 + (2 : ℚ) ^ (-53 : ℤ)) ^ 4 - 1) * tourCost Ex.c4 p := by
  have hb : ∀ i < 4, ∀ j < 4, i ≠ j → 0 ≤ Ex.c4 i j ∧ Ex.c4 i j ≤ 10 ∧ (Ex.c4 i j).den = 1 := by decide +kernel
  obtain ⟨⟨p, w, h1, h2, h3, -⟩, -⟩ := C66_relative_partial (rep_ofFun 4 Ex.c4) (M := 10)
    (fun i j hi hj hij => by
      obtain ⟨k1, k2, k3⟩ := hb i hi j hj hij
      refine ⟨?_, k1, k2⟩
      have e : Ex.c4 i j = (Ex.c4 i j).num * pow2 0 := by
        rw [show pow2 0 = 1 by norm_num [pow2_eq], mul_one]
        exact (Rat.den_eq_one_iff _).mp k3 |>.symm
      rw [e]
      refine isDouble_of_int ?_ (by norm_num) (by norm_num)
      rw [← Rat.coe_int_num_of_den_eq_one k3] at k1 k2
      have a1 : 0 ≤ (Ex.c4 i j).num := by exact_mod_cast k1
      have a2 : (Ex.c4 i j).num ≤ 10 := by exact_mod_cast k2
      rw [abs_of_nonneg a1]
      norm_num
      omega) (by decide) (by
      simp only [Mat.ofFun]
      have : (2 : ℚ) ^ (10 : ℤ) ≤ (2 : ℚ) ^ (1023 : ℤ) := zpow_le_zpow_right₀ (by norm_num) (by norm_num)
      refine le_trans ?_ this
      norm_num)
  exact ⟨p, w, h1, h2, h3⟩

/-! ## Rounding in v2 – v6 -/

/-- symmetric costs of five cities: two of `2 ^ 60`, one of 100, all others 1 -/
def far : Mat (XNum ℚ) := Mat.ofFun 5 fun i j =>
  if i = j then 0
  else if (i, j) ∈ [(1, 4), (4, 1), (2, 3), (3, 2)] then 2 ^ 60
  else if (i, j) ∈ [(1, 2), (2, 1)] then 100 else 1

/-- **C66 (negation)** With three different costs, all of them integers, that are represented exactly,
v2 – v6 return in IEEE double precision a tour of length 104 and report 3 as its length; the length of
a shortest tour is 5 (v0 and v1 find it). The reason is `current_cost -= cost` after
`current_cost += cost`: a small number that was added to a large one is lost. -/
theorem C66_v2_rounding :
    (∀ s ∈ [@secondImprovedSolver _ binary64.ops far, @thirdImprovedSolver _ binary64.ops far,
        @fourthImprovedSolver _ binary64.ops far, @fifthImprovedSolver _ binary64.ops far,
        @sixthImprovedSolver _ binary64.ops far fun _ => 0], s = .ok (.fin 3, [0, 1, 2, 4, 3])) ∧
    @Mat.evaluateCircle _ binary64.ops far [0, 1, 2, 4, 3] = .ok (.fin 104) ∧
    (∀ s ∈ [@naiveSolver _ binary64.ops far, @firstImprovedSolver _ binary64.ops far],
      s = .ok (.fin 5, [0, 1, 3, 4, 2])) ∧
    ∀ i < 5, ∀ j < 5, far.get i j = far.get j i := by
  refine ⟨by decide +kernel, by decide +kernel, by decide +kernel, by decide +kernel⟩

end Walky.Props
