import Verif.Lemmas.NearMetric
import Verif.Lemmas.CliLines
import Verif.Props.Accuracy
import Verif.Props.DoubleCli
import Verif.Props.Points64

/-! # Property C88: quality of the output in double precision, against true distances -/

namespace Walky.Props

open FloatOps XNum Spec

theorem growth_real (k : Nat) : ((growth k : ℚ) : ℝ) = (1 + (2 : ℝ) ^ (-53 : ℤ)) ^ k := by
  rw [growth]
  push_cast
  rfl

theorem growth_add (a b : Nat) : growth (a + b) = growth a * growth b := by
  rw [growth, growth, growth, pow_add]

/-- `growth k` is about `1 + k 2⁻⁵³` -/
theorem growth_le {k : Nat} (hk : k ≤ 2 ^ 52) : growth k ≤ 1 + 2 * (k * (2 : ℚ) ^ (-53 : ℤ)) := by
  induction k with
  | zero => simp [growth]
  | succ k ih =>
    have h1 := ih (by omega)
    have hk' : (k : ℚ) ≤ 2 ^ 52 := by exact_mod_cast (by omega : k ≤ 2 ^ 52)
    have hu : (2 : ℚ) ^ (-53 : ℤ) * 2 ^ 53 = 1 := by norm_num
    have h0 : (0 : ℚ) < (2 : ℚ) ^ (-53 : ℤ) := by positivity
    rw [growth_add, show growth 1 = 1 + (2 : ℚ) ^ (-53 : ℤ) by rw [growth, pow_one]]
    generalize (2 : ℚ) ^ (-53 : ℤ) = u at *
    have h2 : 2 * (k * u) ≤ 1 := by nlinarith
    have h3 : 2 * (k * u) * u ≤ 1 * u := mul_le_mul_of_nonneg_right h2 h0.le
    have h4 := mul_le_mul_of_nonneg_right h1 (show 0 ≤ 1 + u by linarith)
    push_cast
    nlinarith

theorem growth_le_two {k : Nat} (hk : k ≤ 2 ^ 52) : growth k ≤ 2 := by
  refine (growth_le hk).trans ?_
  have hk' : (k : ℚ) ≤ 2 ^ 52 := by exact_mod_cast hk
  have : (k : ℚ) * (2 : ℚ) ^ (-53 : ℤ) ≤ 2 ^ 52 * (2 : ℚ) ^ (-53 : ℤ) :=
    mul_le_mul_of_nonneg_right hk' (by positivity)
  have e : (2 : ℚ) ^ 52 * (2 : ℚ) ^ (-53 : ℤ) = 1 / 2 := by norm_num
  rw [e] at this
  generalize (k : ℚ) * (2 : ℚ) ^ (-53 : ℤ) = x at *
  linarith

theorem one_add_le_growth (s : Nat) : 1 + s * (2 : ℝ) ^ (-53 : ℤ) ≤ ((growth s : ℚ) : ℝ) := by
  rw [growth_real]
  exact one_add_mul_le_pow (a := (2 : ℝ) ^ (-53 : ℤ)) (by
    have : (0 : ℝ) < (2 : ℝ) ^ (-53 : ℤ) := by positivity
    linarith) s

theorem eight_ulp : ((8 : ℕ) : ℝ) * (2 : ℝ) ^ (-53 : ℤ) = (2 : ℝ) ^ (-50 : ℤ) := by norm_num

theorem ulp_le_one {s : Nat} (hs : s ≤ 2 ^ 40) : (s : ℝ) * (2 : ℝ) ^ (-53 : ℤ) ≤ 1 := by
  have h : (s : ℝ) ≤ 2 ^ 40 := by exact_mod_cast hs
  calc (s : ℝ) * (2 : ℝ) ^ (-53 : ℤ) ≤ 2 ^ 40 * (2 : ℝ) ^ (-53 : ℤ) :=
        mul_le_mul_of_nonneg_right h (by positivity)
    _ ≤ 1 := by norm_num

/-- the relative error of a distance and of a sum -/
theorem near_growth {s k : Nat} {w C : ℚ} {D : ℝ} (hD : 0 ≤ D) (h1 : Accurate k w C)
    (h2 : |(C : ℝ) - D| ≤ s * (2 : ℝ) ^ (-53 : ℤ) * D) :
    |(w : ℝ) - D| ≤ (((growth (k + s) : ℚ) : ℝ) - 1) * D := by
  rw [growth_add]
  push_cast
  refine near_trans (by exact_mod_cast one_le_growth k) (one_add_le_growth s) (by positivity) hD ?_ h2
  have := Rat.cast_le (K := ℝ) |>.mpr h1
  push_cast at this
  exact this

/-- What a line of the output says about the optimum `opt`, with the relative rounding errors
`(1 + 2⁻⁵³)^(3n+6+s) - 1` and `(1 + 2⁻⁵³)^(n+s) - 1`; the costs have the relative error `s 2⁻⁵³`. A lower bound is between half the optimum and the
optimum, a nearest neighbour tour is at most `(⌈log₂ n⌉ + 1) / 2` times as long as the optimum, a Christofides tour at most `n / 2`
times, and no tour is shorter. -/
def NearLine (s n : Nat) (opt : ℝ) (l : Line (XNum ℚ)) : Prop :=
  (∀ x, lower l = some x → ∃ w : ℚ, x = .fin w ∧ (w : ℝ) ≤ (growth (3 * n + 6 + s) : ℚ) * opt ∧
    (2 - (growth (3 * n + 6 + s) : ℚ)) * opt ≤ 2 * (w : ℝ)) ∧
  (∀ x, l = .nnWeight x → ∃ w : ℚ, x = .fin w ∧ (2 - (growth (n + s) : ℚ)) * opt ≤ (w : ℝ) ∧
    2 * (w : ℝ) ≤ (growth (n + s) : ℚ) * ((Nat.clog 2 n + 1 : ℕ) * opt)) ∧
  ∀ x, l = .christofidesWeight x → ∃ w : ℚ, x = .fin w ∧ (2 - (growth (n + s) : ℚ)) * opt ≤ (w : ℝ) ∧
    2 * (w : ℝ) ≤ (growth (n + s) : ℚ) * (n * opt)

theorem NearLine.other {s n : Nat} {opt : ℝ} {l : Line (XNum ℚ)} (h1 : lower l = none)
    (h2 : ∀ x, l ≠ .nnWeight x) (h3 : ∀ x, l ≠ .christofidesWeight x) : NearLine s n opt l :=
  ⟨fun x hx => (by rw [h1] at hx; cases hx), fun x hx => absurd hx (h2 x), fun x hx => absurd hx (h3 x)⟩

theorem NearLine.bound {s n : Nat} {opt : ℝ} {l : Line (XNum ℚ)} {w : ℚ} (h1 : lower l = some (.fin w))
    (h2 : (w : ℝ) ≤ (growth (3 * n + 6 + s) : ℚ) * opt)
    (h3 : (2 - (growth (3 * n + 6 + s) : ℚ)) * opt ≤ 2 * (w : ℝ)) : NearLine s n opt l := by
  refine ⟨fun x hx => ?_, fun x hx => ?_, fun x hx => ?_⟩
  · rw [h1] at hx
    injection hx with hx
    exact ⟨w, hx.symm, h2, h3⟩
  · rw [hx] at h1
    cases h1
  · rw [hx] at h1
    cases h1

section
variable {s : Nat} {m : Mat (XNum ℚ)} {c : Nat → Nat → ℚ} {d : Nat → Nat → ℝ}

/-- a bound `W` of which `w` is an accurate value -/
theorem near_bound (hn : 3 ≤ m.dim) (hsize : m.dim ≤ 2 ^ 40) (hs : s ≤ 2 ^ 40)
    (hd : NearMetric m.dim c d (s * (2 : ℝ) ^ (-53 : ℤ))) {F : List (Nat × Nat)}
    (hF : IsSpanningTree (List.range m.dim) F) {W w : ℚ} (hFW : edgeSum c F ≤ W)
    (hW : ∀ q, IsTour m.dim q → W ≤ tourCost c q) (hw : Accurate (3 * m.dim + 6) w W) {q : List Nat}
    (hq : IsShortest m.dim d q) :
    (w : ℝ) ≤ (growth (3 * m.dim + 6 + s) : ℚ) * tourCost d q ∧
      (2 - (growth (3 * m.dim + 6 + s) : ℚ)) * tourCost d q ≤ 2 * (w : ℝ) := by
  have hT := tourCost_metric_nonneg hd.met (by omega) hq.1
  have hG1 : (1 : ℝ) ≤ ((growth (3 * m.dim + 6) : ℚ) : ℝ) := by exact_mod_cast one_le_growth _
  have hG2 : ((growth (3 * m.dim + 6) : ℚ) : ℝ) ≤ 2 := by
    exact_mod_cast growth_le_two (by omega : 3 * m.dim + 6 ≤ 2 ^ 52)
  have hH := one_add_le_growth s
  have hε : (0 : ℝ) ≤ s * (2 : ℝ) ^ (-53 : ℤ) := by positivity
  have hε1 := ulp_le_one hs
  have hup : (w : ℝ) ≤ ((growth (3 * m.dim + 6) : ℚ) : ℝ) * (W : ℝ) := by exact_mod_cast hw.up
  have hdown : (2 - ((growth (3 * m.dim + 6) : ℚ) : ℝ)) * (W : ℝ) ≤ (w : ℝ) := by exact_mod_cast hw.down
  have hWq : (W : ℝ) ≤ ((tourCost c q : ℚ) : ℝ) := by exact_mod_cast hW q hq.1
  have hFW' : ((edgeSum c F : ℚ) : ℝ) ≤ (W : ℝ) := by exact_mod_cast hFW
  have hcq := (abs_le.mp (tourCost_near hd (by omega) hq.1)).2
  have hFe : ∀ e ∈ F, e.1 < m.dim ∧ e.2 < m.dim ∧ e.1 ≠ e.2 := by
    intro e he
    simpa using hF.ends e he
  have hcF := (abs_le.mp (edgeSum_near hd hFe)).1
  obtain ⟨p, p1, p2⟩ := double_tree (by omega) hd.met hF
  have hp := hq.2 p p1
  rw [growth_add _ s]
  push_cast
  generalize ((growth (3 * m.dim + 6) : ℚ) : ℝ) = G at *
  generalize ((growth s : ℚ) : ℝ) = H at *
  generalize (s : ℝ) * (2 : ℝ) ^ (-53 : ℤ) = ε at *
  generalize tourCost d q = T at *
  generalize ((tourCost c q : ℚ) : ℝ) = T' at *
  generalize edgeSum d F = S at *
  generalize ((edgeSum c F : ℚ) : ℝ) = S' at *
  have hGH : G * (1 + ε) ≤ G * H := mul_le_mul_of_nonneg_left hH (by linarith)
  constructor
  · have e1 := mul_le_mul_of_nonneg_left (show (W : ℝ) ≤ (1 + ε) * T by linarith) (show 0 ≤ G by linarith)
    have e2 := mul_le_mul_of_nonneg_right hGH hT
    nlinarith
  · have e1 : (1 - ε) * T ≤ 2 * (W : ℝ) := by
      have := mul_le_mul_of_nonneg_left (hp.trans p2) (show 0 ≤ 1 - ε by linarith)
      nlinarith
    have e2 := mul_le_mul_of_nonneg_left e1 (show 0 ≤ 2 - G by linarith)
    have e3 := mul_le_mul_of_nonneg_right hGH hT
    have e4 : 0 ≤ (G - 1) * (ε * T) := mul_nonneg (by linarith) (mul_nonneg hε hT)
    nlinarith

/-- a tour of which `w` is an accurate length -/
theorem near_tour (hn : 3 ≤ m.dim) (hsize : m.dim ≤ 2 ^ 40) (hs : s ≤ 2 ^ 40)
    (hd : NearMetric m.dim c d (s * (2 : ℝ) ^ (-53 : ℤ))) {w : ℚ} {p : List Nat} (hp : IsTour m.dim p)
    (hw : Accurate m.dim w (tourCost c p)) {q : List Nat} (hq : IsShortest m.dim d q) :
    |(w : ℝ) - tourCost d p| ≤ (((growth (m.dim + s) : ℚ) : ℝ) - 1) * tourCost d p ∧
    (2 - (growth (m.dim + s) : ℚ)) * tourCost d q ≤ (w : ℝ) := by
  have hT := tourCost_metric_nonneg hd.met (by omega) hp
  have h1 := near_growth hT hw (tourCost_near hd (by omega) hp)
  refine ⟨h1, ?_⟩
  have hG2 : ((growth (m.dim + s) : ℚ) : ℝ) ≤ 2 := by
    exact_mod_cast growth_le_two (by omega : m.dim + s ≤ 2 ^ 52)
  have h2 := mul_le_mul_of_nonneg_left (hq.2 p hp) (show 0 ≤ 2 - ((growth (m.dim + s) : ℚ) : ℝ) by linarith)
  have h3 := (abs_le.mp h1).1
  linarith

/-- nearest neighbour tours -/
theorem near_greedy (hn : 3 ≤ m.dim) (hm : Rep m c) (hsym : Symm m.dim c)
    (hd : NearMetric m.dim c d (s * (2 : ℝ) ^ (-53 : ℤ))) {i : Nat} (hi : i < m.dim) {w : ℚ} {p : List Nat}
    {x : XNum ℚ} (hp : singleNN m i = .ok (x, p)) (hw : Accurate m.dim w (tourCost c p)) {q : List Nat}
    (hq : IsTour m.dim q) :
    2 * (w : ℝ) ≤ (growth (m.dim + s) : ℚ) * ((Nat.clog 2 m.dim + 1 : ℕ) * tourCost d q) := by
  obtain ⟨p', h1, h2, -, h4⟩ := singleNN_exact hm hi
  rw [h1] at hp
  injection hp with hp
  injection hp with _ hp
  subst hp
  have hε : (0 : ℝ) ≤ s * (2 : ℝ) ^ (-53 : ℤ) := by positivity
  have h5 := greedy_ratio_near hd.met (by omega) (A := 1 + s * (2 : ℝ) ^ (-53 : ℤ)) (by linarith)
    (c := realCost c) (fun i j hi hj _ => by unfold realCost; rw [hsym i j hi hj])
    (fun i j hi hj hij => by
      have := (abs_le.mp (hd.near i j hi hj hij)).2
      unfold realCost
      linarith)
    (fun h => by omega) h2 h4.real hq
  rw [tourCost_real] at h5
  have hT := tourCost_metric_nonneg hd.met (by omega) hq
  have hX : 0 ≤ ((Nat.clog 2 m.dim + 1 : ℕ) : ℝ) * tourCost d q := mul_nonneg (Nat.cast_nonneg _) hT
  have hup : (w : ℝ) ≤ ((growth m.dim : ℚ) : ℝ) * ((tourCost c p' : ℚ) : ℝ) := by exact_mod_cast hw.up
  have hG1 : (1 : ℝ) ≤ ((growth m.dim : ℚ) : ℝ) := by exact_mod_cast one_le_growth _
  have hH := one_add_le_growth s
  rw [growth_add]
  push_cast at hX h5 ⊢
  generalize ((growth m.dim : ℚ) : ℝ) = G at *
  generalize ((growth s : ℚ) : ℝ) = H at *
  generalize (s : ℝ) * (2 : ℝ) ^ (-53 : ℤ) = ε at *
  generalize ((Nat.clog 2 m.dim : ℝ) + 1) * tourCost d q = X at *
  have e1 := mul_le_mul_of_nonneg_left (h5.trans (mul_le_mul_of_nonneg_right hH hX)) (show 0 ≤ G by linarith)
  nlinarith

end

/-- a tour is at most `n / 2` times as long as another -/
theorem near_far {s n : Nat} (hn : 3 ≤ n) {c : Nat → Nat → ℚ} {d : Nat → Nat → ℝ}
    (h : NearMetric n c d (s * (2 : ℝ) ^ (-53 : ℤ))) {p : List Nat} (hp : IsTour n p) {w : ℚ}
    (hw : Accurate n w (tourCost c p)) {q : List Nat} (hq : IsTour n q) :
    2 * (w : ℝ) ≤ (growth (n + s) : ℚ) * (n * tourCost d q) := by
  have hT := tourCost_metric_nonneg h.met (by omega) hp
  have h1 : w ≤ growth n * tourCost c p := by
    have := (abs_le.mp hw).2
    linarith
  have f3 : (w : ℝ) ≤ ((growth n : ℚ) : ℝ) * ((tourCost c p : ℚ) : ℝ) := by exact_mod_cast h1
  have f4 := (abs_le.mp (tourCost_near h (by omega) hp)).2
  have hG1 : (1 : ℝ) ≤ ((growth n : ℚ) : ℝ) := by exact_mod_cast one_le_growth _
  have hG2 : (1 : ℝ) ≤ ((growth s : ℚ) : ℝ) := by exact_mod_cast one_le_growth _
  have hH := mul_le_mul_of_nonneg_right (one_add_le_growth s) hT
  have f5 := mul_le_mul_of_nonneg_left (show ((tourCost c p : ℚ) : ℝ) ≤
    ((growth s : ℚ) : ℝ) * tourCost d p by linarith) (show 0 ≤ ((growth n : ℚ) : ℝ) by linarith)
  have f6 := mul_le_mul_of_nonneg_left (mul_le_mul_of_nonneg_left (tour_ratio h.met hp hq)
    (show 0 ≤ ((growth s : ℚ) : ℝ) by linarith)) (show 0 ≤ ((growth n : ℚ) : ℝ) by linarith)
  rw [growth_add]
  push_cast
  linarith

/-- `opt` is the length of a shortest tour for the distances `d`, and in IEEE double precision, for every
command, with and without MPI, all random numbers, schedules and message orders, the lines of the output are
as described in `NearLine`, and `walky exact` with v0 or v1 on one thread prints a tour, whose length for `d`
and the printed number are `opt`, up to relative errors of `(1 + 2⁻⁵³)^(n+s) - 1`. -/
def OutputNear (s : Nat) (g : Graph (XNum ℚ)) (d : Nat → Nat → ℝ) (opt : ℝ) : Prop :=
  ((∃ p, IsTour g.length p ∧ tourCost d p = opt) ∧ ∀ p, IsTour g.length p → opt ≤ tourCost d p) ∧
  (∀ env : Env (XNum ℚ), env.Ok →
    (∀ cmd lines, @Runs _ binary64.ops env g cmd (.ok lines) → ∀ l ∈ lines,
      @Trusted _ binary64.ops env g cmd l → NearLine s g.length opt l) ∧
    (∀ a ∈ [ExactAlgorithm.v0, .v1], ∀ out, @Runs _ binary64.ops env g (.exact a .singleThreaded) out →
      ∃ q w, out = .ok [.bestCost (.fin w), .bestPermutation q] ∧ IsTour g.length q ∧
        |(w : ℝ) - tourCost d q| ≤ ((growth (g.length + s) : ℚ) - 1) * tourCost d q ∧
        (2 - (growth (g.length + s) : ℚ)) * opt ≤ (w : ℝ) ∧ (w : ℝ) ≤ (growth (g.length + s) : ℚ) * opt)) ∧
  ∀ env : MpiEnv (XNum ℚ), env.Ok → ∀ cmd outs, @MpiRuns _ binary64.ops env g cmd outs →
    ∀ o ∈ outs, ∀ l ∈ o.lines, NearLine s g.length opt l

/-- **C88 (partial)** An accepted instance with at least three and at most `2 ^ 40` cities, without edges
from a vertex to itself, whose costs are doubles between 0 and `M` with `2 n M (1 + 2⁻⁵³)^(3n+6) ≤ 2^1023`
and differ from a metric `d` by a relative error of at most `s · 2⁻⁵³`, where `s ≤ 2 ^ 40`. In IEEE double precision, for every
command, with and without MPI, all random numbers, schedules and message orders: if `opt` is the length of a
shortest tour for `d`, every lower bound in the output is between `opt / 2` and `opt`, every nearest
neighbour length is between `opt` and `(⌈log₂ n⌉ + 1) / 2 · opt`, and every Christofides length is between `opt`
and `n / 2 · opt`, up to the relative rounding errors of `NearLine`; the last claim is made about release
builds with several threads only if the matching repeats no edge (`Trusted`). `walky exact` with v0 or v1 on one thread prints a tour
whose length for `d` and the printed number are `opt` up to the rounding errors. If the matrix passes
`is_metric`, `walky approx christofides` on one thread does not panic in any build. Missing: what `walky
exact` prints in the other cases. -/
theorem C88_near_metric_partial {s : Nat} (hs : s ≤ 2 ^ 40) {g : Graph (XNum ℚ)} (hacc : doConditionsHold g = .ok true)
    (hl : NoLoop g) (hn : 3 ≤ g.length) (hsize : g.length ≤ 2 ^ 40) {M : ℚ}
    (hc : ∀ es ∈ g, ∀ e ∈ es, ∃ x, e.cost = .fin x ∧ IsDouble x ∧ 0 ≤ x ∧ x ≤ M)
    (hB : growth (3 * g.length + 6) * (2 * (g.length * M)) ≤ (2 : ℚ) ^ (1023 : ℤ))
    {d : Nat → Nat → ℝ} (hd : Metric g.length d)
    (hnear : ∀ (i : Nat) (es : List (Edge (XNum ℚ))), g[i]? = some es → ∀ e ∈ es, ∀ x, e.cost = .fin x →
      |(x : ℝ) - d i e.dst| ≤ s * (2 : ℝ) ^ (-53 : ℤ) * d i e.dst) :
    (∃ opt, OutputNear s g d opt) ∧
      ((∀ m, (do @naFromGraph _ binary64.ops (← @parseChecked _ binary64.ops g)) = .ok m → @Mat.isMetric _ binary64.ops m = true) →
        ∀ env : Env (XNum ℚ), env.Ok → ∀ lb out,
          @Runs _ binary64.ops env g (.approx .christofides .singleThreaded lb) out → ∃ lines, out = .ok lines) := by
  have hnn : NonnegCosts g := by
    intro i es hi e he
    obtain ⟨x, hx, -, h0, -⟩ := hc es (List.mem_of_getElem? hi) e he
    exact ⟨x, hx, h0⟩
  obtain ⟨m, c, hm0, hdim, hm, hsym, hnnc, hcost⟩ := instance_matrix hacc hl hnn hn
  have hcomp := complete_of_accepted hacc hl
  have hM : 0 ≤ M := by
    have h0 : 0 < g.length := by omega
    obtain ⟨e, he, -⟩ := List.mem_map.mp ((hcomp.mem (List.getElem?_eq_getElem h0)).mpr
      ⟨(by omega : 1 < g.length), (by decide)⟩)
    obtain ⟨x, -, -, k1, k2⟩ := hc _ (List.getElem_mem h0) e he
    exact k1.trans k2
  have hm1 : naFromGraph g = .ok m := by
    have hpg : parseChecked g = .ok g := (C55_complete_accepted hcomp).2
    rw [hpg, rm_bind_ok] at hm0
    exact hm0
  have hD : DoubleCosts M m := by
    obtain ⟨-, k⟩ := naFromGraph_pred (P := fun y => ∀ x, y = XNum.fin x → IsDouble x ∧ 0 ≤ x ∧ x ≤ M)
      (fun x hx => by rw [← XNum.fin.inj hx]; exact ⟨isDouble_zero, le_rfl, hM⟩)
      (fun x hx => (by cases hx)) (fun es hes e he x hx => by
        obtain ⟨y, hy, k⟩ := hc es hes e he
        rw [hy] at hx
        rwa [← XNum.fin.inj hx]) hm1
    exact k
  have hE : NearMetric m.dim c d (s * (2 : ℝ) ^ (-53 : ℤ)) := by
    rw [hdim]
    refine ⟨hd, fun i j hi hj hij => ?_⟩
    have hgi := List.getElem?_eq_getElem hi
    obtain ⟨e, he, hej⟩ := List.mem_map.mp ((hcomp.mem hgi).mpr ⟨hj, hij.symm⟩)
    have := hnear i _ hgi e he _ (hcost i _ hgi e he)
    rwa [hej] at this
  have hn3 : 3 ≤ m.dim := by omega
  unfold OutputNear
  rw [← hdim] at hB hsize ⊢
  have h0 : 0 ≤ (m.dim : ℚ) * M := mul_nonneg (Nat.cast_nonneg _) hM
  have hB1 : growth (3 * m.dim + 2) * (2 * (m.dim * M)) ≤ (2 : ℚ) ^ (1023 : ℤ) :=
    (mul_le_mul_of_nonneg_right (growth_mono (by omega)) (by linarith)).trans hB
  have hB2 : growth m.dim * (m.dim * M) ≤ (2 : ℚ) ^ (1023 : ℤ) :=
    (mul_le_mul (growth_mono (by omega)) (by linarith) h0
      (by have := one_le_growth (3 * m.dim + 6); linarith)).trans hB
  obtain ⟨q, hq⟩ := exists_shortest d m.dim
  have hm0' : (do @naFromGraph _ binary64.ops (← @parseChecked _ binary64.ops g)) = .ok m := hm0
  -- the bounds
  obtain ⟨F, hF, hFmin, -, ⟨t, wt, t1, t2, t3, t4⟩, hqueue⟩ := C74_mst hm hsym hD (by omega) hB1
  have hFpos : 0 ≤ edgeSum c F := by
    refine List.sum_nonneg ?_
    intro x hx
    obtain ⟨e, he, rfl⟩ := List.mem_map.mp hx
    obtain ⟨k1, k2, k3⟩ := hF.ends e he
    exact hnnc _ _ (by simpa using k1) (by simpa using k2) k3
  obtain ⟨te, E, e1, e2, -, e3⟩ := prim_tree hm (by omega)
  have hFE := hFmin E e2
  have hFtour : ∀ q, IsTour m.dim q → edgeSum c F ≤ tourCost c q := by
    intro q hq
    obtain ⟨t', w', k1, k2, k3⟩ := C32_mst_lower_bound hm hsym hnnc (fun h => by omega) (by omega)
    rw [e1] at k1
    rw [← Except.ok.inj k1, e3] at k2
    have k2 := XNum.fin.inj k2
    exact hFE.trans (k2.le.trans (k3 q hq))
  obtain ⟨W, w1, o1, o2, o3, o4, -, o5, o6⟩ := C74_one_tree hm hsym hD hn3 hB
  have hFW : edgeSum c F ≤ W := by
    obtain ⟨w, t', w', k1, k2, k3, k4⟩ := C36_one_tree_ge_mst hm hsym hnnc hn3
    rw [o1] at k1
    have k1 := XNum.fin.inj (Except.ok.inj k1)
    rw [e1] at k2
    rw [← Except.ok.inj k2, e3] at k3
    have k3 := XNum.fin.inj k3
    exact hFE.trans (k3.le.trans (k4.trans k1.ge))
  have hgo : NearLine s m.dim (tourCost d q) (.oneTreeBound (.fin w1)) := by
    obtain ⟨k1, k2⟩ := near_bound hn3 hsize hs hE hF hFW o2 o4 hq
    exact .bound rfl k1 k2
  have hgt : ∀ w, Accurate (3 * m.dim + 2) w (edgeSum c F) →
      NearLine s m.dim (tourCost d q) (.mstBound (.fin w)) := by
    intro w hw
    obtain ⟨k1, k2⟩ := near_bound hn3 hsize hs hE hF le_rfl hFtour (hw.mono hFpos (by omega)) hq
    exact .bound rfl k1 k2
  -- nearest neighbour
  obtain ⟨p, wn, n1, -, n2, n3⟩ := C75_nearest_neighbour hm hD hB2
  have hgn : ∀ j < m.dim, NearLine s m.dim (tourCost d q) (.nnWeight (.fin (wn j))) := by
    intro j hj
    obtain ⟨k1, k2, -, k3⟩ := n1 j hj
    refine ⟨fun x hx => (by cases hx), fun x hx => ?_, fun x hx => (by cases hx)⟩
    injection hx with hx
    exact ⟨wn j, hx.symm, (near_tour hn3 hsize hs hE k1 k3 hq).2, near_greedy hn3 hm hsym hE hj k2 k3 hq.1⟩
  -- Christofides
  have hgc : ∀ w p, IsTour m.dim p → Accurate m.dim w (tourCost c p) →
      NearLine s m.dim (tourCost d q) (.christofidesWeight (.fin w)) := by
    intro w p hp hw
    refine ⟨fun x hx => (by cases hx), fun x hx => (by cases hx), fun x hx => ?_⟩
    injection hx with hx
    exact ⟨w, hx.symm, (near_tour hn3 hsize hs hE hp hw hq).2, near_far hn3 hE hp hw hq.1⟩
  have hb : ∀ x, NearLine s m.dim (tourCost d q) (.bestCost x) := fun x =>
    .other rfl (fun _ h => by cases h) (fun _ h => by cases h)
  have hp : ∀ x, NearLine s m.dim (tourCost d q) (.bestPermutation x) := fun x =>
    .other rfl (fun _ h => by cases h) (fun _ h => by cases h)
  have ht : ∀ x, NearLine s m.dim (tourCost d q) (.nnTour x) := fun x =>
    .other rfl (fun _ h => by cases h) (fun _ h => by cases h)
  refine ⟨⟨tourCost d q, ⟨⟨q, hq.1, rfl⟩, hq.2⟩, fun env he => ⟨fun cmd lines hrun => ?_, ?_⟩,
    fun env he cmd outs hrun => ?_⟩, fun hmet env he lb out h => ?_⟩
  · refine @run_lines _ binary64.ops g m hm0' env cmd _ (fun x _ => hb x) (fun x _ => hp x) (fun x _ => ht x)
      ?_ ?_ ?_ ?_ lines hrun
    · intro w hw _
      have : w = .fin w1 := by
        rcases hw with hw | hw
        · rw [o3] at hw; exact (Except.ok.inj hw).symm
        · rw [o5 _ he.oneTreeShape] at hw; exact (Except.ok.inj hw).symm
      rw [this]
      exact hgo
    · intro t' h' _
      rcases h' with h' | h' | h'
      · rw [t1] at h'
        rw [← Except.ok.inj h', t2]
        exact hgt wt t3
      · rw [t4 _ _ he.sched.shape he.sched.update] at h'
        rw [← Except.ok.inj h', t2]
        exact hgt wt t3
      · obtain ⟨t'', w', k1, k2, k3⟩ := hqueue _ he.peek
        rw [k1] at h'
        rw [← Except.ok.inj h', k2]
        exact hgt w' k3
    · intro r hr _
      obtain ⟨j, j1, j2, j3, -⟩ := n2 (by omega) _ (he.starts m.dim)
      have : r = (.fin (wn j), p j) := by
        rcases hr with hr | hr
        · rw [j2] at hr; exact (Except.ok.inj hr).symm
        · rw [j3 _ he.nnShape] at hr; exact (Except.ok.inj hr).symm
      rw [this]
      exact hgn j j1
    · intro r hr hsafe
      rcases hr with hr | hr
      · obtain ⟨⟨p', w, k1, k2, -, k3⟩, -⟩ := C76_christofides_partial hm hD (by omega) hB2
          (christofidesSeq_metric hr) he.rng
        rw [k1] at hr
        rw [← Except.ok.inj hr]
        exact hgc w p' k2 k3
      · obtain ⟨⟨lb, rfl⟩, hr⟩ := hr
        obtain ⟨-, -, k⟩ := C76_christofides_partial hm hD (by omega) hB2
          (christofidesPar_metric hr) he.rng
        obtain ⟨p', w, k1, k2, -, k3⟩ := k _ _ he.sched (hsafe ⟨_, rfl⟩ m hm0') hr
        rw [k1]
        exact hgc w p' k2 k3
  · intro a ha out h
    simp only [Runs, ExactRun, hm0'] at h
    obtain ⟨e0, e1⟩ := C66_relative_partial hm (fun i j hi hj hij => hD.cost hm hi hj hij) hn3 hB2
    have hfin : ∀ p w, IsTour m.dim p → Accurate m.dim w (tourCost c p) →
        (∀ q, IsTour m.dim q → w ≤ growth m.dim * tourCost c q) →
        |(w : ℝ) - tourCost d p| ≤ ((growth (m.dim + s) : ℚ) - 1) * tourCost d p ∧
          (2 - (growth (m.dim + s) : ℚ)) * tourCost d q ≤ (w : ℝ) ∧
          (w : ℝ) ≤ (growth (m.dim + s) : ℚ) * tourCost d q := by
      intro p w k1 k2 k3
      obtain ⟨f1, f2⟩ := near_tour hn3 hsize hs hE k1 k2 hq
      refine ⟨f1, f2, ?_⟩
      have hT := tourCost_metric_nonneg hE.met (by omega) hq.1
      have f3 : (w : ℝ) ≤ ((growth m.dim : ℚ) : ℝ) * ((tourCost c q : ℚ) : ℝ) := by
        exact_mod_cast k3 q hq.1
      have f4 := (abs_le.mp (tourCost_near hE (by omega) hq.1)).2
      have hG1 : (1 : ℝ) ≤ ((growth m.dim : ℚ) : ℝ) := by exact_mod_cast one_le_growth _
      have hH := mul_le_mul_of_nonneg_right (one_add_le_growth s) hT
      rw [growth_add]
      push_cast
      have f5 := mul_le_mul_of_nonneg_left (show ((tourCost c q : ℚ) : ℝ) ≤
        ((growth s : ℚ) : ℝ) * tourCost d q by linarith) (show 0 ≤ ((growth m.dim : ℚ) : ℝ) by linarith)
      rw [mul_assoc]
      exact f3.trans f5
    simp only [List.mem_cons, List.not_mem_nil, or_false] at ha
    rcases ha with rfl | rfl
    · obtain ⟨p, w, k1, k2, k3, k4⟩ := e0
      simp only [k1] at h
      exact ⟨p, w, h, k2, hfin p w k2 k3 k4⟩
    · obtain ⟨p, w, k1, k2, k3, k4⟩ := e1 hsym
      simp only [k1] at h
      exact ⟨p, w, h, k2, hfin p w k2 k3 k4⟩
  · refine @mpi_lines _ binary64.ops g m hm0' env _ hb hp ht ?_ ?_ ?_ ?_ cmd outs hrun
    · intro w hw
      have hs : env.size ≤ m.dim := by
        by_contra hlt
        obtain ⟨e, he'⟩ := @C35_mpi_too_many_ranks _ binary64.ops env.oneTreeShape m _ (not_le.mp hlt)
        rw [he'] at hw
        cases hw
      rw [o6 _ _ he.oneTreeShape he.size hs] at hw
      rw [← Except.ok.inj hw]
      exact hgo
    · intro t' h'
      rcases h' with h' | ⟨r, h'⟩
      · rw [t1] at h'
        rw [← Except.ok.inj h', t2]
        exact hgt wt t3
      · obtain ⟨t'', w', k1, k2, k3⟩ := hqueue _ (he.peek r)
        rw [k1] at h'
        rw [← Except.ok.inj h', k2]
        exact hgt w' k3
    · intro rs hrs r hr
      have hs : env.size ≤ m.dim := by
        by_contra hlt
        obtain ⟨e, he'⟩ := @C40_too_many_ranks _ binary64.ops env.nnShape m _ (not_le.mp hlt)
        rw [he'] at hrs
        cases hrs
      obtain ⟨j, j1, j2, -⟩ := n3 _ _ he.nnShape he.size hs
      rw [j2] at hrs
      rw [← Except.ok.inj hrs] at hr
      rw [List.eq_of_mem_replicate hr]
      exact hgn j j1
    · intro r hr
      obtain ⟨-, k, -⟩ := C76_christofides_partial hm hD (by omega) hB2 (dbg := env.dbg)
        (christofidesMpi_metric hr) he.rng
      obtain ⟨p', w, k1, k2, -, k3⟩ := k (by omega) _ he.shufs _ he.size
      rw [k1] at hr
      rw [← Except.ok.inj hr]
      exact hgc w p' k2 k3
  · simp only [Runs, ApproxRun, hm0'] at h
    obtain ⟨res, ha, hb⟩ := h
    obtain ⟨⟨p', w, k1, -⟩, -⟩ := C76_christofides_partial hm hD (by omega) hB2 (dbg := env.dbg)
      (fun _ => hmet m hm0) he.rng
    rw [k1] at ha
    rw [ha] at hb
    obtain ⟨c', k2, k3⟩ := C77_double_precision_partial hacc hl hn hc (by rw [← hdim]; exact hB)
    obtain ⟨hlb, -⟩ := k3 env he
    rw [hb]
    unfold withBound
    cases lb with
    | none => exact ⟨_, rfl⟩
    | some a =>
      obtain ⟨line, f1, -⟩ := hlb a .singleThreaded _ rfl
      exact ⟨[.christofidesWeight (.fin w)] ++ [line], by simp only [f1]; rfl⟩

/-- the Euclidean distances of points with the given indices -/
noncomputable def pointsDist (pts : List (ℚ × ℚ)) (i j : Nat) : ℝ := euclid (pointAt pts i) (pointAt pts j)

theorem pointsDist_metric (pts : List (ℚ × ℚ)) (n : Nat) : Metric n (pointsDist pts) :=
  ⟨fun _ _ => euclid_self _, fun _ _ _ _ => euclid_comm _ _, fun _ _ _ _ _ _ => euclid_tri _ _ _⟩

/-- the graph of a generated instance without equal points -/
theorem generated_costs (ks : List (Nat × Nat)) (hk : ∀ k ∈ ks, k.1 < 2 ^ 53 ∧ k.2 < 2 ^ 53) :
    ∃ pts : List (ℚ × ℚ), randomPoints ks = finPoints pts ∧ pts.length = ks.length ∧
      (∀ p ∈ pts, DoublePoint 10 p) ∧ (pts.Nodup →
      @doConditionsHold _ binary64.ops (@genGraph _ binary64.ops (@genMatrix _ binary64.ops sqrt64 (randomPoints ks))) = .ok true ∧ @NoLoop _ (@genGraph _ binary64.ops (@genMatrix _ binary64.ops sqrt64 (randomPoints ks))) ∧ (@genGraph _ binary64.ops (@genMatrix _ binary64.ops sqrt64 (randomPoints ks))).length = ks.length ∧
      ∀ (i : Nat) (es : List (Edge (XNum ℚ))), (@genGraph _ binary64.ops (@genMatrix _ binary64.ops sqrt64 (randomPoints ks)))[i]? = some es → ∀ e ∈ es, ∃ x, e.cost = .fin x ∧
        i < ks.length ∧ e.dst < ks.length ∧ i ≠ e.dst ∧ IsDouble x ∧ 0 ≤ x ∧ x ≤ 32 ∧
        |(x : ℝ) - pointsDist pts i e.dst| ≤ (2 : ℝ) ^ (-50 : ℤ) * pointsDist pts i e.dst) := by
  obtain ⟨pts, h1, h2, h3, h4⟩ := randomPoints_spec ks hk
  refine ⟨pts, h1, h2, h3, fun hnd => ?_⟩
  have h10 : (10 : ℚ) ≤ 10000 := by norm_num
  have h5 : ∀ p ∈ pts, DoublePoint (pow2 500) p := fun p hp => (h3 p hp).mono (h10.trans le_pow500)
  have hacc := (C87_generated_partial (pts := pts) (by rw [← pow2_eq]; exact h5)
    (fun p hp => (h4 p hp).coarse (by norm_num))).mpr hnd
  have hz : @FloatOps.eq _ binary64.ops (@FloatOps.zero _ binary64.ops) (@FloatOps.zero _ binary64.ops) = true := by
    decide +kernel
  have hloop := @genGraph_noLoop _ binary64.ops hz sqrt64 (finPoints pts)
  rw [h1]
  have hl : (finPoints pts).length = pts.length := by simp [finPoints]
  have hlen := @genGraph_length _ binary64.ops sqrt64 (finPoints pts)
  rw [hl, h2] at hlen
  -- the costs
  have hcost : ∀ (i : Nat) (es : List (Edge (XNum ℚ))),
      (@genGraph _ binary64.ops (@genMatrix _ binary64.ops sqrt64 (finPoints pts)))[i]? = some es →
      ∀ e ∈ es, e.cost = .fin (dist64 (pointAt pts i) (pointAt pts e.dst)) ∧ i < pts.length ∧
        e.dst < pts.length ∧ i ≠ e.dst := by
    intro i es hi e he
    have hij : i ≠ e.dst := fun h => hloop i es hi e he h.symm
    obtain ⟨p, q, b1, b2, b3, -⟩ := (@mem_genGraph _ binary64.ops _ _ _ _ hi e).mp he
    have hi' : i < pts.length := by rw [← hl]; exact (List.getElem?_eq_some_iff.mp b1).1
    have hj' : e.dst < pts.length := by rw [← hl]; exact (List.getElem?_eq_some_iff.mp b2).1
    rw [finPoints_get hi'] at b1
    rw [finPoints_get hj'] at b2
    refine ⟨?_, hi', hj', hij⟩
    rw [b3, if_pos hij, ← Option.some.inj b1, ← Option.some.inj b2]
    exact genDist64 (h5 _ (pointAt_mem hi')) (h5 _ (pointAt_mem hj'))
  have hnear : ∀ i j, i < pts.length → j < pts.length → i ≠ j →
      |(dist64 (pointAt pts i) (pointAt pts j) : ℝ) - pointsDist pts i j| ≤
        (2 : ℝ) ^ (-50 : ℤ) * pointsDist pts i j := by
    intro i j hi hj hij
    have hne : pointAt pts i ≠ pointAt pts j := by
      unfold pointAt
      rw [List.getElem?_eq_getElem hi, List.getElem?_eq_getElem hj]
      exact fun h => hij ((List.Nodup.getElem_inj_iff hnd).mp h)
    have e1 := (dist64_spec (h5 _ (pointAt_mem hi)) (h5 _ (pointAt_mem hj))).2.2.2.2
    have e2 := grid_euclid hne (h4 _ (pointAt_mem hi)) (h4 _ (pointAt_mem hj))
    have e3 : (2 : ℝ) ^ (-535 : ℤ) ≤ (2 : ℝ) ^ (-51 : ℤ) * euclid (pointAt pts i) (pointAt pts j) := by
      refine le_trans ?_ (mul_le_mul_of_nonneg_left e2 (by positivity))
      rw [← zpow_add₀ (by norm_num)]
      exact zpow_le_zpow_right₀ (by norm_num) (by norm_num)
    have e4 : (2 : ℝ) ^ (-50 : ℤ) = 2 * (2 : ℝ) ^ (-51 : ℤ) := by norm_num
    unfold pointsDist
    rw [e4]
    unfold Near64 at e1
    linarith
  refine ⟨hacc, hloop, hlen, ?_⟩
  intro i es hi e he
  obtain ⟨k1, k2, k3, k4⟩ := hcost i es hi e he
  obtain ⟨-, -, d1, d2, -⟩ := dist64_spec (h5 _ (pointAt_mem k2)) (h5 _ (pointAt_mem k3))
  have hnr := hnear _ _ k2 k3 k4
  refine ⟨_, k1, by omega, by omega, k4, d1, d2, ?_, hnr⟩
  have e1 := (abs_le.mp hnr).2
  have e2 := euclid_le (h3 _ (pointAt_mem k2)) (h3 _ (pointAt_mem k3))
  have e3 : (2 : ℝ) ^ (-50 : ℤ) ≤ 1 / 15 := by norm_num
  have e4 := mul_le_mul_of_nonneg_right e3 (euclid_nonneg (pointAt pts i) (pointAt pts e.dst))
  unfold pointsDist at e1
  generalize (2 : ℝ) ^ (-50 : ℤ) = a at e1 e4
  push_cast at e2
  have : ((dist64 (pointAt pts i) (pointAt pts e.dst) : ℚ) : ℝ) ≤ ((32 : ℚ) : ℝ) := by
    push_cast
    linarith
  exact_mod_cast this

/-- the matrix of a generated instance without equal points passes `is_metric` -/
theorem generated_isMetric (ks : List (Nat × Nat)) (hk : ∀ k ∈ ks, k.1 < 2 ^ 53 ∧ k.2 < 2 ^ 53)
    (hacc : @doConditionsHold _ binary64.ops (@genGraph _ binary64.ops
      (@genMatrix _ binary64.ops sqrt64 (randomPoints ks))) = .ok true) (m' : Mat (XNum ℚ))
    (hm' : (do @naFromGraph _ binary64.ops (← @parseChecked _ binary64.ops (@genGraph _ binary64.ops
      (@genMatrix _ binary64.ops sqrt64 (randomPoints ks))))) = .ok m') : @Mat.isMetric _ binary64.ops m' = true := by
  obtain ⟨pts, h1, h2, h3, -⟩ := generated_costs ks hk
  have h10 : (10 : ℚ) ≤ 10000 := by norm_num
  have h5 : ∀ p ∈ pts, DoublePoint (pow2 500) p := fun p hp => (h3 p hp).mono (h10.trans le_pow500)
  rw [h1] at hm' hacc
  obtain ⟨m, m1, m2, m3⟩ := generated_matrix h5 hacc
  have : m' = m := Except.ok.inj (hm'.symm.trans m1)
  rw [this]
  exact isMetric64 (fun p hp => (h3 p hp).mono h10) m2 m3

/-- **C88, generated instances (partial)** Whatever random numbers the instance generator draws, if no two of
its at least three and at most `2 ^ 40` points are equal: what walky prints about the instance is as
described in `OutputNear` with `s = 8`, measured with the true Euclidean distances of the points; and
`walky approx christofides` on one thread does not panic in any build. Missing: equal points, for which the
instance is not accepted (C87), and what `walky exact` prints with v2 – v6 or several threads. -/
theorem C88_generated_partial (ks : List (Nat × Nat)) (hk : ∀ k ∈ ks, k.1 < 2 ^ 53 ∧ k.2 < 2 ^ 53)
    (hn : 3 ≤ ks.length) (hsize : ks.length ≤ 2 ^ 40) :
    ∃ pts : List (ℚ × ℚ), randomPoints ks = finPoints pts ∧ pts.length = ks.length ∧ (pts.Nodup →
      (∃ opt, OutputNear 8 (@genGraph _ binary64.ops (@genMatrix _ binary64.ops sqrt64 (randomPoints ks)))
        (pointsDist pts) opt) ∧
      ∀ env : Env (XNum ℚ), env.Ok → ∀ lb out, @Runs _ binary64.ops env
        (@genGraph _ binary64.ops (@genMatrix _ binary64.ops sqrt64 (randomPoints ks)))
        (.approx .christofides .singleThreaded lb) out → ∃ lines, out = .ok lines) := by
  obtain ⟨pts, h1, h2, h3, h4⟩ := generated_costs ks hk
  refine ⟨pts, h1, h2, fun hnd => ?_⟩
  obtain ⟨hacc, hloop, hlen, hcost⟩ := h4 hnd
  have hmet := generated_isMetric ks hk hacc
  refine (C88_near_metric_partial (s := 8) (by norm_num) (M := 32) hacc hloop (by omega) (by omega) ?_ ?_ (pointsDist_metric pts _) ?_).imp_right
    (fun r => r hmet)
  · intro es hes e he
    obtain ⟨i, hi⟩ := List.getElem?_of_mem hes
    obtain ⟨x, k1, -, -, -, k2, k3, k4, -⟩ := hcost i es hi e he
    exact ⟨x, k1, k2, k3, k4⟩
  · rw [hlen]
    have g1 := growth_le_two (by omega : 3 * ks.length + 6 ≤ 2 ^ 52)
    have g2 : ((ks.length : ℕ) : ℚ) ≤ 2 ^ 40 := by exact_mod_cast hsize
    have g3 : (2 : ℚ) ^ (47 : ℤ) ≤ (2 : ℚ) ^ (1023 : ℤ) := zpow_le_zpow_right₀ (by norm_num) (by norm_num)
    refine le_trans ?_ g3
    have g4 : 2 * (((ks.length : ℕ) : ℚ) * 32) ≤ 2 ^ 46 := by linarith
    refine le_trans (mul_le_mul g1 g4 (by positivity) (by norm_num)) ?_
    norm_num
  · intro i es hi e he x hx
    obtain ⟨y, k1, -, -, -, -, -, -, k2⟩ := hcost i es hi e he
    rw [k1] at hx
    rw [← XNum.fin.inj hx, eight_ulp]
    exact k2

/-- three drawn points, pairwise different -/
example : (∀ k ∈ [(0, 0), (2 ^ 52, 0), (0, 2 ^ 51)], k.1 < 2 ^ 53 ∧ k.2 < 2 ^ 53) ∧
    randomPoints [(0, 0), (2 ^ 52, 0), (0, 2 ^ 51)] = finPoints [(-10, -10), (0, -10), (-10, -5)] ∧
    [((-10 : ℚ), (-10 : ℚ)), (0, -10), (-10, -5)].Nodup := by
  refine ⟨by decide, by decide +kernel, by decide +kernel⟩

end Walky.Props
