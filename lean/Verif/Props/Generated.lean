import Verif.Props.DoubleCli
import Verif.Props.NearMetric

/-!
# Properties: `walky exact` on generated instances
-/

namespace Walky.Props

open FloatOps XNum Spec

/-- the power of two that C80 needs -/
theorem exists_pow {n : Nat} (hn : 1 ≤ n) (hn' : n ≤ 2 ^ 25) :
    ∃ k : ℤ, -1021 ≤ k ∧ k ≤ 1023 ∧ 4 * (n : ℚ) * 32 ≤ (2 : ℚ) ^ k ∧
      (2 : ℚ) ^ (k - 54) ≤ n * (2 : ℚ) ^ (-46 : ℤ) := by
  have h1 : n < 2 ^ (Nat.log 2 n + 1) := Nat.lt_pow_succ_log_self (by norm_num) n
  have h2 : 2 ^ Nat.log 2 n ≤ n := Nat.pow_log_le_self 2 (by omega)
  have h3 : Nat.log 2 n ≤ 25 := (Nat.log_mono_right hn').trans (by rw [Nat.log_pow (by norm_num)])
  have h1' : (n : ℚ) ≤ (2 : ℚ) ^ ((Nat.log 2 n : ℤ) + 1) := by
    have : (n : ℚ) ≤ (2 : ℚ) ^ (Nat.log 2 n + 1) := by exact_mod_cast h1.le
    calc (n : ℚ) ≤ (2 : ℚ) ^ (Nat.log 2 n + 1) := this
      _ = _ := by rw [← zpow_natCast]; push_cast; rfl
  have h2' : (2 : ℚ) ^ (Nat.log 2 n : ℤ) ≤ n := by
    rw [zpow_natCast]
    exact_mod_cast h2
  generalize Nat.log 2 n = l at *
  refine ⟨(l : ℤ) + 8, by omega, by omega, ?_, ?_⟩
  · rw [show (l : ℤ) + 8 = (l + 1) + 7 by ring, zpow_add₀ (by norm_num)]
    have : (2 : ℚ) ^ (7 : ℤ) = 128 := by norm_num
    rw [this]
    linarith
  · rw [show (l : ℤ) + 8 - 54 = l + (-46) by ring, zpow_add₀ (by norm_num)]
    exact mul_le_mul_of_nonneg_right h2' (by positivity)

/-- An accepted instance without edges from a city to itself, whose costs are doubles between 0 and 32 and
differ from a metric `d` by a relative error of `s · 2⁻⁵³`; this is at most `2⁻⁴⁵`. -/
structure GoodInstance (s : Nat) (g : Graph (XNum ℚ)) (d : Nat → Nat → ℝ) : Prop where
  acc : @doConditionsHold _ binary64.ops g = .ok true
  loop : NoLoop g
  met : Metric g.length d
  far : ∀ i j, i < g.length → j < g.length → s * d i j ≤ 256
  cost : ∀ (i : Nat) (es : List (Edge (XNum ℚ))), g[i]? = some es → ∀ e ∈ es, ∃ x, e.cost = .fin x ∧
    IsDouble x ∧ 0 ≤ x ∧ x ≤ 32 ∧ |(x : ℝ) - d i e.dst| ≤ s * (2 : ℝ) ^ (-53 : ℤ) * d i e.dst

/-- every tour of a good instance is measured accurately -/
theorem tour_good {s n : Nat} (hn : 2 ≤ n) {c : Nat → Nat → ℚ} {d : Nat → Nat → ℝ}
    (h : NearMetric n c d (s * (2 : ℝ) ^ (-53 : ℤ))) (hd : ∀ i j, i < n → j < n → s * d i j ≤ 256) {p : List Nat}
    (hp : IsTour n p) :
    |((tourCost c p : ℚ) : ℝ) - tourCost d p| ≤ 2 * n * (2 : ℝ) ^ (-46 : ℤ) := by
  refine (tourCost_near h hn hp).trans ?_
  have e : 2 * (n : ℝ) * (2 : ℝ) ^ (-46 : ℤ) = n * 256 * (2 : ℝ) ^ (-53 : ℤ) := by norm_num; ring
  rw [e, mul_right_comm]
  refine mul_le_mul_of_nonneg_right ?_ (by positivity)
  rcases Nat.eq_zero_or_pos s with rfl | hs
  · simp only [Nat.cast_zero, zero_mul]
    positivity
  have hs' : (0 : ℝ) < s := by exact_mod_cast hs
  have h1 : |tourCost d p| ≤ (p.length : ℝ) * (256 / s) := tourCost_bound (fun i j hi hj _ => by
    rw [abs_of_nonneg (h.met.nonneg hi hj), le_div_iff₀ hs', mul_comm]
    exact hd i j hi hj) ⟨hp.nodup, fun i hi => hp.mem.mp hi⟩ (by rw [hp.length]; exact hn)
  rw [hp.length] at h1
  have h2 := mul_le_mul_of_nonneg_left (abs_le.mp h1).2 hs'.le
  refine h2.trans (le_of_eq ?_)
  field_simp

/-- `walky exact` prints for `n` cities with the distances `d`: two lines, a number `w` and a tour `q`, both
accurate up to rounding errors.
* `w` differs from the length of `q` by at most `(2 n² + 3) n · 2⁻⁴⁶`.
* Single thread, v0 – v3: no tour is shorter by more than twice that.
* Single thread, v5, and v6 if the hash has no collisions, and several threads (whatever the algorithm): `w` is
  at most `(2 n² + 3 n + 5) n · 2⁻⁴⁶` above twice the length of any tour. -/
def ExactNear (n : Nat) (d : Nat → Nat → ℝ) (hash : List Nat → Nat) (a : ExactAlgorithm) (p : Parallelism)
    (w : ℚ) (q : List Nat) : Prop :=
  IsTour n q ∧
  |(w : ℝ) - tourCost d q| ≤ (2 * n ^ 2 + 3) * n * (2 : ℝ) ^ (-46 : ℤ) ∧
  (p = .singleThreaded → a ∈ [ExactAlgorithm.v0, .v1, .v2, .v3] → ∀ q', IsTour n q' →
    tourCost d q ≤ tourCost d q' + 2 * ((2 * n ^ 2 + 3) * n * (2 : ℝ) ^ (-46 : ℤ))) ∧
  (p = .multiThreaded ∨ a = .v5 ∨ (a = .v6 ∧ ∀ p q : List Nat, p.Nodup → q.Nodup →
      (∀ i ∈ p, i < n) → (∀ i ∈ q, i < n) → hash p = hash q → p = q) →
    ∀ q', IsTour n q' → (w : ℝ) ≤ 2 * tourCost d q' + (2 * n ^ 2 + 3 * n + 5) * n * (2 : ℝ) ^ (-46 : ℤ))

/-- generated instances without equal points are good -/
theorem generated_good (ks : List (Nat × Nat)) (hk : ∀ k ∈ ks, k.1 < 2 ^ 53 ∧ k.2 < 2 ^ 53) :
    ∃ pts : List (ℚ × ℚ), randomPoints ks = finPoints pts ∧ pts.length = ks.length ∧ (pts.Nodup →
      (@genGraph _ binary64.ops (@genMatrix _ binary64.ops sqrt64 (randomPoints ks))).length = ks.length ∧
      GoodInstance 8 (@genGraph _ binary64.ops (@genMatrix _ binary64.ops sqrt64 (randomPoints ks)))
        (pointsDist pts)) := by
  obtain ⟨pts, h1, h2, h3, h4⟩ := generated_costs ks hk
  refine ⟨pts, h1, h2, fun hnd => ?_⟩
  obtain ⟨hacc, hloop, hlen, hcost⟩ := h4 hnd
  refine ⟨hlen, hacc, hloop, pointsDist_metric pts _, fun i j hi hj => ?_, fun i es hi e he => ?_⟩
  · rw [hlen, ← h2] at hi hj
    have e2 := euclid_le (h3 _ (pointAt_mem hi)) (h3 _ (pointAt_mem hj))
    rw [pointsDist]
    push_cast at e2 ⊢
    linarith
  · obtain ⟨x, x1, -, -, -, x2, x3, x4, x5⟩ := hcost i es hi e he
    exact ⟨x, x1, x2, x3, x4, by rw [eight_ulp]; exact x5⟩

/-- `walky exact` on a good instance -/
theorem exact_good {s : Nat} {g : Graph (XNum ℚ)} {d : Nat → Nat → ℝ} (h : GoodInstance s g d)
    (hn : 3 ≤ g.length) (hsize : g.length ≤ 2 ^ 25) (env : Env (XNum ℚ)) (henv : 1 ≤ env.cpus) (a : ExactAlgorithm)
    (p : Parallelism) :
    (∃ out, @Runs _ binary64.ops env g (.exact a p) out) ∧
    ∀ out, @Runs _ binary64.ops env g (.exact a p) out →
      ∃ q w, out = .ok [.bestCost (.fin w), .bestPermutation q] ∧ ExactNear g.length d env.hash a p w q := by
  obtain ⟨k, k1, k2, k3, k4⟩ := exists_pow (by omega) hsize
  have hcomp := @complete_of_accepted _ binary64.ops _ h.acc h.loop
  obtain ⟨c, c1, c2⟩ := C80_exact_double k1 k2 h.acc h.loop (by omega) (by omega) (M := 32)
    (fun es hes e he => by
      obtain ⟨i, hi⟩ := List.getElem?_of_mem hes
      obtain ⟨x, x1, -, x2, x3, -⟩ := h.cost i es hi e he
      exact ⟨x, x1, x2, x3⟩) k3
  have hE : NearMetric g.length c d (s * (2 : ℝ) ^ (-53 : ℤ)) := by
    refine ⟨h.met, fun i j hi hj hij => ?_⟩
    have hgi := List.getElem?_eq_getElem hi
    obtain ⟨e, he, hej⟩ := List.mem_map.mp ((@CompleteUndirected.mem _ binary64.ops _ hcomp _ _ hgi _).mpr ⟨hj, hij.symm⟩)
    obtain ⟨x, x1, -, -, -, x2⟩ := h.cost i _ hgi e he
    rw [c1 i _ hgi e he] at x1
    rw [← XNum.fin.inj x1, hej] at x2
    exact x2
  have hT : ∀ q, IsTour g.length q →
      |((tourCost c q : ℚ) : ℝ) - tourCost d q| ≤ 2 * g.length * (2 : ℝ) ^ (-46 : ℤ) :=
    fun q hq => tour_good (by omega) hE h.far hq
  have hk4 : (2 : ℝ) ^ (k - 54) ≤ g.length * (2 : ℝ) ^ (-46 : ℤ) := by
    have := (Rat.cast_le (K := ℝ)).mpr k4
    push_cast at this
    exact this
  obtain ⟨r1, r2⟩ := c2 env henv a p
  refine ⟨r1, fun out hout => ?_⟩
  obtain ⟨q, w, o1, o2, o3, o4, o5⟩ := r2 out hout
  have o3' : |(w : ℝ) - ((tourCost c q : ℚ) : ℝ)| ≤ (2 * g.length ^ 2 + 1) * (2 : ℝ) ^ (k - 54) := by
    have := (Rat.cast_le (K := ℝ)).mpr o3
    push_cast at this
    exact this
  generalize hN : (g.length : ℝ) = N at *
  have hN0 : 0 ≤ N := by rw [← hN]; positivity
  have hb : (2 * N ^ 2 + 1) * (2 : ℝ) ^ (k - 54) ≤ (2 * N ^ 2 + 1) * (N * (2 : ℝ) ^ (-46 : ℤ)) :=
    mul_le_mul_of_nonneg_left hk4 (by positivity)
  have hb' : (2 * N ^ 2 + 3 * N + 1) * (2 : ℝ) ^ (k - 54) ≤
      (2 * N ^ 2 + 3 * N + 1) * (N * (2 : ℝ) ^ (-46 : ℤ)) :=
    mul_le_mul_of_nonneg_left hk4 (by positivity)
  obtain ⟨t1, t2⟩ := abs_le.mp (hT q o2)
  refine ⟨q, w, o1, o2, ?_, ?_, ?_⟩
  · rw [hN]
    obtain ⟨u1, u2⟩ := abs_le.mp o3'
    rw [abs_le]
    constructor <;> nlinarith
  · intro hp ha q' hq'
    rw [hN]
    obtain ⟨v1, v2⟩ := abs_le.mp (hT q' hq')
    have := o4 hp ha q' hq'
    have : ((tourCost c q : ℚ) : ℝ) ≤ ((tourCost c q' : ℚ) : ℝ) + 2 * ((2 * N ^ 2 + 1) * (2 : ℝ) ^ (k - 54)) := by
      have := (Rat.cast_le (K := ℝ)).mpr this
      push_cast at this
      rw [hN] at this
      exact this
    nlinarith
  · intro hp q' hq'
    rw [hN]
    obtain ⟨v1, v2⟩ := abs_le.mp (hT q' hq')
    have := o5 hp q' hq'
    have : (w : ℝ) ≤ 2 * ((tourCost c q' : ℚ) : ℝ) + (2 * N ^ 2 + 3 * N + 1) * (2 : ℝ) ^ (k - 54) := by
      have := (Rat.cast_le (K := ℝ)).mpr this
      push_cast at this
      rw [hN] at this
      exact this
    nlinarith

/-- **C98** Whatever random numbers the instance generator draws, if no two of its at least three and at most
`2 ^ 25` points are equal: `walky exact` with every algorithm and any number of threads succeeds, and what
it prints is as described in `ExactNear`, measured with the true Euclidean distances of the points. -/
theorem C98_exact_generated (ks : List (Nat × Nat)) (hk : ∀ k ∈ ks, k.1 < 2 ^ 53 ∧ k.2 < 2 ^ 53)
    (hn : 3 ≤ ks.length) (hsize : ks.length ≤ 2 ^ 25) :
    ∃ pts : List (ℚ × ℚ), randomPoints ks = finPoints pts ∧ pts.length = ks.length ∧ (pts.Nodup →
      ∀ env : Env (XNum ℚ), 1 ≤ env.cpus → ∀ a p,
        (∃ out, @Runs _ binary64.ops env
          (@genGraph _ binary64.ops (@genMatrix _ binary64.ops sqrt64 (randomPoints ks))) (.exact a p) out) ∧
        ∀ out, @Runs _ binary64.ops env
          (@genGraph _ binary64.ops (@genMatrix _ binary64.ops sqrt64 (randomPoints ks))) (.exact a p) out →
          ∃ q w, out = .ok [.bestCost (.fin w), .bestPermutation q] ∧
            ExactNear ks.length (pointsDist pts) env.hash a p w q) := by
  obtain ⟨pts, h1, h2, h3⟩ := generated_good ks hk
  refine ⟨pts, h1, h2, fun hnd env henv a p => ?_⟩
  obtain ⟨hlen, hg⟩ := h3 hnd
  have := exact_good hg (by omega) (by omega) env henv a p
  rw [hlen] at this
  exact this

/-- three drawn points: all versions of `walky exact` on every machine -/
example (env : Env (XNum ℚ)) (henv : 1 ≤ env.cpus) (a : ExactAlgorithm) (p : Parallelism)
    (out : RM (List (Line (XNum ℚ))))
    (h : @Runs _ binary64.ops env (@genGraph _ binary64.ops (@genMatrix _ binary64.ops sqrt64
      (randomPoints [(0, 0), (2 ^ 52, 0), (0, 2 ^ 51)]))) (.exact a p) out) :
    ∃ q w, out = .ok [.bestCost (.fin w), .bestPermutation q] ∧
      ExactNear 3 (pointsDist [(-10, -10), (0, -10), (-10, -5)]) env.hash a p w q := by
  obtain ⟨pts, h1, -, h3⟩ := C98_exact_generated [(0, 0), (2 ^ 52, 0), (0, 2 ^ 51)] (by decide) (by decide) (by decide)
  have e : randomPoints [(0, 0), (2 ^ 52, 0), (0, 2 ^ 51)] = finPoints [(-10, -10), (0, -10), (-10, -5)] := by
    decide +kernel
  have hp : pts = [(-10, -10), (0, -10), (-10, -5)] := by
    rw [e] at h1
    refine (List.map_injective_iff.mpr ?_ h1).symm
    rintro ⟨a, b⟩ ⟨c, d⟩ h
    obtain ⟨e1, e2⟩ := Prod.mk.inj h
    exact Prod.ext (XNum.fin.inj e1) (XNum.fin.inj e2)
  rw [hp] at h3
  exact (h3 (by decide +kernel) env henv a p).2 out h

/-- a command other than `exact` on several threads and `approx christofides` on several threads has an outcome -/
theorem runs_exists {α : Type} [FloatOps α] (env : Env α) (g : Graph α) {cmd : Command}
    (h1 : ∀ a, cmd ≠ .exact a .multiThreaded) (h2 : ∀ lb, cmd ≠ .approx .christofides .multiThreaded lb) :
    ∃ out, Runs env g cmd out := by
  cases cmd with
  | lowerBound a p => exact ⟨_, rfl⟩
  | exact a p =>
    cases p with
    | multiThreaded => exact absurd rfl (h1 a)
    | singleThreaded =>
      unfold Runs ExactRun
      simp only
      cases (do naFromGraph (← parseChecked g)) with
      | error e => exact ⟨_, rfl⟩
      | ok m => exact ⟨_, rfl⟩
  | approx a p lb =>
    unfold Runs ApproxRun
    simp only
    cases (do naFromGraph (← parseChecked g)) with
    | error e => exact ⟨_, rfl⟩
    | ok m =>
      cases a with
      | nearestNeighbour =>
        cases p with
        | singleThreaded => exact ⟨_, _, rfl, rfl⟩
        | multiThreaded => exact ⟨_, _, rfl, rfl⟩
      | christofides =>
        cases p with
        | singleThreaded => exact ⟨_, _, rfl, rfl⟩
        | multiThreaded => exact absurd rfl (h2 lb)

theorem good_growth {n : Nat} (hsize : n ≤ 2 ^ 25) :
    growth (3 * n + 6) * (2 * (n * 32)) ≤ (2 : ℚ) ^ (1023 : ℤ) := by
  have h : growth (3 * n + 6) * (2 * (n * 32)) ≤ (2 : ℚ) ^ (47 : ℤ) := by
    have g1 := growth_le_two (by omega : 3 * n + 6 ≤ 2 ^ 52)
    have g2 : ((n : ℕ) : ℚ) ≤ 2 ^ 25 := by exact_mod_cast hsize
    have g4 : 2 * (((n : ℕ) : ℚ) * 32) ≤ 2 ^ 46 := by linarith
    refine le_trans (mul_le_mul g1 g4 (by positivity) (by norm_num)) ?_
    norm_num
  exact h.trans (zpow_le_zpow_right₀ (by norm_num) (by norm_num))

/-- the matrix of a good instance passes `is_metric` -/
theorem good_isMetric {s : Nat} {g : Graph (XNum ℚ)} {d : Nat → Nat → ℝ} (h : GoodInstance s g d) (m : Mat (XNum ℚ))
    (hm : (do @naFromGraph _ binary64.ops (← @parseChecked _ binary64.ops g)) = .ok m) : @Mat.isMetric _ binary64.ops m = true := by
  have hcomp := @complete_of_accepted _ binary64.ops _ h.acc h.loop
  have hpg := (@C55_complete_accepted _ binary64.ops _ hcomp).2
  obtain ⟨m', a1, a2, a3, a4, -⟩ := @naFromGraph_complete _ binary64.ops _ hcomp
  rw [hpg, rm_bind_ok, a1] at hm
  obtain rfl := Except.ok.inj hm
  have hget : ∀ i j, i < g.length → j < g.length → ∃ x : ℚ, m'.get i j = .fin x ∧ IsDouble x ∧ 0 ≤ x ∧ x ≤ 32 ∧
      |(x : ℝ) - d i j| ≤ 1 / 10 ^ 12 := by
    intro i j hi hj
    by_cases hij : i = j
    · subst hij
      refine ⟨0, a3 i, isDouble_zero, le_rfl, by norm_num, ?_⟩
      rw [h.met.diag i hi]
      norm_num
    · have hgi := List.getElem?_eq_getElem hi
      obtain ⟨e, he, hej⟩ := List.mem_map.mp ((@CompleteUndirected.mem _ binary64.ops _ hcomp _ _ hgi _).mpr ⟨hj, fun e => hij e.symm⟩)
      obtain ⟨x, x1, x2, x3, x4, x5⟩ := h.cost i _ hgi e he
      rw [hej] at x5
      refine ⟨x, by rw [← hej, a4 i _ hgi e he, x1], x2, x3, x4, x5.trans ?_⟩
      rw [mul_right_comm]
      refine (mul_le_mul_of_nonneg_right (h.far i j hi hj) (by positivity)).trans ?_
      norm_num
  unfold Mat.isMetric
  simp only [List.all_eq_true, List.mem_range, Bool.not_eq_true']
  intro i hi j hj k hk
  have hj' : j < m'.dim := List.mem_range.mp (List.mem_of_mem_drop hj)
  rw [a2] at hi hj' hk
  obtain ⟨x, x1, -, -, -, x5⟩ := hget i j hi hj'
  obtain ⟨y, y1, y2, y3, y4, y5⟩ := hget i k hi hk
  obtain ⟨z, z1, z2, z3, z4, z5⟩ := hget k j hk hj'
  rw [x1, y1, z1]
  refine tri64_core y2 z2 y3 z3 (y4.trans (by norm_num)) (z4.trans (by norm_num)) ?_
  have := h.met.tri i j k hi hj' hk
  have := (abs_le.mp x5).2
  have := (abs_le.mp y5).1
  have := (abs_le.mp z5).1
  linarith

/-- every command on a good instance -/
theorem success_good {s : Nat} (hs : s ≤ 2 ^ 40) {g : Graph (XNum ℚ)} {d : Nat → Nat → ℝ} (h : GoodInstance s g d)
    (hn : 3 ≤ g.length) (hsize : g.length ≤ 2 ^ 25) :
    (∃ opt, OutputNear s g d opt) ∧
    ∀ env : Env (XNum ℚ), env.Ok → ∀ cmd, (∀ lb, cmd ≠ .approx .christofides .multiThreaded lb) →
      (∃ out, @Runs _ binary64.ops env g cmd out) ∧
      ∀ out, @Runs _ binary64.ops env g cmd out → ∃ lines, out = .ok lines := by
  have hc : ∀ es ∈ g, ∀ e ∈ es, ∃ x, e.cost = .fin x ∧ IsDouble x ∧ 0 ≤ x ∧ x ≤ 32 := by
    intro es hes e he
    obtain ⟨i, hi⟩ := List.getElem?_of_mem hes
    obtain ⟨x, x1, x2, x3, x4, -⟩ := h.cost i es hi e he
    exact ⟨x, x1, x2, x3, x4⟩
  have hB := good_growth hsize
  obtain ⟨c, -, c77⟩ := C77_double_precision_partial h.acc h.loop hn hc hB
  obtain ⟨hout, hchr⟩ := C88_near_metric_partial hs h.acc h.loop hn (by omega) hc hB h.met (fun i es hi e he x hx => by
    obtain ⟨y, y1, -, -, -, y2⟩ := h.cost i es hi e he
    rw [y1] at hx
    rwa [← XNum.fin.inj hx])
  refine ⟨hout, fun env henv cmd hcmd => ?_⟩
  obtain ⟨u1, -, u3, -, -⟩ := c77 env henv
  constructor
  · by_cases h' : ∃ a, cmd = .exact a .multiThreaded
    · obtain ⟨a, rfl⟩ := h'
      exact (exact_good h hn hsize env henv.cpus a .multiThreaded).1
    · exact @runs_exists _ binary64.ops env _ _ (fun a ha => h' ⟨a, ha⟩) hcmd
  · intro out hout
    cases cmd with
    | lowerBound a p =>
      obtain ⟨l, hl, -⟩ := u1 a p out hout
      exact ⟨_, hl⟩
    | exact a p =>
      obtain ⟨q, w, hq, -⟩ := (exact_good h hn hsize env henv.cpus a p).2 out hout
      exact ⟨_, hq⟩
    | approx a p lb =>
      cases a with
      | nearestNeighbour =>
        obtain ⟨q, w, rest, hq, -⟩ := u3 p lb out hout
        exact ⟨_, hq⟩
      | christofides =>
        cases p with
        | singleThreaded => exact hchr (good_isMetric h) env henv lb out hout
        | multiThreaded => exact absurd rfl (hcmd lb)

/-- **C98, all commands** Every command on a generated instance without equal points, with at least three and at
most `2 ^ 25` cities, succeeds, whatever the random numbers and schedules are, except that nothing is claimed
about `approx christofides` on several threads. -/
theorem C98_success_generated (ks : List (Nat × Nat)) (hk : ∀ k ∈ ks, k.1 < 2 ^ 53 ∧ k.2 < 2 ^ 53)
    (hn : 3 ≤ ks.length) (hsize : ks.length ≤ 2 ^ 25) :
    ∃ pts : List (ℚ × ℚ), randomPoints ks = finPoints pts ∧ pts.length = ks.length ∧ (pts.Nodup →
      ∀ env : Env (XNum ℚ), env.Ok → ∀ cmd, (∀ lb, cmd ≠ .approx .christofides .multiThreaded lb) →
        (∃ out, @Runs _ binary64.ops env
          (@genGraph _ binary64.ops (@genMatrix _ binary64.ops sqrt64 (randomPoints ks))) cmd out) ∧
        ∀ out, @Runs _ binary64.ops env
          (@genGraph _ binary64.ops (@genMatrix _ binary64.ops sqrt64 (randomPoints ks))) cmd out →
          ∃ lines, out = .ok lines) := by
  obtain ⟨pts, h1, h2, h3⟩ := generated_good ks hk
  refine ⟨pts, h1, h2, fun hnd => ?_⟩
  obtain ⟨hlen, hg⟩ := h3 hnd
  exact (success_good (by norm_num) hg (by omega) (by omega)).2

end Walky.Props
