import Verif.Lemmas.V4Comb
import Verif.Props.ExactFactor

/-! # Property C105, v4 on metrics: no constant factor -/

namespace Walky.Props

open Spec XNum

/-- ten cities on which v4 finds a tour that is shorter than the sum of the distances to the nearest
later cities -/
def tenRows : List (List ℤ) :=
  [[0, 1, 2, 2, 1, 3, 3, 2, 2, 1],
   [1, 0, 2, 3, 2, 3, 2, 1, 3, 1],
   [2, 2, 0, 2, 3, 1, 2, 3, 1, 3],
   [2, 3, 2, 0, 1, 1, 3, 4, 3, 3],
   [1, 2, 3, 1, 0, 2, 3, 3, 2, 2],
   [3, 3, 1, 1, 2, 0, 3, 4, 2, 4],
   [3, 2, 2, 3, 3, 3, 0, 1, 1, 3],
   [2, 1, 3, 4, 3, 4, 1, 0, 2, 2],
   [2, 3, 1, 3, 2, 2, 1, 2, 0, 3],
   [1, 1, 3, 3, 2, 4, 3, 2, 3, 0]]

/-- their distances -/
def ten (i j : Nat) : ℤ := (tenRows.getD i []).getD j 0

/-- the distance to the nearest later city -/
def tenLater (i : Nat) : ℤ := [1, 1, 1, 1, 2, 2, 1, 2, 3, 0].getD i 0

theorem ten_metric : Metric 10 (ofInt ten) := by
  refine ⟨?_, ?_, ?_⟩
  · decide +kernel
  · have : ∀ i < 10, ∀ j < 10, ofInt ten i j = ofInt ten j i := by decide +kernel
    exact fun i j hi hj => this i hi j hj
  · have : ∀ i < 10, ∀ j < 10, ∀ k < 10, ofInt ten i j ≤ ofInt ten i k + ofInt ten k j := by
      decide +kernel
    exact fun i j k hi hj hk => this i hi j hj k hk

theorem ten_run : dfs (Mat.ofFun 10 (ofInt ten)) (test4 (Mat.ofFun 10 (ofInt ten))) 10 [0] (fin 0)
    ((XNum.inf, []), ()) = .ok ((fin ((10 : ℤ) : ℚ), [0, 9, 1, 7, 6, 8, 2, 5, 3, 4]), ()) := by
  decide +kernel

theorem ten_later : ∀ i < 10, ∀ j < 10, i < j → tenLater i ≤ ten i j := by decide +kernel

theorem tenLater_le (i : Nat) : 0 ≤ tenLater i ∧ tenLater i ≤ 3 := by
  rcases Nat.lt_or_ge i 10 with h | h
  · have : ∀ i < 10, 0 ≤ tenLater i ∧ tenLater i ≤ 3 := by decide +kernel
    exact this i h
  · unfold tenLater
    rw [List.getD_eq_default _ _ (by simpa using h)]
    exact ⟨le_rfl, by decide⟩

/-- **C105, v4 on metrics (lower bound)** The factor of `C105_v4_metric` grows like the logarithm of the
number of cities for a reason: for every `k` there is a metric on `2^(k+1) + 8` cities on which v4
returns a tour of length at least `k · 2^k` although there is one of length at most `28 · 2^k`. -/
theorem C105_v4_log (k : Nat) :
    ∃ c : Nat → Nat → ℚ, Metric (2 ^ (k + 1) + 8) c ∧ Nonneg (2 ^ (k + 1) + 8) c ∧
      (∃ p, fourthImprovedSolver (Mat.ofFun (2 ^ (k + 1) + 8) c) = .ok (fin (tourCost c p), p) ∧
        IsTour (2 ^ (k + 1) + 8) p ∧ k * 2 ^ k ≤ tourCost c p) ∧
      ∃ q, IsTour (2 ^ (k + 1) + 8) q ∧ tourCost c q ≤ 28 * 2 ^ k := by
  have hn : 2 ^ (k + 1) + 8 = mid k + 10 := by
    have : 2 ≤ 2 ^ (k + 1) := by
      rw [pow_succ]; have := Nat.one_le_two_pow (n := k); omega
    unfold mid; omega
  rw [hn]
  set lam : ℚ := 2 * 2 ^ k with hlam
  have h2k : (1 : ℚ) ≤ 2 ^ k := one_le_pow₀ (by norm_num)
  have hl : 0 < lam := by rw [hlam]; linarith
  have hmet := glue_metric (k := 10) (lam := lam) (by norm_num) (combDist_metric k) ten_metric hl.le
  have hnn : Nonneg (mid k + 10) (glue (mid k) lam (combDist k) ten) := by
    intro i j hi hj _
    have h1 := hmet.tri i i j hi hi hj
    have h2 := hmet.symm i j hi hj
    rw [hmet.diag i hi] at h1
    linarith
  have hpin : ∀ i, i < mid k + 1 → 0 ≤ (pin k i).u ∧ (pin k i).u ≤ 2 ^ k + 2 := by
    intro i hi
    obtain ⟨h1, -, h3, -, h5⟩ := comb_near k 0 _ (pin_mem hi)
    have := abs_nonneg ((pin k i).x - 0)
    exact ⟨h5, by linarith⟩
  -- the way back
  have hD : combDist k (mid k) 0 < lam := by
    have hlast : ∃ h, h ≤ 1 ∧ pin k (mid k) = ⟨0, h, 2 ^ k + 1 + h⟩ := by
      obtain ⟨h, -, e⟩ := comb_last k 0
      have : pin k (mid k) = ⟨0, h, 2 ^ k + 1 + h⟩ := by
        unfold pin
        have hm := mid_length k
        rw [List.getLast?_eq_getElem?, ← hm] at e
        rw [List.getD_eq_getElem?_getD, show mid k = mid k + 1 - 1 by omega, e]
        rfl
      obtain ⟨-, -, h3, -⟩ := comb_near k 0 _ (pin_mem (Nat.lt_succ_self (mid k)))
      rw [this] at h3
      exact ⟨h, h3, this⟩
    have hfirst : pin k 0 = ⟨0 - 2 ^ k + 1, 0, 2⟩ := by
      unfold pin
      have := comb_head k 0
      rw [List.head?_eq_getElem?] at this
      rw [List.getD_eq_getElem?_getD, this]
      rfl
    obtain ⟨h, h1, e⟩ := hlast
    unfold combDist
    split
    · exact hl
    · rw [e, hfirst]
      have hz : (1 : ℤ) ≤ 2 ^ k := one_le_pow₀ (by norm_num)
      have : pdist ⟨0, h, 2 ^ k + 1 + h⟩ ⟨0 - 2 ^ k + 1, 0, 2⟩ ≤ 2 ^ k := by
        unfold pdist
        rw [show (0 : ℤ) - (0 - 2 ^ k + 1) = 2 ^ k - 1 by ring, abs_of_nonneg (by linarith)]
        linarith
      have h' : ((pdist ⟨0, h, 2 ^ k + 1 + h⟩ ⟨0 - 2 ^ k + 1, 0, 2⟩ : ℤ) : ℚ) ≤ 2 ^ k := by
        exact_mod_cast this
      rw [hlam]
      linarith
  let U : Nat → ℚ := fun i => if i < mid k then ((pin k i).u : ℚ) else lam * tenLater (i - mid k)
  have hUlo : ∀ i, i < mid k → U i = ((pin k i).u : ℚ) := fun i hi => if_pos hi
  have hUhi : ∀ i, U (mid k + i) = lam * tenLater i := fun i => by
    simp only [U]
    rw [if_neg (by omega), Nat.add_sub_cancel_left]
  have hsum : ((List.range (mid k + 10)).map U).sum =
      pathCost (combDist k) (List.range (mid k + 1)) + lam * 14 := by
    rw [List.range_add, List.map_append, List.sum_append, comb_path, List.map_map]
    congr 1
    · congr 1
      refine List.map_congr_left fun i hi => ?_
      exact hUlo i (by simpa using hi)
    · have : (U ∘ fun x => mid k + x) = fun i => lam * (tenLater i : ℚ) := by
        funext i; exact hUhi i
      rw [this]
      have e : List.range 10 = [0, 1, 2, 3, 4, 5, 6, 7, 8, 9] := rfl
      rw [e]
      simp [tenLater]
      ring
  obtain ⟨p, h1, h2, h3⟩ := v4_glue (a := mid k) (k := 10) (lam := lam) (d := combDist k) (g := ten)
    (U := U) (M := 3 * lam) (z := 10) (by norm_num) (combDist_metric k) ten_metric hl hD (by
      intro i j hij hj
      rcases Nat.lt_or_ge i (mid k) with h | h
      · rw [hUlo i h]
        have hge := combDist_ge (k := k) (i := i) (j := min j (mid k)) (by omega) (by omega)
        have e : glue (mid k) lam (combDist k) ten i j =
            combDist k i (min j (mid k)) + lam * ten 0 (j - mid k) := by
          unfold glue
          rw [Nat.min_eq_left h.le, Nat.sub_eq_zero_of_le h.le]
        have h0 : 0 ≤ ten 0 (j - mid k) := by
          have : ∀ i < 10, 0 ≤ ten 0 i := by decide +kernel
          exact this _ (by omega)
        have h0' : (0 : ℚ) ≤ ten 0 (j - mid k) := by exact_mod_cast h0
        have := mul_nonneg hl.le h0'
        rw [e]
        linarith
      · obtain ⟨i', rfl⟩ := Nat.exists_eq_add_of_le h
        obtain ⟨j', rfl⟩ := Nat.exists_eq_add_of_le (show mid k ≤ j by omega)
        rw [hUhi, glue_hi ((combDist_metric k).diag _ (by omega))]
        have := ten_later i' (by omega) j' (by omega) (by omega)
        have h' : (tenLater i' : ℚ) ≤ ten i' j' := by exact_mod_cast this
        exact mul_le_mul_of_nonneg_left h' hl.le) (by
      intro i
      simp only [U]
      split
      · have := (hpin i (by omega)).1
        exact_mod_cast this
      · have := (tenLater_le (i - mid k)).1
        have h' : (0 : ℚ) ≤ tenLater (i - mid k) := by exact_mod_cast this
        exact mul_nonneg hl.le h') (by
      intro i
      simp only [U]
      split
      · have := (hpin i (by omega)).2
        have h' : ((pin k i).u : ℚ) ≤ 2 ^ k + 2 := by exact_mod_cast this
        rw [hlam]
        linarith
      · have := (tenLater_le (i - mid k)).2
        have h' : (tenLater (i - mid k) : ℚ) ≤ 3 := by exact_mod_cast this
        nlinarith) (by
      rw [show mid k + 10 - 1 = mid k + 9 by omega, hUhi]
      simp [tenLater]) ten_run (by
      rw [hsum]
      push_cast
      linarith)
  refine ⟨glue (mid k) lam (combDist k) ten, hmet, hnn, ⟨p, h1, h2, ?_⟩, ?_⟩
  · have hpv : ValidPre (mid k + 10) p := ⟨h2.nodup, fun i hi => by simpa using h2.mem_iff.mp hi⟩
    have h4 := pathCost_prefix_le hnn hpv h3
    rw [pathCost_lo (by decide)] at h4
    have h5 := comb_path_ge k
    have h6 := tour_split_ge hnn (fun h => by omega) (p := p) (t := []) (by simpa using h2)
    simp only [List.append_nil, pathCost_nil, add_zero] at h6
    linarith
  · obtain ⟨t, ht, hcost⟩ := comb_tour k
    have hw : IsTour 10 [0, 9, 1, 7, 6, 8, 2, 5, 3, 4] := by unfold IsTour; decide
    obtain ⟨q, hq, e⟩ := glue_tour (lam := lam) (k := 10) (by norm_num) (combDist_metric k) ten_metric
      ht hw
    refine ⟨q, hq, ?_⟩
    have e10 : tourCost (ofInt ten) [0, 9, 1, 7, 6, 8, 2, 5, 3, 4] = 10 := by decide +kernel
    rw [e, e10, hlam]
    linarith

/-- **C105, v4 on metrics** No constant factor holds for v4 on metrics. -/
theorem C105_v4_no_constant (r : ℚ) :
    ∃ (n : Nat) (c : Nat → Nat → ℚ), Metric n c ∧ Nonneg n c ∧ ∃ p q,
      fourthImprovedSolver (Mat.ofFun n c) = .ok (fin (tourCost c p), p) ∧ IsTour n p ∧
      IsTour n q ∧ r * tourCost c q < tourCost c p := by
  obtain ⟨k, hk⟩ := exists_nat_gt (28 * max r 0)
  obtain ⟨c, h1, h2, ⟨p, h3, h4, h5⟩, q, h6, h7⟩ := C105_v4_log k
  refine ⟨_, c, h1, h2, p, q, h3, h4, h6, ?_⟩
  have hq : 0 ≤ tourCost c q := tour_nonneg h1 h6
  have h2k : (0 : ℚ) < 2 ^ k := by positivity
  have hr0 := le_max_right r 0
  calc r * tourCost c q ≤ max r 0 * tourCost c q := mul_le_mul_of_nonneg_right (le_max_left _ _) hq
    _ ≤ max r 0 * (28 * 2 ^ k) := mul_le_mul_of_nonneg_left h7 hr0
    _ < k * 2 ^ k := by nlinarith
    _ ≤ tourCost c p := h5

/-- the smallest instance of the family, the ten cities alone: the sum of the distances to the nearest
later cities is 14, v4 returns 10 -/
example : ((List.range 10).map tenLater).sum = 14 ∧
    fourthImprovedSolver (Mat.ofFun 10 (ofInt ten)) =
      .ok (fin 10, [0, 9, 1, 7, 6, 8, 2, 5, 3, 4]) := by
  constructor
  · decide +kernel
  · decide +kernel

/-- the comb with 7 cities: the order of the numbers costs 16, at least `2 · 2^2` -/
example : (comb 2 0).map Pin.x = [-3, -1, -2, 1, 3, 2, 0] ∧ (comb 2 0).map Pin.u = [2, 2, 4, 2, 2, 4, 6] ∧
    pathCost (combDist 2) (List.range 7) = 16 := by
  refine ⟨by decide +kernel, by decide +kernel, by decide +kernel⟩

end Walky.Props
