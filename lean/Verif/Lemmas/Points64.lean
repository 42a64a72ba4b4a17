import Verif.Lemmas.Sqrt64
import Verif.Model.Instance
import Verif.Spec
import Mathlib.Tactic.NormNum
import Mathlib.Tactic.Positivity

/-! # Distances of points in IEEE double precision -/

namespace Walky

open FloatOps XNum

/-- Euclidean distance of two points of the plane -/
noncomputable def euclid (p q : ℚ × ℚ) : ℝ :=
  Real.sqrt (((p.1 - q.1 : ℚ) : ℝ) ^ 2 + ((p.2 - q.2 : ℚ) : ℝ) ^ 2)

/-- a point with two doubles of size at most `M` as coordinates -/
structure DoublePoint (M : ℚ) (p : ℚ × ℚ) : Prop where
  fst : IsDouble p.1
  snd : IsDouble p.2
  fst_le : |p.1| ≤ M
  snd_le : |p.2| ≤ M

theorem isDouble_pow2 {q : ℤ} (h1 : -1074 ≤ q) (h2 : q ≤ 970) : IsDouble (pow2 q) := by
  simpa using isDouble_of_int (z := 1) (q := q) (by norm_num) h1 h2

theorem isDouble_neg {x : ℚ} (h : IsDouble x) : IsDouble (-x) := by
  obtain ⟨z, q, h1, h2, h3, h4⟩ := h
  exact ⟨-z, q, by rw [h1]; push_cast; ring, by rwa [abs_neg], h3, by rwa [abs_neg]⟩

/-- difference of two coordinates -/
theorem diff64 {a c : ℚ} (ha : IsDouble a) (hc : IsDouble c) (ha' : |a| ≤ pow2 500) (hc' : |c| ≤ pow2 500) :
    ∃ x, round64 (a - c) = .fin x ∧ round64 (c - a) = .fin (-x) ∧ IsDouble x ∧
      |x - (a - c)| ≤ pow2 (-53) * |a - c| ∧ |x| ≤ pow2 501 := by
  have h500 : pow2 501 = 2 * pow2 500 := by
    rw [show (501 : ℤ) = 1 + 500 by norm_num, pow2_add]; norm_num [pow2_eq]
  have hle : |a - c| ≤ pow2 501 := by
    have := abs_sub a c
    linarith
  obtain ⟨x, h1, h2, h3⟩ := round64_add ha (isDouble_neg hc) (by
    rw [← sub_eq_add_neg]
    exact hle.trans (pow2_le (by norm_num)))
  rw [← sub_eq_add_neg] at h1 h3
  refine ⟨x, h1, ?_, h2, h3, ?_⟩
  · have := round64_neg h1
    rwa [neg_sub] at this
  · have hd : IsDouble (pow2 501) := isDouble_pow2 (by norm_num) (by norm_num)
    rw [abs_le] at hle ⊢
    exact ⟨round64_ge h1 (isDouble_neg hd) hle.1, round64_le h1 hd hle.2⟩

/-- square of a difference -/
theorem square64 {x : ℚ} (h : |x| ≤ pow2 501) :
    ∃ X, round64 (x * x) = .fin X ∧ IsDouble X ∧ 0 ≤ X ∧ X ≤ pow2 1002 ∧
      |X - x * x| ≤ pow2 (-53) * (x * x) + pow2 (-1075) := by
  have h2 : x * x ≤ pow2 1002 := by
    rw [show (1002 : ℤ) = 501 + 501 by norm_num, pow2_add, ← abs_mul_abs_self x]
    exact mul_le_mul h h (abs_nonneg _) (pow2_pos _).le
  have h0 : 0 ≤ x * x := mul_self_nonneg x
  obtain ⟨X, k1, k2, k3⟩ := round64_mixed (x := x * x) (by
    rw [abs_of_nonneg h0]
    exact h2.trans (pow2_le (by norm_num)))
  rw [abs_of_nonneg h0] at k3
  refine ⟨X, k1, k2, round64_ge k1 isDouble_zero h0, ?_, k3⟩
  refine round64_le k1 ⟨1, 1002, by simp, by norm_num, by norm_num, ?_⟩ h2
  rw [abs_of_pos (pow2_pos _), pow2_lt_iff]
  norm_num

private theorem sq_bounds {A x u : ℝ} (hu1 : u ≤ 1) (h : |x - A| ≤ u * |A|) :
    (1 - u) ^ 2 * A ^ 2 ≤ x * x ∧ x * x ≤ (1 + u) ^ 2 * A ^ 2 := by
  have h1 : (1 - u) * |A| ≤ |x| := by
    have := abs_sub_abs_le_abs_sub A x
    rw [abs_sub_comm] at this
    linarith
  have h2 : |x| ≤ (1 + u) * |A| := by
    have := abs_sub_abs_le_abs_sub x A
    linarith
  have hA := abs_nonneg A
  rw [← abs_mul_abs_self x, ← sq_abs A, ← mul_pow, ← mul_pow, ← pow_two]
  exact ⟨pow_le_pow_left₀ (mul_nonneg (by linarith) hA) h1 2, pow_le_pow_left₀ (abs_nonneg x) h2 2⟩

private theorem cube_bounds {u : ℝ} (hu : 0 ≤ u) (hu1 : u ≤ 1 / 10) :
    1 - 4 * u ≤ (1 - u) ^ 3 ∧ (1 + u) ^ 3 ≤ 1 + 4 * u := by
  have h2 : u * u ≤ 1 / 10 * u := mul_le_mul_of_nonneg_right hu1 hu
  have h20 : 0 ≤ u * u := mul_nonneg hu hu
  have h3 : u * u * u ≤ u * u * (1 / 10) := mul_le_mul_of_nonneg_left hu1 h20
  have e1 : (1 - u) ^ 3 = 1 - 3 * u + 3 * (u * u) - u * u * u := by ring
  have e2 : (1 + u) ^ 3 = 1 + 3 * u + 3 * (u * u) + u * u * u := by ring
  rw [e1, e2]
  constructor <;> linarith

/-- the error of the distance -/
private theorem dist_error {A B x y X Y S r u e η : ℝ} (hu : 0 ≤ u) (hu1 : u ≤ 1 / 10) (he : 0 ≤ e)
    (hη : 0 ≤ η) (hee : η ≤ e ^ 2)
    (hx : |x - A| ≤ u * |A|) (hy : |y - B| ≤ u * |B|)
    (hX : |X - x * x| ≤ u * (x * x) + η) (hY : |Y - y * y| ≤ u * (y * y) + η)
    (hS0 : 0 ≤ S)
    (hS : |S - (X + Y)| ≤ u * (X + Y)) (hr : |r - Real.sqrt S| ≤ u * Real.sqrt S) :
    |r - Real.sqrt (A ^ 2 + B ^ 2)| ≤ 4 * u * Real.sqrt (A ^ 2 + B ^ 2) + 4 * e := by
  obtain ⟨hx1, hx2⟩ := sq_bounds (by linarith) hx
  obtain ⟨hy1, hy2⟩ := sq_bounds (by linarith) hy
  have hA := sq_nonneg A
  have hB := sq_nonneg B
  rw [abs_le] at hX hY hS hr
  have huη : u * η ≤ η := by
    have := mul_le_mul_of_nonneg_right hu1 hη
    linarith
  have huη0 : 0 ≤ u * η := mul_nonneg hu hη
  have hue : u * e ≤ e := by
    have := mul_le_mul_of_nonneg_right hu1 he
    linarith
  have hue0 : 0 ≤ u * e := mul_nonneg hu he
  set D := Real.sqrt (A ^ 2 + B ^ 2) with hD
  have hD0 : 0 ≤ D := Real.sqrt_nonneg _
  have hDD : D ^ 2 = A ^ 2 + B ^ 2 := Real.sq_sqrt (by positivity)
  set T := Real.sqrt S with hT
  have hT0 : 0 ≤ T := Real.sqrt_nonneg _
  have hTT : T ^ 2 = S := Real.sq_sqrt hS0
  have hsum_up : X + Y ≤ (1 + u) ^ 3 * D ^ 2 + 2 * η := by
    have h1 : (1 + u) * (x * x) ≤ (1 + u) * ((1 + u) ^ 2 * A ^ 2) :=
      mul_le_mul_of_nonneg_left hx2 (by linarith)
    have h2 : (1 + u) * (y * y) ≤ (1 + u) * ((1 + u) ^ 2 * B ^ 2) :=
      mul_le_mul_of_nonneg_left hy2 (by linarith)
    have h3 : (1 + u) ^ 3 * D ^ 2 = (1 + u) * ((1 + u) ^ 2 * A ^ 2) + (1 + u) * ((1 + u) ^ 2 * B ^ 2) := by
      rw [hDD]; ring
    rw [h3]
    linarith [hX.2, hY.2]
  have hsum_lo : (1 - u) ^ 3 * D ^ 2 - 2 * η ≤ X + Y := by
    have h1 : (1 - u) * ((1 - u) ^ 2 * A ^ 2) ≤ (1 - u) * (x * x) :=
      mul_le_mul_of_nonneg_left hx1 (by linarith)
    have h2 : (1 - u) * ((1 - u) ^ 2 * B ^ 2) ≤ (1 - u) * (y * y) :=
      mul_le_mul_of_nonneg_left hy1 (by linarith)
    have h3 : (1 - u) ^ 3 * D ^ 2 = (1 - u) * ((1 - u) ^ 2 * A ^ 2) + (1 - u) * ((1 - u) ^ 2 * B ^ 2) := by
      rw [hDD]; ring
    rw [h3]
    linarith [hX.1, hY.1]
  have hS_up : T ^ 2 ≤ ((1 + u) ^ 2 * D + 2 * e) ^ 2 := by
    have h1 : S ≤ (1 + u) * (X + Y) := by linarith [hS.2]
    have h2 : (1 + u) * (X + Y) ≤ (1 + u) * ((1 + u) ^ 3 * D ^ 2 + 2 * η) :=
      mul_le_mul_of_nonneg_left hsum_up (by linarith)
    have h3 : (1 + u) * (2 * η) ≤ 4 * e ^ 2 := by linarith
    have h4 : 0 ≤ (1 + u) ^ 2 * D * e := by positivity
    have h5 : ((1 + u) ^ 2 * D + 2 * e) ^ 2 =
        (1 + u) * ((1 + u) ^ 3 * D ^ 2) + 4 * e ^ 2 + 4 * ((1 + u) ^ 2 * D * e) := by ring
    rw [hTT, h5]
    linarith
  have hS_lo : ((1 - u) ^ 2 * D) ^ 2 ≤ (T + 2 * e) ^ 2 := by
    have h1 : (1 - u) * (X + Y) ≤ S := by linarith [hS.1]
    have h2 : (1 - u) * ((1 - u) ^ 3 * D ^ 2 - 2 * η) ≤ (1 - u) * (X + Y) :=
      mul_le_mul_of_nonneg_left hsum_lo (by linarith)
    have h3 : (1 - u) * (2 * η) ≤ 4 * e ^ 2 := by linarith
    have h4 : 0 ≤ T * e := by positivity
    have h5 : (T + 2 * e) ^ 2 = T ^ 2 + 4 * (T * e) + 4 * e ^ 2 := by ring
    have h6 : ((1 - u) ^ 2 * D) ^ 2 = (1 - u) * ((1 - u) ^ 3 * D ^ 2) := by ring
    rw [h5, h6, hTT]
    linarith
  have hT_up : T ≤ (1 + u) ^ 2 * D + 2 * e := by
    exact (abs_le_of_sq_le_sq' hS_up (by positivity)).2
  have hT_lo : (1 - u) ^ 2 * D ≤ T + 2 * e := by
    exact (abs_le_of_sq_le_sq' hS_lo (by positivity)).2
  rw [abs_le]
  constructor
  · have h1 : (1 - u) * ((1 - u) ^ 2 * D) ≤ (1 - u) * (T + 2 * e) :=
      mul_le_mul_of_nonneg_left hT_lo (by linarith)
    have h2 : (1 - 4 * u) * D ≤ (1 - u) * ((1 - u) ^ 2 * D) := by
      have := mul_le_mul_of_nonneg_right (cube_bounds hu hu1).1 hD0
      linarith
    linarith [hr.1]
  · have h1 : (1 + u) * T ≤ (1 + u) * ((1 + u) ^ 2 * D + 2 * e) :=
      mul_le_mul_of_nonneg_left hT_up (by linarith)
    have h2 : (1 + u) * ((1 + u) ^ 2 * D) ≤ (1 + 4 * u) * D := by
      have := mul_le_mul_of_nonneg_right (cube_bounds hu hu1).2 hD0
      linarith
    linarith [hr.2]

/-- The computed distance of two points. -/
theorem pointDist64 {p q : ℚ × ℚ} (hp : DoublePoint (pow2 500) p) (hq : DoublePoint (pow2 500) q) :
    ∃ r, @pointDist _ binary64.ops sqrt64 (.fin p.1, .fin p.2) (.fin q.1, .fin q.2) = .fin r ∧
      @pointDist _ binary64.ops sqrt64 (.fin q.1, .fin q.2) (.fin p.1, .fin p.2) = .fin r ∧
      IsDouble r ∧ 0 ≤ r ∧
      |(r : ℝ) - euclid p q| ≤ (2 : ℝ) ^ (-51 : ℤ) * euclid p q + (2 : ℝ) ^ (-535 : ℤ) := by
  obtain ⟨x, x1, x2, x3, x4, x5⟩ := diff64 hp.fst hq.fst hp.fst_le hq.fst_le
  obtain ⟨y, y1, y2, y3, y4, y5⟩ := diff64 hp.snd hq.snd hp.snd_le hq.snd_le
  obtain ⟨X, X1, X2, X3, X4, X5⟩ := square64 x5
  obtain ⟨Y, Y1, Y2, Y3, Y4, Y5⟩ := square64 y5
  have hXY0 : 0 ≤ X + Y := add_nonneg X3 Y3
  obtain ⟨S, S1, S2, S3⟩ := round64_add X2 Y2 (by
    rw [abs_of_nonneg hXY0]
    have : pow2 1003 = 2 * pow2 1002 := by
      rw [show (1003 : ℤ) = 1 + 1002 by norm_num, pow2_add]; norm_num [pow2_eq]
    have h2 : pow2 1003 ≤ pow2 1023 := pow2_le (by norm_num)
    linarith)
  rw [abs_of_nonneg hXY0] at S3
  have hS0 : 0 ≤ S := round64_ge S1 isDouble_zero hXY0
  have e1 : @pointDist _ binary64.ops sqrt64 (.fin p.1, .fin p.2) (.fin q.1, .fin q.2) = sqrt64 (.fin S) := by
    show sqrt64 (binary64.ops.add (binary64.ops.mul (round64 (p.1 - q.1)) (round64 (p.1 - q.1)))
      (binary64.ops.mul (round64 (p.2 - q.2)) (round64 (p.2 - q.2)))) = _
    rw [x1, y1]
    show sqrt64 (binary64.ops.add (round64 (x * x)) (round64 (y * y))) = _
    rw [X1, Y1]
    show sqrt64 (round64 (X + Y)) = _
    rw [S1]
  have e2 : @pointDist _ binary64.ops sqrt64 (.fin q.1, .fin q.2) (.fin p.1, .fin p.2) = sqrt64 (.fin S) := by
    show sqrt64 (binary64.ops.add (binary64.ops.mul (round64 (q.1 - p.1)) (round64 (q.1 - p.1)))
      (binary64.ops.mul (round64 (q.2 - p.2)) (round64 (q.2 - p.2)))) = _
    rw [x2, y2]
    show sqrt64 (binary64.ops.add (round64 (-x * -x)) (round64 (-y * -y))) = _
    rw [neg_mul_neg, neg_mul_neg, X1, Y1]
    show sqrt64 (round64 (X + Y)) = _
    rw [S1]
  have key : ∃ r, sqrt64 (.fin S) = .fin r ∧ IsDouble r ∧ 0 ≤ r ∧
      |(r : ℝ) - Real.sqrt S| ≤ (2 : ℝ) ^ (-53 : ℤ) * Real.sqrt S := by
    show ∃ r, (if S < 0 then XNum.nan else if S = 0 then .fin 0 else .fin (nearestSqrt S)) = .fin r ∧ _
    rw [if_neg (not_lt.mpr hS0)]
    by_cases h0 : S = 0
    · rw [if_pos h0]
      exact ⟨0, rfl, isDouble_zero, le_rfl, by rw [h0]; simp⟩
    · rw [if_neg h0]
      have hpos : 0 < S := lt_of_le_of_ne hS0 (Ne.symm h0)
      exact ⟨_, rfl, nearestSqrt_isDouble hpos S2, (nearestSqrt_pos hpos).le, nearestSqrt_error hpos⟩
  obtain ⟨r, r1, r2, r3, r4⟩ := key
  refine ⟨r, by rw [e1, r1], by rw [e2, r1], r2, r3, ?_⟩
  have c : ∀ {a b : ℚ}, a ≤ b → (a : ℝ) ≤ (b : ℝ) := fun h => by exact_mod_cast h
  have x4' := c x4
  have y4' := c y4
  have X5' := c X5
  have Y5' := c Y5
  have S3' := c S3
  push_cast at x4' y4' X5' Y5' S3'
  rw [cast_pow2] at x4' y4' S3'
  rw [cast_pow2, cast_pow2] at X5' Y5'
  have := dist_error (u := (2 : ℝ) ^ (-53 : ℤ)) (e := (2 : ℝ) ^ (-537 : ℤ)) (η := (2 : ℝ) ^ (-1075 : ℤ))
    (by positivity) (by norm_num) (by positivity) (by positivity) (by
      rw [← zpow_natCast, ← zpow_mul]
      exact zpow_le_zpow_right₀ (by norm_num) (by norm_num)) x4' y4' X5' Y5'
    (by exact_mod_cast hS0) S3' r4
  unfold euclid
  push_cast
  refine this.trans (le_of_eq ?_)
  rw [show (-51 : ℤ) = 2 + -53 by norm_num, show (-535 : ℤ) = 2 + -537 by norm_num,
    zpow_add₀ (by norm_num), zpow_add₀ (by norm_num) 2 (-537)]
  norm_num

theorem pointDist64_self (p : ℚ × ℚ) :
    @pointDist _ binary64.ops sqrt64 (.fin p.1, .fin p.2) (.fin p.1, .fin p.2) = .fin 0 := by
  have h0 : round64 0 = .fin 0 := by simp [round64]
  show sqrt64 (binary64.ops.add (binary64.ops.mul (round64 (p.1 - p.1)) (round64 (p.1 - p.1)))
    (binary64.ops.mul (round64 (p.2 - p.2)) (round64 (p.2 - p.2)))) = _
  rw [sub_self, sub_self, h0]
  show sqrt64 (binary64.ops.add (round64 (0 * 0)) (round64 (0 * 0))) = _
  rw [mul_zero, h0]
  show sqrt64 (round64 (0 + 0)) = _
  rw [add_zero, h0]
  show (if (0 : ℚ) < 0 then XNum.nan else if (0 : ℚ) = 0 then .fin 0 else .fin (nearestSqrt 0)) = _
  simp

/-! ## The exact distance -/

theorem euclid_nonneg (p q : ℚ × ℚ) : 0 ≤ euclid p q := Real.sqrt_nonneg _

theorem euclid_sq (p q : ℚ × ℚ) :
    euclid p q ^ 2 = ((p.1 - q.1 : ℚ) : ℝ) ^ 2 + ((p.2 - q.2 : ℚ) : ℝ) ^ 2 :=
  Real.sq_sqrt (by positivity)

theorem euclid_self (p : ℚ × ℚ) : euclid p p = 0 := by unfold euclid; simp

theorem euclid_comm (p q : ℚ × ℚ) : euclid p q = euclid q p := by
  unfold euclid
  congr 1
  push_cast
  ring

theorem euclid_tri (p q r : ℚ × ℚ) : euclid p r ≤ euclid p q + euclid q r := by
  have h1 := euclid_sq p q
  have h2 := euclid_sq q r
  have h3 := euclid_sq p r
  have n1 := euclid_nonneg p q
  have n2 := euclid_nonneg q r
  set x := euclid p q
  set y := euclid q r
  set z := euclid p r
  have ea : ((p.1 - r.1 : ℚ) : ℝ) = ((p.1 - q.1 : ℚ) : ℝ) + ((q.1 - r.1 : ℚ) : ℝ) := by push_cast; ring
  have eb : ((p.2 - r.2 : ℚ) : ℝ) = ((p.2 - q.2 : ℚ) : ℝ) + ((q.2 - r.2 : ℚ) : ℝ) := by push_cast; ring
  rw [ea, eb] at h3
  generalize ((p.1 - q.1 : ℚ) : ℝ) = a at *
  generalize ((q.1 - r.1 : ℚ) : ℝ) = b at *
  generalize ((p.2 - q.2 : ℚ) : ℝ) = c at *
  generalize ((q.2 - r.2 : ℚ) : ℝ) = d at *
  have h7 : a * b + c * d ≤ x * y := by
    refine le_of_abs_le (abs_le_of_sq_le_sq ?_ (mul_nonneg n1 n2))
    have e : (x * y) ^ 2 = (a ^ 2 + c ^ 2) * (b ^ 2 + d ^ 2) := by
      rw [← h1, ← h2]; ring
    rw [e]
    nlinarith [mul_self_nonneg (a * d - b * c)]
  refine le_of_abs_le (abs_le_of_sq_le_sq ?_ (add_nonneg n1 n2))
  rw [h3]
  have e : (x + y) ^ 2 = x ^ 2 + y ^ 2 + 2 * (x * y) := by ring
  rw [e, h1, h2]
  linarith

theorem abs_le_euclid (p q : ℚ × ℚ) :
    |((p.1 - q.1 : ℚ) : ℝ)| ≤ euclid p q ∧ |((p.2 - q.2 : ℚ) : ℝ)| ≤ euclid p q := by
  unfold euclid
  constructor <;> refine Real.abs_le_sqrt ?_
  · have := sq_nonneg ((p.2 - q.2 : ℚ) : ℝ)
    linarith
  · have := sq_nonneg ((p.1 - q.1 : ℚ) : ℝ)
    linarith

theorem euclid_le {M : ℚ} {p q : ℚ × ℚ} (hp : DoublePoint M p) (hq : DoublePoint M q) :
    euclid p q ≤ 3 * M := by
  have hM : 0 ≤ M := (abs_nonneg _).trans hp.fst_le
  have h1 : |p.1 - q.1| ≤ 2 * M := by
    have := abs_sub p.1 q.1
    have := hp.fst_le
    have := hq.fst_le
    linarith
  have h2 : |p.2 - q.2| ≤ 2 * M := by
    have := abs_sub p.2 q.2
    have := hp.snd_le
    have := hq.snd_le
    linarith
  have h3 : (p.1 - q.1) ^ 2 + (p.2 - q.2) ^ 2 ≤ (3 * M) ^ 2 := by
    have a := pow_le_pow_left₀ (abs_nonneg _) h1 2
    have b := pow_le_pow_left₀ (abs_nonneg _) h2 2
    rw [sq_abs] at a b
    nlinarith [sq_nonneg M]
  unfold euclid
  refine Real.sqrt_le_iff.mpr ⟨by positivity, ?_⟩
  exact_mod_cast h3

theorem DoublePoint.mono {M N : ℚ} {p : ℚ × ℚ} (h : DoublePoint M p) (hMN : M ≤ N) : DoublePoint N p :=
  ⟨h.fst, h.snd, h.fst_le.trans hMN, h.snd_le.trans hMN⟩

/-- approximate value of a distance -/
def Near64 (r : ℚ) (D : ℝ) : Prop := |(r : ℝ) - D| ≤ (2 : ℝ) ^ (-51 : ℤ) * D + (2 : ℝ) ^ (-535 : ℤ)

/-- the tolerance of `is_metric` -/
theorem tri64_core {r r1 r2 : ℚ} (h1 : IsDouble r1) (h2 : IsDouble r2) (n1 : 0 ≤ r1) (n2 : 0 ≤ r2)
    (c1' : r1 ≤ 40000) (c2' : r2 ≤ 40000) (hr : (r : ℝ) ≤ r1 + r2 + 6 / 10 ^ 11) :
    @FloatOps.lt _ binary64.ops (@FloatOps.add _ binary64.ops
      (@FloatOps.add _ binary64.ops (.fin r1) (.fin r2)) (@FloatOps.tol _ binary64.ops)) (.fin r) = false := by
  have big : (2 : ℚ) ^ 20 ≤ pow2 1023 := by
    have : pow2 20 = 2 ^ 20 := by norm_num [pow2_eq]
    rw [← this]
    exact pow2_le (by norm_num)
  have hu53 : pow2 (-53) = 1 / 9007199254740992 := by norm_num [pow2_eq]
  obtain ⟨s, s1, s2, s3⟩ := round64_add h1 h2 (by
    rw [abs_of_nonneg (by linarith)]
    refine le_trans ?_ big
    norm_num
    linarith)
  have hs0 : 0 ≤ s := round64_ge s1 isDouble_zero (by linarith)
  rw [abs_of_nonneg (by linarith : 0 ≤ r1 + r2), hu53, abs_le] at s3
  obtain ⟨τ, t1, t2, t3⟩ := round64_mixed (x := (1 / 10 ^ 10 : ℚ)) (by
    rw [abs_of_nonneg (by norm_num)]
    refine le_trans ?_ big
    norm_num)
  have hη2 : pow2 (-1075) ≤ 1 / 10 ^ 20 := by
    refine (pow2_le (by norm_num : (-1075 : ℤ) ≤ -100)).trans ?_
    norm_num [pow2_eq]
  rw [abs_of_nonneg (by norm_num : (0 : ℚ) ≤ 1 / 10 ^ 10), hu53, abs_le] at t3
  have hτ0 : 0 ≤ τ := by norm_num at t3 ⊢; linarith [t3.1]
  have hτ : 9 / 10 ^ 11 ≤ τ := by norm_num at t3 hη2 ⊢; linarith [t3.1]
  have hτ1 : τ ≤ 1 := by norm_num at t3 hη2 ⊢; linarith [t3.2]
  obtain ⟨t, v1, v2, v3⟩ := round64_add s2 t2 (by
    rw [abs_of_nonneg (by linarith)]
    refine le_trans ?_ big
    norm_num
    linarith [s3.2])
  rw [abs_of_nonneg (by linarith : 0 ≤ s + τ), hu53, abs_le] at v3
  have hsum : @FloatOps.add _ binary64.ops (@FloatOps.add _ binary64.ops (.fin r1) (.fin r2))
      (@FloatOps.tol _ binary64.ops) = .fin t := by
    show binary64.ops.add (round64 (r1 + r2)) (round64 (1 / 10 ^ 10)) = _
    rw [s1, t1]
    show round64 (s + τ) = _
    exact v1
  rw [hsum]
  show decide (t < r) = false
  rw [decide_eq_false_iff_not, not_lt]
  have s3' : ((1 - 1 / 9007199254740992) * (r1 + r2) : ℚ) ≤ s := by linarith [s3.1]
  have v3' : ((1 - 1 / 9007199254740992) * (s + τ) : ℚ) ≤ t := by linarith [v3.1]
  have s4 : (((1 - 1 / 9007199254740992) * (r1 + r2) : ℚ) : ℝ) ≤ s := Rat.cast_le.mpr s3'
  have v4 : (((1 - 1 / 9007199254740992) * (s + τ) : ℚ) : ℝ) ≤ t := Rat.cast_le.mpr v3'
  have hτ' : ((9 / 10 ^ 11 : ℚ) : ℝ) ≤ τ := Rat.cast_le.mpr hτ
  push_cast at s4 v4 hτ'
  have : (r : ℝ) ≤ t := by
    have c1 : (r1 : ℝ) ≤ 40000 := by exact_mod_cast c1'
    have c2 : (r2 : ℝ) ≤ 40000 := by exact_mod_cast c2'
    clear s3 v3 t3 s3' v3'
    linarith
  exact_mod_cast this

/-- The tolerance of `is_metric` covers the errors of distances up to 30000. -/
theorem tri64 {r r1 r2 : ℚ} {D D1 D2 : ℝ} (h1 : IsDouble r1) (h2 : IsDouble r2) (n1 : 0 ≤ r1) (n2 : 0 ≤ r2)
    (e : Near64 r D) (e1 : Near64 r1 D1) (e2 : Near64 r2 D2)
    (hD : D ≤ D1 + D2) (b1 : D1 ≤ 30000) (b2 : D2 ≤ 30000) :
    @FloatOps.lt _ binary64.ops (@FloatOps.add _ binary64.ops
      (@FloatOps.add _ binary64.ops (.fin r1) (.fin r2)) (@FloatOps.tol _ binary64.ops)) (.fin r) = false := by
  unfold Near64 at e e1 e2
  rw [abs_le] at e e1 e2
  have hu : (2 : ℝ) ^ (-51 : ℤ) = 1 / 2251799813685248 := by norm_num
  have heta : (2 : ℝ) ^ (-535 : ℤ) ≤ 1 / 10 ^ 20 := by
    refine (zpow_le_zpow_right₀ (by norm_num) (by norm_num : (-535 : ℤ) ≤ -100)).trans ?_
    norm_num
  generalize (2 : ℝ) ^ (-535 : ℤ) = η at *
  rw [hu] at e e1 e2
  have c1 : (r1 : ℝ) ≤ 40000 := by linarith
  have c2 : (r2 : ℝ) ≤ 40000 := by linarith
  refine tri64_core h1 h2 n1 n2 (by exact_mod_cast c1) (by exact_mod_cast c2) ?_
  linarith [e.2, e1.1, e2.1]

/-! ## Random coordinates -/

/-- A random coordinate is a double between -10 and 10, and a multiple of `2⁻⁵¹`. -/
theorem coordinate64_spec {k : Nat} (hk : k < 2 ^ 53) :
    ∃ x, coordinate64 k = .fin x ∧ IsDouble x ∧ |x| ≤ 10 ∧ ∃ z : ℤ, x = z * pow2 (-51) := by
  have hk' : (k : ℚ) ≤ 2 ^ 53 := by exact_mod_cast hk.le
  have h0 : (0 : ℚ) ≤ k := by positivity
  have h53 : pow2 (-53) = 1 / 2 ^ 53 := by norm_num [pow2_eq]
  have big : (2 : ℚ) ^ 20 ≤ pow2 1023 := by
    have : pow2 20 = 2 ^ 20 := by norm_num [pow2_eq]
    rw [← this]
    exact pow2_le (by norm_num)
  have d20 : IsDouble 20 := by
    simpa [pow2_eq] using isDouble_of_int (z := 20) (q := 0) (by norm_num) (by norm_num) (by norm_num)
  have d10 : IsDouble 10 := by
    simpa [pow2_eq] using isDouble_of_int (z := 10) (q := 0) (by norm_num) (by norm_num) (by norm_num)
  have e51 : (k * pow2 (-53) * 20 : ℚ) = ((5 * k : ℤ) : ℚ) * pow2 (-51) := by
    have : pow2 (-51) = 1 / 2 ^ 51 := by norm_num [pow2_eq]
    rw [this, h53]
    push_cast
    ring
  have h20 : (k * pow2 (-53) * 20 : ℚ) ≤ 20 := by
    rw [h53]
    have : (k : ℚ) * (1 / 2 ^ 53) ≤ 1 := by
      rw [mul_one_div, div_le_one (by positivity)]
      exact hk'
    linarith
  have hn : (0 : ℚ) ≤ k * pow2 (-53) * 20 := mul_nonneg (mul_nonneg h0 (pow2_pos _).le) (by norm_num)
  obtain ⟨y, y1, y2, -⟩ := round64_mixed (x := (k * pow2 (-53) * 20 : ℚ)) (by
    rw [abs_of_nonneg hn]
    exact h20.trans (le_trans (by norm_num) big))
  have y3 : 0 ≤ y := round64_ge y1 isDouble_zero hn
  have y4 : y ≤ 20 := round64_le y1 d20 h20
  obtain ⟨z, hz⟩ := round64_multiple y1 e51
  obtain ⟨x, x1, x2, -⟩ := round64_mixed (x := y - 10) (by
    refine le_trans (abs_le.mpr ⟨?_, ?_⟩ : _ ≤ (2 : ℚ) ^ 20) big <;> linarith)
  have e51' : y - 10 = ((z - 10 * 2 ^ 51 : ℤ) : ℚ) * pow2 (-51) := by
    have : pow2 (-51) = 1 / 2 ^ 51 := by norm_num [pow2_eq]
    rw [hz, this]
    push_cast
    ring
  refine ⟨x, ?_, x2, ?_, round64_multiple x1 e51'⟩
  · show binary64.ops.sub (round64 (k * pow2 (-53) * 20)) (.fin 10) = _
    rw [y1]
    exact x1
  · rw [abs_le]
    exact ⟨round64_ge x1 (isDouble_neg d10) (by linarith), round64_le x1 d10 (by linarith)⟩

/-- different points of a grid -/
theorem grid_euclid {g : ℤ} {p q : ℚ × ℚ} (hne : p ≠ q)
    (hp : ∃ z w : ℤ, p = (z * pow2 g, w * pow2 g)) (hq : ∃ z w : ℤ, q = (z * pow2 g, w * pow2 g)) :
    (2 : ℝ) ^ g ≤ euclid p q := by
  obtain ⟨z, w, rfl⟩ := hp
  obtain ⟨z', w', rfl⟩ := hq
  have key : ∀ a b : ℤ, a ≠ b → (2 : ℝ) ^ g ≤ |(((a * pow2 g - b * pow2 g : ℚ)) : ℝ)| := by
    intro a b hab
    have h1 : (1 : ℤ) ≤ |a - b| := Int.one_le_abs (sub_ne_zero.mpr hab)
    have h3 : (1 : ℝ) ≤ |(a : ℝ) - b| := by exact_mod_cast h1
    push_cast
    rw [cast_pow2, ← sub_mul, abs_mul, abs_of_pos (by positivity : (0 : ℝ) < 2 ^ g)]
    have := mul_le_mul_of_nonneg_right h3 (by positivity : (0 : ℝ) ≤ 2 ^ g)
    linarith
  by_cases hz : z = z'
  · have hw : w ≠ w' := by
      rintro rfl
      exact hne (by rw [hz])
    exact (key w w' hw).trans (abs_le_euclid (z * pow2 g, w * pow2 g) (z' * pow2 g, w' * pow2 g)).2
  · exact (key z z' hz).trans (abs_le_euclid (z * pow2 g, w * pow2 g) (z' * pow2 g, w' * pow2 g)).1

/-- The computed distance of two different points is not zero, unless they are very close. -/
theorem near64_pos {g : ℤ} (hg : -500 ≤ g) {p q : ℚ × ℚ} (hne : p ≠ q)
    (hp : ∃ z w : ℤ, p = (z * pow2 g, w * pow2 g)) (hq : ∃ z w : ℤ, q = (z * pow2 g, w * pow2 g)) :
    (2 : ℝ) ^ (-500 : ℤ) ≤ euclid p q :=
  (zpow_le_zpow_right₀ (by norm_num) hg).trans (grid_euclid hne hp hq)

end Walky
