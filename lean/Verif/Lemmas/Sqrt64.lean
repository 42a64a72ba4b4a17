import Verif.Sqrt64
import Verif.Lemmas.Binary64
import Mathlib.Analysis.Real.Sqrt
import Mathlib.Tactic.Linarith

/-! # Rounding of negative numbers, products and square roots -/

namespace Walky

theorem roundEven_neg (x : ℚ) : roundEven (-x) = -roundEven x := by
  have h1 := Int.floor_le x
  have h2 := Int.lt_floor_add_one x
  by_cases hx : (⌊x⌋ : ℚ) = x
  · rw [← hx, roundEven_int]
    have := roundEven_int (-⌊x⌋)
    push_cast at this
    exact this
  · have hlt : (⌊x⌋ : ℚ) < x := lt_of_le_of_ne h1 hx
    have hf : ⌊-x⌋ = -⌊x⌋ - 1 := by
      rw [Int.floor_eq_iff]
      push_cast
      constructor <;> linarith
    unfold roundEven
    rw [hf]
    push_cast
    split_ifs <;> first | omega | (exfalso; linarith)

theorem exponent_neg (x : ℚ) : exponent (-x) = exponent x := by
  unfold exponent
  simp [abs_neg]

theorem quantum_neg (x : ℚ) : quantum (-x) = quantum x := by unfold quantum; rw [exponent_neg]

theorem nearest64_neg (x : ℚ) : nearest64 (-x) = -nearest64 x := by
  unfold nearest64
  rw [quantum_neg, neg_div, roundEven_neg]
  push_cast
  ring

theorem round64_neg {x y : ℚ} (h : round64 x = .fin y) : round64 (-x) = .fin (-y) := by
  unfold round64 at h ⊢
  by_cases h0 : x = 0
  · subst h0
    simp at h ⊢
    rw [← h]
  · rw [if_neg h0] at h
    rw [if_neg (neg_ne_zero.mpr h0), nearest64_neg]
    split at h
    · cases h
    · split at h
      · cases h
      · rename_i h1 h2
        rw [if_neg (by intro h3; apply h2; linarith), if_neg (by intro h3; apply h1; linarith)]
        rw [← XNum.fin.inj h]

theorem round64_nearest {x y : ℚ} (h : round64 x = .fin y) {d : ℚ} (hd : IsDouble d) :
    |y - x| ≤ |d - x| := by
  by_cases h0 : x = 0
  · subst h0
    simp [round64] at h
    subst h
    simp
  · have hy : y = nearest64 x := by
      unfold round64 at h
      rw [if_neg h0] at h
      split at h
      · cases h
      · split at h
        · cases h
        · exact (XNum.fin.inj h).symm
    rw [hy]
    exact nearest64_nearest h0 hd

/-- Rounding does not pass a double. -/
theorem round64_ge {x y : ℚ} (h : round64 x = .fin y) {d : ℚ} (hd : IsDouble d) (hx : d ≤ x) : d ≤ y := by
  by_contra hlt
  have := round64_nearest h hd
  rw [abs_of_nonpos (by linarith), abs_of_nonpos (by linarith)] at this
  linarith

theorem round64_le {x y : ℚ} (h : round64 x = .fin y) {d : ℚ} (hd : IsDouble d) (hx : x ≤ d) : y ≤ d := by
  by_contra hlt
  have := round64_nearest h hd
  rw [abs_of_nonneg (by linarith), abs_of_nonneg (by linarith)] at this
  linarith

/-- Every number up to `2 ^ 1023` is rounded to a double, with a relative error of `2⁻⁵³` and an absolute
error of `2⁻¹⁰⁷⁵`. -/
theorem round64_mixed {x : ℚ} (hb : |x| ≤ pow2 1023) :
    ∃ y, round64 x = .fin y ∧ IsDouble y ∧ |y - x| ≤ pow2 (-53) * |x| + pow2 (-1075) := by
  by_cases h0 : x = 0
  · subst h0
    exact ⟨0, by simp [round64], isDouble_zero, by simpa using (pow2_pos (-1075)).le⟩
  have hp := pow2_pos (quantum x)
  have h1 : nearest64 x - x =
      ((roundEven (x / pow2 (quantum x)) : ℚ) - x / pow2 (quantum x)) * pow2 (quantum x) := by
    unfold nearest64
    rw [sub_mul, div_mul_cancel₀ _ hp.ne']
  have hle : |nearest64 x - x| ≤ 1 / 2 * pow2 (quantum x) := by
    rw [h1, abs_mul, abs_of_pos hp]
    exact mul_le_mul_of_nonneg_right (roundEven_near _) hp.le
  have hx0 := abs_nonneg x
  have herr : |nearest64 x - x| ≤ pow2 (-53) * |x| + pow2 (-1075) := by
    refine hle.trans ?_
    by_cases hq : exponent x - 52 ≤ -1074
    · have hqe : quantum x = -1074 := by unfold quantum; omega
      have : 1 / 2 * pow2 (quantum x) = pow2 (-1075) := by
        rw [hqe, show (-1075 : ℤ) = -1074 - 1 by norm_num, pow2_half]
        ring
      rw [this]
      have := mul_nonneg (pow2_pos (-53)).le hx0
      linarith
    · have hqe : quantum x = exponent x - 52 := by unfold quantum; omega
      have h2 : 1 / 2 * pow2 (quantum x) = pow2 (-53) * pow2 (exponent x) := by
        rw [← pow2_add, hqe, show (-53 : ℤ) + exponent x = exponent x - 52 - 1 by ring, pow2_half]
        ring
      rw [h2]
      have := mul_le_mul_of_nonneg_left (exponent_spec h0).1 (pow2_pos (-53)).le
      have := (pow2_pos (-1075)).le
      linarith
  have hlt : |nearest64 x| < pow2 1024 := by
    have h3 : |nearest64 x| ≤ |nearest64 x - x| + |x| := by
      have := abs_add_le (nearest64 x - x) x
      rwa [sub_add_cancel] at this
    have h4 : pow2 (-53) ≤ 1 / 4 := by norm_num [pow2_eq]
    have h5 : pow2 1023 = pow2 1024 / 2 := pow2_half 1024
    have h6 : pow2 (-1075) < pow2 1022 := pow2_lt_iff.mpr (by norm_num)
    have h8 : pow2 1022 = pow2 1023 / 2 := pow2_half 1023
    have h7 : pow2 (-53) * |x| ≤ 1 / 4 * |x| := mul_le_mul_of_nonneg_right h4 hx0
    rw [h8, h5] at h6
    rw [h5] at hb
    linarith
  refine ⟨nearest64 x, round64_of_nearest h0 hlt, ?_, herr⟩
  exact ⟨roundEven (x / pow2 (quantum x)), quantum x, rfl,
    abs_roundEven_le (abs_div_quantum_lt h0), by unfold quantum; omega, hlt⟩

/-- A multiple of a power of two is rounded to a multiple of it. -/
theorem round64_multiple {x y : ℚ} (h : round64 x = .fin y) {g : ℤ} {z : ℤ}
    (hx : x = z * pow2 g) : ∃ w : ℤ, y = w * pow2 g := by
  by_cases h0 : x = 0
  · subst h0
    simp [round64] at h
    exact ⟨0, by rw [← h]; simp⟩
  have hy : y = nearest64 x := by
    unfold round64 at h
    rw [if_neg h0] at h
    split at h
    · cases h
    · split at h
      · cases h
      · exact (XNum.fin.inj h).symm
  rcases le_total (quantum x) g with hq | hq
  · obtain ⟨k, hk⟩ := Int.eq_ofNat_of_zero_le (sub_nonneg.mpr hq)
    refine ⟨z, ?_⟩
    rw [hy, ← hx]
    refine nearest64_of_int (z := z * 2 ^ k) ?_
    have : pow2 g = pow2 (k : ℤ) * pow2 (quantum x) := by
      rw [← pow2_add]; congr 1; omega
    rw [this, pow2_natCast] at hx
    calc x = _ := hx
      _ = _ := by push_cast; ring
  · obtain ⟨k, hk⟩ := Int.eq_ofNat_of_zero_le (sub_nonneg.mpr hq)
    refine ⟨roundEven (x / pow2 (quantum x)) * 2 ^ k, ?_⟩
    rw [hy]
    unfold nearest64
    rw [show pow2 (quantum x) = pow2 (k : ℤ) * pow2 g by rw [← pow2_add]; congr 1; omega, pow2_natCast]
    push_cast
    ring

/-! ## Square roots -/

theorem cast_pow2 (q : ℤ) : ((pow2 q : ℚ) : ℝ) = (2 : ℝ) ^ q := by rw [pow2_eq]; push_cast; rfl

section
variable {x : ℚ} (hx : 0 < x)
include hx

theorem sqrtExponent : pow2 (2 * (exponent x / 2)) ≤ x ∧ x < pow2 (2 * (exponent x / 2) + 2) := by
  obtain ⟨h1, h2⟩ := exponent_spec hx.ne'
  rw [abs_of_pos hx] at h1 h2
  exact ⟨(pow2_le (by omega)).trans h1, h2.trans_le (pow2_le (by omega))⟩

/-- `√x` in units of the last bit -/
theorem sqrt_scaled : Real.sqrt (x : ℝ) =
    Real.sqrt ((x / pow2 (2 * sqrtQuantum x) : ℚ) : ℝ) * (2 : ℝ) ^ sqrtQuantum x := by
  have h2 : (0 : ℝ) < (2 : ℝ) ^ sqrtQuantum x := by positivity
  have e : (x : ℝ) = ((x / pow2 (2 * sqrtQuantum x) : ℚ) : ℝ) * ((2 : ℝ) ^ sqrtQuantum x) ^ 2 := by
    push_cast
    rw [cast_pow2, ← zpow_natCast, ← zpow_mul, mul_comm (sqrtQuantum x)]
    have : ((2 : ℝ) ^ (2 * sqrtQuantum x)) ≠ 0 := by positivity
    field_simp
    norm_num
  conv_lhs => rw [e]
  rw [Real.sqrt_mul' _ (by positivity), Real.sqrt_sq h2.le]

theorem sqrtFloor_spec : (sqrtFloor x : ℝ) ≤ Real.sqrt ((x / pow2 (2 * sqrtQuantum x) : ℚ) : ℝ) ∧
    Real.sqrt ((x / pow2 (2 * sqrtQuantum x) : ℚ) : ℝ) < sqrtFloor x + 1 ∧
    2 ^ 52 ≤ sqrtFloor x ∧ sqrtFloor x < 2 ^ 53 := by
  obtain ⟨h1, h2⟩ := sqrtExponent hx
  have hp := pow2_pos (2 * sqrtQuantum x)
  set w := x / pow2 (2 * sqrtQuantum x) with hw
  have hw1 : pow2 104 ≤ w := by
    rw [hw, le_div_iff₀ hp, ← pow2_add]
    refine le_trans (pow2_le ?_) h1
    unfold sqrtQuantum; omega
  have hw2 : w < pow2 106 := by
    rw [hw, div_lt_iff₀ hp, ← pow2_add]
    refine lt_of_lt_of_le h2 (pow2_le ?_)
    unfold sqrtQuantum; omega
  have hw0 : 0 < w := lt_of_lt_of_le (pow2_pos _) hw1
  have hf0 : 0 ≤ ⌊w⌋ := Int.floor_nonneg.mpr hw0.le
  have hz : sqrtFloor x = Nat.sqrt ⌊w⌋.toNat := rfl
  set t := ⌊w⌋.toNat with ht
  have htt : ((t : ℕ) : ℤ) = ⌊w⌋ := Int.toNat_of_nonneg hf0
  have ht1 : ((t : ℕ) : ℚ) ≤ w := by
    have := Int.floor_le w
    rw [← htt] at this
    exact_mod_cast this
  have ht2 : w < ((t : ℕ) : ℚ) + 1 := by
    have := Int.lt_floor_add_one w
    rw [← htt] at this
    exact_mod_cast this
  have hs1 : Nat.sqrt t * Nat.sqrt t ≤ t := Nat.sqrt_le t
  have hs2 : t < (Nat.sqrt t + 1) * (Nat.sqrt t + 1) := Nat.lt_succ_sqrt t
  rw [hz]
  set z := Nat.sqrt t
  have hz1 : (z : ℚ) * z ≤ w := le_trans (by exact_mod_cast hs1) ht1
  have hz2 : w < ((z : ℚ) + 1) * (z + 1) := by
    refine lt_of_lt_of_le ht2 ?_
    have : t + 1 ≤ (z + 1) * (z + 1) := hs2
    exact_mod_cast this
  refine ⟨?_, ?_, ?_, ?_⟩
  · refine Real.le_sqrt_of_sq_le ?_
    rw [pow_two]
    exact_mod_cast hz1
  · rw [Real.sqrt_lt' (by positivity), pow_two]
    exact_mod_cast hz2
  · have h52 : pow2 104 = 2 ^ 52 * 2 ^ 52 := by norm_num [pow2_eq]
    rw [h52] at hw1
    by_contra hlt
    have hz3 : z + 1 ≤ 2 ^ 52 := by omega
    have hz4 : ((z : ℚ) + 1) ≤ 2 ^ 52 := by exact_mod_cast hz3
    have : ((z : ℚ) + 1) * (z + 1) ≤ 2 ^ 52 * 2 ^ 52 := by
      refine mul_le_mul hz4 hz4 (by positivity) (by positivity)
    linarith
  · have h53 : pow2 106 = 2 ^ 53 * 2 ^ 53 := by norm_num [pow2_eq]
    rw [h53] at hw2
    by_contra hge
    have hz4 : ((2 : ℚ) ^ 53) ≤ z := by exact_mod_cast (not_lt.mp hge)
    have : (2 : ℚ) ^ 53 * 2 ^ 53 ≤ (z : ℚ) * z := mul_le_mul hz4 hz4 (by positivity) (by positivity)
    linarith

/-- The rounded square root is a whole number of units of the last bit, at most half a unit away from
the exact one. -/
theorem nearestSqrt_unit : ∃ z : ℕ, nearestSqrt x = z * pow2 (sqrtQuantum x) ∧ 2 ^ 52 ≤ z ∧ z ≤ 2 ^ 53 ∧
    |(z : ℝ) - Real.sqrt ((x / pow2 (2 * sqrtQuantum x) : ℚ) : ℝ)| ≤ 1 / 2 := by
  obtain ⟨h1, h2, h3, h4⟩ := sqrtFloor_spec hx
  have hw0 : 0 < x / pow2 (2 * sqrtQuantum x) := div_pos hx (pow2_pos _)
  unfold nearestSqrt
  set w := x / pow2 (2 * sqrtQuantum x)
  by_cases hle : w ≤ ((sqrtFloor x : ℚ) + 1 / 2) ^ 2
  · rw [if_pos hle]
    refine ⟨sqrtFloor x, rfl, h3, h4.le, ?_⟩
    have : Real.sqrt (w : ℝ) ≤ (sqrtFloor x : ℝ) + 1 / 2 := by
      refine Real.sqrt_le_iff.mpr ⟨by positivity, ?_⟩
      have : ((w : ℚ) : ℝ) ≤ (((sqrtFloor x : ℚ) + 1 / 2) ^ 2 : ℚ) := by exact_mod_cast hle
      push_cast at this
      exact this
    rw [abs_le]
    constructor <;> linarith
  · rw [if_neg hle]
    refine ⟨sqrtFloor x + 1, by push_cast; rfl, by omega, by omega, ?_⟩
    have : (sqrtFloor x : ℝ) + 1 / 2 ≤ Real.sqrt (w : ℝ) := by
      refine Real.le_sqrt_of_sq_le ?_
      have : ((((sqrtFloor x : ℚ) + 1 / 2) ^ 2 : ℚ) : ℝ) ≤ ((w : ℚ) : ℝ) := by
        exact_mod_cast (not_le.mp hle).le
      push_cast at this
      exact this
    push_cast
    rw [abs_le]
    constructor <;> linarith

/-- The rounded square root has a relative error of at most `2⁻⁵³`. -/
theorem nearestSqrt_error : |(nearestSqrt x : ℝ) - Real.sqrt x| ≤ (2 : ℝ) ^ (-53 : ℤ) * Real.sqrt x := by
  obtain ⟨z, h1, h2, h3, h4⟩ := nearestSqrt_unit hx
  obtain ⟨k1, -, k3, -⟩ := sqrtFloor_spec hx
  have hp : (0 : ℝ) < (2 : ℝ) ^ sqrtQuantum x := by positivity
  rw [sqrt_scaled hx, h1]
  push_cast
  rw [cast_pow2, ← sub_mul, abs_mul, abs_of_pos hp, ← mul_assoc]
  refine mul_le_mul_of_nonneg_right (le_trans (by exact_mod_cast h4) ?_) hp.le
  have : (2 : ℝ) ^ 52 ≤ Real.sqrt ((x / pow2 (2 * sqrtQuantum x) : ℚ) : ℝ) :=
    le_trans (by exact_mod_cast k3) k1
  push_cast at this
  have e : (2 : ℝ) ^ (-53 : ℤ) * 2 ^ 52 = 1 / 2 := by norm_num
  have := mul_le_mul_of_nonneg_left this (by positivity : (0 : ℝ) ≤ (2 : ℝ) ^ (-53 : ℤ))
  linarith

theorem nearestSqrt_pos : 0 < nearestSqrt x := by
  obtain ⟨z, h1, h2, -, -⟩ := nearestSqrt_unit hx
  rw [h1]
  have : 0 < z := by omega
  have := pow2_pos (sqrtQuantum x)
  positivity

end

/-- The square root of a positive double is a double. -/
theorem nearestSqrt_isDouble {x : ℚ} (hx : 0 < x) (hd : IsDouble x) : IsDouble (nearestSqrt x) := by
  obtain ⟨z, h1, -, h3, -⟩ := nearestSqrt_unit hx
  obtain ⟨k1, k2⟩ := sqrtExponent hx
  obtain ⟨a, ha⟩ := isDouble_multiple hd
  have hmin : pow2 (-1074) ≤ x := by
    rw [ha] at hx ⊢
    have h0 : (0 : ℚ) < a := pos_of_mul_pos_left hx (pow2_pos _).le
    have h1 : (1 : ℤ) ≤ a := by exact_mod_cast h0
    have h2 : (1 : ℚ) ≤ a := by exact_mod_cast h1
    have := mul_le_mul_of_nonneg_right h2 (pow2_pos (-1074)).le
    linarith
  have hlow := pow2_lt_iff.mp (hmin.trans_lt k2)
  obtain ⟨-, -, -, -, -, hlt⟩ := hd
  rw [abs_of_pos hx] at hlt
  have hup := pow2_lt_iff.mp (k1.trans_lt hlt)
  rw [h1]
  have := isDouble_of_int (z := (z : ℤ)) (q := sqrtQuantum x)
    (by rw [abs_of_nonneg (by positivity)]; exact_mod_cast h3)
    (by unfold sqrtQuantum; omega) (by unfold sqrtQuantum; omega)
  simpa using this

/-- No double is nearer to the square root. -/
theorem nearestSqrt_nearest {x : ℚ} (hx : 0 < x) {y : ℚ} (hy : IsDouble y) :
    |(nearestSqrt x : ℝ) - Real.sqrt x| ≤ |(y : ℝ) - Real.sqrt x| := by
  obtain ⟨z, h1, h2, h3, h4⟩ := nearestSqrt_unit hx
  obtain ⟨k1, -, k3, -⟩ := sqrtFloor_spec hx
  have hp : (0 : ℝ) < (2 : ℝ) ^ sqrtQuantum x := by positivity
  have hs := sqrt_scaled hx
  set s := Real.sqrt ((x / pow2 (2 * sqrtQuantum x) : ℚ) : ℝ) with hsdef
  have hs52 : (2 : ℝ) ^ 52 ≤ s := le_trans (by exact_mod_cast k3) k1
  have hmul : ∀ w : ℤ, |(nearestSqrt x : ℝ) - Real.sqrt x| ≤
      |(w : ℝ) * (2 : ℝ) ^ sqrtQuantum x - Real.sqrt x| := by
    intro w
    rw [hs, h1]
    push_cast
    rw [cast_pow2, ← sub_mul, ← sub_mul, abs_mul, abs_mul]
    refine mul_le_mul_of_nonneg_right ?_ (abs_nonneg _)
    by_cases hwz : w = z
    · rw [hwz]; push_cast; exact le_rfl
    · have h5 : (1 : ℤ) ≤ |w - z| := Int.one_le_abs (sub_ne_zero.mpr hwz)
      have h6 : (1 : ℝ) ≤ |(w : ℝ) - z| := by exact_mod_cast h5
      have h7 := abs_sub_le (w : ℝ) s z
      rw [abs_sub_comm s] at h7
      linarith
  obtain ⟨a, q, hyz, ha, hq, -⟩ := hy
  by_cases hqq : sqrtQuantum x ≤ q
  · obtain ⟨k, hk⟩ := Int.eq_ofNat_of_zero_le (by omega : 0 ≤ q - sqrtQuantum x)
    have := hmul (a * 2 ^ k)
    have e : ((a * 2 ^ k : ℤ) : ℝ) * (2 : ℝ) ^ sqrtQuantum x = y := by
      rw [hyz, show q = (k : ℤ) + sqrtQuantum x by omega]
      push_cast
      rw [cast_pow2, zpow_add₀ (by norm_num), zpow_natCast]
      ring
    rwa [e] at this
  · have hyle : (y : ℝ) ≤ (2 : ℝ) ^ 52 * (2 : ℝ) ^ sqrtQuantum x := by
      have h5 : (y : ℝ) ≤ ((2 : ℤ) ^ 53 : ℤ) * (2 : ℝ) ^ q := by
        rw [hyz]
        push_cast
        rw [cast_pow2]
        refine mul_le_mul_of_nonneg_right ?_ (by positivity)
        have h6 : ((a : ℤ) : ℝ) ≤ ((2 ^ 53 : ℤ) : ℝ) := Int.cast_le.mpr ((le_abs_self a).trans ha)
        push_cast at h6
        exact h6
      refine h5.trans ?_
      have h6 : (2 : ℝ) ^ q ≤ (2 : ℝ) ^ (sqrtQuantum x - 1) := zpow_le_zpow_right₀ (by norm_num) (by omega)
      have h7 : (2 : ℝ) ^ (sqrtQuantum x - 1) = (2 : ℝ) ^ sqrtQuantum x / 2 := by
        rw [zpow_sub₀ (by norm_num)]; norm_num
      rw [h7] at h6
      push_cast
      linarith
    have h8 := hmul (2 ^ 52)
    have h9 : (2 : ℝ) ^ 52 * (2 : ℝ) ^ sqrtQuantum x ≤ Real.sqrt x := by
      rw [hs]; exact mul_le_mul_of_nonneg_right hs52 hp.le
    push_cast at h8
    rw [abs_of_nonpos (by linarith : _ * (2 : ℝ) ^ sqrtQuantum x - Real.sqrt x ≤ 0)] at h8
    rw [abs_of_nonpos (by linarith : (y : ℝ) - Real.sqrt x ≤ 0)]
    linarith

end Walky
