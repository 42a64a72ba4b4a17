import Verif.Rounding
import Mathlib.Tactic.Ring
import Mathlib.Tactic.Linarith
import Mathlib.Tactic.Positivity
import Mathlib.Algebra.Order.Field.Power

/-! # Lemmas: IEEE double precision -/

namespace Walky

theorem pow2_eq (q : ℤ) : pow2 q = (2 : ℚ) ^ q := by
  cases q with
  | ofNat n => simp [pow2]
  | negSucc n => simp [pow2, zpow_negSucc]

theorem pow2_pos (q : ℤ) : 0 < pow2 q := by rw [pow2_eq]; positivity

theorem pow2_add (a b : ℤ) : pow2 (a + b) = pow2 a * pow2 b := by
  rw [pow2_eq, pow2_eq, pow2_eq, zpow_add₀ (by norm_num)]

theorem pow2_le {a b : ℤ} (h : a ≤ b) : pow2 a ≤ pow2 b := by
  rw [pow2_eq, pow2_eq]; exact zpow_le_zpow_right₀ (by norm_num) h

theorem pow2_lt_iff {a b : ℤ} : pow2 a < pow2 b ↔ a < b := by
  rw [pow2_eq, pow2_eq]; exact zpow_lt_zpow_iff_right₀ (by norm_num)

theorem pow2_natCast (n : Nat) : pow2 (n : ℤ) = ((2 ^ n : ℕ) : ℚ) := rfl

theorem exponent_spec {x : ℚ} (hx : x ≠ 0) :
    pow2 (exponent x) ≤ |x| ∧ |x| < pow2 (exponent x + 1) := by
  have hn : x.num.natAbs ≠ 0 := by simpa using hx
  have hd : x.den ≠ 0 := x.den_nz
  have hax : |x| = (x.num.natAbs : ℚ) / (x.den : ℚ) := by
    conv_lhs => rw [← Rat.num_div_den x]
    rw [abs_div, Nat.abs_cast]
    congr 1
    rw [← Int.cast_abs, Int.abs_eq_natAbs]
    simp
  have h1 : (pow2 (Nat.log2 x.num.natAbs : ℤ)) ≤ (x.num.natAbs : ℚ) := by
    rw [pow2_natCast]; exact_mod_cast Nat.log2_self_le hn
  have h2 : (x.num.natAbs : ℚ) < pow2 ((Nat.log2 x.num.natAbs : ℤ) + 1) := by
    rw [← Nat.cast_succ, pow2_natCast]; exact_mod_cast Nat.lt_log2_self
  have h3 : (pow2 (Nat.log2 x.den : ℤ)) ≤ (x.den : ℚ) := by
    rw [pow2_natCast]; exact_mod_cast Nat.log2_self_le hd
  have h4 : (x.den : ℚ) < pow2 ((Nat.log2 x.den : ℤ) + 1) := by
    rw [← Nat.cast_succ, pow2_natCast]; exact_mod_cast Nat.lt_log2_self
  have hdp : (0 : ℚ) < x.den := by exact_mod_cast Nat.pos_of_ne_zero hd
  generalize hA : (Nat.log2 x.num.natAbs : ℤ) = A at *
  generalize hB : (Nat.log2 x.den : ℤ) = B at *
  have hup : |x| < pow2 (A - B + 1) := by
    rw [hax, div_lt_iff₀ hdp]
    have : pow2 (A + 1) = pow2 (A - B + 1) * pow2 B := by rw [← pow2_add]; congr 1; ring
    rw [this] at h2
    exact lt_of_lt_of_le h2 (mul_le_mul_of_nonneg_left h3 (pow2_pos _).le)
  have hlo : pow2 (A - B - 1) ≤ |x| := by
    rw [hax, le_div_iff₀ hdp]
    have : pow2 A = pow2 (A - B - 1) * pow2 (B + 1) := by rw [← pow2_add]; congr 1; ring
    rw [this] at h1
    exact le_trans (mul_le_mul_of_nonneg_left h4.le (pow2_pos _).le) h1
  unfold exponent
  rw [hA, hB]
  dsimp only
  split_ifs with h
  · exact ⟨h, hup⟩
  · refine ⟨hlo, ?_⟩
    rw [sub_add_cancel]
    exact not_le.mp h

theorem roundEven_int (z : ℤ) : roundEven (z : ℚ) = z := by
  simp [roundEven]

theorem roundEven_near (x : ℚ) : |(roundEven x : ℚ) - x| ≤ 1 / 2 := by
  have h1 := Int.floor_le x
  have h2 := Int.lt_floor_add_one x
  unfold roundEven
  split_ifs with a b c
  · rw [abs_le]; constructor <;> linarith
  · rw [abs_le]; push_cast; constructor <;> linarith
  · have : x - ⌊x⌋ = 1 / 2 := le_antisymm (not_lt.mp b) (not_lt.mp a)
    rw [abs_le]; constructor <;> linarith
  · have : x - ⌊x⌋ = 1 / 2 := le_antisymm (not_lt.mp b) (not_lt.mp a)
    rw [abs_le]; push_cast; constructor <;> linarith

theorem roundEven_mono {x y : ℚ} (h : x ≤ y) : roundEven x ≤ roundEven y := by
  have hx1 := Int.floor_le x
  have hx2 := Int.lt_floor_add_one x
  have hy1 := Int.floor_le y
  have hy2 := Int.lt_floor_add_one y
  have hf : ⌊x⌋ ≤ ⌊y⌋ := Int.floor_le_floor h
  rcases eq_or_lt_of_le hf with he | hl
  · unfold roundEven
    rw [he] at hx1 hx2 ⊢
    split_ifs <;> first | omega | (exfalso; linarith)
  · have a : roundEven x ≤ ⌊x⌋ + 1 := by unfold roundEven; split_ifs <;> omega
    have b : ⌊y⌋ ≤ roundEven y := by unfold roundEven; split_ifs <;> omega
    omega

/-- The finite doubles: `z * 2 ^ q` with `|z| ≤ 2 ^ 53` below the overflow threshold. -/
def IsDouble (x : ℚ) : Prop :=
  ∃ z q : ℤ, x = z * pow2 q ∧ |z| ≤ 2 ^ 53 ∧ -1074 ≤ q ∧ |x| < pow2 1024

theorem isDouble_zero : IsDouble 0 := ⟨0, 0, by simp, by norm_num, by norm_num, by
  simpa using pow2_pos 1024⟩

theorem round64_of_nearest {x : ℚ} (hx : x ≠ 0) (h : |nearest64 x| < pow2 1024) :
    round64 x = .fin (nearest64 x) := by
  rw [abs_lt] at h
  unfold round64
  rw [if_neg hx, if_neg (not_le.mpr h.2), if_neg (not_le.mpr h.1)]

theorem nearest64_of_int {x : ℚ} {z : ℤ} (h : x = z * pow2 (quantum x)) : nearest64 x = x := by
  have hp := pow2_pos (quantum x)
  have : x / pow2 (quantum x) = z := by rw [div_eq_iff hp.ne']; exact h
  unfold nearest64
  rw [this, roundEven_int]
  exact h.symm

/-- Doubles are not rounded. -/
theorem round64_isDouble {x : ℚ} (h : IsDouble x) : round64 x = .fin x := by
  obtain ⟨z, q, hx, hz, hq, hb⟩ := h
  by_cases h0 : x = 0
  · subst h0; simp [round64]
  have hz0 : z ≠ 0 := by rintro rfl; simp at hx; exact h0 hx
  obtain ⟨e1, e2⟩ := exponent_spec h0
  have hax : |x| = |(z : ℚ)| * pow2 q := by rw [hx, abs_mul, abs_of_pos (pow2_pos q)]
  have hle : |x| ≤ pow2 (53 + q) := by
    rw [hax, pow2_add]
    refine mul_le_mul_of_nonneg_right ?_ (pow2_pos q).le
    rw [show pow2 53 = ((2 ^ 53 : ℤ) : ℚ) by norm_num [pow2_eq]]
    exact_mod_cast hz
  have hexp : exponent x ≤ 53 + q := by
    by_contra hc
    have : pow2 (53 + q) < pow2 (exponent x) := pow2_lt_iff.mpr (not_le.mp hc)
    exact absurd (lt_of_lt_of_le this e1) (not_lt.mpr hle)
  have hint : ∃ w : ℤ, x = w * pow2 (quantum x) := by
    by_cases hqq : quantum x ≤ q
    · obtain ⟨k, hk⟩ := Int.eq_ofNat_of_zero_le (sub_nonneg.mpr hqq)
      refine ⟨z * 2 ^ k, ?_⟩
      have : pow2 q = pow2 (k : ℤ) * pow2 (quantum x) := by
        rw [← pow2_add]; congr 1; omega
      rw [this, pow2_natCast] at hx
      rw [mul_comm] at hx
      conv_lhs => rw [hx]
      push_cast; ring
    · have hqx : exponent x = 53 + q := by
        unfold quantum at hqq; omega
      have hq1 : quantum x = q + 1 := by unfold quantum; omega
      have heq : |x| = pow2 (53 + q) := le_antisymm hle (hqx ▸ e1)
      have hzz : |(z : ℚ)| = pow2 53 := by
        rw [hax, pow2_add] at heq
        exact mul_right_cancel₀ (pow2_pos q).ne' heq
      have hzi : |z| = 2 ^ 53 := by
        rw [show pow2 53 = ((2 ^ 53 : ℤ) : ℚ) by norm_num [pow2_eq]] at hzz
        exact_mod_cast hzz
      have heven : z = 2 * (z / 2) := by
        rcases abs_eq (by norm_num : (0 : ℤ) ≤ 2 ^ 53) |>.mp hzi with h | h <;> rw [h] <;> norm_num
      refine ⟨z / 2, ?_⟩
      rw [hq1, pow2_add, show pow2 1 = 2 by norm_num [pow2_eq], hx]
      conv_lhs => rw [heven]
      push_cast
      ring
  obtain ⟨w, hw⟩ := hint
  have := nearest64_of_int hw
  rw [round64_of_nearest h0 (by rw [this]; exact hb), this]

theorem pow2_half (e : ℤ) : pow2 (e - 1) = pow2 e / 2 := by
  have : pow2 e = pow2 (e - 1) * 2 := by
    rw [show (2 : ℚ) = pow2 1 by norm_num [pow2_eq], ← pow2_add]; congr 1; ring
  rw [this]; ring

theorem abs_div_quantum_lt {x : ℚ} (hx : x ≠ 0) : |x / pow2 (quantum x)| < pow2 53 := by
  rw [abs_div, abs_of_pos (pow2_pos _), div_lt_iff₀ (pow2_pos _), ← pow2_add]
  refine lt_of_lt_of_le (exponent_spec hx).2 (pow2_le ?_)
  unfold quantum; omega

theorem abs_roundEven_le {x : ℚ} (h : |x| < pow2 53) : |roundEven x| ≤ 2 ^ 53 := by
  have h53 : pow2 53 = ((2 ^ 53 : ℤ) : ℚ) := by norm_num [pow2_eq]
  rw [h53, abs_lt] at h
  rw [abs_le]
  constructor
  · have := roundEven_mono (x := ((-(2 ^ 53) : ℤ) : ℚ)) (y := x) (by push_cast; push_cast at h; linarith)
    rwa [roundEven_int] at this
  · have := roundEven_mono (x := x) (y := ((2 ^ 53 : ℤ) : ℚ)) h.2.le
    rwa [roundEven_int] at this

/-- The rounded value is a double with a relative error of at most `2⁻⁵³`, unless the exact value
overflows, provided that the exact value is a multiple of the smallest double (which is the case for
sums and differences of doubles). -/
theorem round64_error {x : ℚ} (hm : ∃ z : ℤ, x = z * pow2 (-1074)) (hb : |x| ≤ pow2 1023) :
    ∃ y, round64 x = .fin y ∧ IsDouble y ∧ |y - x| ≤ pow2 (-53) * |x| := by
  by_cases h0 : x = 0
  · subst h0
    exact ⟨0, by simp [round64], isDouble_zero, by simp⟩
  have hp := pow2_pos (quantum x)
  have herr : |nearest64 x - x| ≤ pow2 (-53) * |x| := by
    by_cases hq : exponent x - 52 ≤ -1074
    · have hqe : quantum x = -1074 := by unfold quantum; omega
      obtain ⟨z, hz⟩ := hm
      rw [nearest64_of_int (z := z) (by rw [hqe]; exact hz)]
      simp only [sub_self, abs_zero]
      have := pow2_pos (-53)
      positivity
    · have hqe : quantum x = exponent x - 52 := by unfold quantum; omega
      have h1 : nearest64 x - x =
          ((roundEven (x / pow2 (quantum x)) : ℚ) - x / pow2 (quantum x)) * pow2 (quantum x) := by
        unfold nearest64
        rw [sub_mul, div_mul_cancel₀ _ hp.ne']
      rw [h1, abs_mul, abs_of_pos hp]
      refine le_trans (mul_le_mul_of_nonneg_right (roundEven_near _) hp.le) ?_
      have h2 : 1 / 2 * pow2 (quantum x) = pow2 (-53) * pow2 (exponent x) := by
        rw [← pow2_add, hqe, show (-53 : ℤ) + exponent x = exponent x - 52 - 1 by ring, pow2_half]
        ring
      rw [h2]
      exact mul_le_mul_of_nonneg_left (exponent_spec h0).1 (pow2_pos _).le
  have hlt : |nearest64 x| < pow2 1024 := by
    have h3 : |nearest64 x| ≤ |nearest64 x - x| + |x| := by
      have := abs_add_le (nearest64 x - x) x
      rwa [sub_add_cancel] at this
    have h4 : pow2 (-53) ≤ 1 / 4 := by norm_num [pow2_eq]
    have h5 : pow2 1023 = pow2 1024 / 2 := pow2_half 1024
    have h6 := pow2_pos 1024
    have h7 : pow2 (-53) * |x| ≤ 1 / 4 * |x| := mul_le_mul_of_nonneg_right h4 (abs_nonneg x)
    rw [h5] at hb
    linarith
  refine ⟨nearest64 x, round64_of_nearest h0 hlt, ?_, herr⟩
  exact ⟨roundEven (x / pow2 (quantum x)), quantum x, rfl,
    abs_roundEven_le (abs_div_quantum_lt h0), by unfold quantum; omega, hlt⟩

theorem isDouble_multiple {x : ℚ} (h : IsDouble x) : ∃ z : ℤ, x = z * pow2 (-1074) := by
  obtain ⟨z, q, hx, -, hq, -⟩ := h
  obtain ⟨k, hk⟩ := Int.eq_ofNat_of_zero_le (by omega : 0 ≤ q + 1074)
  refine ⟨z * 2 ^ k, ?_⟩
  have : pow2 q = pow2 (k : ℤ) * pow2 (-1074) := by rw [← pow2_add]; congr 1; omega
  rw [hx, this, pow2_natCast]; push_cast; ring

/-- Sums of doubles are rounded with a relative error of at most `2⁻⁵³` as long as they do not
overflow. -/
theorem round64_add {a b : ℚ} (ha : IsDouble a) (hb : IsDouble b) (h : |a + b| ≤ pow2 1023) :
    ∃ y, round64 (a + b) = .fin y ∧ IsDouble y ∧ |y - (a + b)| ≤ pow2 (-53) * |a + b| := by
  obtain ⟨z, hz⟩ := isDouble_multiple ha
  obtain ⟨w, hw⟩ := isDouble_multiple hb
  refine round64_error ⟨z + w, ?_⟩ h
  rw [hz, hw]; push_cast; ring

/-- Multiples `z * 2 ^ q` of a power of two with `|z| ≤ 2 ^ 53` are doubles. -/
theorem isDouble_of_int {z q : ℤ} (hz : |z| ≤ 2 ^ 53) (h1 : -1074 ≤ q) (h2 : q ≤ 970) :
    IsDouble (z * pow2 q) := by
  refine ⟨z, q, rfl, hz, h1, ?_⟩
  rw [abs_mul, abs_of_pos (pow2_pos q)]
  have : |(z : ℚ)| ≤ pow2 53 := by
    rw [show pow2 53 = ((2 ^ 53 : ℤ) : ℚ) by norm_num [pow2_eq]]; exact_mod_cast hz
  refine lt_of_le_of_lt (mul_le_mul_of_nonneg_right this (pow2_pos q).le) ?_
  rw [← pow2_add, pow2_lt_iff]
  omega

theorem roundEven_nearest (w : ℚ) (z : ℤ) : |(roundEven w : ℚ) - w| ≤ |(z : ℚ) - w| := by
  have h := roundEven_near w
  by_cases hz : z = roundEven w
  · rw [hz]
  · have h1 : (1 : ℚ) ≤ |(z : ℚ) - roundEven w| := by
      have : (1 : ℤ) ≤ |z - roundEven w| := Int.one_le_abs (sub_ne_zero.mpr hz)
      exact_mod_cast this
    have h2 : |(z : ℚ) - roundEven w| ≤ |(z : ℚ) - w| + |(roundEven w : ℚ) - w| := by
      have := abs_sub_le (z : ℚ) w (roundEven w)
      rwa [abs_sub_comm w] at this
    linarith

/-- No double is nearer. -/
theorem nearest64_nearest {x y : ℚ} (hx : x ≠ 0) (hy : IsDouble y) :
    |nearest64 x - x| ≤ |y - x| := by
  have hp := pow2_pos (quantum x)
  have hmul : ∀ z : ℤ, |nearest64 x - x| ≤ |(z : ℚ) * pow2 (quantum x) - x| := by
    intro z
    have e : ∀ u : ℚ, u * pow2 (quantum x) - x = (u - x / pow2 (quantum x)) * pow2 (quantum x) := by
      intro u
      field_simp
    unfold nearest64
    rw [e, e, abs_mul, abs_mul, abs_of_pos hp]
    exact mul_le_mul_of_nonneg_right (roundEven_nearest _ _) hp.le
  obtain ⟨z, q, hyz, hz, hq, -⟩ := hy
  by_cases hqq : quantum x ≤ q
  · obtain ⟨k, hk⟩ := Int.eq_ofNat_of_zero_le (by omega : 0 ≤ q - quantum x)
    have := hmul (z * 2 ^ k)
    have e : ((z * 2 ^ k : ℤ) : ℚ) * pow2 (quantum x) = y := by
      rw [hyz, show q = (k : ℤ) + quantum x by omega, pow2_add, pow2_natCast]
      push_cast
      ring
    rwa [e] at this
  · have hqu : quantum x = exponent x - 52 := by
      unfold quantum at hqq ⊢
      omega
    have hyabs : |y| ≤ pow2 (exponent x) := by
      rw [hyz, abs_mul, abs_of_pos (pow2_pos q)]
      have h1 : |(z : ℚ)| ≤ pow2 53 := by
        rw [show pow2 53 = ((2 ^ 53 : ℤ) : ℚ) by norm_num [pow2_eq]]
        exact_mod_cast hz
      refine (mul_le_mul_of_nonneg_right h1 (pow2_pos q).le).trans ?_
      rw [← pow2_add]
      exact pow2_le (by omega)
    have hex := (exponent_spec hx).1
    have e52 : pow2 (exponent x) = ((2 ^ 52 : ℤ) : ℚ) * pow2 (quantum x) := by
      rw [show exponent x = 52 + quantum x by omega, pow2_add,
        show pow2 52 = ((2 ^ 52 : ℤ) : ℚ) by norm_num [pow2_eq]]
    rcases lt_or_gt_of_ne hx with h | h
    · have h3 := hmul (-(2 ^ 52))
      have e : ((-(2 ^ 52) : ℤ) : ℚ) * pow2 (quantum x) = -pow2 (exponent x) := by
        rw [e52]; push_cast; ring
      rw [e] at h3
      rw [abs_of_neg h] at hex
      rw [abs_of_nonneg (by linarith : 0 ≤ -pow2 (exponent x) - x)] at h3
      have := neg_le_of_abs_le hyabs
      have := le_abs_self (y - x)
      linarith
    · have h3 := hmul (2 ^ 52)
      rw [← e52] at h3
      rw [abs_of_pos h] at hex
      rw [abs_of_nonpos (by linarith : pow2 (exponent x) - x ≤ 0)] at h3
      have := le_of_abs_le hyabs
      have := neg_le_abs (y - x)
      linarith

end Walky
