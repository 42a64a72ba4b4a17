import Verif.Lemmas.Binary64
import Verif.Lemmas.FixedCli
import Mathlib.Algebra.Group.Subgroup.ZPowers.Basic

/-! # Costs on a grid: double precision does not round -/

namespace Walky

open FloatOps XNum

/-- the multiples of `2 ^ q` -/
def grid (q : ℤ) : AddSubgroup ℚ := AddSubgroup.zmultiples (pow2 q)

theorem mem_grid {q : ℤ} {x : ℚ} : x ∈ grid q ↔ ∃ z : ℤ, x = z * pow2 q := by
  unfold grid
  rw [AddSubgroup.mem_zmultiples_iff]
  refine exists_congr fun z => ?_
  rw [zsmul_eq_mul, eq_comm]

/-- the largest size of numbers on the grid that are not rounded -/
def gridMax (q : ℤ) : ℚ := pow2 (53 + q)

theorem grid_isDouble {q : ℤ} (h1 : -1074 ≤ q) (h2 : q ≤ 970) {x : ℚ} (hx : x ∈ grid q)
    (hb : |x| ≤ gridMax q) : IsDouble x := by
  obtain ⟨z, rfl⟩ := mem_grid.mp hx
  refine isDouble_of_int ?_ h1 h2
  unfold gridMax at hb
  rw [pow2_add, abs_mul, abs_of_pos (pow2_pos q), show pow2 53 = ((2 ^ 53 : ℤ) : ℚ) by norm_num [pow2_eq]] at hb
  have := le_of_mul_le_mul_right hb (pow2_pos q)
  exact_mod_cast this

theorem grid_half {q : ℤ} {x : ℚ} (hx : x ∈ grid q) : x / 2 ∈ grid (q - 1) := by
  obtain ⟨z, rfl⟩ := mem_grid.mp hx
  exact mem_grid.mpr ⟨z, by rw [pow2_half]; ring⟩

/-- Double precision does not round numbers on a grid. -/
theorem binary64_exactOn {q : ℤ} (h1 : -1073 ≤ q) (h2 : q ≤ 970) :
    binary64.ExactOn (grid q) (gridMax q) where
  whole x hx hb := round64_isDouble (grid_isDouble (by omega) h2 hx hb)
  half x hx hb := by
    refine round64_isDouble (grid_isDouble (q := q - 1) (by omega) (by omega) (grid_half hx) ?_)
    unfold gridMax at hb ⊢
    rw [show 53 + (q - 1) = 53 + q - 1 by ring, pow2_half, abs_div, abs_of_pos (by norm_num : (0 : ℚ) < 2)]
    linarith

/-- the `1e-10` of the code -/
theorem tol64 : ∃ t, round64 (1 / 10 ^ 10) = .fin t ∧ 0 < t ∧ t ≤ 101 / 10 ^ 12 := by
  refine ⟨nearest64 (1 / 10 ^ 10), ?_, ?_, ?_⟩ <;> decide +kernel

theorem grid_gap {q : ℤ} {x y : ℚ} (hx : x ∈ grid q) (hy : y ∈ grid q) (h : x < y) :
    x + pow2 q ≤ y := by
  obtain ⟨z, rfl⟩ := mem_grid.mp hx
  obtain ⟨w, rfl⟩ := mem_grid.mp hy
  have h1 := lt_of_mul_lt_mul_right h (pow2_pos q).le
  have h2 : z + 1 ≤ w := by exact_mod_cast h1
  have h3 : ((z : ℚ) + 1) ≤ w := by exact_mod_cast h2
  have := mul_le_mul_of_nonneg_right h3 (pow2_pos q).le
  linarith

theorem pow2_tol {q : ℤ} (h : -32 ≤ q) : 2 * (101 / 10 ^ 12 : ℚ) < pow2 q :=
  lt_of_lt_of_le (by norm_num [pow2_eq]) (pow2_le h)

theorem grid_tol {q : ℤ} (h1 : -32 ≤ q) (h2 : q ≤ 960) {x t : ℚ} (hx : x ∈ grid q)
    (hb : |x| ≤ gridMax q) (ht : 0 < t) (ht' : t ≤ 101 / 10 ^ 12) :
    ∃ r, round64 (x + t) = .fin r ∧ x ≤ r ∧ r < x + pow2 q := by
  have hq := pow2_tol h1
  have h0 : x + t ≠ 0 := by
    intro h
    rcases lt_trichotomy x 0 with hx0 | hx0 | hx0
    · have := grid_gap hx (grid q).zero_mem hx0
      linarith
    · linarith
    · linarith
  have hd := grid_isDouble (by omega) (by omega) hx hb
  have hn := nearest64_nearest h0 hd
  rw [show x - (x + t) = -t by ring, abs_neg, abs_of_pos ht, abs_le] at hn
  refine ⟨nearest64 (x + t), round64_of_nearest h0 ?_, by linarith, by linarith⟩
  have h3 : gridMax q + 1 < pow2 1024 := by
    have a : gridMax q ≤ pow2 1023 := pow2_le (by omega)
    have b : pow2 1024 = pow2 1023 + pow2 1023 := by
      have := pow2_half 1024
      norm_num at this
      linarith
    have c : pow2 1 ≤ pow2 1023 := pow2_le (by norm_num)
    have d : pow2 1 = 2 := by norm_num [pow2_eq]
    linarith
  have h4 := abs_le.mp hb
  rw [abs_lt]
  constructor <;> linarith

/-- The test of the triangle inequality with its tolerance. -/
theorem isMetric_same {q : ℤ} (h1 : -32 ≤ q) (h2 : q ≤ 960) {M : ℚ} {m : Mat (XNum ℚ)}
    (hm : FixedMat (grid q) M m) (hM : 2 * M ≤ gridMax q) :
    @Mat.isMetric _ binary64.ops m = m.isMetric := by
  have hR := binary64_exactOn (q := q) (by omega) (by omega)
  obtain ⟨t, ht, ht0, ht1⟩ := tol64
  have htol : binary64.rnd (1 / 10 ^ 10) = .fin t := ht
  have hq := pow2_tol h1
  unfold Mat.isMetric
  rw [Bool.eq_iff_iff]
  simp only [List.all_eq_true]
  refine forall_congr' fun i => forall_congr' fun hi => forall_congr' fun j => forall_congr' fun hj =>
    forall_congr' fun k => forall_congr' fun hk => ?_
  have hi := List.mem_range.mp hi
  have hj := List.mem_range.mp (List.mem_of_mem_drop hj)
  have hk := List.mem_range.mp hk
  have ha := hm i k hi hk
  have hb := hm k j hk hj
  have hd := hm i j hi hj
  have e : ((@FloatOps.add _ binary64.ops (@FloatOps.add _ binary64.ops (m.get i k) (m.get k j))
      (@FloatOps.tol _ binary64.ops)) <ᶠ m.get i j) = ((m.get i k +ᶠ m.get k j) +ᶠ tol <ᶠ m.get i j) := by
    revert ha hb hd
    generalize m.get i k = a
    generalize m.get k j = b
    generalize m.get i j = d
    intro ha hb hd
    have key : ∀ x y, a = .fin x → b = .fin y → x + y ∈ grid q ∧ |x + y| ≤ gridMax q := by
      intro x y hx hy
      obtain ⟨k1, k2⟩ := ha x hx
      obtain ⟨k3, k4⟩ := hb y hy
      exact ⟨(grid q).add_mem k1 k3, (abs_add_le x y).trans (by linarith)⟩
    have hadd : ∀ x y, a = .fin x → b = .fin y →
        @FloatOps.add _ binary64.ops (.fin x) (.fin y) = .fin (x + y) := by
      intro x y hx hy
      obtain ⟨k1, k2⟩ := key x y hx hy
      exact hR.whole _ k1 k2
    have htl : @FloatOps.tol _ binary64.ops = XNum.fin t := htol
    rw [htl]
    cases a with
    | fin x =>
      cases b with
      | fin y =>
        obtain ⟨k1, k2⟩ := key x y rfl rfl
        rw [hadd x y rfl rfl]
        obtain ⟨r, r1, r2, r3⟩ := grid_tol h1 h2 k1 k2 ht0 ht1
        have e1 : @FloatOps.add _ binary64.ops (XNum.fin (x + y)) (XNum.fin t) = .fin r := r1
        rw [e1]
        cases d with
        | fin w =>
          obtain ⟨k3, k4⟩ := hd w rfl
          change decide (r < w) = decide (x + y + 1 / 10 ^ 10 < w)
          rw [decide_eq_decide]
          rcases lt_or_ge (x + y) w with h | h
          · have := grid_gap k1 k3 h
            constructor
            · intro _
              have : (1 / 10 ^ 10 : ℚ) < 2 * (101 / 10 ^ 12) := by norm_num
              linarith
            · intro _
              linarith
          · constructor
            · intro _
              linarith
            · intro h'
              have : (0 : ℚ) < 1 / 10 ^ 10 := by norm_num
              linarith
        | _ => rfl
      | _ => rfl
    | _ => cases b <;> rfl
  exact Iff.of_eq (congrArg (fun b => (!b) = true) e)

end Walky
