import Verif.Props.Rounding
import Verif.Props.Renumber
import Verif.Props.SamePlace
import Verif.Props.Tolls

/-!
# Two runs in double precision (C118)

The relations between the answers for two instances (C107, C109, C114, C116, C117) in IEEE double precision,
where the answers may differ by rounding errors.
-/

set_option linter.unusedSectionVars false

namespace Walky.Props

open XNum Spec

/-- Symmetric distances from 0 to `M` between three or more cities. The numbers of the cities and the lengths of tours are so
small that `2 n M ≤ 2 ^ k`. (The distances need not be doubles.) -/
structure Fits (k : ℤ) (m : Mat (XNum ℚ)) (c : Nat → Nat → ℚ) : Prop where
  rep : Rep m c
  exponent : -1021 ≤ k ∧ k ≤ 1023
  symm : Symm m.dim c
  three : 3 ≤ m.dim
  cities : m.dim ≤ 2 ^ 25
  size : ∃ M, (∀ i j, i < m.dim → j < m.dim → i ≠ j → 0 ≤ c i j ∧ c i j ≤ M) ∧ 2 * m.dim * M ≤ (2 : ℚ) ^ k

/-- the allowed rounding error -/
def slack (k : ℤ) (n : Nat) : ℚ := (2 * n ^ 2 + 1) * (2 : ℚ) ^ (k - 54)

/-- the solvers v0, v1, v2 and v3 in double precision -/
def solve64 (v : Fin 4) (m : Mat (XNum ℚ)) : RM (Solution (XNum ℚ)) :=
  match v with
  | 0 => @naiveSolver _ binary64.ops m
  | 1 => @firstImprovedSolver _ binary64.ops m
  | 2 => @secondImprovedSolver _ binary64.ops m
  | 3 => @thirdImprovedSolver _ binary64.ops m

private theorem slack_mono {k : ℤ} {n n' : Nat} (h : n' ≤ n) : slack k n' ≤ slack k n := by
  unfold slack
  refine mul_le_mul_of_nonneg_right ?_ (by positivity)
  have : ((n' : ℚ)) ^ 2 ≤ (n : ℚ) ^ 2 := by
    have : (n' : ℚ) ≤ n := by exact_mod_cast h
    exact pow_le_pow_left₀ (by positivity) this 2
  linarith

/-- the reported length is the optimum up to rounding -/
private theorem Fits.near {k : ℤ} {m : Mat (XNum ℚ)} {c : Nat → Nat → ℚ} (h : Fits k m c) (v : Fin 4) :
    ∃ w p, solve64 v m = .ok (fin w, p) ∧ IsTour m.dim p ∧ ∀ q, IsShortest m.dim c q →
      tourCost c q - slack k m.dim ≤ w ∧ w ≤ tourCost c q + 3 * slack k m.dim := by
  obtain ⟨M, hM, hB⟩ := h.size
  have h3 := h.three
  have hM0 : 0 ≤ M := (hM 0 1 (by omega) (by omega) (by omega)).1.trans
    (hM 0 1 (by omega) (by omega) (by omega)).2
  obtain ⟨k0, k1, k2, k3⟩ := C65_accuracy h.exponent.1 h.exponent.2 h.rep hM0
    (fun i j hi hj hij => by rw [abs_of_nonneg (hM i j hi hj hij).1]; exact (hM i j hi hj hij).2)
    h.three h.cities hB
  have hz : Nonneg m.dim c := fun i j hi hj hij => (hM i j hi hj hij).1
  have key : ∀ {r : RM (Solution (XNum ℚ))} {e : ℚ}, e ≤ slack k m.dim →
      (∃ p w, r = .ok (fin w, p) ∧ IsTour m.dim p ∧ |w - tourCost c p| ≤ e ∧
        ∀ q, IsTour m.dim q → tourCost c p ≤ tourCost c q + 2 * e) →
      ∃ w p, r = .ok (fin w, p) ∧ IsTour m.dim p ∧ ∀ q, IsShortest m.dim c q →
        tourCost c q - slack k m.dim ≤ w ∧ w ≤ tourCost c q + 3 * slack k m.dim := by
    rintro r e he ⟨p, w, a, b, d, f⟩
    refine ⟨w, p, a, b, fun q hq => ?_⟩
    have h1 := hq.2 p b
    have h2 := f q hq.1
    rw [abs_le] at d
    constructor <;> linarith [d.1, d.2]
  have hs : (m.dim : ℚ) * (2 : ℚ) ^ (k - 54) ≤ slack k m.dim := by
    unfold slack
    refine mul_le_mul_of_nonneg_right ?_ (by positivity)
    nlinarith [sq_nonneg ((m.dim : ℚ) - 1), sq_nonneg (m.dim : ℚ)]
  match v with
  | 0 => exact key hs k0
  | 1 => exact key hs (k1 h.symm)
  | 2 => exact key (le_refl _) k2
  | 3 => exact key (le_refl _) (k3 hz)

/-- **C118** Whatever is known about the optima of two instances holds in double precision, up to four rounding
errors, for the lengths reported by v0, v1, v2 and v3. -/
theorem C118_compare {k : ℤ} {m m' : Mat (XNum ℚ)} {c c' : Nat → Nat → ℚ} (h : Fits k m c)
    (h' : Fits k m' c') (v : Fin 4) {d : ℚ}
    (hd : ∀ p p', IsShortest m.dim c p → IsShortest m'.dim c' p' → tourCost c' p' ≤ tourCost c p + d) :
    ∃ w w' p p', solve64 v m = .ok (fin w, p) ∧ solve64 v m' = .ok (fin w', p') ∧ IsTour m.dim p ∧
      IsTour m'.dim p' ∧ w' ≤ w + d + 4 * slack k (max m.dim m'.dim) := by
  obtain ⟨w, p, a1, a2, a3⟩ := h.near v
  obtain ⟨w', p', b1, b2, b3⟩ := h'.near v
  have h3 := h.three
  have h3' := h'.three
  obtain ⟨q, -, hq⟩ := C05_v2_exact m c h.rep (by omega)
  obtain ⟨q', -, hq'⟩ := C05_v2_exact m' c' h'.rep (by omega)
  refine ⟨w, w', p, p', a1, b1, a2, b2, ?_⟩
  have e1 := slack_mono (k := k) (le_max_left m.dim m'.dim)
  have e2 := slack_mono (k := k) (le_max_right m.dim m'.dim)
  have e3 := (a3 q hq).1
  have e4 := (b3 q' hq').2
  have e5 := hd q q' hq hq'
  linarith

/-- both directions -/
private theorem compare_both {k : ℤ} {m m' : Mat (XNum ℚ)} {c c' : Nat → Nat → ℚ} (h : Fits k m c)
    (h' : Fits k m' c') (v : Fin 4) {d : ℚ}
    (hd : ∀ p p', IsShortest m.dim c p → IsShortest m'.dim c' p' → tourCost c' p' = tourCost c p + d) :
    ∃ w w' p p', solve64 v m = .ok (fin w, p) ∧ solve64 v m' = .ok (fin w', p') ∧ IsTour m.dim p ∧
      IsTour m'.dim p' ∧ |w' - (w + d)| ≤ 4 * slack k (max m.dim m'.dim) := by
  obtain ⟨w, w', p, p', a, b, t, t', l⟩ := C118_compare h h' v fun p p' hp hp' => (hd p p' hp hp').le
  obtain ⟨u', u, q', q, a', b', -, -, l'⟩ := C118_compare h' h v (d := -d) fun p' p hp' hp => by
    rw [hd p p' hp hp']
    linarith
  rw [b'] at a
  rw [a'] at b
  have e1 := fin.inj (congrArg Prod.fst (Except.ok.inj a))
  have e2 := fin.inj (congrArg Prod.fst (Except.ok.inj b))
  rw [e1, e2, max_comm] at l'
  refine ⟨w, w', p, p', by rw [b']; exact a, by rw [a']; exact b, t, t', ?_⟩
  rw [abs_le]
  constructor <;> linarith

/-- the value of v2 is the length of every shortest tour -/
private theorem value {m : Mat (XNum ℚ)} {c : Nat → Nat → ℚ} (hm : Rep m c) (hn : 1 ≤ m.dim) {w : ℚ} {p : List Nat}
    (h : secondImprovedSolver m = .ok (fin w, p)) {q : List Nat} (hq : IsShortest m.dim c q) :
    w = tourCost c q := by
  obtain ⟨p', a, b⟩ := C05_v2_exact m c hm hn
  rw [h] at a
  rw [fin.inj (congrArg Prod.fst (Except.ok.inj a))]
  exact le_antisymm (b.2 q hq.1) (hq.2 p' b.1)

/-- **C118, renumbering.** Listing the cities in another order changes the reported length by at most four rounding
errors. -/
theorem C118_renumber {k : ℤ} {m m' : Mat (XNum ℚ)} {c c' : Nat → Nat → ℚ} (h : Fits k m c)
    (h' : Fits k m' c') (v : Fin 4) (hd : m'.dim = m.dim) {f : Nat → Nat} (hf : Renumber m.dim f)
    (hc : ∀ i j, i < m.dim → j < m.dim → c' i j = c (f i) (f j)) :
    ∃ w w' p p', solve64 v m = .ok (fin w, p) ∧ solve64 v m' = .ok (fin w', p') ∧
      |w' - w| ≤ 4 * slack k m.dim := by
  have h3 := h.three
  obtain ⟨-, -, ⟨w, p, p', a, a', -⟩, -⟩ := C107_exact h.rep h'.rep hd hf hc (by omega)
  obtain ⟨w, w', q, q', b, b', -, -, l⟩ := compare_both h h' v (d := 0) fun q q' hq hq' => by
    rw [← value h.rep (by omega) a hq, ← value h'.rep (by omega) a' hq', add_zero]
  rw [hd, max_self, add_zero] at l
  exact ⟨w, w', q, q', b, b', l⟩

/-- **C118, longer roads.** If no distance exceeds the corresponding one of the other instance by more than `δ`, the
reported length exceeds the other one by at most `n δ` and four rounding errors. -/
theorem C118_longer_roads {k : ℤ} {m m' : Mat (XNum ℚ)} {c c' : Nat → Nat → ℚ} (h : Fits k m c)
    (h' : Fits k m' c') (v : Fin 4) (hd : m'.dim = m.dim) {δ : ℚ}
    (hc : ∀ i j, i < m.dim → j < m.dim → i ≠ j → c i j ≤ c' i j + δ) :
    ∃ w w' p p', solve64 v m = .ok (fin w, p) ∧ solve64 v m' = .ok (fin w', p') ∧
      w ≤ w' + m.dim * δ + 4 * slack k m.dim := by
  have h3 := h.three
  obtain ⟨-, -, ⟨w, w', p, p', a, a', l⟩, -⟩ := C109_exact h.rep h'.rep hd hc (by omega)
  obtain ⟨u', u, q', q, b', b, -, -, l'⟩ := C118_compare h' h v (d := m.dim * δ) fun q' q hq' hq => by
    rw [← value h.rep (by omega) a hq, ← value h'.rep (by omega) a' hq']
    exact l
  rw [hd, max_self] at l'
  exact ⟨u, u', q, q', b, b', l'⟩

/-- **C118, leaving out cities.** On metrics the reported length grows by at most four rounding errors when cities are
left out, and it changes by at most four rounding errors if they are at the same place as others. -/
theorem C118_leave_out {k : ℤ} {m m' : Mat (XNum ℚ)} {c c' : Nat → Nat → ℚ} (h : Fits k m c)
    (h' : Fits k m' c') (v : Fin 4) {f : Nat → Nat} (hf : Keeps m'.dim m.dim f)
    (hc : ∀ i j, i < m'.dim → j < m'.dim → c' i j = c (f i) (f j)) (hd : Metric m.dim c) :
    ∃ w w' p p', solve64 v m = .ok (fin w, p) ∧ solve64 v m' = .ok (fin w', p') ∧
      w' ≤ w + 4 * slack k m.dim ∧
      ((∀ j, j < m.dim → ∃ i, i < m'.dim ∧ c (f i) j = 0) → |w' - w| ≤ 4 * slack k m.dim) := by
  have h3 := h.three
  have h3' := h'.three
  obtain ⟨-, -, k2, -⟩ := C114_exact h.rep h'.rep hf hc hd
  obtain ⟨w, w', p, p', a, a', l⟩ := k2 (by omega)
  obtain ⟨u, u', q, q', b, b', t, t', l'⟩ := C118_compare h h' v (d := 0) fun q q' hq hq' => by
    rw [← value h.rep (by omega) a hq, ← value h'.rep (by omega) a' hq', add_zero]
    exact l
  have hle : m'.dim ≤ m.dim := hf.le
  rw [max_eq_left hle, add_zero] at l'
  refine ⟨u, u', q, q', b, b', l', fun h0 => ?_⟩
  obtain ⟨-, -, k2, -⟩ := C117_exact h.rep h'.rep hf hc hd h0
  obtain ⟨x, p, p', d, d'⟩ := k2 (by omega)
  obtain ⟨y, y', z, z', e, e', -, -, l2⟩ := compare_both h h' v (d := 0) fun q q' hq hq' => by
    rw [← value h.rep (by omega) d hq, ← value h'.rep (by omega) d' hq', add_zero]
  rw [max_eq_left hle, add_zero] at l2
  rw [b] at e
  rw [b'] at e'
  have e1 := fin.inj (congrArg Prod.fst (Except.ok.inj e))
  have e2 := fin.inj (congrArg Prod.fst (Except.ok.inj e'))
  rw [e1, e2]
  exact l2

/-- **C118, charges.** If every road that ends at city `i` costs `t i` more, the reported length grows by twice the
sum of the charges, up to four rounding errors. -/
theorem C118_charges {k : ℤ} {m m' : Mat (XNum ℚ)} {c c' : Nat → Nat → ℚ} (h : Fits k m c)
    (h' : Fits k m' c') (v : Fin 4) (hd : m'.dim = m.dim) {t : Nat → ℚ} (hc : Charged m.dim t c c') :
    ∃ w w' p p', solve64 v m = .ok (fin w, p) ∧ solve64 v m' = .ok (fin w', p') ∧
      |w' - (w + 2 * ((List.range m.dim).map t).sum)| ≤ 4 * slack k m.dim := by
  have h3 := h.three
  obtain ⟨-, -, ⟨w, p, a, a'⟩, -⟩ := C116_exact h.rep h'.rep hd hc (by omega)
  obtain ⟨w, w', q, q', b, b', -, -, l⟩ := compare_both h h' v
    (d := 2 * ((List.range m.dim).map t).sum) fun q q' hq hq' => by
    rw [← value h.rep (by omega) a hq, ← value h'.rep (by omega) a' hq']
  rw [hd, max_self] at l
  exact ⟨w, w', q, q', b, b', l⟩

/-- Three cities whose distances are not doubles: with `k = 1` the numbers fit, and the slack is `19 · 2 ^ -53`. -/
def tenths : Nat → Nat → ℚ := fun i j => if i = j then 0 else (i + j) / 10

theorem fits_tenths : Fits 1 (Mat.ofFun 3 tenths) tenths ∧
    slack 1 3 = 19 * (2 : ℚ) ^ (-53 : ℤ) := by
  refine ⟨⟨rep_ofFun 3 tenths, by omega, ?_, Nat.le_refl 3, by show 3 ≤ 2 ^ 25; norm_num, 3 / 10, ?_, ?_⟩, ?_⟩
  · intro i j _ _
    unfold tenths
    rcases eq_or_ne i j with rfl | hij
    · rfl
    · rw [if_neg hij, if_neg hij.symm, add_comm]
  · intro i j hi hj hij
    have hi : i < 3 := hi
    have hj : j < 3 := hj
    unfold tenths
    interval_cases i <;> interval_cases j <;> simp at hij ⊢ <;> norm_num
  · show 2 * ((3 : Nat) : ℚ) * (3 / 10) ≤ (2 : ℚ) ^ (1 : ℤ)
    norm_num
  · unfold slack
    norm_num

/-- An extra tenth on every road there raises the reported lengths by three tenths, up to `152 · 2 ^ -53`
(charges of a twentieth at every city). -/
example (v : Fin 4) : ∃ w w' p p', solve64 v (Mat.ofFun 3 tenths) = .ok (fin w, p) ∧
    solve64 v (Mat.ofFun 3 fun i j => tenths i j + 1 / 10) = .ok (fin w', p') ∧
    |w' - (w + 3 / 10)| ≤ 152 * (2 : ℚ) ^ (-53 : ℤ) := by
  have two : ∀ d : ℚ, 0 ≤ d → d ≤ 1 / 10 → Fits 2 (Mat.ofFun 3 fun i j => tenths i j + d) (fun i j => tenths i j + d) := by
    intro d h0 h1
    refine ⟨rep_ofFun 3 _, by omega, ?_, Nat.le_refl 3, by show 3 ≤ 2 ^ 25; norm_num, 4 / 10, ?_, ?_⟩
    · intro i j hi hj
      show tenths i j + d = tenths j i + d
      rw [fits_tenths.1.symm i j hi hj]
    · intro i j hi hj hij
      have hi : i < 3 := hi
      have hj : j < 3 := hj
      unfold tenths
      interval_cases i <;> interval_cases j <;> simp at hij ⊢ <;> constructor <;> linarith
    · show 2 * ((3 : Nat) : ℚ) * (4 / 10) ≤ (2 : ℚ) ^ (2 : ℤ)
      norm_num
  have hz := two 0 (le_refl _) (by norm_num)
  simp only [add_zero] at hz
  obtain ⟨w, w', p, p', a, b, l⟩ := C118_charges hz (two (1 / 10) (by norm_num) (le_refl _)) v rfl
    (t := fun _ => 1 / 20) (by
      intro i j hi hj hij
      norm_num)
  refine ⟨w, w', p, p', a, b, ?_⟩
  have e : 2 * ((List.range (Mat.ofFun 3 tenths).dim).map fun _ => (1 / 20 : ℚ)).sum = 3 / 10 := by
    show 2 * ((List.range 3).map fun _ => (1 / 20 : ℚ)).sum = 3 / 10
    decide +kernel
  rw [e] at l
  refine l.trans (le_of_eq ?_)
  show 4 * slack 2 3 = _
  unfold slack
  norm_num

/-! ## The rounding errors are visible -/

/-- four cities; the distances are 1 and a few units in the last place -/
def lastPlace : Nat → Nat → ℚ := fun i j =>
  if i = j then 0
  else 1 + (([[0, 5, 3, 2], [5, 0, 1, 6], [3, 1, 0, 6], [2, 6, 6, 0]].getD i []).getD j 0 : ℚ) / 2 ^ 52

/-- another order of the four cities -/
def mixed4 : Nat → Nat := fun i => [3, 0, 2, 1].getD i i

/-- **C118 (negation)** The lengths need not be the same: on this metric, whose distances are doubles, each of v0, v1, v2
and v3 reports in double precision another length if the cities are listed in another order. -/
theorem C118_not_equal : Metric 4 lastPlace ∧ Renumber 4 mixed4 ∧
    ∀ v : Fin 4, (solve64 v (Mat.ofFun 4 lastPlace)).map Prod.fst =
        .ok (fin (4 + ([8, 12, 12, 12] : List ℚ).getD v 0 / 2 ^ 52)) ∧
      (solve64 v (Mat.ofFun 4 fun i j => lastPlace (mixed4 i) (mixed4 j))).map Prod.fst =
        .ok (fin (4 + ([12, 16, 8, 8] : List ℚ).getD v 0 / 2 ^ 52)) := by
  have s : ∀ i < 4, ∀ j < 4, lastPlace i j = lastPlace j i := by decide +kernel
  have t : ∀ i < 4, ∀ j < 4, ∀ k < 4, lastPlace i j ≤ lastPlace i k + lastPlace k j := by decide +kernel
  have f : ∀ i < 4, ∀ j < 4, mixed4 i = mixed4 j → i = j := by decide
  refine ⟨⟨by decide +kernel, fun i j hi hj => s i hi j hj, fun i j k hi hj hk => t i hi j hj k hk⟩,
    ⟨by decide, fun i j hi hj => f i hi j hj⟩, ?_⟩
  decide +kernel

end Walky.Props
