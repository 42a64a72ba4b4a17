import Verif.Props.TwoCities
import Verif.Lemmas.Python
import Verif.Props.Program
import Verif.Props.ProgramMpi

/-! # Property C101: the benchmarks of the Python generator, from the drawn points to the output -/

namespace Walky.Props

open FloatOps XNum Spec

/-- Contract of `np.linalg.norm` for vectors with two entries that are multiples of `2⁻⁵³` of size at most 1: the
result is a double, and accurate up to a relative error of `2⁻⁵⁰`. (Whether the sum of the squares uses a fused
multiplication does not matter.) -/
def NumpyNorm (norm : XNum ℚ × XNum ℚ → XNum ℚ) : Prop :=
  ∀ a b : ℚ, OnGrid (-53) (a, b) → |a| ≤ 1 → |b| ≤ 1 → ∃ r : ℚ, norm (.fin a, .fin b) = .fin r ∧ IsDouble r ∧ 0 ≤ r ∧
    |(r : ℝ) - Real.sqrt ((a : ℝ) ^ 2 + (b : ℝ) ^ 2)| ≤ (2 : ℝ) ^ (-50 : ℤ) * Real.sqrt ((a : ℝ) ^ 2 + (b : ℝ) ^ 2)

theorem onGrid_abs {a b : ℚ} (h : OnGrid (-53) (a, b)) (ha : |a| ≤ 1) (hb : |b| ≤ 1) : DoublePoint 1 (a, b) := by
  obtain ⟨z, w, e⟩ := h
  obtain ⟨rfl, rfl⟩ := Prod.mk.inj e
  have key : ∀ z : ℤ, |(z : ℚ) * pow2 (-53)| ≤ 1 → |z| ≤ 2 ^ 53 := by
    intro z hz
    rw [abs_mul, abs_of_pos (pow2_pos _), pow2_eq] at hz
    have : |(z : ℚ)| ≤ 2 ^ 53 := by
      have h1 := mul_le_mul_of_nonneg_right hz (by norm_num : (0 : ℚ) ≤ 2 ^ 53)
      rw [mul_assoc, show (2 : ℚ) ^ (-53 : ℤ) * 2 ^ 53 = 1 by norm_num, mul_one, one_mul] at h1
      exact h1
    exact_mod_cast this
  exact ⟨isDouble_of_int (key z ha) (by norm_num) (by norm_num), isDouble_of_int (key w hb) (by norm_num) (by norm_num),
    ha, hb⟩

/-- the formula of the Rust generator fulfills the contract -/
theorem numpyNorm_pointDist : NumpyNorm fun v => @pointDist _ binary64.ops sqrt64 v (.fin 0, .fin 0) := by
  intro a b hg ha hb
  have hd := onGrid_abs hg ha hb
  have h1 : (1 : ℚ) ≤ 10000 := by norm_num
  have hd' : DoublePoint (pow2 500) (a, b) := hd.mono (h1.trans le_pow500)
  have h0 : DoublePoint (pow2 500) ((0 : ℚ), (0 : ℚ)) :=
    ⟨isDouble_zero, isDouble_zero, by simp [(pow2_pos 500).le], by simp [(pow2_pos 500).le]⟩
  obtain ⟨e1, -, e2, e3, e4⟩ := dist64_spec hd' h0
  refine ⟨_, e1, e2, e3, ?_⟩
  have hs : Real.sqrt ((a : ℝ) ^ 2 + (b : ℝ) ^ 2) = euclid (a, b) (0, 0) := by
    unfold euclid
    simp
  rw [hs]
  by_cases hne : (a, b) = ((0 : ℚ), (0 : ℚ))
  · rw [hne, dist64_self, euclid_self]
    norm_num
  · have e5 := grid_euclid hne hg ⟨0, 0, by simp⟩
    have e6 : (2 : ℝ) ^ (-535 : ℤ) ≤ (2 : ℝ) ^ (-51 : ℤ) * euclid (a, b) (0, 0) := by
      refine le_trans ?_ (mul_le_mul_of_nonneg_left e5 (by positivity))
      rw [← zpow_add₀ (by norm_num)]
      exact zpow_le_zpow_right₀ (by norm_num) (by norm_num)
    have e7 : (2 : ℝ) ^ (-50 : ℤ) = 2 * (2 : ℝ) ^ (-51 : ℤ) := by norm_num
    rw [e7]
    unfold Near64 at e4
    linarith

/-- The points that `np.random.rand` draws: each coordinate is a random number of 53 bits, times `2⁻⁵³`. -/
def pyPoints (ks : List (Nat × Nat)) : List (ℚ × ℚ) :=
  ks.map fun k => ((k.1 : ℚ) * (2 : ℚ) ^ (-53 : ℤ), (k.2 : ℚ) * (2 : ℚ) ^ (-53 : ℤ))

theorem pyPoints_spec {ks : List (Nat × Nat)} (hk : ∀ k ∈ ks, k.1 < 2 ^ 53 ∧ k.2 < 2 ^ 53) {p : ℚ × ℚ}
    (hp : p ∈ pyPoints ks) : OnGrid (-53) p ∧ 0 ≤ p.1 ∧ p.1 ≤ 1 ∧ 0 ≤ p.2 ∧ p.2 ≤ 1 := by
  obtain ⟨k, hkm, rfl⟩ := List.mem_map.mp hp
  obtain ⟨h1, h2⟩ := hk k hkm
  have key : ∀ n : Nat, n < 2 ^ 53 → (n : ℚ) * (2 : ℚ) ^ (-53 : ℤ) ≤ 1 := by
    intro n hn
    have : (n : ℚ) ≤ 2 ^ 53 := by exact_mod_cast hn.le
    refine (mul_le_mul_of_nonneg_right this (by positivity)).trans ?_
    norm_num
  refine ⟨⟨k.1, k.2, by rw [pow2_eq]; push_cast; rfl⟩, by positivity, key _ h1, by positivity, key _ h2⟩

/-- the entries of the matrix -/
theorem pyEntry_spec {norm : XNum ℚ × XNum ℚ → XNum ℚ} (hnorm : NumpyNorm norm) {ks : List (Nat × Nat)}
    (hk : ∀ k ∈ ks, k.1 < 2 ^ 53 ∧ k.2 < 2 ^ 53) {i j : Nat} (hi : i < ks.length) (hj : j < ks.length) :
    ∃ x : ℚ, @pyEntry _ binary64.ops norm (finPoints (pyPoints ks)) i j = .fin x ∧ IsDouble x ∧ 0 ≤ x ∧
      |(x : ℝ) - pointsDist (pyPoints ks) i j| ≤ (2 : ℝ) ^ (-50 : ℤ) * pointsDist (pyPoints ks) i j := by
  have hl : (pyPoints ks).length = ks.length := by simp [pyPoints]
  have key : ∀ i j, i < ks.length → j < ks.length → ∃ x : ℚ, @pyDistance _ binary64.ops norm
      (.fin (pointAt (pyPoints ks) i).1, .fin (pointAt (pyPoints ks) i).2)
      (.fin (pointAt (pyPoints ks) j).1, .fin (pointAt (pyPoints ks) j).2) = .fin x ∧ IsDouble x ∧ 0 ≤ x ∧
      |(x : ℝ) - pointsDist (pyPoints ks) i j| ≤ (2 : ℝ) ^ (-50 : ℤ) * pointsDist (pyPoints ks) i j := by
    intro i j hi hj
    obtain ⟨⟨z, w, e⟩, a1, a2, a3, a4⟩ := pyPoints_spec hk (pointAt_mem (by rw [hl]; exact hi))
    obtain ⟨⟨z', w', e'⟩, b1, b2, b3, b4⟩ := pyPoints_spec hk (pointAt_mem (by rw [hl]; exact hj))
    unfold pointsDist euclid
    generalize pointAt (pyPoints ks) i = p at *
    generalize pointAt (pyPoints ks) j = q at *
    obtain ⟨p1, p2⟩ := p
    obtain ⟨q1, q2⟩ := q
    simp only at a1 a2 a3 a4 b1 b2 b3 b4 ⊢
    have hg : OnGrid (-53) (p1 - q1, p2 - q2) := by
      obtain ⟨rfl, rfl⟩ := Prod.mk.inj e
      obtain ⟨rfl, rfl⟩ := Prod.mk.inj e'
      exact ⟨z - z', w - w', by push_cast; rw [sub_mul, sub_mul]⟩
    have h1 : |p1 - q1| ≤ 1 := by rw [abs_le]; constructor <;> linarith
    have h2 : |p2 - q2| ≤ 1 := by rw [abs_le]; constructor <;> linarith
    have hd := onGrid_abs hg h1 h2
    obtain ⟨r, r1, r2, r3, r4⟩ := hnorm _ _ hg h1 h2
    refine ⟨r, ?_, r2, r3, r4⟩
    unfold pyDistance
    show norm (round64 (p1 - q1), round64 (p2 - q2)) = _
    rw [round64_isDouble hd.fst, round64_isDouble hd.snd, r1]
  have hi' : i < (pyPoints ks).length := by rw [hl]; exact hi
  have hj' : j < (pyPoints ks).length := by rw [hl]; exact hj
  unfold pyEntry
  rw [finPoints_get hi', finPoints_get hj']
  simp only
  split
  · exact key i j hi hj
  · split
    · obtain ⟨x, x1, x2, x3, x4⟩ := key j i hj hi
      refine ⟨x, x1, x2, x3, ?_⟩
      unfold pointsDist at x4 ⊢
      rwa [euclid_comm]
    · have : i = j := by omega
      subst this
      refine ⟨0, rfl, isDouble_zero, le_rfl, ?_⟩
      unfold pointsDist
      rw [euclid_self]
      norm_num

theorem pyEntry_symm {α : Type} [FloatOps α] (norm : α × α → α) (points : List (α × α)) (i j : Nat) :
    pyEntry norm points i j = pyEntry norm points j i := by
  unfold pyEntry
  cases points[i]? <;> cases points[j]? <;> simp only
  rcases lt_trichotomy i j with h | rfl | h
  · rw [if_pos h, if_neg (lt_asymm h), if_pos h]
  · simp only [lt_irrefl, if_false]
  · rw [if_neg (lt_asymm h), if_pos h, if_pos h]

/-- the file for the drawn points -/
theorem python_good {norm : XNum ℚ × XNum ℚ → XNum ℚ} (hnorm : NumpyNorm norm) {fmt : XNum ℚ → List Char}
    (hf : Digits16 fmt) {ks : List (Nat × Nat)} (hk : ∀ k ∈ ks, k.1 < 2 ^ 53 ∧ k.2 < 2 ^ 53)
    (hsize : ks.length ≤ 2 ^ 64) :
    (ks.length ≤ 1 → @parseFromXml _ binary64.ops readF64
      (pyXml fmt (@createMatrix _ binary64.ops norm (finPoints (pyPoints ks)))) = .err) ∧
    (2 ≤ ks.length → ∃ i, @parseFromXml _ binary64.ops readF64
        (pyXml fmt (@createMatrix _ binary64.ops norm (finPoints (pyPoints ks)))) = .ok i ∧
      i.graph.length = ks.length ∧ GoodInstance 18 i.graph (pointsDist (pyPoints ks))) := by
  have hl : (pyPoints ks).length = ks.length := by simp [pyPoints]
  have hl' : (finPoints (pyPoints ks)).length = ks.length := by simp [finPoints, hl]
  have hd3 : ∀ i j, i < ks.length → j < ks.length → pointsDist (pyPoints ks) i j ≤ 3 := by
    intro i j hi hj
    have key : ∀ i, i < ks.length → DoublePoint 1 (pointAt (pyPoints ks) i) := by
      intro i hi
      obtain ⟨h, a1, a2, a3, a4⟩ := pyPoints_spec hk (pointAt_mem (by rw [hl]; exact hi))
      generalize pointAt (pyPoints ks) i = p at *
      exact onGrid_abs h (by rw [abs_of_nonneg a1]; exact a2) (by rw [abs_of_nonneg a3]; exact a4)
    have := euclid_le (key i hi) (key j hj)
    unfold pointsDist
    push_cast at this
    linarith
  set matrix := @createMatrix _ binary64.ops norm (finPoints (pyPoints ks)) with hmat
  rw [@createMatrix_eq _ binary64.ops, hl'] at hmat
  have hml : matrix.length = ks.length := by rw [hmat]; simp
  have hrow : ∀ i, i < ks.length → matrix[i]? = some ((List.range ks.length).map fun j =>
      @pyEntry _ binary64.ops norm (finPoints (pyPoints ks)) i j) := by
    intro i hi
    rw [hmat, List.getElem?_map, List.getElem?_range hi]
    rfl
  have hmem : ∀ row ∈ matrix, ∃ i < ks.length, row = (List.range ks.length).map fun j =>
      @pyEntry _ binary64.ops norm (finPoints (pyPoints ks)) i j := by
    intro row hr
    rw [hmat] at hr
    obtain ⟨i, hi, rfl⟩ := List.mem_map.mp hr
    exact ⟨i, List.mem_range.mp hi, rfl⟩
  obtain ⟨c1, c2⟩ := C94_python hf (matrix := matrix) (by omega) (by
      intro row hr
      obtain ⟨i, -, rfl⟩ := hmem row hr
      simp [hml]) (by
      intro row hr x hx
      obtain ⟨i, hi, rfl⟩ := hmem row hr
      obtain ⟨j, hj, rfl⟩ := List.mem_map.mp hx
      obtain ⟨x, x1, x2, x3, x4⟩ := pyEntry_spec hnorm hk hi (List.mem_range.mp hj)
      refine ⟨x, x1, x2, x3, ?_⟩
      have h4 : x ≤ 4 := by
        have e1 := (abs_le.mp x4).2
        have e2 := hd3 i j hi (List.mem_range.mp hj)
        have e3 : (2 : ℝ) ^ (-50 : ℤ) ≤ 1 / 3 := by norm_num
        have e4 := mul_le_mul e3 e2 (euclid_nonneg _ _ : 0 ≤ pointsDist (pyPoints ks) i j) (by norm_num)
        have : (x : ℝ) ≤ ((4 : ℚ) : ℝ) := by
          generalize (2 : ℝ) ^ (-50 : ℤ) = u at *
          push_cast
          linarith
        exact_mod_cast this
      refine h4.trans ?_
      have := zpow_le_zpow_right₀ (by norm_num : (1 : ℚ) ≤ 2) (by norm_num : (2 : ℤ) ≤ 1022)
      refine le_trans (le_of_eq ?_) this
      norm_num) (by
      intro i j r s hi hj
      have hi' : i < ks.length := by rw [← hml]; exact (List.getElem?_eq_some_iff.mp hi).1
      have hj' : j < ks.length := by rw [← hml]; exact (List.getElem?_eq_some_iff.mp hj).1
      rw [hrow i hi'] at hi
      rw [hrow j hj'] at hj
      rw [← Option.some.inj hi, ← Option.some.inj hj, List.getElem?_map, List.getElem?_map, List.getElem?_range hi',
        List.getElem?_range hj']
      simp only [Option.map_some]
      rw [@pyEntry_symm _ binary64.ops])
  rw [hml] at c1 c2
  refine ⟨c1, fun h2 => ?_⟩
  obtain ⟨i, i1, i2, i3, i4⟩ := c2 h2
  refine ⟨i, i1, i2, ?_⟩
  refine ⟨@CompleteUndirected.accepted _ binary64.ops _ i3, fun a es ha e he => (((@CompleteUndirected.mem _ binary64.ops _
    i3 _ _ ha _).mp (List.mem_map_of_mem he)).2),
    pointsDist_metric _ _, fun a b ha hb => ?_, fun a es ha e he => ?_⟩
  · rw [i2] at ha hb
    have := hd3 a b ha hb
    push_cast
    linarith
  · obtain ⟨row, x, y, k1, k2, k3, k4, k5, k6⟩ := i4 a es ha e he
    have ha' : a < ks.length := by rw [← hml]; exact (List.getElem?_eq_some_iff.mp k1).1
    rw [hrow a ha'] at k1
    rw [← Option.some.inj k1, List.getElem?_map] at k2
    obtain ⟨b, b1, b2⟩ := Option.map_eq_some_iff.mp k2
    obtain ⟨b3, b4⟩ := List.getElem?_eq_some_iff.mp b1
    rw [List.getElem_range] at b4
    rw [← b4] at b2
    have hb' : e.dst < ks.length := by simpa using b3
    obtain ⟨x', x1, x2, x3, x4⟩ := pyEntry_spec hnorm hk ha' hb'
    rw [x1] at b2
    rw [XNum.fin.inj b2] at x3 x4
    have hD := hd3 a e.dst ha' hb'
    have hD0 : 0 ≤ pointsDist (pyPoints ks) a e.dst := euclid_nonneg _ _
    have k6' : |(y : ℝ) - x| ≤ 1 / 10 ^ 15 * x := by
      have := (Rat.cast_le (K := ℝ)).mpr k6
      push_cast at this
      exact this
    have hu : (2 : ℝ) ^ (-50 : ℤ) = 1 / 1125899906842624 := by norm_num
    have hu' : (2 : ℝ) ^ (-53 : ℤ) = 1 / 9007199254740992 := by norm_num
    rw [hu] at x4
    have y1 := abs_le.mp k6'
    have y2 := abs_le.mp x4
    have hy : |(y : ℝ) - pointsDist (pyPoints ks) a e.dst| ≤
        ((18 : ℕ) : ℝ) * (2 : ℝ) ^ (-53 : ℤ) * pointsDist (pyPoints ks) a e.dst := by
      rw [hu']
      push_cast
      generalize pointsDist (pyPoints ks) a e.dst = D at *
      rw [abs_le]
      constructor <;> linarith [y1.1, y1.2, y2.1, y2.2]
    refine ⟨y, k3, k4, k5, ?_, hy⟩
    have : (y : ℝ) ≤ ((32 : ℚ) : ℝ) := by
      push_cast
      generalize pointsDist (pyPoints ks) a e.dst = D at *
      linarith [y1.2, y2.2]
    exact_mod_cast this

theorem pyPoints_take (ks : List (Nat × Nat)) (k : Nat) : pyPoints (ks.take k) = (pyPoints ks).take k := by
  unfold pyPoints
  rw [List.map_take]

theorem pointsDist_take (pts : List (ℚ × ℚ)) {k i j : Nat} (hi : i < k) (hj : j < k) :
    pointsDist (pts.take k) i j = pointsDist pts i j := by
  unfold pointsDist pointAt
  rw [List.getElem?_take_of_lt hi, List.getElem?_take_of_lt hj]

theorem GoodInstance.congr {s : Nat} {g : Graph (XNum ℚ)} {d d' : Nat → Nat → ℝ} (h : GoodInstance s g d)
    (e : ∀ i j, i < g.length → j < g.length → d i j = d' i j) : GoodInstance s g d' := by
  have hcomp := @complete_of_accepted _ binary64.ops _ h.acc h.loop
  refine ⟨h.acc, h.loop, ⟨fun i hi => ?_, fun i j hi hj => ?_, fun i j k hi hj hk => ?_⟩, fun i j hi hj => ?_,
    fun i es hi x hx => ?_⟩
  · rw [← e i i hi hi]
    exact h.met.diag i hi
  · rw [← e i j hi hj, ← e j i hj hi]
    exact h.met.symm i j hi hj
  · rw [← e i j hi hj, ← e i k hi hk, ← e k j hk hj]
    exact h.met.tri i j k hi hj hk
  · rw [← e i j hi hj]
    exact h.far i j hi hj
  · rw [← e i x.dst (List.getElem?_eq_some_iff.mp hi).1
      ((@CompleteUndirected.mem _ binary64.ops _ hcomp _ _ hi _).mp (List.mem_map_of_mem hx)).1]
    exact h.cost i es hi x hx

/-- **C101, files** For the arguments `l ≤ r`, there is exactly one file for every size from `l` to `r`. The file of
size `k` is the text for a matrix with `k` rows and columns. It has 0 on the diagonal, and elsewhere the distance of
the two points, the one with the smaller number first. -/
theorem C101_files {α : Type} [FloatOps α] (norm : α × α → α) (fmt : α → List Char) (points : List (α × α)) {l : Nat}
    (hl : l ≤ points.length) :
    (benchmarkFiles norm fmt points l).map Prod.fst = List.range' l (points.length + 1 - l) ∧
    ∀ k text, (k, text) ∈ benchmarkFiles norm fmt points l → ∃ matrix : List (List α), text = pyXml fmt matrix ∧
      matrix.length = k ∧ (∀ row ∈ matrix, row.length = k) ∧
      ∀ (i j : Nat) (row : List α) (x : α) (p q : α × α), matrix[i]? = some row → row[j]? = some x → points[i]? = some p → points[j]? = some q →
        (i = j → x = zero) ∧ (i < j → x = norm (p.1 -ᶠ q.1, p.2 -ᶠ q.2)) ∧
        (j < i → x = norm (q.1 -ᶠ p.1, q.2 -ᶠ p.2)) := by
  rw [benchmarkFiles_eq]
  constructor
  · rw [List.map_map]
    have e : points.length + 1 - l = (points.length - l) + 1 := by omega
    rw [e, List.range'_concat, Nat.mul_comm, Nat.mul_one, Nat.add_sub_cancel' hl]
    exact List.map_id _
  · intro k text h
    obtain ⟨k', hk', e⟩ := List.mem_map.mp h
    obtain ⟨rfl, rfl⟩ := Prod.mk.inj e
    have hk : k' ≤ points.length := by
      rcases List.mem_append.mp hk' with h | h
      · rw [List.mem_range'_1] at h
        omega
      · rw [List.mem_singleton.mp h]
    refine ⟨_, rfl, ?_, ?_, ?_⟩
    · rw [createMatrix_eq]
      simp [hk]
    · intro row hr
      rw [createMatrix_eq] at hr
      obtain ⟨i, -, rfl⟩ := List.mem_map.mp hr
      simp [hk]
    · intro i j row x p q h1 h2 h3 h4
      rw [createMatrix_eq, List.length_take, Nat.min_eq_left hk, List.getElem?_map] at h1
      obtain ⟨i', i1, rfl⟩ := Option.map_eq_some_iff.mp h1
      rw [List.getElem?_map] at h2
      obtain ⟨j', j1, rfl⟩ := Option.map_eq_some_iff.mp h2
      obtain ⟨i2, i3⟩ := List.getElem?_eq_some_iff.mp i1
      obtain ⟨j2, j3⟩ := List.getElem?_eq_some_iff.mp j1
      rw [List.getElem_range] at i3 j3
      rw [List.length_range] at i2 j2
      subst i3 j3
      unfold pyEntry
      rw [List.getElem?_take_of_lt i2, List.getElem?_take_of_lt j2, h3, h4]
      simp only
      refine ⟨?_, ?_, ?_⟩
      · rintro rfl
        rw [if_neg (lt_irrefl _), if_neg (lt_irrefl _)]
      · intro h
        rw [if_pos h]
        rfl
      · intro h
        rw [if_neg (lt_asymm h), if_pos h]
        rfl

example : (@benchmarkFiles _ binary64.ops (fun _ => .fin 1) (fun _ => []) (finPoints [(0, 0), (1, 0), (0, 1)]) 2).map
    Prod.fst = [2, 3] := by decide +kernel

/-- **C101 (partial)** `benchmark_gen.py l r` is run with `l ≤ r ≤ 2 ^ 25`, whatever points `np.random.rand` draws
(equal points are allowed). There are lengths `opt k` of a shortest tour through the first `k` points, for the true
Euclidean distances, that do not decrease with `k`. For every file `k.xml` that is written and every command line with
this file, all random numbers and schedules:
* `k ≤ 1`: walky prints nothing and fails, and so do all processes of an MPI job.
* The program has an outcome.
* `k = 2`: every command succeeds and prints `twoOutput` for a distance that is near the true one.
* `3 ≤ k`: every command succeeds (except, perhaps, `approx christofides` on several
  threads); a run that is successful prints lines as described in `NearLine` for `opt k`, whose numbers can be read
  from the text; nothing is claimed about the value of a Christofides length on several threads in a release build
  whose matching repeats an edge (`Trusted`). `walky exact` with v0 or v1 on one thread prints an optimal tour and
  its length up to relative rounding errors; otherwise see `ExactNear`.
* `3 ≤ k`, MPI: what the processes print is as described in `MpiNear` and `NearLine`.
* `k = 2`, MPI: the outcome of a job is one of those of `TwoJob` for a distance that is near the true one.
Missing: that `approx christofides` succeeds on several threads and prints the length of a tour if there are three
cities or more, which is false in general (`C41_par_can_hang`, `C41_par_release_wrong`). -/
theorem C101_benchmark_partial {norm : XNum ℚ × XNum ℚ → XNum ℚ} (hnorm : NumpyNorm norm) {pfmt : XNum ℚ → List Char}
    (hp : Digits16 pfmt) {fmt : XNum ℚ → List Char} (hf : Display fmt) (ks : List (Nat × Nat))
    (hk : ∀ k ∈ ks, k.1 < 2 ^ 53 ∧ k.2 < 2 ^ 53) (hsize : ks.length ≤ 2 ^ 25) (l : Nat) (hl : l ≤ ks.length) :
    ∃ opt : Nat → ℝ,
    (∀ k, (∃ p, IsTour k p ∧ tourCost (pointsDist (pyPoints ks)) p = opt k) ∧
      ∀ p, IsTour k p → opt k ≤ tourCost (pointsDist (pyPoints ks)) p) ∧
    (∀ k k', k ≤ k' → opt k ≤ opt k') ∧
    ∀ k text, (k, text) ∈ @benchmarkFiles _ binary64.ops norm pfmt (finPoints (pyPoints ks)) l →
    ∀ (files : List Char → Option (List Char)) args path, files path = some text → ¬HelpRequest args →
      (∀ (env : Env (XNum ℚ)) cmd, env.Ok → CommandLine args cmd path →
        (∃ stdout exit, @ProgramRuns _ binary64.ops readF64 fmt env files args stdout exit) ∧
        ∀ stdout exit, @ProgramRuns _ binary64.ops readF64 fmt env files args stdout exit →
          (k ≤ 1 → stdout = [] ∧ exit = .failure) ∧
          (k = 2 → exit = .success ∧ ∃ x : ℚ,
            |(x : ℝ) - pointsDist (pyPoints ks) 0 1| ≤ 18 * (2 : ℝ) ^ (-53 : ℤ) * pointsDist (pyPoints ks) 0 1 ∧
            stdout = outputText fmt (twoOutput x env.cpus ((env.starts 2).headD 0) cmd)) ∧
          (3 ≤ k →
            ((∀ lb, cmd ≠ .approx .christofides .multiThreaded lb) → exit = .success) ∧
            (exit = .success ∨ ∃ e, exit = .panic e) ∧
            (∃ i, @parseFromXml _ binary64.ops readF64 text = .ok i ∧
              (exit = .success → ∃ lines : List (Line (XNum ℚ)), stdout = outputText fmt lines ∧
                ∀ l ∈ lines, (@Trusted _ binary64.ops env i.graph cmd l → NearLine 18 k (opt k) l) ∧
                  ∀ x, l.number = some x → readF64 (fmt x) = some x)) ∧
            ∀ a p, cmd = .exact a p →
              ∃ t q w, stdout = exactText t q ∧ readF64 t = some (.fin w) ∧
                ExactNear k (pointsDist (pyPoints ks)) env.hash a p w q ∧
                (a ∈ [ExactAlgorithm.v0, .v1] → p = .singleThreaded →
                  |(w : ℝ) - tourCost (pointsDist (pyPoints ks)) q| ≤
                    ((growth (k + 18) : ℚ) - 1) * tourCost (pointsDist (pyPoints ks)) q ∧
                  (2 - (growth (k + 18) : ℚ)) * opt k ≤ (w : ℝ) ∧
                  (w : ℝ) ≤ (growth (k + 18) : ℚ) * opt k))) ∧
      ∀ (env : MpiEnv (XNum ℚ)) (envs : Nat → Env (XNum ℚ)) cmd c, env.Ok → JobLine args cmd path → Together cmd c →
        (3 ≤ k → (c = .exact .v0 → 2 ≤ env.size ∧ env.size ≤ k) → (c = .exact .v1 → 2 ≤ env.size ∧ 4 ≤ k) →
          ∃ outs, @JobRuns _ binary64.ops readF64 fmt env envs files args outs) ∧
        ∀ outs, @JobRuns _ binary64.ops readF64 fmt env envs files args outs →
          (k ≤ 1 → outs = List.replicate env.size ⟨[], .failure⟩) ∧
          (k = 2 → ∃ x : ℚ,
            |(x : ℝ) - pointsDist (pyPoints ks) 0 1| ≤ 18 * (2 : ℝ) ^ (-53 : ℤ) * pointsDist (pyPoints ks) 0 1 ∧
            ∃ os : List (Out (XNum ℚ)), List.Forall₂ (RankText fmt) os outs ∧ TwoJob x env.size c os) ∧
          (3 ≤ k → ∃ os : List (Out (XNum ℚ)), List.Forall₂ (RankText fmt) os outs ∧
            MpiNear 18 k (pointsDist (pyPoints ks)) env.size c os ∧
            ∀ o ∈ os, ∀ l ∈ o.lines, NearLine 18 k (opt k) l ∧ ∀ x, l.number = some x → readF64 (fmt x) = some x) := by
  have hpl : (finPoints (pyPoints ks)).length = ks.length := by simp [finPoints, pyPoints]
  choose q hq using fun k => exists_shortest (pointsDist (pyPoints ks)) k
  have hopt : ∀ k, (∃ p, IsTour k p ∧ tourCost (pointsDist (pyPoints ks)) p = tourCost (pointsDist (pyPoints ks)) (q k)) ∧
      ∀ p, IsTour k p → tourCost (pointsDist (pyPoints ks)) (q k) ≤ tourCost (pointsDist (pyPoints ks)) p :=
    fun k => ⟨⟨q k, (hq k).1, rfl⟩, (hq k).2⟩
  refine ⟨fun k => tourCost (pointsDist (pyPoints ks)) (q k), hopt, fun k k' h =>
    shortest_mono h (pointsDist_metric _ _) (hq k) (hq k').1, ?_⟩
  intro k text hm files args path hfile hh
  rw [@benchmarkFiles_eq _ binary64.ops, hpl] at hm
  obtain ⟨k', hk', e⟩ := List.mem_map.mp hm
  obtain ⟨rfl, rfl⟩ := Prod.mk.inj e
  have hkl : k' ≤ ks.length := by
    rcases List.mem_append.mp hk' with h | h
    · rw [List.mem_range'_1] at h
      omega
    · rw [List.mem_singleton.mp h]
  have et : (finPoints (pyPoints ks)).take k' = finPoints (pyPoints (ks.take k')) := by
    simp [finPoints, pyPoints, List.map_take]
  rw [et] at hfile ⊢
  have hlen : (ks.take k').length = k' := by simp [hkl]
  obtain ⟨p1, p2⟩ := python_good hnorm hp (ks := ks.take k') (fun x hx => hk x (List.mem_of_mem_take hx))
    (by rw [hlen]; exact (hkl.trans hsize).trans (by decide))
  rw [hlen] at p1 p2
  have hprog : ∀ {env : Env (XNum ℚ)} {cmd}, CommandLine args cmd path → ∀ stdout exit,
      @ProgramRuns _ binary64.ops readF64 fmt env files args stdout exit ↔
      @FileRuns _ binary64.ops readF64 fmt env (some (pyXml pfmt (@createMatrix _ binary64.ops norm
        (finPoints (pyPoints (ks.take k')))))) cmd stdout exit := by
    intro env cmd hcl stdout exit
    unfold ProgramRuns
    rw [parseArgs_iff.mpr hcl, asksHelp_iff.mpr hh]
    simp only [hfile, forall_const]
  have hjob : ∀ {env : MpiEnv (XNum ℚ)} {envs : Nat → Env (XNum ℚ)} {cmd c}, JobLine args cmd path → Together cmd c →
      ∀ outs, @JobRuns _ binary64.ops readF64 fmt env envs files args outs ↔
      @MpiFileRuns _ binary64.ops readF64 fmt env (some (pyXml pfmt (@createMatrix _ binary64.ops norm
        (finPoints (pyPoints (ks.take k')))))) c outs := by
    intro env envs cmd c hcl hc outs
    unfold JobRuns
    rw [C99_arguments.mpr hcl, asksHelp_iff.mpr hh]
    rw [← split_inr] at hc
    simp only [hc, hfile, forall_const]
  have hgood : 2 ≤ k' → ∃ i, @parseFromXml _ binary64.ops readF64
        (pyXml pfmt (@createMatrix _ binary64.ops norm (finPoints (pyPoints (ks.take k'))))) = .ok i ∧
      i.graph.length = k' ∧ GoodInstance 18 i.graph (pointsDist (pyPoints ks)) := by
    intro h3
    obtain ⟨i, i1, i2, i3⟩ := p2 (by omega)
    refine ⟨i, i1, i2, i3.congr fun a b ha hb => ?_⟩
    rw [i2] at ha hb
    rw [pyPoints_take, pointsDist_take _ ha hb]
  have htwo : k' = 2 → ∃ i, @parseFromXml _ binary64.ops readF64
        (pyXml pfmt (@createMatrix _ binary64.ops norm (finPoints (pyPoints (ks.take k'))))) = .ok i ∧
      ∃ x : ℚ, i.graph = twoCities (.fin x) ∧ Doubles binary64 x ∧
        |(x : ℝ) - pointsDist (pyPoints ks) 0 1| ≤ 18 * (2 : ℝ) ^ (-53 : ℤ) * pointsDist (pyPoints ks) 0 1 := by
    intro h2
    obtain ⟨i, i1, i2, i3⟩ := hgood (by omega)
    obtain ⟨y, hy⟩ := C115_inputs (R := binary64) i3.acc (by omega) i3.loop
    obtain ⟨x, x1, x2, x3, x4, x5⟩ := i3.cost 0 [⟨1, y⟩] (by rw [hy]; rfl) ⟨1, y⟩ (by simp)
    simp only at x1 x5
    subst x1
    have hdb : Doubles binary64 x := doubles_binary64 x2 x3 (lt_of_le_of_lt x4 (by
      rw [pow2_eq]
      refine lt_of_lt_of_le (by norm_num : (32 : ℚ) < 2 ^ (6 : ℤ))
        (zpow_le_zpow_right₀ (by norm_num : (1 : ℚ) ≤ 2) (by norm_num))))
    exact ⟨i, i1, x, hy, hdb, by exact_mod_cast x5⟩
  constructor
  · intro env cmd henv hcl
    constructor
    · rcases Nat.lt_or_ge k' 2 with h | h
      · have := p1 (by omega)
        refine ⟨[], .failure, (hprog hcl _ _).mpr ?_⟩
        simp only [FileRuns, this]
        exact ⟨trivial, trivial⟩
      · obtain ⟨i, i1, i2, i3⟩ := p2 h
        simp only [hprog hcl, FileRuns, i1]
        exact @prints_exists _ binary64.ops _ _ _ _ (C100_outcome (R := binary64) i3.acc (by omega) henv cmd)
    · intro stdout exit hrun
      constructor
      · intro h1
        rw [hprog hcl] at hrun
        simpa only [FileRuns, p1 h1] using hrun
      refine ⟨?_, ?_⟩
      · intro h2
        obtain ⟨i, i1, x, hy, hdb, hx⟩ := htwo h2
        rw [hprog hcl] at hrun
        simp only [FileRuns, i1, hy] at hrun
        obtain ⟨out, o1, o2⟩ := @prints_out _ binary64.ops _ _ _ _ _ _ hrun
        rw [C115_output hdb henv] at o1
        subst o1
        exact ⟨o2.2, x, hx, by rw [outputText_eq]; exact o2.1⟩
      · intro h3
        obtain ⟨i, i1, i2, i3⟩ := hgood (by omega)
        obtain ⟨r1, r2, r3, r4⟩ := (program_good (by norm_num) hf i1 i3 (by omega) (by omega) (by rw [i2]; exact hopt k')
          henv hfile hh hcl).2 stdout exit hrun
        rw [i2] at r3 r4
        exact ⟨r1, r2, ⟨i, i1, r3⟩, r4⟩
  · intro env envs cmd c henv hcl hc
    constructor
    · intro h3 e0 e1
      obtain ⟨i, i1, i2, i3⟩ := hgood (by omega)
      refine (job_good (by norm_num) hf i1 i3 (by omega) (by omega) (by rw [i2]; exact hopt k') henv hfile hh hcl hc).1 ?_ ?_
      · rwa [i2]
      · rwa [i2]
    · intro outs hrun
      constructor
      · intro h1
        rw [hjob hcl hc] at hrun
        simpa only [MpiFileRuns, p1 h1] using hrun
      refine ⟨?_, ?_⟩
      · intro h2
        obtain ⟨i, i1, x, hy, hdb, hx⟩ := htwo h2
        rw [hjob hcl hc] at hrun
        simp only [MpiFileRuns, i1, hy] at hrun
        obtain ⟨os, o1, o2⟩ := hrun
        exact ⟨x, hx, os, rankTexts.mpr o2, (C115_mpi hdb henv c os).mp o1⟩
      · intro h3
        obtain ⟨i, i1, i2, i3⟩ := hgood (by omega)
        have := (job_good (by norm_num) hf i1 i3 (by omega) (by omega) (by rw [i2]; exact hopt k') henv hfile hh hcl
          hc).2 outs hrun
        rwa [i2] at this

/-- `benchmark_gen.py 1 4` with four drawn points, two of which are equal: `walky exact v1` on all of them -/
example {norm : XNum ℚ × XNum ℚ → XNum ℚ} (hnorm : NumpyNorm norm) {pfmt : XNum ℚ → List Char} (hp : Digits16 pfmt)
    {fmt : XNum ℚ → List Char} (hf : Display fmt) (files : List Char → Option (List Char))
    (h : ∀ k text, (k, text) ∈ @benchmarkFiles _ binary64.ops norm pfmt
      (finPoints (pyPoints [(0, 0), (2 ^ 52, 0), (0, 2 ^ 51), (0, 0)])) 1 → files (showUsize k) = some text)
    (env : Env (XNum ℚ)) (henv : env.Ok) :
    (∀ stdout exit, @ProgramRuns _ binary64.ops readF64 fmt env files
      ["exact".toList, "v1".toList, "1".toList] stdout exit → stdout = [] ∧ exit = .failure) ∧
    ∃ stdout, @ProgramRuns _ binary64.ops readF64 fmt env files ["exact".toList, "v1".toList, "4".toList] stdout
      .success ∧ ∃ t q, stdout = exactText t q ∧ IsTour 4 q := by
  obtain ⟨opt, -, -, h3⟩ := C101_benchmark_partial hnorm hp hf [(0, 0), (2 ^ 52, 0), (0, 2 ^ 51), (0, 0)] (by decide)
    (by decide) 1 (by decide)
  have hm : ∀ k, k ∈ [1, 2, 3, 4] → ∃ text, (k, text) ∈ @benchmarkFiles _ binary64.ops norm pfmt
      (finPoints (pyPoints [(0, 0), (2 ^ 52, 0), (0, 2 ^ 51), (0, 0)])) 1 := by
    intro k hk
    have := (@C101_files _ binary64.ops norm pfmt (finPoints (pyPoints [(0, 0), (2 ^ 52, 0), (0, 2 ^ 51), (0, 0)])) 1
      (by decide)).1
    have hk' : k ∈ (@benchmarkFiles _ binary64.ops norm pfmt
      (finPoints (pyPoints [(0, 0), (2 ^ 52, 0), (0, 2 ^ 51), (0, 0)])) 1).map Prod.fst := by
      rw [this]
      exact hk
    obtain ⟨⟨k1, text⟩, h1, rfl⟩ := List.mem_map.mp hk'
    exact ⟨text, h1⟩
  constructor
  · obtain ⟨text, ht⟩ := hm 1 (by decide)
    have := ((h3 1 text ht files ["exact".toList, "v1".toList, "1".toList] "1".toList (h 1 text ht)
      (asksHelp_iff.mp (by decide +kernel))).1 env (.exact .v1 .singleThreaded) henv
      (parseArgs_iff.mp (by decide +kernel))).2
    exact fun stdout exit hr => (this stdout exit hr).1 le_rfl
  · obtain ⟨text, ht⟩ := hm 4 (by decide)
    obtain ⟨⟨stdout, exit, hr⟩, h5⟩ := (h3 4 text ht files ["exact".toList, "v1".toList, "4".toList] "4".toList
      (h 4 text ht) (asksHelp_iff.mp (by decide +kernel))).1 env (.exact .v1 .singleThreaded) henv
      (parseArgs_iff.mp (by decide +kernel))
    obtain ⟨h6, -, -, h7⟩ := (h5 stdout exit hr).2.2 (by decide)
    have := h6 (fun lb h => by cases h)
    subst this
    obtain ⟨t, q, w, k1, -, k2, -⟩ := h7 .v1 .singleThreaded rfl
    exact ⟨stdout, hr, t, q, k1, k2.1⟩

end Walky.Props
