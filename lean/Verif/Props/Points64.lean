import Verif.Lemmas.Points64
import Verif.Props.Instance
import Verif.Props.Accuracy

/-! # Properties C85 – C87: points and generated instances in IEEE double precision -/

namespace Walky.Props

open FloatOps XNum Spec

/-! ## C85 -/

/-- **C85, square root** The square root of double precision is a double to which no double is nearer. -/
theorem C85_sqrt {x : ℚ} (hx : IsDouble x) (h0 : 0 ≤ x) :
    ∃ r, sqrt64 (.fin x) = .fin r ∧ IsDouble r ∧ 0 ≤ r ∧
      ∀ d, IsDouble d → |(r : ℝ) - Real.sqrt x| ≤ |(d : ℝ) - Real.sqrt x| := by
  show ∃ r, (if x < 0 then XNum.nan else if x = 0 then .fin 0 else .fin (nearestSqrt x)) = .fin r ∧ _
  rw [if_neg (not_lt.mpr h0)]
  rcases h0.eq_or_lt with h | h
  · subst h
    exact ⟨0, by simp, isDouble_zero, le_rfl, fun d _ => by simp⟩
  · rw [if_neg h.ne']
    exact ⟨_, rfl, nearestSqrt_isDouble h hx, (nearestSqrt_pos h).le, fun d hd => nearestSqrt_nearest h hd⟩

/-- **C85 (partial)** In IEEE double precision the distance of two points with coordinates of size at most
`2 ^ 500`, computed by `from_points`, `par_from_points` or the instance generator, is a double that is not
negative, does not depend on the direction, is zero from a point to itself, and is the Euclidean distance
up to a relative error of `2⁻⁵¹` and an absolute error of `2⁻⁵³⁵`. Missing: larger coordinates, whose
distance can overflow (`C85_overflow`). -/
theorem C85_distance_partial {p q : ℚ × ℚ} (hp : DoublePoint ((2 : ℚ) ^ (500 : ℤ)) p)
    (hq : DoublePoint ((2 : ℚ) ^ (500 : ℤ)) q) :
    (∃ r, @pointDist _ binary64.ops sqrt64 (.fin p.1, .fin p.2) (.fin q.1, .fin q.2) = .fin r ∧
      @pointDist _ binary64.ops sqrt64 (.fin q.1, .fin q.2) (.fin p.1, .fin p.2) = .fin r ∧
      @genDist _ binary64.ops sqrt64 (.fin p.1, .fin p.2) (.fin q.1, .fin q.2) = .fin r ∧
      IsDouble r ∧ 0 ≤ r ∧
      |(r : ℝ) - euclid p q| ≤ (2 : ℝ) ^ (-51 : ℤ) * euclid p q + (2 : ℝ) ^ (-535 : ℤ)) ∧
    @pointDist _ binary64.ops sqrt64 (.fin p.1, .fin p.2) (.fin p.1, .fin p.2) = .fin 0 := by
  rw [← pow2_eq] at hp hq
  obtain ⟨r, h1, h2, h3, h4, h5⟩ := pointDist64 hp hq
  exact ⟨⟨r, h1, h2, h2, h3, h4, h5⟩, pointDist64_self p⟩

/-- **C85 (negation)** The distance of two points with coordinates `2 ^ 512` and 0 overflows. -/
theorem C85_overflow : IsDouble (pow2 512) ∧
    @pointDist _ binary64.ops sqrt64 (.fin (pow2 512), .fin 0) (.fin 0, .fin 0) = .inf :=
  ⟨isDouble_pow2 (by norm_num) (by norm_num), by decide +kernel⟩

/-- **C85 (why there is an absolute error)** The computed distance of two different points can be zero. -/
theorem C85_underflow : IsDouble (pow2 (-540)) ∧
    @pointDist _ binary64.ops sqrt64 (.fin (pow2 (-540)), .fin 0) (.fin 0, .fin 0) = .fin 0 :=
  ⟨isDouble_pow2 (by norm_num) (by norm_num), by decide +kernel⟩

theorem doublePoint_int {a b : ℤ} {M : ℚ} (ha : |a| ≤ 2 ^ 53) (hb : |b| ≤ 2 ^ 53) (ha' : |(a : ℚ)| ≤ M)
    (hb' : |(b : ℚ)| ≤ M) : DoublePoint M (a, b) := by
  refine ⟨?_, ?_, ha', hb'⟩
  · simpa [pow2_eq] using isDouble_of_int (z := a) (q := 0) ha (by norm_num) (by norm_num)
  · simpa [pow2_eq] using isDouble_of_int (z := b) (q := 0) hb (by norm_num) (by norm_num)

example : DoublePoint ((2 : ℚ) ^ (500 : ℤ)) (1, 2) ∧
    @pointDist _ binary64.ops sqrt64 (.fin 1, .fin 2) (.fin 2, .fin 3) =
      .fin (6369051672525773 / 4503599627370496) := by
  refine ⟨?_, by decide +kernel⟩
  have h : (2 : ℚ) ≤ (2 : ℚ) ^ (500 : ℤ) := by
    have := zpow_le_zpow_right₀ (by norm_num : (1 : ℚ) ≤ 2) (by norm_num : (1 : ℤ) ≤ 500)
    rwa [zpow_one] at this
  have := doublePoint_int (a := 1) (b := 2) (by norm_num) (by norm_num) (M := 2) (by norm_num) (by norm_num)
  simpa using this.mono h

/-! ## C86 -/

/-- the computed distance -/
def dist64 (p q : ℚ × ℚ) : ℚ :=
  match @pointDist _ binary64.ops sqrt64 (.fin p.1, .fin p.2) (.fin q.1, .fin q.2) with
  | .fin r => r
  | _ => 0

theorem dist64_spec {p q : ℚ × ℚ} (hp : DoublePoint (pow2 500) p) (hq : DoublePoint (pow2 500) q) :
    @pointDist _ binary64.ops sqrt64 (.fin p.1, .fin p.2) (.fin q.1, .fin q.2) = .fin (dist64 p q) ∧
    dist64 p q = dist64 q p ∧ IsDouble (dist64 p q) ∧ 0 ≤ dist64 p q ∧ Near64 (dist64 p q) (euclid p q) := by
  obtain ⟨r, h1, h2, h3, h4, h5⟩ := pointDist64 hp hq
  have e1 : dist64 p q = r := by unfold dist64; rw [h1]
  have e2 : dist64 q p = r := by unfold dist64; rw [h2]
  rw [e1, e2]
  exact ⟨h1, rfl, h3, h4, h5⟩

theorem dist64_self (p : ℚ × ℚ) : dist64 p p = 0 := by
  unfold dist64; rw [pointDist64_self]

/-- the point with index `i` -/
def pointAt (pts : List (ℚ × ℚ)) (i : Nat) : ℚ × ℚ := (pts[i]?).getD (0, 0)

theorem pointAt_mem {pts : List (ℚ × ℚ)} {i : Nat} (h : i < pts.length) : pointAt pts i ∈ pts := by
  unfold pointAt
  rw [List.getElem?_eq_getElem h]
  exact List.getElem_mem h

theorem finPoints_get {pts : List (ℚ × ℚ)} {i : Nat} (h : i < pts.length) :
    (finPoints pts)[i]? = some (.fin (pointAt pts i).1, .fin (pointAt pts i).2) := by
  unfold finPoints pointAt
  rw [List.getElem?_map, List.getElem?_eq_getElem h]
  rfl

theorem le_pow500 : (10000 : ℚ) ≤ pow2 500 := by
  have : pow2 14 = 16384 := by norm_num [pow2_eq]
  have h : pow2 14 ≤ pow2 500 := pow2_le (by norm_num)
  rw [this] at h
  linarith

/-- Matrices of computed distances pass `is_metric`. -/
theorem isMetric64 {pts : List (ℚ × ℚ)} (hp : ∀ p ∈ pts, DoublePoint 10000 p) {m : Mat (XNum ℚ)}
    (hd : m.dim = pts.length) (hm : ∀ i j, i < pts.length → j < pts.length →
      m.get i j = .fin (dist64 (pointAt pts i) (pointAt pts j))) :
    @Mat.isMetric _ binary64.ops m = true := by
  have hP : ∀ {i}, i < pts.length → DoublePoint 10000 (pointAt pts i) := fun h => hp _ (pointAt_mem h)
  have hP' : ∀ {i}, i < pts.length → DoublePoint (pow2 500) (pointAt pts i) := fun h =>
    (hP h).mono le_pow500
  unfold Mat.isMetric
  simp only [List.all_eq_true, List.mem_range, Bool.not_eq_true']
  intro i hi j hj k hk
  have hj' : j < m.dim := List.mem_range.mp (List.mem_of_mem_drop hj)
  rw [hd] at hi hj' hk
  rw [hm i k hi hk, hm k j hk hj', hm i j hi hj']
  obtain ⟨-, -, a3, a4, a5⟩ := dist64_spec (hP' hi) (hP' hk)
  obtain ⟨-, -, b3, b4, b5⟩ := dist64_spec (hP' hk) (hP' hj')
  obtain ⟨-, -, -, -, c5⟩ := dist64_spec (hP' hi) (hP' hj')
  refine tri64 a3 b3 a4 b4 c5 a5 b5 (euclid_tri _ _ _) ?_ ?_
  · have := euclid_le (hP hi) (hP hk)
    push_cast at this
    linarith
  · have := euclid_le (hP hk) (hP hj')
    push_cast at this
    linarith

/-- **C86 (partial)** In IEEE double precision, for every list of points with coordinates of size at most
10000 and every order in which the columns are filled: `from_points` and `par_from_points` return the same
symmetric matrix with zeros on the diagonal; its entries are the Euclidean distances up to a relative
error of `2⁻⁵¹` and an absolute error of `2⁻⁵³⁵`; and `is_metric` is true. Missing: large coordinates, for
which `is_metric` can be false (`C86_large`). -/
theorem C86_points_metric_partial {pts : List (ℚ × ℚ)} (hp : ∀ p ∈ pts, DoublePoint 10000 p)
    {order : List Nat} (ho : order.Perm (List.range pts.length)) :
    ∃ m m' : Mat (XNum ℚ), ∃ d : Nat → Nat → ℚ,
      @fromPoints _ binary64.ops sqrt64 (finPoints pts) = .ok m ∧
      @parFromPoints _ binary64.ops sqrt64 order (finPoints pts) = .ok m' ∧
      m.dim = pts.length ∧ m'.dim = pts.length ∧
      (∀ i j, i < pts.length → j < pts.length → m.get i j = .fin (d i j) ∧ m'.get i j = .fin (d i j)) ∧
      Symm pts.length d ∧ (∀ i, i < pts.length → d i i = 0) ∧
      (∀ (i j : Nat) p q, pts[i]? = some p → pts[j]? = some q → 0 ≤ d i j ∧
        |(d i j : ℝ) - euclid p q| ≤ (2 : ℝ) ^ (-51 : ℤ) * euclid p q + (2 : ℝ) ^ (-535 : ℤ)) ∧
      @Mat.isMetric _ binary64.ops m = true ∧ @Mat.isMetric _ binary64.ops m' = true := by
  have hP' : ∀ {p}, p ∈ pts → DoublePoint (pow2 500) p := fun h => (hp _ h).mono le_pow500
  have hl : (finPoints pts).length = pts.length := by simp [finPoints]
  obtain ⟨m, m', h1, h2, h3, h4, h5⟩ := @C56_par_eq_seq _ binary64.ops sqrt64 (finPoints pts)
    (by
      intro p hp
      obtain ⟨q, -, rfl⟩ := List.mem_map.mp hp
      exact pointDist64_self q)
    (by
      intro p' hp' q' hq'
      obtain ⟨p, hp, rfl⟩ := List.mem_map.mp hp'
      obtain ⟨q, hq, rfl⟩ := List.mem_map.mp hq'
      obtain ⟨e1, e2, -⟩ := dist64_spec (hP' hp) (hP' hq)
      obtain ⟨f1, -⟩ := dist64_spec (hP' hq) (hP' hp)
      rw [e1, f1, e2]) order (by rw [hl]; exact ho)
  obtain ⟨m₁, k1, k2, k3, k4⟩ := @fromPoints_ok _ binary64.ops sqrt64 (finPoints pts)
  rw [h1] at k1
  injection k1 with k1
  subst k1
  rw [hl] at h3 h4 h5
  have hm : ∀ i j, i < pts.length → j < pts.length →
      m.get i j = .fin (dist64 (pointAt pts i) (pointAt pts j)) := by
    intro i j hi hj
    have a := hP' (pointAt_mem hi)
    have b := hP' (pointAt_mem hj)
    rcases Nat.lt_trichotomy i j with h | h | h
    · rw [(k4 i j _ _ h (finPoints_get hi) (finPoints_get hj)).1, (dist64_spec a b).1]
    · subst h
      rw [k3, dist64_self]
      rfl
    · rw [(k4 j i _ _ h (finPoints_get hj) (finPoints_get hi)).2, (dist64_spec b a).1, (dist64_spec b a).2.1]
  refine ⟨m, m', fun i j => dist64 (pointAt pts i) (pointAt pts j), h1, h2, h3, h4, ?_, ?_, ?_, ?_, ?_, ?_⟩
  · intro i j hi hj
    exact ⟨hm i j hi hj, by rw [h5 i j hi hj, hm i j hi hj]⟩
  · intro i j hi hj
    exact (dist64_spec (hP' (pointAt_mem hi)) (hP' (pointAt_mem hj))).2.1
  · exact fun i _ => dist64_self _
  · intro i j p q hi hj
    obtain ⟨hi', rfl⟩ := List.getElem?_eq_some_iff.mp hi
    obtain ⟨hj', rfl⟩ := List.getElem?_eq_some_iff.mp hj
    have e : pointAt pts i = pts[i] := by unfold pointAt; rw [hi]; rfl
    have e' : pointAt pts j = pts[j] := by unfold pointAt; rw [hj]; rfl
    simp only [e, e']
    obtain ⟨-, -, -, b, c⟩ := dist64_spec (hP' (List.getElem_mem hi')) (hP' (List.getElem_mem hj'))
    exact ⟨b, c⟩
  · exact isMetric64 hp h3 hm
  · exact isMetric64 hp h4 fun i j hi hj => by rw [h5 i j hi hj, hm i j hi hj]

example : (∀ p ∈ [((0 : ℚ), (0 : ℚ)), (3, 0), (0, 4)], DoublePoint 10000 p) ∧
    [2, 0, 1].Perm (List.range [((0 : ℚ), (0 : ℚ)), (3, 0), (0, 4)].length) := by
  refine ⟨?_, by decide⟩
  intro p hp
  simp only [List.mem_cons, List.not_mem_nil, or_false] at hp
  rcases hp with rfl | rfl | rfl
  · simpa using doublePoint_int (a := 0) (b := 0) (by norm_num) (by norm_num) (M := 10000) (by norm_num) (by norm_num)
  · simpa using doublePoint_int (a := 3) (b := 0) (by norm_num) (by norm_num) (M := 10000) (by norm_num) (by norm_num)
  · simpa using doublePoint_int (a := 0) (b := 4) (by norm_num) (by norm_num) (M := 10000) (by norm_num) (by norm_num)

/-- three points on a line -/
def linePoints : List (ℚ × ℚ) := [(0, 0), (248939, 247812), (746817, 743436)]

/-- **C86 (negation for large coordinates)** Three points with whole coordinates below 750000: the matrix
of their distances in double precision does not pass `is_metric`, so `christofides` panics on it in a debug
build. -/
theorem C86_large : (∀ p ∈ linePoints, DoublePoint 750000 p) ∧
    ∃ m, @fromPoints _ binary64.ops sqrt64 (finPoints linePoints) = .ok m ∧
      @Mat.isMetric _ binary64.ops m = false ∧
      ∀ r, @christofidesSeq _ binary64.ops true m r = .error .assert := by
  refine ⟨?_, ?_⟩
  · intro p hp
    simp only [linePoints, List.mem_cons, List.not_mem_nil, or_false] at hp
    rcases hp with rfl | rfl | rfl
    · simpa using doublePoint_int (a := 0) (b := 0) (by norm_num) (by norm_num) (M := 750000) (by norm_num) (by norm_num)
    · simpa using doublePoint_int (a := 248939) (b := 247812) (by norm_num) (by norm_num) (M := 750000) (by norm_num) (by norm_num)
    · simpa using doublePoint_int (a := 746817) (b := 743436) (by norm_num) (by norm_num) (M := 750000) (by norm_num) (by norm_num)
  · obtain ⟨m, h1, -⟩ := @fromPoints_ok _ binary64.ops sqrt64 (finPoints linePoints)
    have h2 : (@fromPoints _ binary64.ops sqrt64 (finPoints linePoints)).map
        (fun m => @Mat.isMetric _ binary64.ops m) = .ok false := by decide +kernel
    rw [h1] at h2
    have h3 : @Mat.isMetric _ binary64.ops m = false := Except.ok.inj h2
    refine ⟨m, h1, h3, fun r => ?_⟩
    unfold christofidesSeq christofidesGeneric
    simp [h3]

/-! ## C87 -/

/-- all coordinates are multiples of `2 ^ g` -/
def OnGrid (g : ℤ) (p : ℚ × ℚ) : Prop := ∃ z w : ℤ, p = (z * pow2 g, w * pow2 g)

theorem OnGrid.coarse {g h : ℤ} (hgh : g ≤ h) {p : ℚ × ℚ} (hp : OnGrid h p) : OnGrid g p := by
  obtain ⟨z, w, rfl⟩ := hp
  obtain ⟨k, hk⟩ := Int.eq_ofNat_of_zero_le (sub_nonneg.mpr hgh)
  have e : pow2 h = pow2 (k : ℤ) * pow2 g := by rw [← pow2_add]; congr 1; omega
  refine ⟨z * 2 ^ k, w * 2 ^ k, ?_⟩
  rw [e, pow2_natCast]
  push_cast
  rw [mul_assoc, mul_assoc]

theorem dist64_pos {g : ℤ} (hg : -500 ≤ g) {p q : ℚ × ℚ} (hp : DoublePoint (pow2 500) p)
    (hq : DoublePoint (pow2 500) q) (gp : OnGrid g p) (gq : OnGrid g q) (hne : p ≠ q) : 0 < dist64 p q := by
  obtain ⟨-, -, -, h4, h5⟩ := dist64_spec hp hq
  have h6 := near64_pos hg hne gp gq
  refine lt_of_le_of_ne h4 fun h0 => ?_
  unfold Near64 at h5
  rw [← h0, abs_le] at h5
  have h7 := h5.1
  push_cast at h7
  have h8 : (2 : ℝ) ^ (-535 : ℤ) < 1 / 2 * (2 : ℝ) ^ (-500 : ℤ) := by
    have : (1 / 2 : ℝ) * (2 : ℝ) ^ (-500 : ℤ) = (2 : ℝ) ^ (-501 : ℤ) := by
      rw [show (-501 : ℤ) = -1 + -500 by norm_num, zpow_add₀ (by norm_num)]
      norm_num
    rw [this]
    exact zpow_lt_zpow_right₀ (by norm_num) (by norm_num)
  have h9 : (2 : ℝ) ^ (-51 : ℤ) ≤ 1 / 2 := by norm_num
  have h10 := mul_le_mul_of_nonneg_right h9 (euclid_nonneg p q)
  generalize (2 : ℝ) ^ (-535 : ℤ) = a at *
  generalize (2 : ℝ) ^ (-500 : ℤ) = b at *
  generalize (2 : ℝ) ^ (-51 : ℤ) * euclid p q = c at *
  linarith

theorem genDist64 {p q : ℚ × ℚ} (hp : DoublePoint (pow2 500) p) (hq : DoublePoint (pow2 500) q) :
    @genDist _ binary64.ops sqrt64 (.fin p.1, .fin p.2) (.fin q.1, .fin q.2) = .fin (dist64 p q) := by
  rw [(dist64_spec hp hq).2.1]
  exact (dist64_spec hq hp).1

/-- **C87 (partial)** In IEEE double precision, for all points whose coordinates are multiples of
`2⁻⁵⁰⁰` of size at most `2 ^ 500`: the instance written by the generator is accepted exactly if the points
are pairwise different. Missing: equal points, for which the claim is false by this theorem, and points
that are closer (`C87_close_points`). -/
theorem C87_generated_partial {pts : List (ℚ × ℚ)} (hp : ∀ p ∈ pts, DoublePoint ((2 : ℚ) ^ (500 : ℤ)) p)
    (hg : ∀ p ∈ pts, OnGrid (-500) p) :
    @doConditionsHold _ binary64.ops (@genGraph _ binary64.ops
      (@genMatrix _ binary64.ops sqrt64 (finPoints pts))) = .ok true ↔ pts.Nodup := by
  rw [← pow2_eq] at hp
  have hz : @FloatOps.eq _ binary64.ops (@FloatOps.zero _ binary64.ops) (@FloatOps.zero _ binary64.ops) = true := by
    decide +kernel
  have hfin : ∀ {i : Nat} {p}, pts[i]? = some p → (finPoints pts)[i]? = some (.fin p.1, .fin p.2) := by
    intro i p h
    unfold finPoints
    rw [List.getElem?_map, h]
    rfl
  constructor
  · intro h
    rw [List.nodup_iff_getElem?_ne_getElem?]
    intro i j hij hj heq
    have hi : i < pts.length := by omega
    have hpi := List.getElem?_eq_getElem hi
    have hpj := List.getElem?_eq_getElem hj
    rw [hpi, hpj] at heq
    injection heq with heq
    have h0 := @genGraph_accepted _ binary64.ops hz sqrt64 _ h i j _ _ (hfin hpi) (hfin hpj) (by omega)
    rw [← heq, genDist64 (hp _ (List.getElem_mem hi)) (hp _ (List.getElem_mem hi)), dist64_self] at h0
    revert h0
    decide +kernel
  · intro hnd
    refine (@C57_generated _ binary64.ops hz sqrt64 _ ?_).1
    intro i j p' q' hi hj hij
    unfold finPoints at hi hj
    rw [List.getElem?_map] at hi hj
    obtain ⟨p, hi', rfl⟩ := Option.map_eq_some_iff.mp hi
    obtain ⟨q, hj', rfl⟩ := Option.map_eq_some_iff.mp hj
    have mp := List.mem_of_getElem? hi'
    have mq := List.mem_of_getElem? hj'
    have hne : p ≠ q := by
      rintro rfl
      exact hij ((List.nodup_iff_injective_get.mp hnd) (a₁ := ⟨i, (List.getElem?_eq_some_iff.mp hi').1⟩)
        (a₂ := ⟨j, (List.getElem?_eq_some_iff.mp hj').1⟩) (by
          simp only [List.get_eq_getElem]
          rw [(List.getElem?_eq_some_iff.mp hi').2, (List.getElem?_eq_some_iff.mp hj').2]) |> Fin.mk.inj)
    rw [genDist64 (hp p mp) (hp q mq), genDist64 (hp q mq) (hp p mp), (dist64_spec (hp q mq) (hp p mp)).2.1]
    have h0 := dist64_pos le_rfl (hp p mp) (hp q mq) (hg p mp) (hg q mq) hne
    refine ⟨?_, ?_⟩
    · show decide (dist64 p q = 0) = false
      rw [decide_eq_false_iff_not]
      exact h0.ne'
    · show decide (dist64 p q = dist64 p q) = true
      simp

example : (∀ p ∈ [((0 : ℚ), (0 : ℚ)), (1, 2)], DoublePoint ((2 : ℚ) ^ (500 : ℤ)) p) ∧
    (∀ p ∈ [((0 : ℚ), (0 : ℚ)), (1, 2)], OnGrid (-500) p) ∧ [((0 : ℚ), (0 : ℚ)), (1, 2)].Nodup := by
  have h : (10000 : ℚ) ≤ (2 : ℚ) ^ (500 : ℤ) := by rw [← pow2_eq]; exact le_pow500
  refine ⟨?_, ?_, by decide⟩
  · intro p hp
    simp only [List.mem_cons, List.not_mem_nil, or_false] at hp
    rcases hp with rfl | rfl
    · refine DoublePoint.mono ?_ h
      simpa using doublePoint_int (a := 0) (b := 0) (by norm_num) (by norm_num) (M := 10000) (by norm_num) (by norm_num)
    · refine DoublePoint.mono ?_ h
      simpa using doublePoint_int (a := 1) (b := 2) (by norm_num) (by norm_num) (M := 10000) (by norm_num) (by norm_num)
  · intro p hp
    simp only [List.mem_cons, List.not_mem_nil, or_false] at hp
    rcases hp with rfl | rfl
    · exact ⟨0, 0, by simp⟩
    · exact OnGrid.coarse (h := 0) (by norm_num) ⟨1, 2, by norm_num [pow2_eq]⟩

/-- **C87 (negation for close points)** Two different points, whose computed distance is zero: the written
instance is not accepted. -/
theorem C87_close_points : IsDouble (pow2 (-540)) ∧ (pow2 (-540), (0 : ℚ)) ≠ (0, 0) ∧
    @doConditionsHold _ binary64.ops (@genGraph _ binary64.ops (@genMatrix _ binary64.ops sqrt64
      (finPoints [(0, 0), (pow2 (-540), 0)]))) = .ok false :=
  ⟨isDouble_pow2 (by norm_num) (by norm_num), by decide +kernel, by decide +kernel⟩

/-- the points of the instance generator, made from pairs of random numbers of 53 bits -/
def randomPoints (ks : List (Nat × Nat)) : List (XNum ℚ × XNum ℚ) :=
  ks.map fun k => (coordinate64 k.1, coordinate64 k.2)

theorem randomPoints_spec (ks : List (Nat × Nat)) (hk : ∀ k ∈ ks, k.1 < 2 ^ 53 ∧ k.2 < 2 ^ 53) :
    ∃ pts : List (ℚ × ℚ), randomPoints ks = finPoints pts ∧ pts.length = ks.length ∧
      (∀ p ∈ pts, DoublePoint 10 p) ∧ ∀ p ∈ pts, OnGrid (-51) p := by
  induction ks with
  | nil => exact ⟨[], rfl, rfl, by simp, by simp⟩
  | cons k t ih =>
    obtain ⟨pts, h1, h2, h3, h4⟩ := ih fun k hk' => hk k (by simp [hk'])
    obtain ⟨x, x1, x2, x3, z, x4⟩ := coordinate64_spec (hk k (by simp)).1
    obtain ⟨y, y1, y2, y3, w, y4⟩ := coordinate64_spec (hk k (by simp)).2
    refine ⟨(x, y) :: pts, ?_, by simp [h2], ?_, ?_⟩
    · show (coordinate64 k.1, coordinate64 k.2) :: randomPoints t = _
      rw [x1, y1, h1]
      rfl
    · intro p hp
      rcases List.mem_cons.mp hp with rfl | hp
      · exact ⟨x2, y2, x3, y3⟩
      · exact h3 p hp
    · intro p hp
      rcases List.mem_cons.mp hp with rfl | hp
      · exact ⟨z, w, by rw [x4, y4]⟩
      · exact h4 p hp

/-- the matrix that is read from a generated instance -/
theorem generated_matrix {pts : List (ℚ × ℚ)} (h5 : ∀ p ∈ pts, DoublePoint (pow2 500) p)
    (hacc : @doConditionsHold _ binary64.ops (@genGraph _ binary64.ops
      (@genMatrix _ binary64.ops sqrt64 (finPoints pts))) = .ok true) :
    ∃ m, (do @naFromGraph _ binary64.ops (← @parseChecked _ binary64.ops
        (@genGraph _ binary64.ops (@genMatrix _ binary64.ops sqrt64 (finPoints pts))))) = .ok m ∧
      m.dim = pts.length ∧ ∀ i j, i < pts.length → j < pts.length →
        m.get i j = .fin (dist64 (pointAt pts i) (pointAt pts j)) := by
  have hz : @FloatOps.eq _ binary64.ops (@FloatOps.zero _ binary64.ops) (@FloatOps.zero _ binary64.ops) = true := by
    decide +kernel
  have hcomp := @complete_of_accepted _ binary64.ops _ hacc
    (@genGraph_noLoop _ binary64.ops hz sqrt64 (finPoints pts))
  obtain ⟨m, a1, a2, a3, a4, -⟩ := @naFromGraph_complete _ binary64.ops _ hcomp
  have hl : (finPoints pts).length = pts.length := by simp [finPoints]
  have hlen := @genGraph_length _ binary64.ops sqrt64 (finPoints pts)
  rw [hlen, hl] at a2
  have hm : ∀ i j, i < pts.length → j < pts.length →
      m.get i j = .fin (dist64 (pointAt pts i) (pointAt pts j)) := by
    intro i j hi hj
    by_cases hij : i = j
    · subst hij
      rw [a3, dist64_self]
      rfl
    · have hi' : i < (@genGraph _ binary64.ops (@genMatrix _ binary64.ops sqrt64 (finPoints pts))).length := by
        rw [hlen, hl]; exact hi
      have hgi := List.getElem?_eq_getElem hi'
      obtain ⟨e, he, hej⟩ := List.mem_map.mp
        ((@CompleteUndirected.mem _ binary64.ops _ hcomp _ _ hgi _).mpr ⟨by rw [hlen, hl]; exact hj, Ne.symm hij⟩)
      rw [← hej, a4 i _ hgi e he]
      obtain ⟨p, q, b1, b2, b3, -⟩ := (@mem_genGraph _ binary64.ops _ _ _ _ hgi e).mp he
      rw [hej] at b2 b3 ⊢
      rw [finPoints_get hi] at b1
      rw [finPoints_get hj] at b2
      rw [b3, if_pos hij, ← Option.some.inj b1, ← Option.some.inj b2]
      exact genDist64 (h5 _ (pointAt_mem hi)) (h5 _ (pointAt_mem hj))
  refine ⟨m, ?_, a2, hm⟩
  rw [(@C55_complete_accepted _ binary64.ops _ hcomp).2, rm_bind_ok, a1]

/-- **C87, the generator** Whatever random numbers the generator draws, its points have double precision
coordinates between -10 and 10, and the instance it writes is accepted exactly if the points are pairwise
different. In that case the matrix read from it has the computed distances as entries, with zeros on the
diagonal, and passes `is_metric`. -/
theorem C87_generator_partial (ks : List (Nat × Nat)) (hk : ∀ k ∈ ks, k.1 < 2 ^ 53 ∧ k.2 < 2 ^ 53) :
    ∃ pts : List (ℚ × ℚ), randomPoints ks = finPoints pts ∧ pts.length = ks.length ∧
      (∀ p ∈ pts, DoublePoint 10 p) ∧
      (@doConditionsHold _ binary64.ops (@genGraph _ binary64.ops
        (@genMatrix _ binary64.ops sqrt64 (randomPoints ks))) = .ok true ↔ pts.Nodup) ∧
      (pts.Nodup → ∃ m, (do @naFromGraph _ binary64.ops (← @parseChecked _ binary64.ops
          (@genGraph _ binary64.ops (@genMatrix _ binary64.ops sqrt64 (randomPoints ks))))) = .ok m ∧
        m.dim = pts.length ∧
        (∀ (i j : Nat) p q, pts[i]? = some p → pts[j]? = some q → ∃ r : ℚ, m.get i j = .fin r ∧
          |(r : ℝ) - euclid p q| ≤ (2 : ℝ) ^ (-51 : ℤ) * euclid p q + (2 : ℝ) ^ (-535 : ℤ)) ∧
        (∀ i, i < pts.length → m.get i i = .fin 0) ∧ @Mat.isMetric _ binary64.ops m = true) := by
  obtain ⟨pts, h1, h2, h3, h4⟩ := randomPoints_spec ks hk
  have h10 : (10 : ℚ) ≤ 10000 := by norm_num
  have h5 : ∀ p ∈ pts, DoublePoint (pow2 500) p := fun p hp => (h3 p hp).mono (h10.trans le_pow500)
  have hiff := C87_generated_partial (pts := pts) (by rw [← pow2_eq]; exact h5)
    (fun p hp => (h4 p hp).coarse (by norm_num))
  refine ⟨pts, h1, h2, h3, by rw [h1]; exact hiff, fun hnd => ?_⟩
  rw [h1]
  have hacc := hiff.mpr hnd
  obtain ⟨m, a1, a2, hm⟩ := generated_matrix h5 hacc
  refine ⟨m, a1, a2, ?_, ?_, isMetric64 (fun p hp => (h3 p hp).mono h10) a2 hm⟩
  · intro i j p q hi hj
    obtain ⟨hi', rfl⟩ := List.getElem?_eq_some_iff.mp hi
    obtain ⟨hj', rfl⟩ := List.getElem?_eq_some_iff.mp hj
    have e : pointAt pts i = pts[i] := by unfold pointAt; rw [hi]; rfl
    have e' : pointAt pts j = pts[j] := by unfold pointAt; rw [hj]; rfl
    refine ⟨_, hm i j hi' hj', ?_⟩
    rw [e, e']
    exact (dist64_spec (h5 _ (List.getElem_mem hi')) (h5 _ (List.getElem_mem hj'))).2.2.2.2
  · intro i hi
    rw [hm i i hi hi, dist64_self]

end Walky.Props
