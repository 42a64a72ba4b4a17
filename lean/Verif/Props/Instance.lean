import Verif.Lemmas.Instance
import Verif.Lemmas.Monoid
import Verif.Props.Data
import Verif.Examples
import Mathlib.Analysis.Real.Sqrt

/-! # Properties C54 – C57: instances -/

namespace Walky.Props

open FloatOps XNum Spec

variable {K : Type} [Field K] [LinearOrder K] [IsStrictOrderedRing K]

/-! ## C55 -/

/-- **C55 (partial)** For every graph in which no vertex has an edge to itself (and for every number
type): `do_conditions_hold` is true exactly if the graph is complete and undirected. Missing: graphs
with an edge from a vertex to itself, for which the claim is false (`C55_self_loop`). -/
theorem C55_conditions_partial {α : Type} [FloatOps α] {g : Graph α} (hl : NoLoop g) :
    doConditionsHold g = .ok true ↔ CompleteUndirected g :=
  ⟨fun h => complete_of_accepted h hl, fun h => h.accepted⟩

/-- **C55, acceptance** Every complete undirected graph is accepted. -/
theorem C55_complete_accepted {α : Type} [FloatOps α] {g : Graph α} (h : CompleteUndirected g) :
    doConditionsHold g = .ok true ∧ parseChecked g = .ok g := by
  refine ⟨h.accepted, ?_⟩
  unfold parseChecked
  rw [h.accepted]
  rfl

/-- **C55, rejection** An instance is only returned by the parser if the conditions hold: otherwise
the parser panics. -/
theorem C55_parse {α : Type} [FloatOps α] {g g' : Graph α} (h : parseChecked g = .ok g') :
    doConditionsHold g = .ok true ∧ g' = g := by
  unfold parseChecked at h
  cases hd : doConditionsHold g with
  | error e => rw [hd] at h; simp at h
  | ok b =>
    rw [hd] at h
    cases b
    · simp at h
    · simp at h
      exact ⟨rfl, h.symm⟩

/-- **C55 (negation)** Two vertices, each with one edge to itself: accepted, but no edge joins them. -/
theorem C55_self_loop : ∃ g : Graph (XNum ℚ), doConditionsHold g = .ok true ∧ ¬ CompleteUndirected g := by
  refine ⟨[[⟨0, .fin 1⟩], [⟨1, .fin 1⟩]], by decide +kernel, ?_⟩
  intro h
  have := h.ends 0 [⟨0, .fin 1⟩] rfl
  revert this
  decide

/-- a triangle -/
def triangle : Graph (XNum ℚ) :=
  [[⟨1, .fin 5⟩, ⟨2, .fin 6⟩], [⟨0, .fin 5⟩, ⟨2, .fin 7⟩], [⟨0, .fin 6⟩, ⟨1, .fin 7⟩]]

theorem triangle_noLoop : NoLoop triangle := by
  intro i es hi e he
  match i, hi with
  | 0, hi => cases hi; revert e; decide
  | 1, hi => cases hi; revert e; decide
  | 2, hi => cases hi; revert e; decide
  | _ + 3, hi => cases hi

example : NoLoop triangle ∧ CompleteUndirected triangle ∧ doConditionsHold triangle = .ok true :=
  ⟨triangle_noLoop, (C55_conditions_partial triangle_noLoop).mp (by decide +kernel), by decide +kernel⟩

/-! ## C54 -/

/-- **C54 (partial)** For every accepted graph without edges from a vertex to itself both conversions
return a matrix, these have the same off-diagonal entries, and every edge's cost appears at its
position. (The diagonals differ: zero in `NAMatrix`, infinity in `VecMatrix`.) Missing: accepted
graphs with an edge from a vertex to itself, for which the claim is false (`C54_self_loop`). -/
theorem C54_conversions_partial {g : Graph (XNum K)} (h : doConditionsHold g = .ok true) (hl : NoLoop g) :
    ∃ a v, naFromGraph g = .ok a ∧ vecFromGraph g = .ok v ∧ a.dim = g.length ∧ v.dim = g.length ∧
      (∀ i j, i < g.length → j < g.length → i ≠ j → a.get i j = v.get i j) ∧
      (∀ (i : Nat) (es : List (Edge (XNum K))), g[i]? = some es → ∀ e ∈ es,
        a.get i e.dst = e.cost ∧ v.get i e.dst = e.cost) ∧
      ∀ i, i < g.length → a.get i i = .fin 0 ∧ v.get i i = .inf := by
  have hc := complete_of_accepted h hl
  obtain ⟨a, a1, a2, a3, a4, a5⟩ := naFromGraph_complete hc
  obtain ⟨v, v1, v2, v3, v4⟩ := vecFromGraph_complete hc
  refine ⟨a, v, a1, v1, a2, v2, ?_, ?_, ?_⟩
  · intro i j hi hj hij
    rw [a5 i j hi hj hij, v4 i j hi hj hij]
  · intro i es hi e he
    refine ⟨a4 i es hi e he, ?_⟩
    have hm := (hc.mem hi).mp (List.mem_map_of_mem he)
    have hil := (List.getElem?_eq_some_iff.mp hi).1
    rw [v4 i e.dst hil hm.1 hm.2.symm, edgeCost_eq hi (hc.nodup hi) he]
  · intro i _
    exact ⟨a3 i, v3 i⟩

example : doConditionsHold triangle = .ok true ∧ NoLoop triangle ∧
    (naFromGraph triangle).map (fun m => m.get 1 2) = .ok (.fin 7) :=
  ⟨by decide +kernel, triangle_noLoop, by decide +kernel⟩

/-- **C54 (negation)** Vertex 1 has an edge to itself instead of one to vertex 0. The graph is
accepted, and the matrices differ at row 1, column 0. -/
theorem C54_self_loop : ∃ g : Graph (XNum ℚ), doConditionsHold g = .ok true ∧
    (naFromGraph g).map (fun m => m.get 1 0) = .ok .inf ∧
    (vecFromGraph g).map (fun m => m.get 1 0) = .ok (.fin 5) :=
  ⟨[[⟨1, .fin 5⟩, ⟨2, .fin 6⟩], [⟨1, .fin 1⟩, ⟨2, .fin 7⟩], [⟨0, .fin 6⟩, ⟨1, .fin 7⟩]],
    by decide +kernel, by decide +kernel, by decide +kernel⟩

/-! ## C56 -/

/-- **C56, sequential** For every arithmetic and all points, `from_points` returns a symmetric matrix
with zero diagonal that holds the computed distances. -/
theorem C56_from_points {α : Type} [FloatOps α] (sqrt : α → α) (points : List (α × α)) :
    ∃ m, fromPoints sqrt points = .ok m ∧ m.dim = points.length ∧ Symm m.dim m.get ∧
      (∀ i, i < m.dim → m.get i i = zero) ∧
      ∀ (i j : Nat) p q, i < j → points[i]? = some p → points[j]? = some q →
        m.get i j = sqrt (mul (p.1 -ᶠ q.1) (p.1 -ᶠ q.1) +ᶠ mul (p.2 -ᶠ q.2) (p.2 -ᶠ q.2)) := by
  obtain ⟨m, h1, h2, h3, h4⟩ := fromPoints_ok sqrt points
  refine ⟨m, h1, h2, ?_, fun i _ => h3 i, fun i j p q hij hi hj => (h4 i j p q hij hi hj).1⟩
  intro i j hi hj
  rw [h2] at hi hj
  rcases Nat.lt_trichotomy i j with h | h | h
  · obtain ⟨e1, e2⟩ := h4 i j _ _ h (List.getElem?_eq_getElem hi) (List.getElem?_eq_getElem hj)
    rw [e1, e2]
  · rw [h]
  · obtain ⟨e1, e2⟩ := h4 j i _ _ h (List.getElem?_eq_getElem hj) (List.getElem?_eq_getElem hi)
    rw [e1, e2]

/-- **C56, parallel** For every arithmetic in which the given points have distance zero to themselves
and symmetric distances (IEEE: finite points), and for every order in which the columns are filled,
`par_from_points` returns the matrix of `from_points`. -/
theorem C56_par_eq_seq {α : Type} [FloatOps α] (sqrt : α → α) {points : List (α × α)}
    (hself : ∀ p ∈ points, pointDist sqrt p p = zero)
    (hsym : ∀ p ∈ points, ∀ q ∈ points, pointDist sqrt p q = pointDist sqrt q p)
    {order : List Nat} (ho : order.Perm (List.range points.length)) :
    ∃ m m', fromPoints sqrt points = .ok m ∧ parFromPoints sqrt order points = .ok m' ∧
      m.dim = points.length ∧ m'.dim = points.length ∧
      ∀ i j, i < points.length → j < points.length → m'.get i j = m.get i j := by
  obtain ⟨m, h1, h2, h3, h4⟩ := fromPoints_ok sqrt points
  obtain ⟨m', k1, k2, k3⟩ := parFromPoints_ok sqrt points ho
  refine ⟨m, m', h1, k1, h2, k2, ?_⟩
  intro i j hi hj
  have hpi := List.getElem?_eq_getElem hi
  have hpj := List.getElem?_eq_getElem hj
  rw [k3 i j _ _ hpi hpj]
  rcases Nat.lt_trichotomy i j with h | h | h
  · rw [(h4 i j _ _ h hpi hpj).1]
    exact hsym _ (List.getElem_mem hj) _ (List.getElem_mem hi)
  · subst h
    rw [h3, hself _ (List.getElem_mem hi)]
  · rw [(h4 j i _ _ h hpj hpi).2]

/-- triangle inequality of the exact Euclidean distance -/
private theorem tri {s : K → K} (hs : ∀ x, 0 ≤ x → 0 ≤ s x ∧ s x * s x = x) (a b c d : K) :
    s ((a + b) * (a + b) + (c + d) * (c + d)) ≤ s (a * a + c * c) + s (b * b + d * d) := by
  obtain ⟨h1, h2⟩ := hs ((a + b) * (a + b) + (c + d) * (c + d))
    (add_nonneg (mul_self_nonneg _) (mul_self_nonneg _))
  obtain ⟨h3, h4⟩ := hs (a * a + c * c) (add_nonneg (mul_self_nonneg _) (mul_self_nonneg _))
  obtain ⟨h5, h6⟩ := hs (b * b + d * d) (add_nonneg (mul_self_nonneg _) (mul_self_nonneg _))
  set x := s ((a + b) * (a + b) + (c + d) * (c + d))
  set y := s (a * a + c * c)
  set z := s (b * b + d * d)
  have h7 : a * b + c * d ≤ y * z := by
    refine le_of_abs_le (abs_le_of_sq_le_sq ?_ (mul_nonneg h3 h5))
    rw [sq, sq]
    have e : y * z * (y * z) = (a * a + c * c) * (b * b + d * d) := by
      rw [← h4, ← h6]; ring
    rw [e]
    nlinarith [mul_self_nonneg (a * d - b * c)]
  refine le_of_abs_le (abs_le_of_sq_le_sq ?_ (add_nonneg h3 h5))
  rw [sq, sq]
  nlinarith

/-- **C56 (partial)** Exact arithmetic with exact square roots, all finite points, every order in which
the columns are filled: both constructors return the same matrix; its entries are the Euclidean
distances; they form a metric (zero diagonal, symmetric, triangle inequality), and `is_metric` is true.
Missing: points with infinite or NaN coordinates, for which the constructors differ (`C56_infinite`). -/
theorem C56_points_partial {sqrt : XNum K → XNum K} {s : K → K} (hs : ExactSqrt sqrt s)
    (pts : List (K × K)) {order : List Nat} (ho : order.Perm (List.range pts.length)) :
    ∃ m m' : Mat (XNum K), ∃ d : Nat → Nat → K,
      fromPoints sqrt (finPoints pts) = .ok m ∧ parFromPoints sqrt order (finPoints pts) = .ok m' ∧
      m.dim = pts.length ∧ m'.dim = pts.length ∧
      (∀ i j, i < pts.length → j < pts.length → m.get i j = .fin (d i j) ∧ m'.get i j = .fin (d i j)) ∧
      (∀ (i j : Nat) p q, pts[i]? = some p → pts[j]? = some q →
        0 ≤ d i j ∧ d i j ^ 2 = (p.1 - q.1) ^ 2 + (p.2 - q.2) ^ 2) ∧
      Metric pts.length d ∧ m.isMetric = true ∧ m'.isMetric = true := by
  let D : K × K → K × K → K := fun p q =>
    s ((p.1 - q.1) * (p.1 - q.1) + (p.2 - q.2) * (p.2 - q.2))
  have hnn : ∀ p q : K × K, 0 ≤ (p.1 - q.1) * (p.1 - q.1) + (p.2 - q.2) * (p.2 - q.2) := fun p q =>
    add_nonneg (mul_self_nonneg _) (mul_self_nonneg _)
  have hD : ∀ p q : K × K, pointDist sqrt (.fin p.1, .fin p.2) (.fin q.1, .fin q.2) = .fin (D p q) := by
    intro p q
    unfold pointDist
    exact (hs _ (hnn p q)).1
  have hDs : ∀ p q, D p q = D q p := by
    intro p q
    show s _ = s _
    congr 1
    ring
  have hD0 : ∀ p, D p p = 0 := by
    intro p
    have h0 : D p p = s 0 := by show s _ = s _; congr 1; ring
    rw [h0]
    have := (hs 0 le_rfl).2.2
    exact mul_self_eq_zero.mp this
  have hl : (finPoints pts).length = pts.length := by simp [finPoints]
  have hself : ∀ p ∈ finPoints pts, pointDist sqrt p p = zero := by
    intro p hp
    obtain ⟨q, -, rfl⟩ := List.mem_map.mp hp
    rw [hD, hD0]
    rfl
  have hsym : ∀ p ∈ finPoints pts, ∀ q ∈ finPoints pts, pointDist sqrt p q = pointDist sqrt q p := by
    intro p hp q hq
    obtain ⟨p, -, rfl⟩ := List.mem_map.mp hp
    obtain ⟨q, -, rfl⟩ := List.mem_map.mp hq
    rw [hD, hD, hDs]
  obtain ⟨m, m', h1, h2, h3, h4, h5⟩ := C56_par_eq_seq sqrt hself hsym (order := order) (by rw [hl]; exact ho)
  obtain ⟨m₁, k1, k2, k3, k4⟩ := fromPoints_ok sqrt (finPoints pts)
  rw [h1] at k1
  injection k1 with k1
  subst k1
  rw [hl] at h3 h4 h5
  let P : Nat → K × K := fun i => (pts[i]?).getD (0, 0)
  have hP : ∀ {i : Nat} {p}, pts[i]? = some p → P i = p := by
    intro i p h
    simp only [P, h, Option.getD_some]
  have hfin : ∀ {i : Nat} {p}, pts[i]? = some p → (finPoints pts)[i]? = some (.fin p.1, .fin p.2) := by
    intro i p h
    unfold finPoints
    rw [List.getElem?_map, h]
    rfl
  have hm : ∀ i j, i < pts.length → j < pts.length → m.get i j = .fin (D (P i) (P j)) := by
    intro i j hi hj
    have hpi := List.getElem?_eq_getElem hi
    have hpj := List.getElem?_eq_getElem hj
    rcases Nat.lt_trichotomy i j with h | h | h
    · rw [(k4 i j _ _ h (hfin hpi) (hfin hpj)).1, hD, hP hpi, hP hpj]
    · subst h
      rw [k3, hD0]
      rfl
    · rw [(k4 j i _ _ h (hfin hpj) (hfin hpi)).2, hD, hP hpi, hP hpj, hDs]
  have hmet : Metric pts.length fun i j => D (P i) (P j) := by
    refine ⟨fun i _ => hD0 _, fun i j _ _ => hDs _ _, ?_⟩
    intro i j k _ _ _
    have := tri (fun x hx => (hs x hx).2) ((P i).1 - (P k).1) ((P k).1 - (P j).1)
      ((P i).2 - (P k).2) ((P k).2 - (P j).2)
    simpa only [sub_add_sub_cancel] using this
  refine ⟨m, m', fun i j => D (P i) (P j), h1, h2, h3, h4, ?_, ?_, hmet, ?_, ?_⟩
  · intro i j hi hj
    exact ⟨hm i j hi hj, by rw [h5 i j hi hj, hm i j hi hj]⟩
  · intro i j p q hi hj
    simp only [hP hi, hP hj]
    have := hs _ (hnn p q)
    exact ⟨this.2.1, by rw [sq, sq, sq]; exact this.2.2⟩
  · exact C52_metric_passes (by rw [h3]; exact hm) (by rw [h3]; exact hmet)
  · refine C52_metric_passes (c := fun i j => D (P i) (P j)) ?_ (by rw [h4]; exact hmet)
    rw [h4]
    intro i j hi hj
    rw [h5 i j hi hj, hm i j hi hj]

/-- the real square root -/
noncomputable def realSqrt : XNum ℝ → XNum ℝ
  | .fin x => .fin (Real.sqrt x)
  | y => y

theorem realSqrt_exact : ExactSqrt realSqrt Real.sqrt :=
  fun x hx => ⟨rfl, Real.sqrt_nonneg x, Real.mul_self_sqrt hx⟩

example : ExactSqrt realSqrt Real.sqrt ∧
    [2, 0, 1].Perm (List.range [((0 : ℝ), (0 : ℝ)), (3, 0), (0, 4)].length) :=
  ⟨realSqrt_exact, by decide⟩

/-- **C56 (negation for infinite points)** One point with an infinite coordinate, any square root that
keeps NaN: the sequential constructor writes a zero on the diagonal, the parallel one NaN. -/
theorem C56_infinite {sqrt : XNum ℚ → XNum ℚ} (h : sqrt .nan = .nan) :
    (fromPoints sqrt [(.inf, .fin 0)]).map (fun m => m.get 0 0) = .ok (.fin 0) ∧
    (parFromPoints sqrt [0] [(.inf, .fin 0)]).map (fun m => m.get 0 0) = .ok .nan := by
  refine ⟨rfl, ?_⟩
  have : pointDist sqrt (.inf, .fin 0) (.inf, .fin 0) = .nan := h
  simp only [parFromPoints, List.foldlM_cons, List.foldlM_nil, List.zipIdx_cons, List.zipIdx_nil, idx,
    List.getElem?_cons_zero, rm_bind_ok, this]
  rfl

example : ∃ sqrt : XNum ℚ → XNum ℚ, sqrt .nan = .nan := ⟨id, rfl⟩

/-! ## C57 -/

/-- **C57, every arithmetic** If no two of the points have computed distance zero, and distances do not
depend on the direction, then the instance written by the generator is accepted (and is complete). -/
theorem C57_generated {α : Type} [FloatOps α] (hz : eq (zero : α) zero = true) {sqrt : α → α}
    {points : List (α × α)}
    (h : ∀ (i j : Nat) p q, points[i]? = some p → points[j]? = some q → i ≠ j →
      eq (genDist sqrt p q) zero = false ∧ eq (genDist sqrt q p) (genDist sqrt p q) = true) :
    doConditionsHold (genGraph (genMatrix sqrt points)) = .ok true ∧
    CompleteUndirected (genGraph (genMatrix sqrt points)) :=
  ⟨(genGraph_complete hz h).accepted, genGraph_complete hz h⟩

/-- **C57 (partial)** Exact arithmetic with exact square roots, all finite points: the instance written
by the generator is accepted exactly if the points are pairwise different. Missing: equal points, for
which the claim is false by this theorem (the edge of cost zero is not written). -/
theorem C57_generated_partial {sqrt : XNum K → XNum K} {s : K → K} (hs : ExactSqrt sqrt s)
    (pts : List (K × K)) :
    doConditionsHold (genGraph (genMatrix sqrt (finPoints pts))) = .ok true ↔ pts.Nodup := by
  let D : K × K → K × K → K := fun p q =>
    s ((q.1 - p.1) * (q.1 - p.1) + (q.2 - p.2) * (q.2 - p.2))
  have hnn : ∀ p q : K × K, 0 ≤ (q.1 - p.1) * (q.1 - p.1) + (q.2 - p.2) * (q.2 - p.2) := fun p q =>
    add_nonneg (mul_self_nonneg _) (mul_self_nonneg _)
  have hD : ∀ p q : K × K, genDist sqrt (.fin p.1, .fin p.2) (.fin q.1, .fin q.2) = .fin (D p q) := by
    intro p q
    unfold genDist
    exact (hs _ (hnn p q)).1
  have hDs : ∀ p q, D p q = D q p := by
    intro p q
    show s _ = s _
    congr 1
    ring
  have hD0 : ∀ p q, D p q = 0 ↔ p = q := by
    intro p q
    have h2 := (hs _ (hnn p q)).2.2
    constructor
    · intro h
      have h3 : (q.1 - p.1) * (q.1 - p.1) + (q.2 - p.2) * (q.2 - p.2) = 0 := by
        rw [← h2]
        show D p q * D p q = 0
        rw [h, mul_zero]
      have a := mul_self_nonneg (q.1 - p.1)
      have b := mul_self_nonneg (q.2 - p.2)
      have a0 : (q.1 - p.1) * (q.1 - p.1) = 0 := by linarith
      have b0 : (q.2 - p.2) * (q.2 - p.2) = 0 := by linarith
      exact Prod.ext (sub_eq_zero.mp (mul_self_eq_zero.mp a0)).symm
        (sub_eq_zero.mp (mul_self_eq_zero.mp b0)).symm
    · rintro rfl
      have h3 : D p p * D p p = 0 := by
        show s _ * s _ = 0
        rw [h2]
        ring
      exact mul_self_eq_zero.mp h3
  have hz : eq (zero : XNum K) zero = true := by simp
  have hz' : (zero : XNum K) = .fin 0 := rfl
  have hget : ∀ (i : Nat) p, (finPoints pts)[i]? = some p → ∃ q, pts[i]? = some q ∧ p = (.fin q.1, .fin q.2) := by
    intro i p h
    unfold finPoints at h
    rw [List.getElem?_map] at h
    obtain ⟨q, h1, h2⟩ := Option.map_eq_some_iff.mp h
    exact ⟨q, h1, h2.symm⟩
  constructor
  · intro h
    rw [List.nodup_iff_getElem?_ne_getElem?]
    intro i j hij hj hc
    have hpj := List.getElem?_eq_getElem hj
    have hpi : pts[i]? = some pts[j] := by rw [hc, hpj]
    have e : ∀ {i : Nat} {p}, pts[i]? = some p → (finPoints pts)[i]? = some (.fin p.1, .fin p.2) := by
      intro i p h
      unfold finPoints
      rw [List.getElem?_map, h]
      rfl
    have := genGraph_accepted hz h (e hpi) (e hpj) (by omega)
    rw [hD, (hD0 _ _).mpr rfl, ← hz', hz] at this
    cases this
  · intro h
    refine (C57_generated hz ?_).1
    intro i j p q hi hj hij
    obtain ⟨p, hp, rfl⟩ := hget i p hi
    obtain ⟨q, hq, rfl⟩ := hget j q hj
    rw [hD, hD, hDs q p]
    refine ⟨?_, by simp⟩
    have hne : D p q ≠ 0 := by
      rw [Ne, hD0]
      rintro rfl
      exact hij ((List.nodup_iff_injective_get.mp h) (a₁ := ⟨i, (List.getElem?_eq_some_iff.mp hp).1⟩)
        (a₂ := ⟨j, (List.getElem?_eq_some_iff.mp hq).1⟩) (by
          simp only [List.get_eq_getElem]
          rw [(List.getElem?_eq_some_iff.mp hp).2, (List.getElem?_eq_some_iff.mp hq).2]) |> Fin.mk.inj)
    rw [hz']
    simpa using hne

example : ExactSqrt realSqrt Real.sqrt ∧ [((0 : ℝ), (0 : ℝ)), (3, 0), (0, 4)].Nodup :=
  ⟨realSqrt_exact, by simp⟩

/-- **C57 (negation)** Two equal points: the instance is rejected. -/
theorem C57_equal_points (p : ℝ × ℝ) :
    doConditionsHold (genGraph (genMatrix realSqrt (finPoints [p, p]))) ≠ .ok true := by
  rw [Ne, C57_generated_partial realSqrt_exact]
  simp

end Walky.Props
