import Verif.Lemmas.Monoid
import Verif.Examples

/-! # Properties C52, C53, C58: matrices and graphs -/

namespace Walky.Props

open FloatOps XNum Spec

variable {K : Type} [Field K] [LinearOrder K] [IsStrictOrderedRing K]

/-- all triples of the loop of `is_metric` -/
private theorem isMetric_iff {α : Type} [FloatOps α] (m : Mat α) : m.isMetric = true ↔
    ∀ i j k, i < m.dim → j < m.dim → k < m.dim → i ≤ j →
      ((m.get i k +ᶠ m.get k j) +ᶠ tol <ᶠ m.get i j) = false := by
  unfold Mat.isMetric
  simp only [List.all_eq_true, Bool.not_eq_true', List.mem_range]
  constructor
  · intro h i j k hi hj hk hij
    refine h i hi j ?_ k hk
    rw [List.mem_drop_iff_getElem]
    exact ⟨j - i, by simp; omega, by simp; omega⟩
  · intro h i hi j hj k hk
    rw [List.mem_drop_iff_getElem] at hj
    obtain ⟨l, hl, rfl⟩ := hj
    simp at hl ⊢
    exact h i (i + l) k hi (by omega) hk (by omega)

/-- **C52, all values** On every symmetric matrix (NaN and infinities included, and for every
arithmetic with a commutative `+`, such as IEEE): `is_metric` is true exactly if there is no triple
with `cost(i,j) > cost(i,k) + cost(k,j) + 1e-10`. -/
theorem C52_no_violation {α : Type} [FloatOps α] (hadd : ∀ x y : α, (x +ᶠ y) = (y +ᶠ x)) {m : Mat α}
    (hsym : Symm m.dim m.get) : m.isMetric = true ↔ ∀ i j k, i < m.dim → j < m.dim → k < m.dim →
      ((m.get i k +ᶠ m.get k j) +ᶠ tol <ᶠ m.get i j) = false := by
  rw [isMetric_iff]
  constructor
  · intro h i j k hi hj hk
    rcases le_total i j with hij | hij
    · exact h i j k hi hj hk hij
    · rw [hsym i j hi hj, hsym i k hi hk, hsym k j hk hj, hadd (m.get k i)]
      exact h j i k hj hi hk hij
  · intro h i j k hi hj hk _
    exact h i j k hi hj hk

/-- **C52 (partial)** On every symmetric matrix whose entries are finite or `+∞`, `is_metric` is true
exactly if `cost(i,j) <= cost(i,k) + cost(k,j) + 1e-10` for all `i`, `j`, `k`. Missing: NaN entries,
for which the claim is false (`C52_nan`), and `-∞`. -/
theorem C52_is_metric_partial {m : Mat (XNum K)} (hsym : Symm m.dim m.get)
    (hp : ∀ i j, i < m.dim → j < m.dim → m.get i j = XNum.inf ∨ ∃ x, m.get i j = .fin x) :
    m.isMetric = true ↔ ∀ i j k, i < m.dim → j < m.dim → k < m.dim →
      (m.get i j ≤ᶠ ((m.get i k +ᶠ m.get k j) +ᶠ tol)) = true := by
  rw [C52_no_violation XNum.add_comm' hsym]
  have key : ∀ x y z : XNum K, (x = XNum.inf ∨ ∃ a, x = .fin a) → (y = XNum.inf ∨ ∃ a, y = .fin a) →
      (z = XNum.inf ∨ ∃ a, z = .fin a) →
      (((x +ᶠ y) +ᶠ tol <ᶠ z) = false ↔ (z ≤ᶠ ((x +ᶠ y) +ᶠ tol)) = true) := by
    rintro x y z (rfl | ⟨a, rfl⟩) (rfl | ⟨b, rfl⟩) (rfl | ⟨d, rfl⟩) <;> simp [tol_def]
  constructor
  · intro h i j k hi hj hk
    exact (key _ _ _ (hp i k hi hk) (hp k j hk hj) (hp i j hi hj)).mp (h i j k hi hj hk)
  · intro h i j k hi hj hk
    exact (key _ _ _ (hp i k hi hk) (hp k j hk hj) (hp i j hi hj)).mpr (h i j k hi hj hk)

/-- **C52, finite costs** For a symmetric matrix of finite costs. -/
theorem C52_is_metric_finite {m : Mat (XNum K)} {c : Nat → Nat → K}
    (hm : ∀ i j, i < m.dim → j < m.dim → m.get i j = .fin (c i j)) (hsym : Symm m.dim c) :
    m.isMetric = true ↔ ∀ i j k, i < m.dim → j < m.dim → k < m.dim →
      c i j ≤ c i k + c k j + 1 / 10 ^ 10 := by
  rw [C52_is_metric_partial (fun i j hi hj => by rw [hm i j hi hj, hm j i hj hi, hsym i j hi hj])
    (fun i j hi hj => Or.inr ⟨_, hm i j hi hj⟩)]
  constructor
  · intro h i j k hi hj hk
    have := h i j k hi hj hk
    rw [hm i j hi hj, hm i k hi hk, hm k j hk hj, tol_def] at this
    simpa using this
  · intro h i j k hi hj hk
    rw [hm i j hi hj, hm i k hi hk, hm k j hk hj, tol_def]
    simpa using h i j k hi hj hk

example : Symm Ex.m4.dim Ex.m4.get ∧ Ex.m4.isMetric = true ∧
    (Mat.ofRowsFin [[0, 1, 5], [1, 0, 1], [5, 1, (0 : ℚ)]]).isMetric = false := by
  refine ⟨?_, by decide +kernel, by decide +kernel⟩
  intro i j hi hj
  show XNum.fin _ = XNum.fin _
  rw [show ofRowsC Ex.rows4 i j = ofRowsC Ex.rows4 j i from Ex.symm4 i j hi hj]

/-- **C52, metrics pass** Every metric passes `is_metric`. -/
theorem C52_metric_passes {m : Mat (XNum K)} {c : Nat → Nat → K}
    (hm : ∀ i j, i < m.dim → j < m.dim → m.get i j = .fin (c i j)) (h : Metric m.dim c) :
    m.isMetric = true := by
  rw [C52_is_metric_finite hm h.symm]
  intro i j k hi hj hk
  have h1 := h.tri i j k hi hj hk
  have h2 : (0 : K) ≤ 1 / 10 ^ 10 := by positivity
  linarith

example : Metric Ex.m4.dim Ex.c4 := Ex.metric4

/-- **C52 (negation for NaN)** A symmetric matrix with a NaN passes `is_metric` although the inequality
does not hold. -/
theorem C52_nan : ∃ m : Mat (XNum ℚ), m.dim = 2 ∧ (∀ i j, m.get i j = m.get j i) ∧
    m.isMetric = true ∧ (m.get 0 1 ≤ᶠ ((m.get 0 0 +ᶠ m.get 0 1) +ᶠ tol)) = false :=
  ⟨⟨2, fun i j => if i = j then .fin 0 else .nan⟩, rfl, fun i j => by simp only [eq_comm],
    by decide +kernel, by decide +kernel⟩

/-- **C52 (why symmetry is needed)** On a matrix that is not symmetric only half of the triples is
tested. -/
theorem C52_asymmetric : ∃ m : Mat (XNum ℚ), m.dim = 3 ∧ m.isMetric = true ∧
    (m.get 2 0 ≤ᶠ ((m.get 2 1 +ᶠ m.get 1 0) +ᶠ tol)) = false :=
  ⟨Mat.ofRowsFin [[0, 1, 1], [1, 0, 1], [9, 1, 0]], rfl, by decide +kernel, by decide +kernel⟩

/-- **C53, closing edge** For every matrix (NaN and infinities included) and every path of at least two
valid vertices, `evaluate_path` is the sum of its edges, and `evaluate_circle` is `evaluate_path` plus
the edge from the last vertex to the first. -/
theorem C53_closing_edge (m : Mat (XNum K)) {p : List Nat} (hp : ∀ i ∈ p, i < m.dim) {a b : Nat}
    (ha : p.getLast? = some a) (hb : p.head? = some b) (hl : 2 ≤ p.length) :
    m.evaluatePath p = .ok (pathCost m.get p) ∧
    m.evaluateCircle p = .ok (pathCost m.get p +ᶠ m.get a b) ∧
    m.evaluateCircle p = .ok (tourCost m.get p) := by
  have hne : p ≠ [] := by rintro rfl; simp at hl
  refine ⟨evaluatePath_any hp, ?_, evaluateCircle_any hp hl⟩
  rw [evaluateCircle_any hp hl, tourCost_eq m.get p hne]
  rw [List.getLast?_eq_getLast_of_ne_nil hne] at ha
  rw [List.head?_eq_some_head hne] at hb
  injection ha with ha
  injection hb with hb
  rw [ha, hb]
  rfl

/-- **C53, rotation** For every matrix and every path, `evaluate_circle` gives the same for every
starting point of the cycle (the same value or the same panic). -/
theorem C53_rotation (m : Mat (XNum K)) (p : List Nat) (k : Nat) :
    m.evaluateCircle (p.rotate k) = m.evaluateCircle p :=
  evaluateCircle_congr (List.rotate_perm p k) fun _ => tourCost_rotate _ p k

/-- **C53, reversal** For symmetric matrices the same holds for the reversed cycle. -/
theorem C53_reversal {m : Mat (XNum K)} (hsym : Symm m.dim m.get) (p : List Nat) :
    m.evaluateCircle p.reverse = m.evaluateCircle p :=
  evaluateCircle_congr (List.reverse_perm p) fun h => tourCost_reverse_symm hsym h

example : Ex.m4.evaluateCircle [2, 0, 1, 3] = .ok (.fin 10) ∧
    Ex.m4.evaluateCircle [1, 3, 2, 0] = .ok (.fin 10) ∧
    Ex.m4.evaluateCircle [3, 1, 0, 2] = .ok (.fin 10) ∧ Ex.m4.evaluatePath [2, 0, 1, 3] = .ok (.fin 8) ∧
    Ex.m4.evaluateCircle [0, 1, 2, 3] = .ok (.fin 12) := by decide +kernel

/-- **C58, weight** For every graph, all vertices `u`, `v` and every cost (NaN and infinities included),
`add_undirected_edge` raises `undirected_edge_weight` by exactly the cost, and
`undirected_edge_weight` is half of `directed_edge_weight`. -/
theorem C58_weight (g : Graph (XNum K)) {u v : Nat} (hu : u < g.length) (hv : v < g.length)
    (x : XNum K) : ∃ g', Graph.addUndirectedEdge g u v x = .ok g' ∧ g'.length = g.length ∧
      Graph.undirectedEdgeWeight g' = (Graph.undirectedEdgeWeight g +ᶠ x) ∧
      (∀ w, Graph.directedEdgeWeight g = .fin w → Graph.undirectedEdgeWeight g = .fin (w / 2)) := by
  obtain ⟨h1, h2⟩ := directedEdgeWeight_push hu ⟨v, x⟩
  have hv' : v < (g.modify u (· ++ [(⟨v, x⟩ : Edge (XNum K))])).length := by simpa using hv
  obtain ⟨h3, h4⟩ := directedEdgeWeight_push hv' ⟨u, x⟩
  refine ⟨(g.modify u (· ++ [⟨v, x⟩])).modify v (· ++ [⟨u, x⟩]), ?_, ?_, ?_, ?_⟩
  · unfold Graph.addUndirectedEdge
    rw [if_pos ⟨hu, hv⟩, h1, rm_bind_ok, h3]
  · simp
  · unfold Graph.undirectedEdgeWeight
    rw [h4, h2, add_assoc]
    exact XNum.half_add _ _
  · intro w hw
    unfold Graph.undirectedEdgeWeight
    rw [hw]
    rfl

/-- **C58, degrees (partial)** For every graph and two different vertices `u`, `v`: after
`add_undirected_edge` both have one more edge, which leads to the other one with the given cost, and
nothing else has changed. (For every kind of numbers.) Missing: `u = v`, where the degree grows by
two (`C58_loop`). -/
theorem C58_degrees_partial {α : Type} [FloatOps α] (g : Graph α) {u v : Nat} (hu : u < g.length)
    (hv : v < g.length) (huv : u ≠ v) (x : α) : ∃ g', Graph.addUndirectedEdge g u v x = .ok g' ∧
      (∀ d, Graph.vertexDegree g u = .ok d → Graph.vertexDegree g' u = .ok (d + 1)) ∧
      (∀ d, Graph.vertexDegree g v = .ok d → Graph.vertexDegree g' v = .ok (d + 1)) ∧
      (∀ es, g[u]? = some es → g'[u]? = some (es ++ [⟨v, x⟩])) ∧
      (∀ es, g[v]? = some es → g'[v]? = some (es ++ [⟨u, x⟩])) ∧
      ∀ w, w ≠ u → w ≠ v → g'[w]? = g[w]? := by
  have k1 : ∀ es, g[u]? = some es →
      ((g.modify u (· ++ [(⟨v, x⟩ : Edge α)])).modify v (· ++ [(⟨u, x⟩ : Edge α)]))[u]? =
        some (es ++ [⟨v, x⟩]) := by
    intro es h
    simp [h, huv.symm]
  have k2 : ∀ es, g[v]? = some es →
      ((g.modify u (· ++ [(⟨v, x⟩ : Edge α)])).modify v (· ++ [(⟨u, x⟩ : Edge α)]))[v]? =
        some (es ++ [⟨u, x⟩]) := by
    intro es h
    simp [h, huv]
  refine ⟨(g.modify u (· ++ [⟨v, x⟩])).modify v (· ++ [⟨u, x⟩]), ?_, ?_, ?_, k1, k2, ?_⟩
  · unfold Graph.addUndirectedEdge Graph.pushEdge
    rw [if_pos ⟨hu, hv⟩, if_pos hu, rm_bind_ok, if_pos (by simpa using hv)]
  · intro d hd
    unfold Graph.vertexDegree at hd ⊢
    rw [idx_lt hu] at hd
    rw [idx_ok (k1 _ (List.getElem?_eq_getElem hu))]
    simp only [rm_bind_ok, rm_pure, List.length_append, List.length_singleton] at hd ⊢
    injection hd with hd
    rw [hd]
  · intro d hd
    unfold Graph.vertexDegree at hd ⊢
    rw [idx_lt hv] at hd
    rw [idx_ok (k2 _ (List.getElem?_eq_getElem hv))]
    simp only [rm_bind_ok, rm_pure, List.length_append, List.length_singleton] at hd ⊢
    injection hd with hd
    rw [hd]
  · intro w h1 h2
    simp [h1.symm, h2.symm]

/-- **C58 (negation for loops)** An edge from a vertex to itself raises its degree by two. -/
theorem C58_loop {α : Type} [FloatOps α] (g : Graph α) {u : Nat} (hu : u < g.length) (x : α) :
    ∃ g' d, Graph.addUndirectedEdge g u u x = .ok g' ∧ Graph.vertexDegree g u = .ok d ∧
      Graph.vertexDegree g' u = .ok (d + 2) := by
  refine ⟨(g.modify u (· ++ [⟨u, x⟩])).modify u (· ++ [⟨u, x⟩]), g[u].length, ?_, ?_, ?_⟩
  · unfold Graph.addUndirectedEdge Graph.pushEdge
    rw [if_pos ⟨hu, hu⟩, if_pos hu, rm_bind_ok, if_pos (by simpa using hu)]
  · unfold Graph.vertexDegree
    rw [idx_lt hu]
    rfl
  · unfold Graph.vertexDegree
    rw [idx_ok (a := g[u] ++ [⟨u, x⟩] ++ [⟨u, x⟩]) (by simp [hu])]
    simp

/-- a path 0–1–2 with the weights 3 and 4, and a new edge 0–2 of weight 5 -/
example : Graph.addUndirectedEdge ([[⟨1, fin 3⟩], [⟨0, fin 3⟩, ⟨2, fin 4⟩], [⟨1, fin 4⟩]] : Graph (XNum ℚ))
      0 2 (fin 5) =
      .ok [[⟨1, fin 3⟩, ⟨2, fin 5⟩], [⟨0, fin 3⟩, ⟨2, fin 4⟩], [⟨1, fin 4⟩, ⟨0, fin 5⟩]] ∧
    Graph.undirectedEdgeWeight ([[⟨1, fin 3⟩], [⟨0, fin 3⟩, ⟨2, fin 4⟩], [⟨1, fin 4⟩]] : Graph (XNum ℚ)) =
      fin 7 := by decide +kernel

end Walky.Props
