import Verif.Lemmas.Ratio
import Verif.Lemmas.Near
import Mathlib.Data.Real.Basic
import Mathlib.Data.Rat.Cast.Order

/-! # Costs that are close to a metric with real values -/

namespace Walky

open FloatOps XNum Spec

/-- the costs as real numbers -/
def realCost (c : Nat → Nat → ℚ) : Nat → Nat → ℝ := fun i j => (c i j : ℝ)

theorem pathCost_real (c : Nat → Nat → ℚ) : ∀ p : List Nat, pathCost (realCost c) p = ((pathCost c p : ℚ) : ℝ)
  | [] => by simp
  | [_] => by simp
  | a :: b :: t => by
    rw [pathCost_cons₂, pathCost_cons₂, pathCost_real c (b :: t)]
    push_cast
    rfl

theorem tourCost_real (c : Nat → Nat → ℚ) (p : List Nat) : tourCost (realCost c) p = ((tourCost c p : ℚ) : ℝ) := by
  cases p with
  | nil => simp [tourCost]
  | cons a t => exact pathCost_real c _

theorem edgeSum_real (c : Nat → Nat → ℚ) (F : List (Nat × Nat)) :
    edgeSum (realCost c) F = ((edgeSum c F : ℚ) : ℝ) := by
  induction F with
  | nil => simp [edgeSum]
  | cons e F ih =>
    rw [edgeSum_cons, edgeSum_cons, ih]
    push_cast
    rfl

theorem Greedy.real {n : Nat} {c : Nat → Nat → ℚ} {p : List Nat} (h : Greedy n c p) :
    Greedy n (realCost c) p := by
  intro l x y r hp z hz hzl hzx
  obtain ⟨h1, h2⟩ := h l x y r hp z hz hzl hzx
  exact ⟨Rat.cast_le.mpr h1, fun h => h2 (Rat.cast_le.mp h)⟩

/-- The costs `c` between different cities are those of the metric `d` up to a relative error `ε`. -/
structure NearMetric (n : Nat) (c : Nat → Nat → ℚ) (d : Nat → Nat → ℝ) (ε : ℝ) : Prop where
  met : Metric n d
  near : ∀ i j, i < n → j < n → i ≠ j → |(c i j : ℝ) - d i j| ≤ ε * d i j

variable {n : Nat} {c : Nat → Nat → ℚ} {d : Nat → Nat → ℝ} {ε : ℝ}

theorem edgeSum_near (h : NearMetric n c d ε) {F : List (Nat × Nat)}
    (hF : ∀ e ∈ F, e.1 < n ∧ e.2 < n ∧ e.1 ≠ e.2) :
    |((edgeSum c F : ℚ) : ℝ) - edgeSum d F| ≤ ε * edgeSum d F := by
  induction F with
  | nil => simp [edgeSum]
  | cons e F ih =>
    have h1 := ih fun f hf => hF f (by simp [hf])
    obtain ⟨k1, k2, k3⟩ := hF e (by simp)
    have h2 := h.near _ _ k1 k2 k3
    rw [edgeSum_cons, edgeSum_cons]
    push_cast
    have := abs_add_le ((c e.1 e.2 : ℝ) - d e.1 e.2) (((edgeSum c F : ℚ) : ℝ) - edgeSum d F)
    rw [show (c e.1 e.2 : ℝ) + ((edgeSum c F : ℚ) : ℝ) - (d e.1 e.2 + edgeSum d F) =
      ((c e.1 e.2 : ℝ) - d e.1 e.2) + (((edgeSum c F : ℚ) : ℝ) - edgeSum d F) by ring]
    linarith

/-- the edges of a tour -/
def tourEdges : List Nat → List (Nat × Nat)
  | [] => []
  | a :: t => pairs (a :: t ++ [a])

theorem edgeSum_tourEdges {K : Type} [Field K] [LinearOrder K] [IsStrictOrderedRing K] (c : Nat → Nat → K) (p : List Nat) :
    edgeSum c (tourEdges p) = tourCost c p := by
  cases p with
  | nil => simp [tourEdges, edgeSum, tourCost]
  | cons a t => exact edgesCost_pairs c _

theorem tourEdges_ne {n : Nat} (hn : 2 ≤ n) {p : List Nat} (hp : IsTour n p) :
    ∀ e ∈ tourEdges p, e.1 < n ∧ e.2 < n ∧ e.1 ≠ e.2 := by
  intro e he
  cases p with
  | nil => cases he
  | cons a t =>
    have hl := hp.length
    obtain ⟨t', b, rfl⟩ : ∃ t' b, t = t' ++ [b] := by
      rcases List.eq_nil_or_concat t with rfl | ⟨t', b, rfl⟩
      · simp at hl; omega
      · exact ⟨t', b, by simp⟩
    have e0 : tourEdges (a :: (t' ++ [b])) = pairs ((a :: t') ++ b :: [a]) := by
      simp [tourEdges]
    rw [e0, pairs_append] at he
    have hmem : ∀ x ∈ a :: (t' ++ [b]), x < n := fun x hx => hp.mem.mp hx
    rcases List.mem_append.mp he with he | he
    · have h1 := mem_pairs he
      exact ⟨hmem _ h1.1, hmem _ h1.2, pairs_ne hp.nodup he⟩
    · have he : e = (b, a) := by simpa [pairs] using he
      subst he
      refine ⟨hmem b (by simp), hmem a (by simp), ?_⟩
      intro hba
      have hba : b = a := hba
      have := hp.nodup
      rw [hba] at this
      simp at this

theorem tourCost_near (h : NearMetric n c d ε) (hn : 2 ≤ n) {p : List Nat} (hp : IsTour n p) :
    |((tourCost c p : ℚ) : ℝ) - tourCost d p| ≤ ε * tourCost d p := by
  rw [← edgeSum_tourEdges, ← edgeSum_tourEdges]
  exact edgeSum_near h (tourEdges_ne hn hp)

theorem tourCost_metric_nonneg (h : Metric n d) (hn : 2 ≤ n) {p : List Nat} (hp : IsTour n p) :
    0 ≤ tourCost d p := by
  rw [← edgeSum_tourEdges]
  refine List.sum_nonneg ?_
  intro x hx
  obtain ⟨e, he, rfl⟩ := List.mem_map.mp hx
  obtain ⟨k1, k2, -⟩ := tourEdges_ne hn hp e he
  exact h.nonneg k1 k2

/-- errors multiply -/
theorem near_trans {G H w C D : ℝ} (hG : 1 ≤ G) (hH : 1 + ε ≤ H) (h0 : 0 ≤ ε) (hD : 0 ≤ D)
    (h1 : |w - C| ≤ (G - 1) * C) (h2 : |C - D| ≤ ε * D) : |w - D| ≤ (G * H - 1) * D := by
  obtain ⟨a1, a2⟩ := abs_le.mp h1
  obtain ⟨b1, b2⟩ := abs_le.mp h2
  have hGH : G * (1 + ε) * D ≤ G * H * D :=
    mul_le_mul_of_nonneg_right (mul_le_mul_of_nonneg_left hH (by linarith)) hD
  have hεD : 0 ≤ ε * D := mul_nonneg h0 hD
  rw [abs_le]
  constructor
  · rcases le_total G 2 with h | h
    · have e1 := mul_le_mul_of_nonneg_left (show (1 - ε) * D ≤ C by linarith) (show 0 ≤ 2 - G by linarith)
      have e2 : 0 ≤ (G - 1) * (ε * D) := mul_nonneg (by linarith) hεD
      nlinarith
    · have e1 := mul_le_mul_of_nonneg_left (show C ≤ (1 + ε) * D by linarith) (show 0 ≤ G - 2 by linarith)
      nlinarith
  · have e1 := mul_le_mul_of_nonneg_left (show C ≤ (1 + ε) * D by linarith) (show 0 ≤ G by linarith)
    nlinarith

/-- a shortest tour -/
theorem exists_shortest (d : Nat → Nat → ℝ) (n : Nat) : ∃ q, IsShortest n d q := by
  have hne : ((List.range n).permutations).toFinset.Nonempty := ⟨List.range n, by simp⟩
  obtain ⟨q, h1, h2⟩ := Finset.exists_min_image _ (tourCost d) hne
  refine ⟨q, (by simpa using h1 : q.Perm (List.range n)), fun p hp => h2 p ?_⟩
  have : p.Perm (List.range n) := hp
  simpa using this

end Walky
