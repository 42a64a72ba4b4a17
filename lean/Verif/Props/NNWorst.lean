import Verif.Props.NearestNeighbour
import Verif.Props.Data
import Verif.Props.Ratio
import Verif.Lemmas.TwoCaterpillars
import Verif.Lemmas.FixedApprox
import Verif.Lemmas.FixedGrid

/-! # Property C83: the factor of nearest neighbour is logarithmic, not constant -/

namespace Walky.Props

open FloatOps XNum Spec

variable {K : Type} [Field K] [LinearOrder K] [IsStrictOrderedRing K]

/-- the instance -/
def badMat (K : Type) [Field K] (k : Nat) : Mat (XNum K) := Mat.ofFun (2 * badHalf k) (badCost K k)

theorem bad_single {k i : Nat} (hi : i < 2 * badHalf k) :
    ∃ w p, singleNN (badMat K k) i = .ok (.fin w, p) ∧ (k : K) * 2 ^ k ≤ w := by
  obtain ⟨p, h1, h2, -, h4⟩ := singleNN_exact (rep_ofFun (2 * badHalf k) (badCost K k)) (i := i) hi
  exact ⟨_, p, h1, bad_greedy h2 h4⟩

/-- **C83 (the factor is logarithmic)** For every `k` there is a metric with `n = 2 (2^(k+1) - 1)` cities, different
cities having positive distances, with a tour that is not longer than `16 · 2^k`, and on which all nearest neighbour tours
are at least `k · 2^k` long: from every start, for every number and order of random starts, in
`nearest_neighbour` sequentially, in rayon, and in MPI for every number of ranks up to `n`. So the ratio grows like
the logarithm of the number of cities, as the upper bound of `C83_nearest_neighbour_ratio` does. -/
theorem C83_log (k : Nat) :
    ∃ (m : Mat (XNum K)) (c : Nat → Nat → K) (q : List Nat), m.dim = 2 * (2 ^ (k + 1) - 1) ∧ Rep m c ∧
      Metric m.dim c ∧ (∀ i j, i < m.dim → j < m.dim → i ≠ j → 0 < c i j) ∧ m.isMetric = true ∧
      IsTour m.dim q ∧ tourCost c q ≤ 16 * 2 ^ k ∧
      (∀ i < m.dim, ∃ w p, singleNN m i = .ok (.fin w, p) ∧ (k : K) * 2 ^ k ≤ w) ∧
      (∀ xs : List Nat, xs.Perm (List.range m.dim) →
        (∀ t, 1 ≤ t → t ≤ m.dim → ∃ w p, nNNSeq xs m t = .ok (.fin w, p) ∧ (k : K) * 2 ^ k ≤ w) ∧
        (∃ w p, nearestNeighbourSeq xs m = .ok (.fin w, p) ∧ (k : K) * 2 ^ k ≤ w) ∧
        ∀ shape : List (Solution (XNum K)) → RTree (Solution (XNum K)), (∀ l, (shape l).flatten = l) →
          ∃ w p, nearestNeighbourPar shape xs m = .ok (.fin w, p) ∧ (k : K) * 2 ^ k ≤ w) ∧
      ∀ (shape : Nat → List (XNum K × Nat) → RTree (XNum K × Nat)) (size : Nat),
        (∀ r l, (shape r l).flatten.Perm l) → 1 ≤ size → size ≤ m.dim →
        ∃ w p, nnMpi shape size m = .ok (List.replicate size (.fin w, p)) ∧ (k : K) * 2 ^ k ≤ w := by
  have hm := rep_ofFun (2 * badHalf k) (badCost K k)
  have hmet := badCost_metric (K := K) k (2 * badHalf k)
  have hlen := badHalf_eq k
  have hn : 1 ≤ (badMat K k).dim := by
    have : 2 ^ 1 ≤ 2 ^ (k + 1) := Nat.pow_le_pow_right (by norm_num) (by omega)
    show 1 ≤ 2 * badHalf k
    omega
  have hsingle : ∀ i < (badMat K k).dim, ∃ w p, singleNN (badMat K k) i = .ok (.fin w, p) ∧ (k : K) * 2 ^ k ≤ w :=
    fun i hi => bad_single hi
  have hbest : ∀ i < (badMat K k).dim, ∀ w p, singleNN (badMat K k) i = .ok (.fin w, p) → (k : K) * 2 ^ k ≤ w := by
    intro i hi w p h
    obtain ⟨w', p', h1, h2⟩ := hsingle i hi
    rw [h] at h1
    rw [XNum.fin.inj (Prod.mk.inj (Except.ok.inj h1)).1]
    exact h2
  have hseq : ∀ xs : List Nat, xs.Perm (List.range (badMat K k).dim) →
      ∀ t, 1 ≤ t → t ≤ (badMat K k).dim → ∃ w p, nNNSeq xs (badMat K k) t = .ok (.fin w, p) ∧ (k : K) * 2 ^ k ≤ w := by
    intro xs hxs t h1 h2
    obtain ⟨w, p, a1, -, -, -, ⟨i, a2, a3⟩, -⟩ := C39_n_nearest_neighbour hm hxs h1 h2
    refine ⟨w, p, a1, hbest i ?_ w p a3⟩
    simpa using hxs.subset (List.mem_of_mem_take a2)
  have hnn : ∀ xs : List Nat, xs.Perm (List.range (badMat K k).dim) →
      ∃ w p, nearestNeighbourSeq xs (badMat K k) = .ok (.fin w, p) ∧ (k : K) * 2 ^ k ≤ w :=
    fun xs hxs => hseq xs hxs _ hn le_rfl
  refine ⟨badMat K k, badCost K k, goodTour k, by show 2 * badHalf k = _; omega, hm, hmet, fun i j hi hj hij => ?_,
    C52_metric_passes (fun _ _ _ _ => rfl) hmet, goodTour_tour k, goodTour_cost k, hsingle, fun xs hxs => ⟨hseq xs hxs,
    hnn xs hxs, fun shape hs => ?_⟩, fun shape size hs h1 h2 => ?_⟩
  · unfold badCost
    exact_mod_cast badDist_pos hi hj hij
  · rw [C39_nearest_neighbour_par strictWeak_olt shape hs]
    exact hnn xs hxs
  · obtain ⟨w, p, a1, -, -, a4⟩ := C40_mpi_partial hm h1 h2 shape hs
    obtain ⟨w', p', b1, b2⟩ := hnn _ (.refl _)
    obtain ⟨p'', a5⟩ := a4 _ (.refl _)
    refine ⟨w, p, a1, ?_⟩
    have e := b1.symm.trans a5
    rw [← XNum.fin.inj (Prod.mk.inj (Except.ok.inj e)).1]
    exact b2

/-- **C83 (no constant factor)** For every number `r` there is a metric instance for which `nearest_neighbour` returns a
tour that is more than `r` times as long as a shortest one, whatever the order of the starts is. -/
theorem C83_unbounded (r : Nat) :
    ∃ (m : Mat (XNum K)) (c : Nat → Nat → K) (q : List Nat), Rep m c ∧ Metric m.dim c ∧ IsShortest m.dim c q ∧
      0 < tourCost c q ∧ ∀ xs : List Nat, xs.Perm (List.range m.dim) →
        ∃ w p, nearestNeighbourSeq xs m = .ok (.fin w, p) ∧ (r : K) * tourCost c q < w := by
  obtain ⟨m, c, q, h1, h2, h3, h4, -, h6, h7, -, h9, -⟩ := C83_log (K := K) (16 * r + 1)
  have hdim : 3 ≤ m.dim := by
    have : 2 ^ 2 ≤ 2 ^ (16 * r + 1 + 1) := Nat.pow_le_pow_right (by norm_num) (by omega)
    omega
  obtain ⟨q', -, q1⟩ := C05_v2_exact m c h2 (by omega)
  have hq := q1.2 q h6
  refine ⟨m, c, q', h2, h3, q1, ?_, fun xs hxs => ?_⟩
  · obtain ⟨-, ⟨w, p, w1, w2⟩, -⟩ := h9 _ (.refl _)
    obtain ⟨-, b, -⟩ := C83_nearest_neighbour_ratio h2 (by omega) h3 q1.1
    obtain ⟨-, ⟨w', p', b1, b2⟩, -⟩ := b _ (.refl _)
    rw [w1] at b1
    rw [← XNum.fin.inj (Prod.mk.inj (Except.ok.inj b1)).1] at b2
    have e2 : (0 : K) < ((16 * r + 1 : ℕ) : K) * 2 ^ (16 * r + 1) := by positivity
    by_contra hc
    have : ((Nat.clog 2 m.dim + 1 : ℕ) : K) * tourCost c q' ≤ 0 :=
      mul_nonpos_of_nonneg_of_nonpos (Nat.cast_nonneg _) (not_lt.mp hc)
    linarith
  · obtain ⟨-, ⟨w, p, w1, w2⟩, -⟩ := h9 xs hxs
    refine ⟨w, p, w1, lt_of_lt_of_le ?_ w2⟩
    have e1 : (r : K) * tourCost c q' ≤ r * (16 * 2 ^ (16 * r + 1)) :=
      mul_le_mul_of_nonneg_left (hq.trans h7) (Nat.cast_nonneg r)
    have e2 : (0 : K) < 2 ^ (16 * r + 1) := by positivity
    push_cast
    generalize (2 : K) ^ (16 * r + 1) = u at *
    nlinarith

/-- **C83 (no constant factor, double precision)** The numbers are integers, so for instances up to a few million cities
the results are the same in double precision. -/
theorem C83_log_double {k : Nat} (hk : k ≤ 20) :
    ∃ (m : Mat (XNum ℚ)) (c : Nat → Nat → ℚ) (q : List Nat), m.dim = 2 * (2 ^ (k + 1) - 1) ∧ Rep m c ∧
      Metric m.dim c ∧ IsTour m.dim q ∧ tourCost c q ≤ 16 * 2 ^ k ∧
      ∀ xs : List Nat, xs.Perm (List.range m.dim) →
        ∃ w p, @nearestNeighbourSeq _ binary64.ops xs m = .ok (.fin w, p) ∧ (k : ℚ) * 2 ^ k ≤ w := by
  have hm := rep_ofFun (2 * badHalf k) (badCost ℚ k)
  have hlen := badHalf_eq k
  have hpow : (2 : ℚ) ^ (k + 1) ≤ 2 ^ 21 := pow_le_pow_right₀ (by norm_num) (by omega)
  have hfix : FixedMat (grid 0) (2 ^ 23) (badMat ℚ k) := by
    intro i j hi hj
    refine fx_fin (mem_grid.mpr ⟨badDist k i j, by simp [pow2, badCost]⟩) ?_
    have h0 : 0 ≤ badDist k i j := by
      by_cases hij : i = j
      · subst hij; simp [badDist, ptDist]
      · exact (badDist_pos hi hj hij).le
    have h1 : badDist k i j ≤ 3 * 2 ^ (k + 1) := by
      have hp := pow_int_pos (k + 1)
      by_cases h : i < badHalf k ↔ j < badHalf k
      · have := badDist_near hi hj h
        omega
      · have e := badDist_cross hi hj h
        have e1 := mem_post_bounds (basePt_mem hi)
        have e2 := mem_post_bounds (basePt_mem hj)
        omega
    have h2 : (badDist k i j : ℚ) ≤ 3 * 2 ^ (k + 1) := by exact_mod_cast h1
    show |badCost ℚ k i j| ≤ _
    unfold badCost
    rw [abs_of_nonneg (by exact_mod_cast h0)]
    linarith
  have hR := binary64_exactOn (q := 0) (by omega) (by omega)
  have hN : (((badMat ℚ k).dim : ℕ) + 1 : ℚ) * 2 ^ 23 ≤ gridMax 0 := by
    have h1 : (((badMat ℚ k).dim : ℕ) : ℚ) ≤ 2 * 2 ^ (k + 1) := by
      have : (badMat ℚ k).dim ≤ 2 * 2 ^ (k + 1) := by show 2 * badHalf k ≤ _; omega
      exact_mod_cast this
    have : gridMax 0 = 9007199254740992 := by
      unfold gridMax pow2
      norm_num
    rw [this]
    linarith
  refine ⟨badMat ℚ k, badCost ℚ k, goodTour k, by show 2 * badHalf k = _; omega, hm, badCost_metric k _, goodTour_tour k,
    goodTour_cost k, fun xs hxs => ?_⟩
  have hn : 1 ≤ (badMat ℚ k).dim := by
    have : 2 ^ 1 ≤ 2 ^ (k + 1) := Nat.pow_le_pow_right (by norm_num) (by omega)
    show 1 ≤ 2 * badHalf k
    omega
  obtain ⟨w, p, a1, -, -, -, ⟨i, a2, a3⟩, -⟩ := C39_n_nearest_neighbour hm hxs hn le_rfl
  refine ⟨w, p, ?_, ?_⟩
  · rw [← a1]
    exact nNNSeq_same hR (by norm_num) hfix hN xs _
  · obtain ⟨w', p', b1, b2⟩ := bad_single (K := ℚ) (k := k) (i := i)
      (by have := hxs.subset (List.mem_of_mem_take a2); rw [List.mem_range] at this; exact this)
    have b3 : singleNN (Mat.ofFun (2 * badHalf k) (badCost ℚ k)) i = .ok (.fin w', p') := b1
    rw [b3] at a3
    rw [← XNum.fin.inj (Prod.mk.inj (Except.ok.inj a3)).1]
    exact b2

/-- an instance: the tour along the line, and nearest neighbour from two starts -/
example : (badMat ℚ 2).dim = 14 ∧ tourCost (badCost ℚ 2) (goodTour 2) = 52 ∧
    singleNN (badMat ℚ 2) 0 = .ok (.fin 56, [0, 1, 2, 3, 4, 5, 6, 7, 8, 9, 10, 11, 12, 13]) ∧
    singleNN (badMat ℚ 2) 5 = .ok (.fin 64, [5, 3, 1, 0, 2, 6, 4, 7, 8, 9, 10, 11, 12, 13]) := by
  decide +kernel

end Walky.Props
