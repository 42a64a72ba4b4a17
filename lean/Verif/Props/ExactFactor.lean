import Verif.Lemmas.DfsEntered
import Verif.Lemmas.ExactFactor
import Verif.Lemmas.ExactUpper
import Verif.Props.Threaded
import Verif.Props.Robust
import Mathlib.Algebra.Order.Archimedean.Basic

/-! # Property C105: how far the pruning exact solvers can be from the optimum -/

namespace Walky.Props

open Spec XNum

variable {K : Type} [Field K] [LinearOrder K] [IsStrictOrderedRing K]

/-! ## v5 and v6 -/

/-- **C105, v5 (upper bound)** For at least four cities the answer of v5 is at most `2 - 4/n` times
as long as any tour, for non-negative costs (no triangle inequality needed). -/
theorem C105_v5_upper {m : Mat (XNum K)} {c : Nat → Nat → K} (hm : Rep m c) (hn : 4 ≤ m.dim)
    (hsym : Symm m.dim c) (hc : Nonneg m.dim c) :
    ∃ p, fifthImprovedSolver m = .ok (fin (tourCost c p), p) ∧ IsTour m.dim p ∧
      ∀ q, IsTour m.dim q → m.dim * tourCost c p ≤ (2 * m.dim - 4) * tourCost c q := by
  obtain ⟨p, h1, h2, _, h4⟩ := solveDfs_truthful hm (test5_ok hm) (by omega) (aux := ()) trivial
    (test5_inf hm)
  refine ⟨p, h1, h2, fun q hq => ?_⟩
  have hn4 : (4 : K) ≤ m.dim := by exact_mod_cast hn
  have hpos : (0 : K) < m.dim := by linarith
  have h0 := tour_split_ge hc (fun h => by omega) (p := q) (t := []) (by simpa using hq)
  simp only [List.append_nil, pathCost_nil, add_zero] at h0
  obtain ⟨q', hq', hcost, hgood⟩ := good_start hn hc hq
  have key := h4 q' ((2 * m.dim - 4) * tourCost c q / m.dim) hq' (by
      rw [hcost, le_div_iff₀ hpos]
      nlinarith) (along_test5 hm hsym hq' (by
        intro p t e hp
        rw [le_div_iff₀ hpos, mul_comm]
        exact hgood p t e hp))
  rwa [le_div_iff₀ hpos, mul_comm] at key

/-- **C105, v5 (lower bound)** The factor 2 cannot be improved: for every number `n ≥ 7` of cities
there is a metric on which v5 returns a tour of length exactly `2n - 6` although there is a tour of
length `n`. -/
theorem C105_v5_tight {n : Nat} (hn : 7 ≤ n) :
    ∃ c : Nat → Nat → K, Metric n c ∧ Nonneg n c ∧
      (∃ p, fifthImprovedSolver (Mat.ofFun n c) = .ok (fin (tourCost c p), p) ∧ IsTour n p ∧
        tourCost c p = 2 * n - 6) ∧
      ∃ q, IsTour n q ∧ tourCost c q = n := by
  refine ⟨ladder (n - 6), ladder_metric _ _, ladder_nonneg _ _, ?_, evenOdd n, evenOdd_tour n,
    evenOdd_cost (by omega) _⟩
  have hm := rep_ofFun (K := K) n (ladder (n - 6))
  have hdim : (Mat.ofFun n (ladder (n - 6) : Nat → Nat → K)).dim = n := rfl
  obtain ⟨p, h1, h2, h3, h4⟩ := solveDfs_entered hm (test5_ok hm) (show 0 < n by omega) (aux := ())
    trivial (test5_inf hm)
  rw [hdim] at h2 h3 h4
  refine ⟨p, h1, h2, ?_⟩
  have htail := ladder_tail (K := K) (n := n) (d := n - 6) (D := n - 5) (isTour_range n) (by omega)
    (by omega) (by
      intro z hz
      rw [List.mem_drop_iff_getElem] at hz
      obtain ⟨i, hi, rfl⟩ := hz
      simp
      omega)
  have hge : tourCost (ladder (n - 6)) (List.range n) ≤ (tourCost (ladder (n - 6)) p : K) :=
    stuck (m := Mat.ofFun n (ladder (n - 6))) hm (fun i j _ _ => ladder_symm _ i j)
      (fun i j h => ladder_ge _ h) (fun i j => ladder_le _ i j) (isTour_range n) h2 (k := 0)
      (D := n - 5) (by simp) (by omega) (by rw [hdim]; omega) htail h4
  have hI1 := ladder_firstLeaf (K := K) (n := n) (d := n - 6) (pre := []) (validPre_nil _)
    (by simp; omega) (by simp; omega)
  rw [firstLeaf_nil] at hI1
  have hI2 := tour_cut (ladder (n - 6) : Nat → Nat → K) (p := List.range n) (D := n - 5) (by omega)
    (by simp)
  rw [htail] at hI2
  have hI3 := path_take_le (K := K) (c := ladder (n - 6)) (fun i j => ladder_le _ i j) (List.range n)
    (j := 1) (D := n - 5) (by omega)
  have h01 : pathCost (ladder (n - 6) : Nat → Nat → K) ((List.range n).take 1) = 0 := by
    rw [show n = (n - 1) + 1 by omega, List.range_succ_eq_map]
    rfl
  rw [h01] at hI3
  have e5 : ((n - 5 : ℕ) : K) = n - 5 := by rw [Nat.cast_sub (by omega)]; norm_num
  have e6 : ((n - 6 : ℕ) : K) = n - 6 := by rw [Nat.cast_sub (by omega)]; norm_num
  rw [e5] at hI2 hI3
  rw [e6] at hI1
  simp only [List.length_nil, Nat.cast_zero, mul_zero, add_zero, Nat.cast_one] at hI1 hI3
  linarith

/-- **C105, v6** The same metrics defeat v6 with its cache, if different prefixes get different
hash values. -/
theorem C105_v6_tight {n : Nat} (hn : 7 ≤ n) (hash : List Nat → Nat)
    (hinj : ∀ p q : List Nat, p.Nodup → q.Nodup → (∀ i ∈ p, i < n) → (∀ i ∈ q, i < n) →
      hash p = hash q → p = q) :
    ∃ c : Nat → Nat → K, Metric n c ∧ Nonneg n c ∧
      (∃ p, sixthImprovedSolver (Mat.ofFun n c) hash = .ok (fin (tourCost c p), p) ∧ IsTour n p ∧
        tourCost c p = 2 * n - 6) ∧
      ∃ q, IsTour n q ∧ tourCost c q = n := by
  obtain ⟨c, h1, h2, ⟨p, h3, h4⟩, h5⟩ := C105_v5_tight (K := K) hn
  exact ⟨c, h1, h2, ⟨p, by rw [C09_v6_eq_v5 (Mat.ofFun n c) hash hinj]; exact h3, h4⟩, h5⟩

/-- no factor below 2 holds for v5 on all metrics -/
theorem C105_v5_no_smaller_factor (r : ℚ) (hr : r < 2) :
    ∃ (n : Nat) (c : Nat → Nat → ℚ), Metric n c ∧ Nonneg n c ∧ ∃ p q,
      fifthImprovedSolver (Mat.ofFun n c) = .ok (fin (tourCost c p), p) ∧ IsTour n p ∧
      IsTour n q ∧ r * tourCost c q < tourCost c p := by
  obtain ⟨k, hk⟩ := exists_nat_gt (6 / (2 - r))
  have hpos : 0 < 2 - r := by linarith
  obtain ⟨c, h1, h2, ⟨p, h3, h4, h5⟩, q, h6, h7⟩ := C105_v5_tight (K := ℚ) (n := k + 7) (by omega)
  refine ⟨k + 7, c, h1, h2, p, q, h3, h4, h6, ?_⟩
  rw [h5, h7]
  rw [div_lt_iff₀ hpos] at hk
  push_cast
  nlinarith

/-- the 7 cities of `C105_v5_tight`, computed: length 8 instead of 7 -/
example : fifthImprovedSolver (Mat.ofFun 7 (ladder 1 : Nat → Nat → ℚ)) =
    .ok (fin 8, [0, 1, 2, 3, 4, 5, 6]) := by decide +kernel

/-! ## several threads -/

/-- **C105, threads** With several threads the factor 2 cannot be improved either: for every `n ≥ 9`
there is a metric on which, for every number of threads and every schedule, the result has length
at least `2n - 15` although there is a tour of length `n`. -/
theorem C105_threads_tight {n : Nat} (hn : 9 ≤ n) :
    ∃ c : Nat → Nat → K, Metric n c ∧ Nonneg n c ∧
      (∀ nT, 1 ≤ nT → (∃ r, ThreadedResult (Mat.ofFun n c) 3 nT r) ∧
        ∀ r, ThreadedResult (Mat.ofFun n c) 3 nT r →
          IsTour n r.2 ∧ r.1 = fin (tourCost c r.2) ∧ 2 * (n : K) - 15 ≤ tourCost c r.2) ∧
      ∃ q, IsTour n q ∧ tourCost c q = n := by
  refine ⟨ladder (n - 9), ladder_metric _ _, ladder_nonneg _ _, ?_, evenOdd n, evenOdd_tour n,
    evenOdd_cost (by omega) _⟩
  have hm := rep_ofFun (K := K) n (ladder (n - 9))
  have hdim : (Mat.ofFun n (ladder (n - 9) : Nat → Nat → K)).dim = n := rfl
  have e9 : ((n - 9 : ℕ) : K) = n - 9 := by rw [Nat.cast_sub (by omega)]; norm_num
  -- what a search below a prefix of at most three cities finds
  have hsearch : ∀ (pre : List Nat) (p : List Nat), ValidPre n pre → pre.length ≤ 3 → IsTour n p →
      pre <+: p → Entered (ladder (n - 9) : Nat → Nat → K)
        (test5 (Mat.ofFun n (ladder (n - 9) : Nat → Nat → K))) (fun _ => True)
        (tourCost (ladder (n - 9)) (firstLeaf n pre)) (firstLeaf n pre) pre.length p →
      2 * (n : K) - 15 ≤ tourCost (ladder (n - 9)) p := by
    intro pre p hv hl hp hpre hent
    have hI := isTour_firstLeaf hv
    have htail := ladder_tail (K := K) (n := n) (d := n - 9) (D := n - 5) hI (by omega)
      (by omega) (by
        intro z hz
        rw [List.mem_drop_iff_getElem] at hz
        obtain ⟨i, hi, rfl⟩ := hz
        have hsorted : ((List.range n).filter fun i => !pre.contains i).Pairwise (· < ·) :=
          List.pairwise_lt_range.filter _
        have e : firstLeaf n pre = pre ++ (List.range n).filter fun i => !pre.contains i := rfl
        have hlen := hI.length
        rw [e, List.length_append] at hlen
        have hlen' := hI.length
        have := pairwise_lt_getElem hsorted (n - 5 + i - pre.length) (by omega)
        have e2 : (firstLeaf n pre)[n - 5 + i] =
            ((List.range n).filter fun i => !pre.contains i)[n - 5 + i - pre.length]'(by omega) := by
          simp only [e]
          rw [List.getElem_append_right (by omega)]
        rw [e2]
        omega)
    have hge : tourCost (ladder (n - 9)) (firstLeaf n pre) ≤ (tourCost (ladder (n - 9)) p : K) :=
      stuck (m := Mat.ofFun n (ladder (n - 9))) hm (fun i j _ _ => ladder_symm _ i j)
        (fun i j h => ladder_ge _ h) (fun i j => ladder_le _ i j) hI hp (k := pre.length)
        (D := n - 5) (by
          rw [List.prefix_iff_eq_take.mp hpre |>.symm]
          exact List.prefix_iff_eq_take.mp (prefix_firstLeaf n pre)) (by omega)
        (by rw [hdim]; omega) htail hent
    have hI1 := ladder_firstLeaf (K := K) (n := n) (d := n - 9) hv (by omega) (by omega)
    rw [e9] at hI1
    have : (pre.length : K) ≤ 3 := by exact_mod_cast hl
    linarith
  intro nT hnT
  refine ⟨C17_result_exists hm (by rw [hdim]; omega) hnT, fun r hr => ?_⟩
  have hfacts := C19_threaded_tour_partial hm (by rw [hdim]; omega) hnT (by rw [hdim]; omega) hr
  rw [hdim] at hfacts
  refine ⟨hfacts.1, hfacts.2, ?_⟩
  by_cases h : n ≤ nT
  · unfold ThreadedResult at hr
    rw [if_pos (by rw [hdim]; exact h)] at hr
    obtain ⟨p, h1, h2, h3, h4⟩ := solveDfs_entered hm (test5_ok hm) (show 0 < n by omega) (aux := ())
      trivial (test5_inf hm)
    have e : fifthImprovedSolver (Mat.ofFun n (ladder (n - 9) : Nat → Nat → K)) =
      .ok (fin (tourCost (ladder (n - 9)) p), p) := h1
    rw [e] at hr
    injection hr with e'
    rw [← e']
    refine hsearch [] p (validPre_nil _) (by simp) h2 List.nil_prefix ?_
    rw [firstLeaf_nil]
    exact h4
  · have h2 : nT < n := not_le.mp h
    obtain ⟨a, -⟩ := threaded_facts hm hnT (by rw [hdim]; exact h2) hr
    rcases a with e | ⟨i, -, pre, hw, hs⟩
    · rw [e] at hfacts
      have := hfacts.1.length
      simp at this
      omega
    · have hv := hw.validPre
      rw [hdim] at hv
      have hI := isTour_firstLeaf hv
      obtain ⟨r', d1, -, -, d2, d3⟩ := dfs_entered _ _ hm (test5 _) (fun _ => True) (test5_ok hm)
        (show 0 < n by omega) (firstLeaf n pre) (n + 1) pre ((XNum.inf, []), ()) hv
        (by rw [hdim]; omega) trivial proper_inf
        (Or.inr ⟨rfl, rfl, by
          intro p hp _ hp2 _ _
          obtain ⟨y, hy⟩ := mstBound_fin hm (validPre_prefix hI hp).2
          exact ⟨(), by simp [test5, hy]⟩⟩)
      have hr' : r = r'.1 := by
        unfold searchPrefix at hs
        rw [evaluatePath_valid hm (by rw [hdim]; exact hv)] at hs
        have d1' : dfs (Mat.ofFun n (ladder (n - 9) : Nat → Nat → K)) (test5 _) (n + 1) pre
            (fin (pathCost (ladder (n - 9)) pre)) ((FloatOps.inf, []), ()) = .ok r' := d1
        simp only [rm_bind_ok, hdim] at hs
        rw [d1'] at hs
        simp only [rm_bind_ok, rm_pure] at hs
        injection hs with e
        exact e.symm
      subst hr'
      obtain ⟨r'', f1, f2, f3, -⟩ := searchPrefix_ok hm (show 0 < n by omega) hw.validPre
      rw [hs] at f1
      injection f1 with e
      subst e
      rcases d3 with d3 | d3
      · rw [d3] at hfacts
        have := hfacts.1.length
        simp at this
        omega
      · exact hsearch pre _ hv (by rw [hw.len]) hfacts.1 f3 d3

/-! ## v4 -/

/-- **C105, v4 on metrics (upper bound)** On metrics the answer of v4 is at most
`(⌈log₂ n⌉ + 3) / 2` times as long as any tour. -/
theorem C105_v4_metric {m : Mat (XNum K)} {c : Nat → Nat → K} (hm : Rep m c) (hn : 1 ≤ m.dim)
    (hmet : Metric m.dim c) :
    ∃ p, fourthImprovedSolver m = .ok (fin (tourCost c p), p) ∧ IsTour m.dim p ∧
      ∀ q, IsTour m.dim q → 2 * tourCost c p ≤ (Nat.clog 2 m.dim + 3 : ℕ) * tourCost c q := by
  obtain ⟨p, h1, h2, _, h4⟩ := solveDfs_truthful hm (test4_ok m.dim) hn (aux := ()) trivial
    (test4_inf hm)
  refine ⟨p, h1, h2, fun q hq => ?_⟩
  have hT := tour_nonneg hmet hq
  have hlog : (0 : K) ≤ (Nat.clog 2 m.dim : ℕ) := Nat.cast_nonneg _
  have hnn := mul_nonneg hlog hT
  have key := h4 q ((Nat.clog 2 m.dim + 3 : ℕ) * tourCost c q / 2) hq (by
    push_cast
    linarith) (by
      rintro p ⟨t, rfl⟩ _ h2 _ b _ hb hle
      obtain ⟨x, hx, hx'⟩ := nnOfRemaining_log hm hmet hq p
      refine ⟨(), ?_⟩
      have hc : Nonneg m.dim c := fun i j hi hj _ => hmet.nonneg hi hj
      have h0 := tour_split_ge hc (fun h => (hmet.diag 0 (by omega)).ge) hq
      unfold test4
      rw [hx]
      simp only [XNum.add_fin]
      have : FloatOps.le (fin (pathCost c p + x)) b = true := by
        refine le_trans' ?_ hle
        simp only [XNum.le_fin, decide_eq_true_eq]
        push_cast at hx' ⊢
        linarith
      rw [this])
  linarith

/-- **C105, v4 without the triangle inequality** There is no factor at all: the six cities of this
symmetric non-negative matrix have a tour of length 0, and v4 returns one of length 1. -/
theorem C105_v4_no_factor :
    ∃ (m : Mat (XNum ℚ)) (c : Nat → Nat → ℚ), Rep m c ∧ m.dim = 6 ∧ Symm m.dim c ∧ Nonneg m.dim c ∧
      ∃ p q, fourthImprovedSolver m = .ok (fin (tourCost c p), p) ∧ tourCost c p = 1 ∧
        IsTour m.dim q ∧ tourCost c q = 0 := by
  refine ⟨Mat.ofRowsFin [[0, 2, 0, 1, 0, 0], [2, 0, 4, 0, 0, 0], [0, 4, 0, 0, 0, 1],
    [1, 0, 0, 0, 2, 4], [0, 0, 0, 2, 0, 20], [0, 0, 1, 4, 20, 0]], _, rep_ofFun _ _, rfl,
    ?_, ?_, [0, 4, 1, 3, 2, 5], [4, 0, 5, 1, 3, 2], ?_, ?_, ?_, ?_⟩
  · intro i j (hi : i < 6) (hj : j < 6)
    interval_cases i <;> interval_cases j <;> rfl
  · intro i j (hi : i < 6) (hj : j < 6) _
    interval_cases i <;> interval_cases j <;> decide +kernel
  · decide +kernel
  · decide +kernel
  · exact (by unfold IsTour; decide : IsTour 6 [4, 0, 5, 1, 3, 2])
  · decide +kernel

/-- the position of a city on a ring of 12 places -/
def ringPos (i : Nat) : Nat := [0, 10, 11, 9, 8, 4, 6, 2, 5, 3, 1, 7].getD i 0

/-- the shorter way around the ring -/
def ringDist (i j : Nat) : ℚ :=
  let d := ringPos i - ringPos j + (ringPos j - ringPos i)
  (min d (12 - d) : ℕ)

/-- **C105, v4 on a ring** v4 is not exact on metrics either: twelve equally spaced cities on a ring,
in this order, have a tour of length 12, and v4 returns one of length 14. -/
theorem C105_v4_ring :
    Metric 12 ringDist ∧ Nonneg 12 ringDist ∧
      (∃ p, fourthImprovedSolver (Mat.ofFun 12 ringDist) = .ok (fin (tourCost ringDist p), p) ∧
        IsTour 12 p ∧ tourCost ringDist p = 14) ∧
      ∃ q, IsTour 12 q ∧ tourCost ringDist q = 12 := by
  refine ⟨⟨?_, ?_, ?_⟩, ?_, ⟨[0, 1, 2, 3, 4, 11, 6, 8, 5, 9, 7, 10], ?_, ?_, ?_⟩,
    [0, 10, 7, 9, 5, 8, 6, 11, 4, 3, 1, 2], ?_, ?_⟩
  · decide +kernel
  · have : ∀ i < 12, ∀ j < 12, ringDist i j = ringDist j i := by decide +kernel
    exact fun i j hi hj => this i hi j hj
  · have : ∀ i < 12, ∀ j < 12, ∀ k < 12, ringDist i j ≤ ringDist i k + ringDist k j := by
      decide +kernel
    exact fun i j k hi hj hk => this i hi j hj k hk
  · have : ∀ i < 12, ∀ j < 12, 0 ≤ ringDist i j := by decide +kernel
    exact fun i j hi hj _ => this i hi j hj
  · decide +kernel
  · unfold IsTour; decide
  · decide +kernel
  · unfold IsTour; decide
  · decide +kernel

/-- the hypotheses of `C105_v5_upper` and `C105_v4_metric`: the cities of the ring; the answer of v4 is
14, which is at most `(4 + 3) / 2 · 12` -/
example : Rep (Mat.ofFun 12 ringDist) ringDist ∧ 4 ≤ (Mat.ofFun 12 ringDist).dim ∧
    Metric (Mat.ofFun 12 ringDist).dim ringDist ∧ Nonneg (Mat.ofFun 12 ringDist).dim ringDist ∧
    Nat.clog 2 12 = 4 :=
  ⟨rep_ofFun _ _, by decide, C105_v4_ring.1, C105_v4_ring.2.1, by decide +kernel⟩

end Walky.Props
