import Verif.Lemmas.Bounds
import Verif.Lemmas.Ratio
import Mathlib.Data.List.GetD
import Mathlib.Algebra.BigOperators.Ring.Finset
import Mathlib.Algebra.Order.BigOperators.Group.Finset

/-! # Helper lemmas: upper bounds for the answers of v4 and v5 -/

set_option linter.unusedSectionVars false

namespace Walky

open FloatOps Spec XNum

variable {K : Type} [Field K] [LinearOrder K] [IsStrictOrderedRing K]

/-! ## averaging over the rotations of a tour -/

theorem path_sum (c : Nat → Nat → K) : ∀ (a : Nat) (t : List Nat),
    pathCost c (a :: t) = ∑ i ∈ Finset.range t.length, c ((a :: t).getD i 0) ((a :: t).getD (i + 1) 0)
  | _, [] => by simp
  | a, b :: t => by
    rw [pathCost_cons₂, path_sum c b t, List.length_cons, Finset.sum_range_succ', add_comm]
    rfl

/-- cost of the edge from position `k` to the next one, cyclically -/
def edgeAt (c : Nat → Nat → K) (q : List Nat) (k : Nat) : K :=
  c (q.getD (k % q.length) 0) (q.getD ((k + 1) % q.length) 0)

theorem tour_sum (c : Nat → Nat → K) {q : List Nat} (hq : q ≠ []) :
    tourCost c q = ∑ k ∈ Finset.range q.length, edgeAt c q k := by
  obtain ⟨a, t, rfl⟩ := List.exists_cons_of_ne_nil hq
  show pathCost c (a :: (t ++ [a])) = _
  rw [path_sum, List.length_append, List.length_singleton, List.length_cons]
  refine Finset.sum_congr rfl fun k hk => ?_
  rw [Finset.mem_range] at hk
  unfold edgeAt
  have e : ∀ i, i ≤ t.length + 1 → (a :: (t ++ [a])).getD i 0 = (a :: t).getD (i % (t.length + 1)) 0 := by
    intro i hi
    rw [← List.cons_append]
    rcases Nat.lt_or_ge i (t.length + 1) with h | h
    · rw [Nat.mod_eq_of_lt h, List.getD_append _ _ _ _ (by simpa using h)]
    · have : i = t.length + 1 := by omega
      subst this
      rw [Nat.mod_self, List.getD_append_right _ _ _ _ (by simp)]
      simp
  rw [List.length_cons, e k (by omega), e (k + 1) (by omega)]

theorem edgeAt_periodic (c : Nat → Nat → K) (q : List Nat) (k : Nat) :
    edgeAt c q (k + q.length) = edgeAt c q k := by
  unfold edgeAt
  rw [show k + q.length + 1 = k + 1 + q.length by omega, Nat.add_mod_right, Nat.add_mod_right]

theorem edgeAt_shift (c : Nat → Nat → K) {q : List Nat} (hq : q ≠ []) (s : Nat) :
    ∑ k ∈ Finset.range q.length, edgeAt c q (k + s) = tourCost c q := by
  induction s with
  | zero => exact (tour_sum c hq).symm
  | succ s ih =>
    rw [← ih]
    have h1 := Finset.sum_range_succ (fun k => edgeAt c q (k + s)) q.length
    have h2 := Finset.sum_range_succ' (fun k => edgeAt c q (k + s)) q.length
    rw [h1] at h2
    have h3 : edgeAt c q (q.length + s) = edgeAt c q (0 + s) := by
      rw [show q.length + s = 0 + s + q.length by omega, edgeAt_periodic]
    rw [h3] at h2
    have h4 := add_right_cancel h2
    rw [h4]
    refine Finset.sum_congr rfl fun k _ => ?_
    rw [show k + 1 + s = k + (s + 1) by omega]

/-- some rotation has long edges around its first city -/
theorem exists_rotation (c : Nat → Nat → K) {q : List Nat} (hq : q ≠ []) :
    ∃ k, 4 * tourCost c q ≤
      q.length * (edgeAt c q (k + 1) + edgeAt c q (k + 2) + 2 * edgeAt c q k) := by
  by_contra h
  push Not at h
  have h1 : ∑ k ∈ Finset.range q.length,
      (q.length : K) * (edgeAt c q (k + 1) + edgeAt c q (k + 2) + 2 * edgeAt c q k) <
      ∑ k ∈ Finset.range q.length, 4 * tourCost c q :=
    Finset.sum_lt_sum_of_nonempty (Finset.nonempty_range_iff.mpr (by simpa using hq)) fun k _ => h k
  rw [← Finset.mul_sum, Finset.sum_add_distrib, Finset.sum_add_distrib, ← Finset.mul_sum,
    edgeAt_shift c hq 1, edgeAt_shift c hq 2, ← tour_sum c hq, Finset.sum_const, Finset.card_range,
    nsmul_eq_mul] at h1
  have : (q.length : K) * (tourCost c q + tourCost c q + 2 * tourCost c q) =
      q.length * (4 * tourCost c q) := by ring
  rw [this] at h1
  exact lt_irrefl _ h1

theorem getD_rotate {q : List Nat} {k i : Nat} (hi : i < q.length) :
    (q.rotate k).getD i 0 = q.getD ((i + k) % q.length) 0 := by
  have h : (i + k) % q.length < q.length := Nat.mod_lt _ (by omega)
  rw [List.getD_eq_getElem _ _ (by simpa using hi), List.getD_eq_getElem _ _ h, List.getElem_rotate]

/-- The tour may be started such that the bound of v5 stays below `2 - 4/n` times its length. -/
theorem good_start {n : Nat} (hn : 4 ≤ n) {c : Nat → Nat → K} (hc : Nonneg n c) {q : List Nat}
    (hq : IsTour n q) : ∃ q', IsTour n q' ∧ tourCost c q' = tourCost c q ∧
      ∀ p t, q' = p ++ t → 2 ≤ p.length →
        n * (pathCost c p + 2 * pathCost c t) ≤ (2 * n - 4) * tourCost c q := by
  have lq := hq.length
  have hne : q ≠ [] := by rintro rfl; simp at lq; omega
  obtain ⟨k, hk⟩ := exists_rotation c hne
  refine ⟨q.rotate (k + 1), hq.rotate _, tourCost_rotate c q _, ?_⟩
  have hcost := tourCost_rotate c q (k + 1)
  have hqt := hq.rotate (k + 1)
  have hget : ∀ i, i < n → (q.rotate (k + 1)).getD i 0 = q.getD ((i + (k + 1)) % n) 0 := by
    intro i hi
    have := getD_rotate (q := q) (k := k + 1) (i := i) (by omega)
    rwa [lq] at this
  generalize q.rotate (k + 1) = q' at *
  have lq' := hqt.length
  obtain ⟨a, b, d, t', rfl⟩ : ∃ a b d t', q' = a :: b :: d :: t' := by
    rcases q' with _ | ⟨a, _ | ⟨b, _ | ⟨d, t'⟩⟩⟩
    · simp at lq'; omega
    · simp at lq'; omega
    · simp at lq'; omega
    · exact ⟨a, b, d, t', rfl⟩
  have g0 := hget 0 (by omega)
  have g1 := hget 1 (by omega)
  have g2 := hget 2 (by omega)
  have gl := hget (n - 1) (by omega)
  simp only [List.getD_cons_zero, List.getD_cons_succ] at g0 g1 g2
  set z := (a :: b :: d :: t').getLast (by simp) with hz
  have hzl : (a :: b :: d :: t').getD (n - 1) 0 = z := by
    rw [hz, List.getLast_eq_getElem, List.getD_eq_getElem _ _ (by omega)]
    congr 1
    omega
  have w1 : edgeAt c q (k + 1) = c a b := by
    unfold edgeAt
    rw [lq, g0, g1]
    congr 2
    · rw [show 0 + (k + 1) = k + 1 by omega]
    · rw [show 1 + (k + 1) = k + 1 + 1 by omega]
  have w2 : edgeAt c q (k + 2) = c b d := by
    unfold edgeAt
    rw [lq, g1, g2]
    congr 2
    · rw [show 1 + (k + 1) = k + 2 by omega]
    · rw [show 2 + (k + 1) = k + 2 + 1 by omega]
  have wn : edgeAt c q k = c z a := by
    unfold edgeAt
    rw [lq, ← hzl, gl, g0]
    congr 2
    · rw [show n - 1 + (k + 1) = k + n by omega, Nat.add_mod_right]
    · rw [show 0 + (k + 1) = k + 1 by omega]
  rw [w1, w2, wn, lq] at hk
  have hlt : ∀ x ∈ a :: b :: d :: t', x < n := fun x hx => hqt.mem.mp hx
  have hnd := hqt.nodup
  have p2 : 0 ≤ c b d := hc _ _ (hlt _ (by simp)) (hlt _ (by simp)) (by
    rintro rfl; simp at hnd)
  have p3 : 0 ≤ c z a := by
    refine hc _ _ (hlt _ (List.getLast_mem _)) (hlt _ (by simp)) ?_
    intro h
    have : z ∈ b :: d :: t' := by
      rw [hz, List.getLast_cons (by simp)]
      exact List.getLast_mem _
    rw [h] at this
    exact (List.nodup_cons.mp hnd).1 this
  have htour : tourCost c (a :: b :: d :: t') = pathCost c (a :: b :: d :: t') + c z a :=
    tourCost_eq c _ (by simp)
  have hL : tourCost c q = pathCost c (a :: b :: d :: t') + c z a := by rw [← hcost, htour]
  have hpos : 0 ≤ tourCost c q := by
    have := pathCost_nonneg hc ⟨hnd, hlt⟩
    rw [hL]
    linarith
  have hn4 : (4 : K) ≤ n := by exact_mod_cast hn
  -- the three kinds of prefixes
  have hwant : ∀ x, (x ≤ tourCost c q ∨ x ≤ 2 * tourCost c q - (c a b + c b d + 2 * c z a)) →
      (n : K) * x ≤ (2 * n - 4) * tourCost c q := by
    rintro x (h | h)
    · have h1 : (n : K) * x ≤ n * tourCost c q := mul_le_mul_of_nonneg_left h (by linarith)
      nlinarith
    · have h1 := mul_le_mul_of_nonneg_left h (show (0 : K) ≤ n by linarith)
      linarith
  intro p t e hp
  apply hwant
  cases t with
  | nil =>
    left
    rw [List.append_nil] at e
    rw [← e, hL]
    simp only [pathCost_nil]
    linarith
  | cons y s =>
    right
    have hsplit : pathCost c (a :: b :: d :: t') = pathCost c (p ++ [y]) + pathCost c (y :: s) := by
      rw [e, pathCost_append]
    have hvp : ValidPre n (p ++ [y]) := by
      have : (p ++ [y]) <+: a :: b :: d :: t' := ⟨s, by rw [e]; simp⟩
      exact ⟨hnd.sublist this.sublist, fun i hi => hlt i (this.subset hi)⟩
    rcases p with _ | ⟨a', _ | ⟨b', _ | ⟨d', p⟩⟩⟩
    · simp at hp
    · simp at hp
    · simp only [List.cons_append, List.nil_append, List.cons.injEq] at e
      obtain ⟨rfl, rfl, rfl, rfl⟩ := e
      simp only [List.cons_append, List.nil_append, pathCost_cons₂, pathCost_one] at hsplit hL ⊢
      linarith
    · simp only [List.cons_append, List.cons.injEq] at e
      obtain ⟨rfl, rfl, rfl, -⟩ := e
      have hmono : pathCost c (a :: b :: d :: p) ≤ pathCost c ((a :: b :: d :: p) ++ [y]) :=
        pathCost_prefix_le hc hvp ⟨[y], rfl⟩
      have hge : c a b + c b d ≤ pathCost c (a :: b :: d :: p) := by
        have h0 : ([a, b, d] : List Nat) <+: a :: b :: d :: p := ⟨p, rfl⟩
        have hv2 : ValidPre n (a :: b :: d :: p) := by
          have : (a :: b :: d :: p) <+: (a :: b :: d :: p) ++ [y] := ⟨[y], rfl⟩
          exact ⟨hvp.1.sublist this.sublist, fun i hi => hvp.2 i (this.subset hi)⟩
        have := pathCost_prefix_le hc hv2 h0
        simpa using this
      linarith

/-! ## the nearest neighbour bound on metrics -/

theorem nnOfRemaining_sum {m : Mat (XNum K)} {c : Nat → Nat → K} (hm : Rep m c) (sub : List Nat) :
    nnOfRemaining m sub = fin (((List.range m.dim).filter fun i => !sub.contains i).map
      fun i => toK (shortestLaterEdge m sub i)).sum := by
  unfold nnOfRemaining
  refine foldl_inv _ (fun done b => b = fin (((done.filter fun i => !sub.contains i).map
    fun i => toK (shortestLaterEdge m sub i)).sum)) _ _ (by simp) ?_
  rintro done i rest b hl rfl
  have hi : i ∈ List.range m.dim := by rw [hl]; simp
  simp only [List.mem_range] at hi
  rw [List.filter_append]
  split
  · rename_i hc
    have : ([i].filter fun i => !sub.contains i) = [] := by simpa using hc
    rw [this, List.append_nil]
  · rename_i hc
    have : ([i].filter fun i => !sub.contains i) = [i] := by simpa using hc
    rw [this, List.map_append, List.sum_append]
    rcases shortestLaterEdge_proper hm sub hi with h | ⟨a, h⟩
    · simp [h, toK]
    · simp [h, toK]

/-- the cheapest later edge is an edge, or there is none -/
theorem shortestLaterEdge_cases {m : Mat (XNum K)} {c : Nat → Nat → K} (hm : Rep m c)
    (sub : List Nat) {i : Nat} (hi : i < m.dim) : shortestLaterEdge m sub i = XNum.inf ∨
      ∃ j, i < j ∧ j < m.dim ∧ shortestLaterEdge m sub i = fin (c i j) := by
  unfold shortestLaterEdge
  refine foldl_inv _ (fun _ b => b = XNum.inf ∨ ∃ j, i < j ∧ j < m.dim ∧ b = fin (c i j)) _ _
    (Or.inl rfl) ?_
  intro done j rest b hl hb
  have hj : j ∈ List.range' (i + 1) (m.dim - (i + 1)) := by rw [hl]; simp
  rw [List.mem_range'_1] at hj
  split
  · exact hb
  · split
    · right
      exact ⟨j, by omega, by omega, hm.off i j hi (by omega) (by omega)⟩
    · exact hb

/-- On metrics the bound of v4 is at most `(⌈log₂ n⌉ + 1) / 2` times the length of every tour. -/
theorem nnOfRemaining_log {m : Mat (XNum K)} {c : Nat → Nat → K} (hm : Rep m c)
    (hmet : Metric m.dim c) {q : List Nat} (hq : IsTour m.dim q) (sub : List Nat) :
    ∃ x, nnOfRemaining m sub = fin x ∧ 2 * x ≤ (Nat.clog 2 m.dim + 1 : ℕ) * tourCost c q := by
  refine ⟨_, nnOfRemaining_sum hm sub, ?_⟩
  have hT := tour_nonneg hmet hq
  set V := (List.range m.dim).filter fun i => !sub.contains i with hV
  have hVn : V.Nodup := List.nodup_range.filter _
  have hVlt : ∀ v ∈ V, v < m.dim ∧ v ∉ sub := by
    intro v hv
    rw [hV, List.mem_filter] at hv
    exact ⟨by simpa using hv.1, by simpa using hv.2⟩
  have hVlen : V.length ≤ m.dim := by
    have := List.length_filter_le (fun i => !sub.contains i) (List.range m.dim)
    rwa [List.length_range] at this
  let l : Nat → K := fun i => if i ∈ sub then 0 else toK (shortestLaterEdge m sub i)
  have hl : V.map (fun i => toK (shortestLaterEdge m sub i)) = V.map l := by
    refine List.map_congr_left fun v hv => ?_
    simp only [l, if_neg (hVlt v hv).2]
  rw [hl]
  have hone : ∀ a b, a < b → b < m.dim → min (l a) (l b) ≤ c a b := by
    intro a b hab hb
    have h0 : 0 ≤ c a b := hmet.nonneg (by omega) hb
    by_cases h1 : a ∈ sub
    · refine (min_le_left _ _).trans ?_
      simpa [l, h1] using h0
    by_cases h2 : b ∈ sub
    · refine (min_le_right _ _).trans ?_
      simpa [l, h2] using h0
    refine (min_le_left _ _).trans ?_
    simp only [l, if_neg h1]
    have := shortestLaterEdge_le hm sub hb hab h2
    rcases shortestLaterEdge_proper hm sub (i := a) (by omega) with h | ⟨x, h⟩
    · rw [h] at this; simp at this
    · rw [h] at this ⊢
      simpa [toK] using this
  rcases Nat.eq_zero_or_pos V.length with h0 | h0
  · have : V = [] := List.length_eq_zero_iff.mp h0
    rw [this]
    simp only [List.map_nil, List.sum_nil, mul_zero]
    exact mul_nonneg (Nat.cast_nonneg _) hT
  · have key := leave_sum hmet hq (l := l)
      (by
        intro a b ha hb hab
        rcases Nat.lt_or_gt_of_ne hab with h | h
        · exact hone a b h hb
        · rw [min_comm, hmet.symm a b ha hb]
          exact hone b a h ha)
      (by
        intro a ha
        by_cases h1 : a ∈ sub
        · simpa [l, h1] using hT
        · simp only [l, if_neg h1]
          rcases shortestLaterEdge_cases hm sub ha with h | ⟨j, h2, h3, h⟩
          · rw [h]; simpa [toK] using hT
          · rw [h]
            exact edge_half hmet hq ha h3)
      V.length V hVn (fun v hv => (hVlt v hv).1) rfl h0
    refine key.trans (mul_le_mul_of_nonneg_right ?_ hT)
    exact_mod_cast Nat.succ_le_succ (Nat.clog_mono_right 2 hVlen)

end Walky
