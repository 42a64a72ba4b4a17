import Verif.Lemmas.V4Glue

/-! # Helper lemmas: what v4 returns in the glued space -/

set_option linter.unusedSectionVars false

namespace Walky

open FloatOps Spec XNum

/-! ## a lower bound of the bound of v4 -/

section
variable {K : Type} [Field K] [LinearOrder K] [IsStrictOrderedRing K]

theorem shortestLaterEdge_ne_inf {m : Mat (XNum K)} {c : Nat → Nat → K} (hm : Rep m c)
    (sub : List Nat) {i j : Nat} (hij : i < j) (hj : j < m.dim) (hjs : j ∉ sub) :
    shortestLaterEdge m sub i ≠ XNum.inf := by
  unfold shortestLaterEdge
  have key := foldl_inv (fun (best : XNum K) j => if sub.contains j then best
    else if m.get i j <ᶠ best then m.get i j else best)
    (fun done b => Proper b ∧ ((∃ j ∈ done, j ∉ sub) → b ≠ XNum.inf))
    (List.range' (i + 1) (m.dim - (i + 1))) FloatOps.inf ⟨proper_inf, by simp⟩ (by
      rintro done l rest b hl ⟨hb1, hb2⟩
      have hmem : l ∈ List.range' (i + 1) (m.dim - (i + 1)) := by rw [hl]; simp
      rw [List.mem_range'_1] at hmem
      have hget : m.get i l = fin (c i l) := hm.off i l (by omega) (by omega) (by omega)
      by_cases hc : l ∈ sub
      · have : sub.contains l = true := by simpa using hc
        rw [if_pos this]
        refine ⟨hb1, ?_⟩
        rintro ⟨x, hx, hxs⟩
        rcases List.mem_append.mp hx with h | h
        · exact hb2 ⟨x, h, hxs⟩
        · simp at h; subst h; exact absurd hc hxs
      · have : ¬ sub.contains l = true := by simpa using hc
        rw [if_neg this, hget]
        rcases hb1 with rfl | ⟨x, rfl⟩
        · have e : FloatOps.lt (fin (c i l)) (XNum.inf : XNum K) = true := rfl
          rw [if_pos e]
          exact ⟨proper_fin _, fun _ => by simp⟩
        · split
          · exact ⟨proper_fin _, fun _ => by simp⟩
          · exact ⟨proper_fin _, fun _ => by simp⟩)
  refine key.2 ⟨j, ?_, hjs⟩
  rw [List.mem_range'_1]
  omega

/-- If `U i` is at most the cost of every edge from `i` to a later city, then the bound of v4 is at least
the sum of `U` over the remaining cities, except for the last remaining one. -/
theorem nnOfRemaining_ge {m : Mat (XNum K)} {c : Nat → Nat → K} (hm : Rep m c) (sub : List Nat)
    {U : Nat → K} {M : K} (hU : ∀ i j, i < j → j < m.dim → U i ≤ c i j) (hU0 : ∀ i, 0 ≤ U i)
    (hUM : ∀ i, U i ≤ M) (hlast : U (m.dim - 1) = 0) :
    ∃ x, nnOfRemaining m sub = fin x ∧
      (((List.range m.dim).filter fun i => !sub.contains i).map U).sum ≤
        x + if m.dim - 1 ∈ sub then M else 0 := by
  refine ⟨_, nnOfRemaining_sum hm sub, ?_⟩
  set V := (List.range m.dim).filter fun i => !sub.contains i with hV
  have hM0 : 0 ≤ M := (hU0 0).trans (hUM 0)
  have hVlt : ∀ v ∈ V, v < m.dim ∧ v ∉ sub := by
    intro v hv
    rw [hV, List.mem_filter] at hv
    exact ⟨by simpa using hv.1, by simpa using hv.2⟩
  have hVs : V.Pairwise (· < ·) := List.pairwise_lt_range.filter _
  rcases List.eq_nil_or_concat V with h | ⟨W, l, h⟩
  · rw [h]
    simp only [List.map_nil, List.sum_nil]
    split <;> linarith
  · rw [List.concat_eq_append] at h
    rw [h, List.map_append, List.map_append, List.sum_append, List.sum_append]
    simp only [List.map_cons, List.map_nil, List.sum_cons, List.sum_nil, add_zero]
    have hl : l < m.dim ∧ l ∉ sub := hVlt l (by rw [h]; simp)
    have h1 : (W.map U).sum ≤ (W.map fun i => toK (shortestLaterEdge m sub i)).sum := by
      refine List.sum_le_sum fun i hi => ?_
      have hil : i < l := by
        rw [h, List.pairwise_append] at hVs
        exact hVs.2.2 i hi l (by simp)
      have hne := shortestLaterEdge_ne_inf hm sub hil hl.1 hl.2
      rcases shortestLaterEdge_cases hm sub (i := i) (by omega) with e | ⟨j, h1, h2, e⟩
      · exact absurd e hne
      · rw [e]
        exact hU i j h1 h2
    have h2 : 0 ≤ toK (shortestLaterEdge m sub l) := by
      rcases shortestLaterEdge_cases hm sub hl.1 with e | ⟨j, h1, h2, e⟩
      · rw [e]; simp [toK]
      · rw [e]; exact (hU0 l).trans (hU l j h1 h2)
    split
    · have := hUM l
      linarith
    · rename_i hn
      have : l = m.dim - 1 := by
        have hv : m.dim - 1 ∈ V := by
          rw [hV, List.mem_filter]
          exact ⟨by simp; omega, by simpa using hn⟩
        rw [h] at hv
        rcases List.mem_append.mp hv with h' | h'
        · rw [h, List.pairwise_append] at hVs
          have := hVs.2.2 _ h' l (by simp)
          omega
        · simp at h'; exact h'.symm
      have hUl : U l = 0 := by rw [this, hlast]
      linarith

theorem sum_split {n : Nat} {sub : List Nat} (hv : ValidPre n sub) (U : Nat → K) :
    ((List.range n).map U).sum =
      (sub.map U).sum + (((List.range n).filter fun i => !sub.contains i).map U).sum := by
  have h := isTour_firstLeaf hv
  unfold IsTour firstLeaf at h
  rw [← (h.map U).sum_eq, List.map_append, List.sum_append]

/-- the path `0, …, j - 1, x` is at least as long as the sum of the `U` -/
theorem range_path_ge {n : Nat} {c : Nat → Nat → K} {U : Nat → K}
    (hU : ∀ i j, i < j → j < n → U i ≤ c i j) : ∀ (j x : Nat), j ≤ x → x < n →
    ((List.range j).map U).sum ≤ pathCost c (List.range j ++ [x])
  | 0, x, _, _ => by simp
  | j + 1, x, hx, hn => by
    have ih := range_path_ge hU j j le_rfl (by omega)
    rw [List.range_succ, List.map_append, List.sum_append, List.append_assoc, List.cons_append,
      List.nil_append, pathCost_snoc]
    have := hU j x (by omega) hn
    simp only [List.map_cons, List.map_nil, List.sum_cons, List.sum_nil, add_zero]
    linarith

end

/-! ## the glued space -/

variable {a k : Nat} {lam : ℚ} {d : Nat → Nat → ℚ} {g : Nat → Nat → ℤ}

/-- If the cities of the first space are numbered such that each is followed by its nearest later
city, and the search of v4 in the second space saves more than the largest `U`, then v4 visits the
first space in the order of the numbers. -/
theorem v4_glue (hk : 2 ≤ k) (hd : Metric (a + 1) d) (hg : Metric k (ofInt g)) (hl : 0 < lam)
    (hD : d a 0 < lam) {U : Nat → ℚ} {M : ℚ} {z : ℤ} {w : List Nat}
    (hU : ∀ i j, i < j → j < a + k → U i ≤ glue a lam d g i j) (hU0 : ∀ i, 0 ≤ U i)
    (hUM : ∀ i, U i ≤ M) (hlast : U (a + k - 1) = 0)
    (hrun : dfs (Mat.ofFun k (ofInt g)) (test4 (Mat.ofFun k (ofInt g))) k [0] (fin 0)
      ((XNum.inf, []), ()) = .ok ((fin (z : ℚ), w), ()))
    (hsave : pathCost d (List.range (a + 1)) + d a 0 + lam * z + M <
      ((List.range (a + k)).map U).sum) :
    ∃ p, fourthImprovedSolver (Mat.ofFun (a + k) (glue a lam d g)) =
        .ok (fin (tourCost (glue a lam d g) p), p) ∧ IsTour (a + k) p ∧
      List.range (a + 1) <+: p := by
  set c := glue a lam d g with hc
  set P := pathCost d (List.range (a + 1)) with hP
  set f := P + d a 0 + lam * z with hf
  have hdaa := hd.diag a (by omega)
  have hg00 : g 0 0 = 0 := by
    have := hg.diag 0 (by omega)
    simpa [ofInt] using this
  have hmet : Metric (a + k) c := glue_metric (by omega) hd hg hl.le
  have hm := rep_ofFun (a + k) c
  have hD0 : 0 ≤ d a 0 := by
    have h1 := hd.tri a a 0 (by omega) (by omega) (by omega)
    have h2 := hd.symm a 0 (by omega) (by omega)
    rw [hdaa] at h1
    linarith
  obtain ⟨p, h1, h2, h3, h4⟩ := solveDfs_through hm (test := test4 (Mat.ofFun (a + k) c))
    (test4_ok (a + k)) (show 0 < a + k by omega)
    (aux := ()) trivial (a + 1) (show a + 1 ≤ a + k by omega) f (by
      intro p _ _ _ _
      obtain ⟨y, hy⟩ := nnOfRemaining_fin hm p
      exact ⟨(), by simp [test4, hy]⟩) (by
      intro s r _ hs hr
      have hfuel : (Mat.ofFun (a + k) c).dim + 1 - (a + 1) = k := by show a + k + 1 - (a + 1) = k; omega
      rw [hfuel] at hr
      obtain ⟨r', e1, e2⟩ := dfs_glue hk hdaa hg00 hl hD0 hD k [] ((XNum.inf, []), ()) s _
        ⟨by simp, by simp; omega⟩ (Or.inl ⟨rfl, hs⟩) (by simpa using hrun)
      rw [gpath_zero, hr] at e1
      cases e1
      rcases e2 with ⟨e, _⟩ | ⟨z', e, e'⟩
      · simp at e
      · simp only [XNum.fin.injEq, Int.cast_inj] at e
        subst e
        rw [e']
        simp [hf, hP])
  refine ⟨p, h1, h2, ?_⟩
  have h2 : IsTour (a + k) p := h2
  have hpl := h2.length
  have hpv : ValidPre (a + k) p := ⟨h2.nodup, fun i hi => by have := h2.mem_iff.mp hi; simpa using this⟩
  -- no prefix can have passed the test
  have hno : ∀ q, q <+: p → 2 ≤ q.length → (q.map U).sum ≤ pathCost c q + M -
      (if a + k - 1 ∈ q then M else 0) → q <+: List.range (a + 1) ∨ List.range (a + 1) <+: q := by
    intro q hq hq2 hcost
    rcases h4 q hq (by omega) hq2 with h | ⟨_, b, _, _, hb, hbf, ht⟩
    · exact h
    exfalso
    have hqv : ValidPre (a + k) q := ⟨hpv.1.sublist hq.sublist, fun i hi => hpv.2 i (hq.subset hi)⟩
    obtain ⟨x, hx, hxs⟩ := nnOfRemaining_ge hm q (U := U) (M := M) hU hU0 hUM hlast
    have hsum := sum_split hqv U
    have hdim : (Mat.ofFun (a + k) c).dim = a + k := rfl
    rw [hdim] at hxs
    unfold test4 at ht
    rw [hx] at ht
    simp only [XNum.add_fin, Except.ok.injEq, Prod.mk.injEq, and_true] at ht
    have hle := le_trans' ht hbf
    simp only [XNum.le_fin, decide_eq_true_eq] at hle
    linarith
  have step : ∀ j, j ≤ a + 1 → List.range j <+: p := by
    intro j
    induction j with
    | zero => intro _; simp
    | succ j ih =>
      intro hj
      obtain ⟨x, hx, hxp⟩ := next_of_prefix (ih (by omega)) (by rw [List.length_range]; omega)
      have hxn : x < a + k := hpv.2 x hxp
      have hxj : j ≤ x := by
        have := (hpv.1.sublist hx.sublist)
        rw [List.nodup_append] at this
        by_contra hlt
        exact this.2.2 x (by simp; omega) x (by simp) rfl
      by_cases hxe : x = j
      · rw [List.range_succ, ← hxe]; rw [hxe] at hx ⊢; exact hx
      exfalso
      have fin' : ∀ q, q <+: p → 2 ≤ q.length → q.length ≤ a + 1 ∨ q = List.range j ++ [x] →
          (q.map U).sum ≤ pathCost c q + M - (if a + k - 1 ∈ q then M else 0) →
          (q <+: List.range (a + 1) → False) → False := by
        intro q hq hq2 hql hcost hne
        rcases hno q hq hq2 hcost with h | h
        · exact hne h
        · have hll := h.length_le
          rw [List.length_range] at hll
          have : q.length = a + 1 := by
            rcases hql with h' | h'
            · omega
            · rw [h'] at hll ⊢
              simp at hll ⊢
              omega
          exact hne ((h.eq_of_length (by simp [this])) ▸ List.prefix_refl _)
      rcases Nat.eq_zero_or_pos j with h0 | h0
      · -- the first city is not city 0
        subst h0
        simp only [List.range_zero, List.nil_append] at hx
        obtain ⟨y, hy, hyp⟩ := next_of_prefix hx (by simp; omega)
        have hyn : y < a + k := hpv.2 y hyp
        simp only [List.cons_append, List.nil_append] at hy
        have hxy : x ≠ y := by
          have := hpv.1.sublist hy.sublist
          simpa using this
        have hM0 : 0 ≤ M := (hU0 0).trans (hUM 0)
        have ha : 1 ≤ a ∨ a = 0 := by omega
        have hcost : (([x, y] : List Nat).map U).sum ≤ pathCost c [x, y] + M -
            (if a + k - 1 ∈ [x, y] then M else 0) := by
          simp only [List.map_cons, List.map_nil, List.sum_cons, List.sum_nil, add_zero, pathCost_cons₂,
            pathCost_one]
          by_cases hmem : a + k - 1 ∈ [x, y]
          · rw [if_pos hmem]
            simp only [List.mem_cons, List.not_mem_nil, or_false] at hmem
            rcases hmem with e | e
            · have hyx : y < x := by omega
              have := hU y x hyx hxn
              rw [hmet.symm y x hyn hxn] at this
              rw [← e, hlast]
              rw [e]
              linarith
            · have hyx : x < y := by omega
              have := hU x y hyx hyn
              rw [← e, hlast]
              rw [e]
              linarith
          · rw [if_neg hmem]
            rcases Nat.lt_or_ge x y with hlt | hge
            · have := hU x y hlt hyn
              have := hUM y
              linarith
            · have := hU y x (by omega) hxn
              rw [hmet.symm y x hyn hxn] at this
              have := hUM x
              linarith
        rcases hno [x, y] hy (by simp) hcost with h | h
        · have := prefix_range h
          simp only [List.length_cons, List.length_nil] at this
          have h0 : (List.range (0 + 1 + 1)) = [0, 1] := rfl
          rw [h0] at this
          simp at this
          omega
        · have := h.subset (show 0 ∈ List.range (a + 1) by simp)
          have hh : ([x, y] : List Nat).head? = some 0 := by
            obtain ⟨t, ht⟩ := h
            rw [← ht, List.range_succ_eq_map]
            rfl
          simp at hh
          omega
      · have hge := range_path_ge hU j x hxj hxn
        refine fin' (List.range j ++ [x]) hx (by simp; omega) (Or.inr rfl) ?_ ?_
        · rw [List.map_append, List.sum_append]
          simp only [List.map_cons, List.map_nil, List.sum_cons, List.sum_nil, add_zero]
          by_cases hmem : a + k - 1 ∈ List.range j ++ [x]
          · rw [if_pos hmem]
            have : x = a + k - 1 := by
              simp at hmem
              omega
            rw [this, hlast]
            rw [this] at hge
            linarith
          · rw [if_neg hmem]
            have := hUM x
            linarith
        · intro h
          have := prefix_range h
          rw [List.length_append, List.length_range, List.length_singleton, List.range_succ] at this
          have := List.append_cancel_left this
          simp at this
          exact hxe this
  exact step (a + 1) le_rfl

/-- a tour through both parts -/
theorem glue_tour (hk : 1 ≤ k) (hd : Metric (a + 1) d) (hg : Metric k (ofInt g)) {t w : List Nat}
    (ht : IsTour (a + 1) (a :: t)) (hw : IsTour k (0 :: w)) :
    ∃ q, IsTour (a + k) q ∧ tourCost (glue a lam d g) q =
      tourCost d (a :: t) + lam * tourCost (ofInt g) (0 :: w) := by
  have htl : ∀ x ∈ t, x < a := by
    have h1 : (a :: t).Perm (a :: List.range a) := by
      unfold IsTour at ht
      rw [List.range_succ] at ht
      exact ht.trans (List.perm_append_singleton a (List.range a))
    intro x hx
    have := (List.Perm.cons_inv h1).mem_iff.mp hx
    simpa using this
  have hdaa := hd.diag a (by omega)
  have hg00 : g 0 0 = 0 := by
    have := hg.diag 0 (by omega)
    simpa [ofInt] using this
  refine ⟨(0 :: w).map (a + ·) ++ t, ?_, ?_⟩
  · unfold IsTour at ht hw ⊢
    rw [List.range_add]
    have h1 : (a :: t).Perm (a :: List.range a) := by
      rw [List.range_succ] at ht
      exact ht.trans (List.perm_append_singleton a (List.range a))
    exact List.perm_append_comm.trans ((List.Perm.cons_inv h1).append (hw.map _))
  · have hclose : tourCost (glue a lam d g) ((0 :: w).map (a + ·) ++ t) =
        pathCost (glue a lam d g) ((0 :: w).map (a + ·) ++ (t ++ [a])) := by
      simp only [List.map_cons, List.cons_append, tourCost_cons, List.append_assoc]
      rfl
    rw [hclose]
    cases t with
    | nil =>
      have : (0 :: w).map (a + ·) ++ ([] ++ [a]) = (0 :: w ++ [0]).map (a + ·) := by simp
      rw [this, pathCost_hi hdaa, ← tourCost_cons, tourCost_cons d]
      simp [hdaa]
    | cons y t =>
      have hy : y < a := htl y (by simp)
      rw [List.cons_append, pathCost_append]
      have e1 : pathCost (glue a lam d g) (y :: (t ++ [a])) = pathCost d (y :: (t ++ [a])) := by
        refine pathCost_congr fun i j h => ?_
        have hle : ∀ i ∈ y :: (t ++ [a]), i ≤ a := by
          intro i hi
          simp only [List.mem_cons, List.mem_append, List.not_mem_nil, or_false] at hi
          rcases hi with rfl | hi | rfl
          · omega
          · have := htl i (by simp [hi]); omega
          · omega
        exact glue_lo hg00 (hle i (h.subset (by simp))) (hle j (h.subset (by simp)))
      have hne : (0 :: w) ≠ [] := by simp
      have e2 : pathCost (glue a lam d g) ((0 :: w).map (a + ·) ++ [y]) =
          lam * tourCost (ofInt g) (0 :: w) + d a y := by
        rw [tourCost_cons, ← List.dropLast_append_getLast hne]
        rw [List.map_append, List.append_assoc, List.append_assoc]
        simp only [List.map_cons, List.map_nil, List.cons_append, List.nil_append]
        rw [pathCost_snoc, pathCost_snoc]
        have h3 : (List.map (a + ·) (0 :: w).dropLast ++ [a + (0 :: w).getLast hne]) =
            ((0 :: w).dropLast ++ [(0 :: w).getLast hne]).map (a + ·) := by simp
        rw [h3, pathCost_hi hdaa]
        have h4 : glue a lam d g (a + (0 :: w).getLast hne) y =
            d a y + lam * g ((0 :: w).getLast hne) 0 := by
          simp [glue, Nat.min_eq_left hy.le, Nat.sub_eq_zero_of_le hy.le]
        rw [h4]
        simp only [ofInt]
        ring
      rw [e1, e2, tourCost_cons d, List.cons_append, List.cons_append, pathCost_cons₂]
      ring

end Walky
