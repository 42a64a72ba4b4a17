import Verif.Lemmas.Solve
import Verif.Lemmas.Eval

/-!
# Helper lemmas: which of several shortest tours is found

All exact solvers without wrong pruning go through the tours in lexicographic order and replace the best
tour only by a strictly shorter one.
-/

set_option linter.unusedSectionVars false

namespace Walky

open FloatOps Spec XNum

variable {K : Type} [Field K] [LinearOrder K] [IsStrictOrderedRing K]

/-- compare the best solution with a tour -/
def updBest (w : List Nat → K) (s : Solution (XNum K)) (q : List Nat) : Solution (XNum K) :=
  if (fin (w q) : XNum K) <ᶠ s.1 then (fin (w q), q) else s

/-- the shortest of `l`, and the first one of them in the lexicographic order -/
def FirstOf (w : List Nat → K) (l : List (List Nat)) (p : List Nat) : Prop :=
  p ∈ l ∧ ∀ q ∈ l, w p < w q ∨ w p = w q ∧ p ≤ q

theorem updBest_proper {w : List Nat → K} {s : Solution (XNum K)} (h : Proper s.1) (q : List Nat) :
    Proper (updBest w s q).1 := by
  unfold updBest
  split
  · exact proper_fin _
  · exact h

theorem foldl_updBest_proper {w : List Nat → K} (l : List (List Nat)) {s : Solution (XNum K)}
    (h : Proper s.1) : Proper (l.foldl (updBest w) s).1 := by
  induction l generalizing s with
  | nil => exact h
  | cons q l ih => exact ih (updBest_proper h q)

/-- nothing changes if no tour is shorter -/
theorem foldl_updBest_id {w : List Nat → K} {l : List (List Nat)} {s : Solution (XNum K)}
    (h : ∀ q ∈ l, ((fin (w q) : XNum K) <ᶠ s.1) = false) : l.foldl (updBest w) s = s := by
  induction l with
  | nil => rfl
  | cons q l ih =>
    rw [List.foldl_cons]
    have : updBest w s q = s := by
      unfold updBest
      rw [h q (by simp)]
      rfl
    rw [this]
    exact ih fun q hq => h q (by simp [hq])

private theorem fold_from {w : List Nat → K} (l : List (List Nat)) (p : List Nat)
    (hs : (p :: l).Pairwise (· < ·)) :
    ∃ r, l.foldl (updBest w) (fin (w p), p) = (fin (w r), r) ∧ FirstOf w (p :: l) r := by
  induction l generalizing p with
  | nil =>
    exact ⟨p, rfl, by simp, fun q hq => Or.inr (by simp at hq; simp [hq])⟩
  | cons q l ih =>
    have hpq : p < q := (List.pairwise_cons.mp hs).1 q (by simp)
    rw [List.foldl_cons]
    by_cases h : w q < w p
    · have : updBest w (fin (w p), p) q = (fin (w q), q) := by
        unfold updBest
        rw [if_pos (by simpa using h)]
      rw [this]
      obtain ⟨r, r1, r2, r3⟩ := ih q (List.pairwise_cons.mp hs).2
      refine ⟨r, r1, by simp [List.mem_cons.mp r2], ?_⟩
      intro x hx
      rcases List.mem_cons.mp hx with rfl | hx
      · left
        rcases r3 q (by simp) with h1 | ⟨h1, _⟩
        · exact h1.trans h
        · rw [h1]; exact h
      · exact r3 x hx
    · have : updBest w (fin (w p), p) q = (fin (w p), p) := by
        unfold updBest
        rw [if_neg (by simpa using h)]
      rw [this]
      obtain ⟨r, r1, r2, r3⟩ := ih p (hs.sublist (by simp))
      refine ⟨r, r1, ?_, ?_⟩
      · rcases List.mem_cons.mp r2 with rfl | r2
        · simp
        · simp [r2]
      · intro x hx
        rcases List.mem_cons.mp hx with rfl | hx
        · exact r3 x (by simp)
        · rcases List.mem_cons.mp hx with rfl | hx
          · have hle : w p ≤ w x := not_lt.mp h
            rcases r3 p (by simp) with h1 | ⟨h1, h2⟩
            · exact Or.inl (h1.trans_le hle)
            · rcases hle.eq_or_lt with h3 | h3
              · exact Or.inr ⟨h1.trans h3, h2.trans hpq.le⟩
              · exact Or.inl (h1 ▸ h3)
          · exact r3 x (by simp [hx])

/-- going through tours in lexicographic order -/
theorem foldl_updBest_first {w : List Nat → K} {l : List (List Nat)} (hl : l ≠ [])
    (hs : l.Pairwise (· < ·)) (p0 : List Nat) :
    ∃ r, l.foldl (updBest w) (XNum.inf, p0) = (fin (w r), r) ∧ FirstOf w l r := by
  cases l with
  | nil => exact absurd rfl hl
  | cons q l => exact fold_from l q hs

/-! ## The loop of v0 and v1 -/

theorem permLoop_best {m : Mat (XNum K)} {w : List Nat → K}
    {step : List Nat → RM (Bool × List Nat)} {cur : List Nat} {l : List (List Nat)}
    (hrun : Run step cur l) (hl : ∀ p ∈ l, m.evaluateCircle p = .ok (fin (w p))) :
    ∀ (fuel : Nat) (best : Solution (XNum K)), l.length < fuel →
      permLoop m step fuel cur best = .ok (l.foldl (updBest w) best) := by
  induction hrun with
  | stop h =>
    intro fuel best hf
    cases fuel with
    | zero => simp at hf
    | succ fuel => simp [permLoop, h]
  | @next a b l h hr ih =>
    intro fuel best hf
    cases fuel with
    | zero => simp at hf
    | succ fuel =>
      have hcost := hl b (by simp)
      have ih := ih (fun p hp => hl p (by simp [hp])) fuel
      unfold permLoop
      rw [h]
      simp only [rm_bind_ok, if_true, hcost]
      rw [List.foldl_cons, updBest]
      split
      · exact ih _ (by simp at hf; omega)
      · exact ih _ (by simp at hf; omega)

/-! ## The recursive search -/

/-- all tours that begin with `pre`, in the order in which the search meets them -/
def leaves (n : Nat) : Nat → List Nat → List (List Nat)
  | 0, _ => []
  | fuel + 1, pre =>
    if pre.length = n then [pre]
    else (List.range n).flatMap fun i => if pre.contains i then [] else leaves n fuel (pre ++ [i])

theorem mem_leaves {n : Nat} (fuel : Nat) {pre : List Nat} (hv : ValidPre n pre)
    (hf : n + 1 ≤ fuel + pre.length) {q : List Nat} :
    q ∈ leaves n fuel pre ↔ IsTour n q ∧ pre <+: q := by
  induction fuel generalizing pre with
  | zero =>
    have := hv.length_le
    omega
  | succ fuel ih =>
    unfold leaves
    by_cases hlen : pre.length = n
    · rw [if_pos hlen, List.mem_singleton]
      constructor
      · rintro rfl
        exact ⟨isTour_of_nodup hv.1 hv.2 hlen, List.prefix_refl _⟩
      · rintro ⟨hq, hpq⟩
        exact (hpq.eq_of_length (by rw [hlen, hq.length])).symm
    · rw [if_neg hlen, List.mem_flatMap]
      have hlt : pre.length < n := lt_of_le_of_ne hv.length_le hlen
      constructor
      · rintro ⟨i, hi, hq⟩
        by_cases hc : i ∈ pre
        · simp [hc] at hq
        · rw [if_neg (by simpa using hc)] at hq
          have := (ih (hv.snoc (by simpa using hi) hc) (by simp; omega)).mp hq
          exact ⟨this.1, (List.prefix_append _ _).trans this.2⟩
      · rintro ⟨hq, hpq⟩
        obtain ⟨i, hi, hiq⟩ := next_of_prefix hpq (by rw [hq.length]; exact hlt)
        have hin : i < n := hq.mem.mp hiq
        have hc := next_notMem hi hq.nodup
        refine ⟨i, by simpa using hin, ?_⟩
        rw [if_neg (by simpa using hc)]
        exact (ih (hv.snoc hin hc) (by simp; omega)).mpr ⟨hq, hi⟩

theorem append_lt {pre : List Nat} {i j : Nat} (hij : i < j) {q q' : List Nat}
    (h : pre ++ [i] <+: q) (h' : pre ++ [j] <+: q') : q < q' := by
  obtain ⟨t, rfl⟩ := h
  obtain ⟨t', rfl⟩ := h'
  induction pre with
  | nil => exact cons_lt_cons.mpr (Or.inl hij)
  | cons x pre ih => exact cons_lt_cons.mpr (Or.inr ⟨rfl, ih⟩)

theorem leaves_sorted {n : Nat} (fuel : Nat) {pre : List Nat} (hv : ValidPre n pre)
    (hf : n + 1 ≤ fuel + pre.length) : (leaves n fuel pre).Pairwise (· < ·) := by
  induction fuel generalizing pre with
  | zero => exact List.Pairwise.nil
  | succ fuel ih =>
    unfold leaves
    by_cases hlen : pre.length = n
    · rw [if_pos hlen]
      exact List.pairwise_singleton _ _
    · rw [if_neg hlen, List.pairwise_flatMap]
      constructor
      · intro i hi
        by_cases hc : i ∈ pre
        · simp [hc]
        · rw [if_neg (by simpa using hc)]
          exact ih (hv.snoc (by simpa using hi) hc) (by simp; omega)
      · have hr : (List.range n).Pairwise (fun i j => i < j ∧ i < n ∧ j < n) := by
          refine List.Pairwise.imp_of_mem ?_ List.pairwise_lt_range
          intro a b ha hb hab
          exact ⟨hab, by simpa using ha, by simpa using hb⟩
        refine hr.imp ?_
        rintro i j ⟨hij, hi, hj⟩ q hq q' hq'
        by_cases hc : i ∈ pre
        · simp [hc] at hq
        by_cases hc' : j ∈ pre
        · simp [hc'] at hq'
        rw [if_neg (by simpa using hc)] at hq
        rw [if_neg (by simpa using hc')] at hq'
        exact append_lt hij ((mem_leaves fuel (hv.snoc hi hc) (by simp; omega)).mp hq).2
          ((mem_leaves fuel (hv.snoc hj hc') (by simp; omega)).mp hq').2

/-- a search whose test only cuts off tours that are not shorter than the best one -/
theorem dfs_leaves {σ : Type} (m : Mat (XNum K)) (c : Nat → Nat → K) (hm : Rep m c)
    (test : PruneTest σ (XNum K)) (J : σ → Prop)
    (htest : ∀ a p b, J a → ValidPre m.dim p → 2 ≤ p.length → Proper b →
      ∃ go a', test a p (fin (pathCost c p)) b = .ok (go, a') ∧ J a' ∧
        (go = false → ∀ q, IsTour m.dim q → p <+: q → ((fin (tourCost c q) : XNum K) <ᶠ b) = false))
    (hdim : 0 < m.dim) :
    ∀ (fuel : Nat) (pre : List Nat) (s : Solution (XNum K) × σ), ValidPre m.dim pre →
      m.dim + 1 ≤ fuel + pre.length → J s.2 → Proper s.1.1 →
      ∃ a, dfs m test fuel pre (fin (pathCost c pre)) s =
        .ok ((leaves m.dim fuel pre).foldl (updBest (tourCost c)) s.1, a) ∧ J a := by
  intro fuel
  induction fuel with
  | zero =>
    intro pre s hv hf
    have := hv.length_le
    omega
  | succ fuel ih =>
    intro pre s hv hf hJ hs
    unfold dfs
    by_cases hlen : pre.length = m.dim
    · have hne : pre ≠ [] := by rintro rfl; simp at hlen; omega
      have hl : pre.getLast? = some (pre.getLast hne) := List.getLast?_eq_getLast_of_ne_nil hne
      have hh : pre.head? = some (pre.head hne) := List.head?_eq_some_head hne
      have hw : m.get (pre.getLast hne) (pre.head hne) =
          fin (c (pre.getLast hne) (pre.head hne)) := by
        rcases Nat.lt_or_ge 1 m.dim with h1 | h1
        · apply hm.off
          · exact hv.2 _ (List.getLast_mem hne)
          · exact hv.2 _ (List.head_mem hne)
          · rw [List.getLast_eq_getElem, List.head_eq_getElem]
            intro h
            have := (List.Nodup.getElem_inj_iff hv.1).mp h
            omega
        · have h1 : m.dim = 1 := by omega
          have a1 := hv.2 _ (List.getLast_mem hne)
          have a2 := hv.2 _ (List.head_mem hne)
          have e1 : pre.getLast hne = 0 := by omega
          have e2 : pre.head hne = 0 := by omega
          rw [e1, e2]
          exact hm.single h1
      have he : m.entry (pre.getLast hne) (pre.head hne) =
          .ok (fin (c (pre.getLast hne) (pre.head hne))) := by
        rw [entry_ok (hv.2 _ (List.getLast_mem hne)) (hv.2 _ (List.head_mem hne)), hw]
      have hcost : FloatOps.add (fin (pathCost c pre))
          (fin (c (pre.getLast hne) (pre.head hne))) = fin (tourCost c pre) := by
        rw [XNum.add_fin, ← tourCost_eq c pre hne]
      simp only [hlen, if_true, hl, hh, unwrapO, rm_bind_ok, he, hcost, rm_pure]
      refine ⟨s.2, ?_, hJ⟩
      unfold leaves
      rw [if_pos hlen]
      show _ = Except.ok (updBest (tourCost c) s.1 pre, s.2)
      unfold updBest
      split <;> rfl
    · simp only [hlen, if_false]
      have hlt : pre.length < m.dim := lt_of_le_of_ne hv.length_le hlen
      have key := foldlM_ok (fun (st : XNum K × Solution (XNum K) × σ) i => do
        let (cur, s) := st
        if pre.contains i then return (cur, s)
        let pre' := pre ++ [i]
        if pre'.length = 1 then do
          let s ← dfs m test fuel pre' cur s
          return (cur, s)
        else do
          let a ← idx pre' (pre'.length - 2)
          let b ← idx pre' (pre'.length - 2 + 1)
          let w ← m.entry a b
          let cur := cur +ᶠ w
          let (go, aux) ← test s.2 pre' cur s.1.1
          let s ← if go then dfs m test fuel pre' cur (s.1, aux) else pure (s.1, aux)
          return (cur -ᶠ w, s))
        (fun done st => st.1 = fin (pathCost c pre) ∧ J st.2.2 ∧
          st.2.1 = (done.flatMap fun i => if pre.contains i then []
            else leaves m.dim fuel (pre ++ [i])).foldl (updBest (tourCost c)) s.1)
        (List.range m.dim) (fin (pathCost c pre), s) ⟨rfl, hJ, rfl⟩ ?_
      · obtain ⟨b, hb, h1, h2, h3⟩ := key
        refine ⟨b.2.2, ?_, h2⟩
        rw [hb]
        show Except.ok b.2 = _
        unfold leaves
        rw [if_neg hlen, ← h3]
      · rintro done i rest ⟨cur, t⟩ hl ⟨h1, h2, h3⟩
        simp only at h1 h2 h3
        subst h1
        have hi : i < m.dim := by
          have : i ∈ List.range m.dim := by rw [hl]; simp
          simpa using this
        have hfm : ∀ f : Nat → List (List Nat), (done ++ [i]).flatMap f = done.flatMap f ++ f i := by
          intro f
          simp
        have hpr : Proper t.1.1 := by
          rw [h3]
          exact foldl_updBest_proper _ hs
        by_cases hc : pre.contains i = true
        · have hc' : i ∈ pre := by simpa using hc
          refine ⟨(fin (pathCost c pre), t), by simp [hc'], rfl, h2, ?_⟩
          show t.1 = _
          rw [hfm, if_pos hc, List.append_nil, h3]
        · have hc' : i ∉ pre := by simpa using hc
          have hv' := hv.snoc hi hc'
          have hcont : (pre.contains i) = false := by simpa using hc'
          simp only [hcont, Bool.false_eq_true, if_false]
          have hgoal : ∀ r : Solution (XNum K) × σ,
              r.1 = (leaves m.dim fuel (pre ++ [i])).foldl (updBest (tourCost c)) t.1 → J r.2 →
              (fin (pathCost c pre) : XNum K) = fin (pathCost c pre) ∧ J r.2 ∧
              r.1 = ((done ++ [i]).flatMap fun i => if pre.contains i then []
                else leaves m.dim fuel (pre ++ [i])).foldl (updBest (tourCost c)) s.1 := by
            intro r hr hJr
            refine ⟨rfl, hJr, ?_⟩
            rw [hfm, if_neg hc, List.foldl_append, ← h3, hr]
          by_cases h1 : (pre ++ [i]).length = 1
          · simp only [h1, if_true]
            have hnil : pre = [] := by
              apply List.length_eq_zero_iff.mp
              simpa using h1
            have hpc : pathCost c pre = pathCost c (pre ++ [i]) := by simp [hnil]
            obtain ⟨a, ha, hJa⟩ := ih (pre ++ [i]) t hv' (by simp; omega) h2 hpr
            rw [← hpc] at ha
            exact ⟨(fin (pathCost c pre), _), by rw [ha]; rfl, hgoal _ rfl hJa⟩
          · simp only [h1, if_false]
            have hne : pre ≠ [] := by rintro rfl; simp at h1
            have hpos : 0 < pre.length := List.length_pos_of_ne_nil hne
            have i1 : idx (pre ++ [i]) ((pre ++ [i]).length - 2) = .ok (pre.getLast hne) := by
              apply idx_ok
              rw [List.getLast_eq_getElem]
              simp only [List.length_append, List.length_cons, List.length_nil]
              rw [List.getElem?_append_left (by omega)]
              rw [show pre.length + (0 + 1) - 2 = pre.length - 1 by omega]
              exact List.getElem?_eq_getElem _
            have i2 : idx (pre ++ [i]) ((pre ++ [i]).length - 2 + 1) = .ok i := by
              apply idx_ok
              simp only [List.length_append, List.length_cons, List.length_nil]
              rw [show pre.length + (0 + 1) - 2 + 1 = pre.length by omega]
              simp
            have hlastm := List.getLast_mem hne
            have i3 : m.entry (pre.getLast hne) i = .ok (fin (c (pre.getLast hne) i)) := by
              rw [entry_ok (hv.2 _ hlastm) hi, hm.off _ _ (hv.2 _ hlastm) hi]
              rintro rfl
              exact hc' hlastm
            have hpc : pathCost c pre + c (pre.getLast hne) i = pathCost c (pre ++ [i]) := by
              conv_rhs => rw [← List.dropLast_append_getLast hne]
              rw [List.append_assoc, List.cons_append, List.nil_append, pathCost_snoc,
                List.dropLast_append_getLast]
            have hadd : FloatOps.add (fin (pathCost c pre)) (fin (c (pre.getLast hne) i)) =
                fin (pathCost c (pre ++ [i])) := by rw [XNum.add_fin, hpc]
            simp only [i1, i2, i3, rm_bind_ok, hadd]
            have hlen2 : 2 ≤ (pre ++ [i]).length := by simp; omega
            obtain ⟨go, a', ht, hJ', hskip⟩ := htest t.2 (pre ++ [i]) t.1.1 h2 hv' hlen2 hpr
            have hback : FloatOps.sub (fin (pathCost c (pre ++ [i])))
                (fin (c (pre.getLast hne) i)) = fin (pathCost c pre) := by
              rw [XNum.sub_fin, ← hpc]; congr 1; ring
            simp only [ht, rm_bind_ok]
            cases go with
            | false =>
              refine ⟨(fin (pathCost c pre), (t.1, a')), by simp [hback], hgoal (t.1, a') ?_ hJ'⟩
              refine (foldl_updBest_id fun q hq => ?_).symm
              have := (mem_leaves fuel hv' (by simp; omega)).mp hq
              exact hskip rfl q this.1 this.2
            | true =>
              obtain ⟨a, ha, hJa⟩ := ih (pre ++ [i]) (t.1, a') hv' (by simp; omega) hJ' hpr
              exact ⟨(fin (pathCost c pre), ((leaves m.dim fuel (pre ++ [i])).foldl (updBest (tourCost c)) t.1, a)),
                by simp only [if_true, ha, rm_bind_ok, hback, rm_pure], hgoal _ rfl hJa⟩

theorem solveDfs_leaves {σ : Type} {m : Mat (XNum K)} {c : Nat → Nat → K} (hm : Rep m c)
    {test : PruneTest σ (XNum K)} {J : σ → Prop}
    (htest : ∀ a p b, J a → ValidPre m.dim p → 2 ≤ p.length → Proper b →
      ∃ go a', test a p (fin (pathCost c p)) b = .ok (go, a') ∧ J a' ∧
        (go = false → ∀ q, IsTour m.dim q → p <+: q → ((fin (tourCost c q) : XNum K) <ᶠ b) = false))
    (hdim : 0 < m.dim) {aux : σ} (hJ : J aux) :
    ∃ p, solveDfs m test aux = .ok (fin (tourCost c p), p) ∧ IsTour m.dim p ∧
      ∀ q, IsTour m.dim q → tourCost c p < tourCost c q ∨ tourCost c p = tourCost c q ∧ p ≤ q := by
  obtain ⟨a, h1, _⟩ := dfs_leaves m c hm test J htest hdim (m.dim + 1) [] ((XNum.inf, []), aux)
    (validPre_nil _) (by simp) hJ proper_inf
  have hmem : ∀ q, q ∈ leaves m.dim (m.dim + 1) [] ↔ IsTour m.dim q := fun q => by
    rw [mem_leaves _ (validPre_nil _) (by simp)]
    simp
  obtain ⟨r, r1, r2, r3⟩ := foldl_updBest_first (w := tourCost c)
    (List.ne_nil_of_mem ((hmem _).mpr (isTour_range m.dim)))
    (leaves_sorted (m.dim + 1) (validPre_nil m.dim) (by simp)) []
  refine ⟨r, ?_, (hmem r).mp r2, fun q hq => r3 q ((hmem q).mpr hq)⟩
  unfold solveDfs
  simp only [pathCost_nil] at h1
  rw [XNum.inf_def, XNum.zero_def, h1, r1]
  rfl

end Walky
