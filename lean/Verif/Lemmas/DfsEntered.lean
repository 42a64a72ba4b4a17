import Verif.Lemmas.Solve

/-! # Helper lemmas: which prefixes the branch-and-bound search enters -/

set_option linter.unusedSectionVars false

namespace Walky

open FloatOps Spec XNum

variable {K : Type} [Field K] [LinearOrder K] [IsStrictOrderedRing K]

/-- Every prefix of `q` longer than `k` is a prefix of `I`, or has passed the test at a time when the
best known cost was at most `T`. -/
def Entered {σ : Type} (c : Nat → Nat → K) (test : PruneTest σ (XNum K)) (J : σ → Prop) (T : K)
    (I : List Nat) (k : Nat) (q : List Nat) : Prop :=
  ∀ p, p <+: q → k < p.length → 2 ≤ p.length → p <+: I ∨
    ∃ a b a', J a ∧ Proper b ∧ FloatOps.le b (fin T) = true ∧
      test a p (fin (pathCost c p)) b = .ok (true, a')

theorem prefix_firstLeaf (n : Nat) (pre : List Nat) : pre <+: firstLeaf n pre := ⟨_, rfl⟩

theorem isTour_firstLeaf {n : Nat} {pre : List Nat} (hv : ValidPre n pre) :
    IsTour n (firstLeaf n pre) := by
  unfold IsTour firstLeaf
  refine (List.perm_ext_iff_of_nodup ?_ List.nodup_range).mpr ?_
  · rw [List.nodup_append]
    refine ⟨hv.1, List.nodup_range.filter _, ?_⟩
    intro a ha b hb e
    subst e
    simp at hb
    exact hb.2 ha
  · intro a
    simp only [List.mem_append, List.mem_filter, List.mem_range]
    constructor
    · rintro (h | h)
      · exact hv.2 a h
      · exact h.1
    · intro h
      by_cases ha : a ∈ pre
      · exact Or.inl ha
      · exact Or.inr ⟨h, by simpa using ha⟩

/-- Below `pre`, with a best known cost of at most `T` or on the way to the first tour `I` of length
`T`: the cost is at most `T` afterwards, and what has been found has been entered. -/
theorem dfs_entered {σ : Type} (m : Mat (XNum K)) (c : Nat → Nat → K) (hm : Rep m c)
    (test : PruneTest σ (XNum K)) (J : σ → Prop) (htest : TestOk m.dim test J)
    (hdim : 0 < m.dim) (I : List Nat) :
    ∀ (fuel : Nat) (pre : List Nat) (s : Solution (XNum K) × σ), ValidPre m.dim pre →
      m.dim + 1 ≤ fuel + pre.length → J s.2 → Proper s.1.1 →
      (FloatOps.le s.1.1 (fin (tourCost c I)) = true ∨
        s.1.1 = XNum.inf ∧ firstLeaf m.dim pre = I ∧ AlongInf c test J pre I) →
      ∃ r, dfs m test fuel pre (fin (pathCost c pre)) s = .ok r ∧ J r.2 ∧
        Better c m.dim pre s.1 r.1 ∧ FloatOps.le r.1.1 (fin (tourCost c I)) = true ∧
        (r.1 = s.1 ∨ Entered c test J (tourCost c I) I pre.length r.1.2) := by
  intro fuel
  induction fuel with
  | zero =>
    intro pre s hv hf
    have := hv.length_le
    omega
  | succ fuel ih =>
    intro pre s hv hf hJ hs hmode
    obtain ⟨r, hr, hrJ, hrB, -, hr5⟩ := dfs_exact m c hm test J htest hdim (fuel + 1) pre s hv hf hJ hs
    have hlow : FloatOps.le r.1.1 (fin (tourCost c I)) = true := by
      rcases hmode with h | ⟨h1, h2, h3⟩
      · exact le_trans' (hrB.le hs) h
      · have := hr5 h1 (by rw [h2]; exact h3)
        rwa [h2] at this
    refine ⟨r, hr, hrJ, hrB, hlow, ?_⟩
    by_cases hlen : pre.length = m.dim
    · rcases hrB with h | ⟨h1, -, -, -⟩
      · exact Or.inl h
      · right
        intro p hp hk
        have := hp.length_le
        rw [h1.length] at this
        omega
    have hlt : pre.length < m.dim := lt_of_le_of_ne hv.length_le hlen
    unfold dfs at hr
    simp only [hlen, if_false] at hr
    have key := foldlM_ok (fun (st : XNum K × Solution (XNum K) × σ) i => do
      let (cur, s) := st
      if pre.contains i then return (cur, s)
      let pre' := pre ++ [i]
      if pre'.length = 1 then do
        let s ← dfs m test fuel pre' cur s
        return (cur, s)
      else do
        let a ← idx pre' (pre'.length - 2)
        let b ← idx pre' (pre'.length - 2 + 1)
        let w ← m.entry a b
        let cur := cur +ᶠ w
        let (go, aux) ← test s.2 pre' cur s.1.1
        let s ← if go then dfs m test fuel pre' cur (s.1, aux) else pure (s.1, aux)
        return (cur -ᶠ w, s))
      (fun done st => st.1 = fin (pathCost c pre) ∧ J st.2.2 ∧ Better c m.dim pre s.1 st.2.1 ∧
        (FloatOps.le st.2.1.1 (fin (tourCost c I)) = true ∨
          st.2.1.1 = XNum.inf ∧ firstLeaf m.dim pre = I ∧ AlongInf c test J pre I ∧
            ∀ i ∈ done, i ∈ pre) ∧
        (st.2.1 = s.1 ∨ Entered c test J (tourCost c I) I pre.length st.2.1.2))
      (List.range m.dim) (fin (pathCost c pre), s)
      ⟨rfl, hJ, Or.inl rfl, hmode.imp id (fun ⟨a, b, d⟩ => ⟨a, b, d, by simp⟩), Or.inl rfl⟩ ?_
    · obtain ⟨b, hb, -, -, -, -, h5⟩ := key
      rw [hb] at hr
      cases hr
      exact h5
    · rintro done i rest ⟨cur, t⟩ hl ⟨h1, h2, h3, h4, h5⟩
      simp only at h1 h2 h3 h4 h5
      subst h1
      have hi : i < m.dim := by
        have : i ∈ List.range m.dim := by rw [hl]; simp
        simpa using this
      by_cases hc : pre.contains i = true
      · have hc' : i ∈ pre := by simpa using hc
        refine ⟨(fin (pathCost c pre), t), by simp [hc'], rfl, h2, h3, ?_, h5⟩
        rcases h4 with h4 | ⟨a, b, d, e⟩
        · exact Or.inl h4
        · refine Or.inr ⟨a, b, d, fun j hj => ?_⟩
          rcases List.mem_append.mp hj with hj | hj
          · exact e j hj
          · simp at hj; subst hj; exact hc'
      · have hc' : i ∉ pre := by simpa using hc
        have hv' := hv.snoc hi hc'
        have hpr : Proper t.1.1 := h3.proper hs
        have hpp : pre <+: pre ++ [i] := List.prefix_append _ _
        have hmode' : ∀ a' : σ, (FloatOps.le (t.1, a').1.1 (fin (tourCost c I)) = true ∨
            (t.1, a').1.1 = XNum.inf ∧ firstLeaf m.dim (pre ++ [i]) = I ∧
              AlongInf c test J (pre ++ [i]) I) := by
          intro a'
          rcases h4 with h4 | ⟨a, b, d, e⟩
          · exact Or.inl h4
          · refine Or.inr ⟨a, ?_, fun p hp hpl h2p => d p hp (by simp at hpl; omega) h2p⟩
            rw [firstLeaf_snoc hl e hc', b]
        have finish : ∀ (r : Solution (XNum K) × σ), J r.2 → Better c m.dim (pre ++ [i]) t.1 r.1 →
            FloatOps.le r.1.1 (fin (tourCost c I)) = true →
            (r.1 = t.1 ∨ Entered c test J (tourCost c I) I (pre ++ [i]).length r.1.2) →
            (2 ≤ (pre ++ [i]).length → pre ++ [i] <+: I ∨ ∃ a b a', J a ∧ Proper b ∧
              FloatOps.le b (fin (tourCost c I)) = true ∧
              test a (pre ++ [i]) (fin (pathCost c (pre ++ [i]))) b = .ok (true, a')) →
            (fin (pathCost c pre) = fin (pathCost c pre) ∧ J r.2 ∧ Better c m.dim pre s.1 r.1 ∧
              (FloatOps.le r.1.1 (fin (tourCost c I)) = true ∨
                r.1.1 = XNum.inf ∧ firstLeaf m.dim pre = I ∧ AlongInf c test J pre I ∧
                  ∀ j ∈ done ++ [i], j ∈ pre) ∧
              (r.1 = s.1 ∨ Entered c test J (tourCost c I) I pre.length r.1.2)) := by
          intro r r1 r2 r3 r4 r5
          refine ⟨rfl, r1, h3.trans (Better.trans (Or.inl rfl) r2 hpp) (List.prefix_refl _), Or.inl r3, ?_⟩
          rcases r4 with r4 | r4
          · rw [r4]; exact h5
          rcases r2 with r2 | ⟨-, r2, -, -⟩
          · rw [r2]; exact h5
          right
          intro p hp hk h2p
          rcases Nat.lt_or_ge (pre ++ [i]).length p.length with h | h
          · exact r4 p hp h h2p
          · have hpl : p.length = (pre ++ [i]).length := by simp at h ⊢; omega
            have : p = pre ++ [i] := by
              have a := List.prefix_of_prefix_length_le hp r2 (by omega)
              exact a.eq_of_length hpl
            rw [this] at h2p ⊢
            exact r5 h2p
        have hcont : (pre.contains i) = false := by simpa using hc'
        simp only [hcont, Bool.false_eq_true, if_false]
        by_cases h1 : (pre ++ [i]).length = 1
        · simp only [h1, if_true]
          have hnil : pre = [] := by
            apply List.length_eq_zero_iff.mp
            simpa using h1
          have hpc : pathCost c pre = pathCost c (pre ++ [i]) := by simp [hnil]
          obtain ⟨r, hr, r1, r2, r3, r4⟩ := ih (pre ++ [i]) t hv' (by simp; omega) h2 hpr (hmode' t.2)
          rw [← hpc] at hr
          exact ⟨(fin (pathCost c pre), r), by simp [hr], finish r r1 r2 r3 r4 (fun h => by omega)⟩
        · simp only [h1, if_false]
          have hne : pre ≠ [] := by rintro rfl; simp at h1
          have hpos : 0 < pre.length := List.length_pos_of_ne_nil hne
          have i1 : idx (pre ++ [i]) ((pre ++ [i]).length - 2) = .ok (pre.getLast hne) := by
            apply idx_ok
            rw [List.getLast_eq_getElem]
            simp only [List.length_append, List.length_cons, List.length_nil]
            rw [List.getElem?_append_left (by omega)]
            rw [show pre.length + (0 + 1) - 2 = pre.length - 1 by omega]
            exact List.getElem?_eq_getElem _
          have i2 : idx (pre ++ [i]) ((pre ++ [i]).length - 2 + 1) = .ok i := by
            apply idx_ok
            simp only [List.length_append, List.length_cons, List.length_nil]
            rw [show pre.length + (0 + 1) - 2 + 1 = pre.length by omega]
            simp
          have hlastm := List.getLast_mem hne
          have i3 : m.entry (pre.getLast hne) i = .ok (fin (c (pre.getLast hne) i)) := by
            rw [entry_ok (hv.2 _ hlastm) hi, hm.off _ _ (hv.2 _ hlastm) hi]
            rintro rfl
            exact hc' hlastm
          have hpc : pathCost c pre + c (pre.getLast hne) i = pathCost c (pre ++ [i]) := by
            conv_rhs => rw [← List.dropLast_append_getLast hne]
            rw [List.append_assoc, List.cons_append, List.nil_append, pathCost_snoc,
              List.dropLast_append_getLast]
          have hadd : FloatOps.add (fin (pathCost c pre)) (fin (c (pre.getLast hne) i)) =
              fin (pathCost c (pre ++ [i])) := by rw [XNum.add_fin, hpc]
          simp only [i1, i2, i3, rm_bind_ok, hadd]
          have hlen2 : 2 ≤ (pre ++ [i]).length := by simp; omega
          obtain ⟨go, a', ht, hJ'⟩ :=
            htest t.2 (pre ++ [i]) (pathCost c (pre ++ [i])) t.1.1 h2 hv' hlen2 hpr
          have hback : FloatOps.sub (fin (pathCost c (pre ++ [i])))
              (fin (c (pre.getLast hne) i)) = fin (pathCost c pre) := by
            rw [XNum.sub_fin, ← hpc]; congr 1; ring
          simp only [ht, rm_bind_ok]
          cases go with
          | false =>
            refine ⟨(fin (pathCost c pre), (t.1, a')), by simp [hback], rfl, hJ', h3, ?_, h5⟩
            rcases h4 with h4 | ⟨a, b, d, e⟩
            · exact Or.inl h4
            · obtain ⟨a'', ha''⟩ := d (pre ++ [i]) (by
                rw [← b, ← firstLeaf_snoc hl e hc']; exact prefix_firstLeaf _ _) (by simp) hlen2 t.2 h2
              rw [a] at ht
              rw [ht] at ha''
              simp at ha''
          | true =>
            obtain ⟨r, hr, r1, r2, r3, r4⟩ := ih (pre ++ [i]) (t.1, a') hv' (by simp; omega)
              hJ' hpr (hmode' a')
            refine ⟨(fin (pathCost c pre), r), by simp [hr, hback], finish r r1 r2 r3 r4 fun _ => ?_⟩
            rcases h4 with h4 | ⟨a, b, d, e⟩
            · exact Or.inr ⟨t.2, t.1.1, a', h2, hpr, h4, ht⟩
            · left
              rw [← b, ← firstLeaf_snoc hl e hc']
              exact prefix_firstLeaf _ _

/-- The answer of a search that follows the identity tour first has been entered. -/
theorem solveDfs_entered {σ : Type} {m : Mat (XNum K)} {c : Nat → Nat → K} (hm : Rep m c)
    {test : PruneTest σ (XNum K)} {J : σ → Prop} (ht : TestOk m.dim test J) (hdim : 0 < m.dim)
    {aux : σ} (hJ : J aux) (hal : AlongInf c test J [] (List.range m.dim)) :
    ∃ p, solveDfs m test aux = .ok (fin (tourCost c p), p) ∧ IsTour m.dim p ∧
      tourCost c p ≤ tourCost c (List.range m.dim) ∧
      Entered c test J (tourCost c (List.range m.dim)) (List.range m.dim) 0 p := by
  obtain ⟨r, h1, -, h3, h4, h5⟩ := dfs_entered m c hm test J ht hdim (List.range m.dim) (m.dim + 1) []
    ((XNum.inf, []), aux) (validPre_nil _) (by simp) hJ proper_inf
    (Or.inr ⟨rfl, firstLeaf_nil _, hal⟩)
  rcases h3 with h | ⟨a, -, d, -⟩
  · rw [h] at h4; simp at h4
  · refine ⟨r.1.2, ?_, a, by rw [d] at h4; simpa using h4, ?_⟩
    · unfold solveDfs
      have : (zero : XNum K) = fin (pathCost c []) := rfl
      rw [this, inf_def, h1, ← d]
      rfl
    · rcases h5 with h | h
      · have := a.length
        rw [h] at this
        simp at this
        omega
      · exact h

end Walky
