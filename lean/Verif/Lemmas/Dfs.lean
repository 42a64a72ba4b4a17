import Verif.Model.Exact
import Verif.Lemmas.Cost
import Verif.Lemmas.XNum
import Verif.Rep

/-! # Helper lemmas: the depth-first search -/

set_option linter.unusedSectionVars false

namespace Walky

open FloatOps Spec XNum

variable {K : Type} [Field K] [LinearOrder K] [IsStrictOrderedRing K]

/-- duplicate-free list of valid cities -/
def ValidPre (n : Nat) (p : List Nat) : Prop := p.Nodup ∧ ∀ i ∈ p, i < n

theorem ValidPre.length_le {n : Nat} {p : List Nat} (h : ValidPre n p) : p.length ≤ n := by
  have := (List.subperm_of_subset h.1 (l₂ := List.range n) (fun i hi => by simpa using h.2 i hi))
  simpa using this.length_le

theorem ValidPre.snoc {n : Nat} {p : List Nat} (h : ValidPre n p) {i : Nat} (hi : i < n)
    (hp : i ∉ p) : ValidPre n (p ++ [i]) := by
  refine ⟨?_, ?_⟩
  · rw [List.nodup_append]
    refine ⟨h.1, by simp, ?_⟩
    intro a ha b hb
    simp at hb
    subst hb
    rintro rfl
    exact hp ha
  · intro j hj
    rcases List.mem_append.mp hj with hj | hj
    · exact h.2 j hj
    · simp at hj; omega

/-- The tour that continues `pre` by the missing cities in increasing order. -/
def firstLeaf (n : Nat) (pre : List Nat) : List Nat :=
  pre ++ (List.range n).filter (fun i => !pre.contains i)

/-- lists agreeing up to the next element -/
theorem next_of_prefix {pre q : List Nat} (h : pre <+: q) (hl : pre.length < q.length) :
    ∃ i, pre ++ [i] <+: q ∧ i ∈ q := by
  obtain ⟨t, rfl⟩ := h
  cases t with
  | nil => simp at hl
  | cons i t => exact ⟨i, ⟨t, by simp⟩, by simp⟩

theorem next_notMem {pre q : List Nat} {i : Nat} (h : pre ++ [i] <+: q) (hq : q.Nodup) :
    i ∉ pre := by
  obtain ⟨t, rfl⟩ := h
  intro hi
  simp only [List.append_assoc, List.nodup_append] at hq
  exact hq.2.2 i hi i (by simp) rfl

/-- "the test lets the search follow the tour `q` below `pre`" whenever the best known cost is not
better than `T`. -/
def AlongT {σ : Type} (c : Nat → Nat → K) (test : PruneTest σ (XNum K)) (J : σ → Prop) (T : K)
    (pre q : List Nat) : Prop :=
  ∀ p, p <+: q → pre.length < p.length → 2 ≤ p.length → ∀ a b, J a → Proper b →
    FloatOps.le (fin T) b = true →
    ∃ a', test a p (fin (pathCost c p)) b = .ok (true, a')

/-- the threshold is the length of the tour -/
abbrev Along {σ : Type} (c : Nat → Nat → K) (test : PruneTest σ (XNum K)) (J : σ → Prop)
    (pre q : List Nat) : Prop := AlongT c test J (tourCost c q) pre q

/-- "the test lets the search follow `q` below `pre`" as long as nothing has been found. -/
def AlongInf {σ : Type} (c : Nat → Nat → K) (test : PruneTest σ (XNum K)) (J : σ → Prop)
    (pre q : List Nat) : Prop :=
  ∀ p, p <+: q → pre.length < p.length → 2 ≤ p.length → ∀ a, J a →
    ∃ a', test a p (fin (pathCost c p)) XNum.inf = .ok (true, a')

/-- relation between the result before and after a search below `pre` -/
def Better (c : Nat → Nat → K) (n : Nat) (pre : List Nat) (s r : Solution (XNum K)) : Prop :=
  r = s ∨ (IsTour n r.2 ∧ pre <+: r.2 ∧ r.1 = fin (tourCost c r.2) ∧ FloatOps.lt r.1 s.1 = true)

theorem Better.le {c : Nat → Nat → K} {n : Nat} {pre : List Nat} {s r : Solution (XNum K)}
    (h : Better c n pre s r) (hs : Proper s.1) : FloatOps.le r.1 s.1 = true := by
  rcases h with rfl | ⟨_, _, _, h⟩
  · exact hs.le_refl
  · exact le_of_lt' h

theorem Better.proper {c : Nat → Nat → K} {n : Nat} {pre : List Nat} {s r : Solution (XNum K)}
    (h : Better c n pre s r) (hs : Proper s.1) : Proper r.1 := by
  rcases h with rfl | ⟨_, _, h, _⟩
  · exact hs
  · rw [h]; exact proper_fin _

theorem Better.trans {c : Nat → Nat → K} {n : Nat} {pre pre' : List Nat} {s r t : Solution (XNum K)}
    (h1 : Better c n pre s r) (h2 : Better c n pre' r t) (hp : pre <+: pre') :
    Better c n pre s t := by
  rcases h2 with rfl | ⟨a, b, d, e⟩
  · exact h1
  · right
    refine ⟨a, hp.trans b, d, ?_⟩
    rcases h1 with rfl | ⟨_, _, _, h⟩
    · exact e
    · exact lt_trans' e h

theorem firstLeaf_snoc {n : Nat} {pre done rest : List Nat} {i : Nat}
    (hl : List.range n = done ++ i :: rest) (hd : ∀ j ∈ done, j ∈ pre) (hi : i ∉ pre) :
    firstLeaf n (pre ++ [i]) = firstLeaf n pre := by
  have hnd : (done ++ i :: rest).Nodup := hl ▸ List.nodup_range
  have h1 : done.filter (fun j => !pre.contains j) = [] := by
    simpa [List.filter_eq_nil_iff] using hd
  have h2 : done.filter (fun j => !(pre ++ [i]).contains j) = [] := by
    simp only [List.filter_eq_nil_iff]
    intro j hj
    simp [hd j hj]
  unfold firstLeaf
  rw [hl, List.filter_append, List.filter_append, h1, h2]
  have h3 : rest.filter (fun j => !(pre ++ [i]).contains j) = rest.filter (fun j => !pre.contains j) := by
    apply List.filter_congr
    intro j hj
    have : j ≠ i := by
      rintro rfl
      rw [List.nodup_append] at hnd
      simp at hnd
      exact hnd.2.1.1 hj
    simp [this]
  simp only [List.nil_append]
  have h4 : (i :: rest).filter (fun j => !(pre ++ [i]).contains j) =
      rest.filter (fun j => !pre.contains j) := by
    rw [List.filter_cons_of_neg (by simp), h3]
  have h5 : (i :: rest).filter (fun j => !pre.contains j) =
      i :: rest.filter (fun j => !pre.contains j) := by
    rw [List.filter_cons_of_pos (by simpa using hi)]
  rw [h4, h5]
  simp

theorem firstLeaf_full {n : Nat} {pre : List Nat} (hv : ValidPre n pre) (h : pre.length = n) :
    firstLeaf n pre = pre := by
  have hT : IsTour n pre := isTour_of_nodup hv.1 hv.2 h
  unfold firstLeaf
  have : (List.range n).filter (fun i => !pre.contains i) = [] := by
    rw [List.filter_eq_nil_iff]
    intro i hi
    have : i ∈ pre := hT.mem.mpr (by simpa using hi)
    simp [this]
  rw [this, List.append_nil]

/-- Main lemma about the search below a prefix. -/
theorem dfs_exact {σ : Type} (m : Mat (XNum K)) (c : Nat → Nat → K) (hm : Rep m c)
    (test : PruneTest σ (XNum K)) (J : σ → Prop)
    (htest : ∀ a p x b, J a → ValidPre m.dim p → 2 ≤ p.length → Proper b →
      ∃ go a', test a p (fin x) b = .ok (go, a') ∧ J a')
    (hdim : 0 < m.dim) :
    ∀ (fuel : Nat) (pre : List Nat) (s : Solution (XNum K) × σ), ValidPre m.dim pre →
      m.dim + 1 ≤ fuel + pre.length → J s.2 → Proper s.1.1 →
      ∃ r, dfs m test fuel pre (fin (pathCost c pre)) s = .ok r ∧ J r.2 ∧
        Better c m.dim pre s.1 r.1 ∧
        (∀ q T, IsTour m.dim q → pre <+: q → tourCost c q ≤ T → AlongT c test J T pre q →
          FloatOps.le r.1.1 (fin T) = true) ∧
        (s.1.1 = XNum.inf → AlongInf c test J pre (firstLeaf m.dim pre) →
          FloatOps.le r.1.1 (fin (tourCost c (firstLeaf m.dim pre))) = true) := by
  intro fuel
  induction fuel with
  | zero =>
    intro pre s hv hf
    have := hv.length_le
    omega
  | succ fuel ih =>
    intro pre s hv hf hJ hs
    unfold dfs
    by_cases hlen : pre.length = m.dim
    · have hne : pre ≠ [] := by rintro rfl; simp at hlen; omega
      have hT : IsTour m.dim pre := isTour_of_nodup hv.1 hv.2 hlen
      have hl : pre.getLast? = some (pre.getLast hne) := List.getLast?_eq_getLast_of_ne_nil hne
      have hh : pre.head? = some (pre.head hne) := List.head?_eq_some_head hne
      have hw : m.get (pre.getLast hne) (pre.head hne) =
          fin (c (pre.getLast hne) (pre.head hne)) := by
        rcases Nat.lt_or_ge 1 m.dim with h1 | h1
        · apply hm.off
          · exact hv.2 _ (List.getLast_mem hne)
          · exact hv.2 _ (List.head_mem hne)
          · rw [List.getLast_eq_getElem, List.head_eq_getElem]
            intro h
            have := (List.Nodup.getElem_inj_iff hv.1).mp h
            omega
        · have h1 : m.dim = 1 := by omega
          have a1 := hv.2 _ (List.getLast_mem hne)
          have a2 := hv.2 _ (List.head_mem hne)
          have e1 : pre.getLast hne = 0 := by omega
          have e2 : pre.head hne = 0 := by omega
          rw [e1, e2]
          exact hm.single h1
      have he : m.entry (pre.getLast hne) (pre.head hne) =
          .ok (fin (c (pre.getLast hne) (pre.head hne))) := by
        rw [entry_ok (hv.2 _ (List.getLast_mem hne)) (hv.2 _ (List.head_mem hne)), hw]
      have hcost : FloatOps.add (fin (pathCost c pre))
          (fin (c (pre.getLast hne) (pre.head hne))) = fin (tourCost c pre) := by
        rw [XNum.add_fin, ← tourCost_eq c pre hne]
      simp only [hlen, if_true, hl, hh, unwrapO, rm_bind_ok, he, hcost, rm_pure]
      have hq : ∀ q, IsTour m.dim q → pre <+: q → q = pre := by
        intro q hq hpq
        obtain ⟨t, rfl⟩ := hpq
        have := hq.length
        simp at this
        have : t = [] := List.length_eq_zero_iff.mp (by omega)
        simp [this]
      by_cases hlt : FloatOps.lt (fin (tourCost c pre)) s.1.1 = true
      · refine ⟨((fin (tourCost c pre), pre), s.2), by simp [hlt], hJ, ?_, ?_, ?_⟩
        · right; exact ⟨hT, List.prefix_refl _, rfl, hlt⟩
        · intro q T hq1 hq2 hT _
          rw [hq q hq1 hq2] at hT
          simpa using hT
        · intro _ _
          rw [firstLeaf_full hv hlen]
          exact (proper_fin _).le_refl
      · have hlt' : FloatOps.lt (fin (tourCost c pre)) s.1.1 = false := by simpa using hlt
        refine ⟨s, by simp [hlt'], hJ, Or.inl rfl, ?_, ?_⟩
        · intro q T hq1 hq2 hT _
          rw [hq q hq1 hq2] at hT
          exact le_trans' (Proper.not_lt (proper_fin _) hs hlt') (by simpa using hT)
        · intro hinf _
          rw [hinf] at hlt'
          simp at hlt'
    · simp only [hlen, if_false]
      have hlt : pre.length < m.dim := lt_of_le_of_ne hv.length_le hlen
      have key := foldlM_ok (fun (st : XNum K × Solution (XNum K) × σ) i => do
        let (cur, s) := st
        if pre.contains i then return (cur, s)
        let pre' := pre ++ [i]
        if pre'.length = 1 then do
          let s ← dfs m test fuel pre' cur s
          return (cur, s)
        else do
          let a ← idx pre' (pre'.length - 2)
          let b ← idx pre' (pre'.length - 2 + 1)
          let w ← m.entry a b
          let cur := cur +ᶠ w
          let (go, aux) ← test s.2 pre' cur s.1.1
          let s ← if go then dfs m test fuel pre' cur (s.1, aux) else pure (s.1, aux)
          return (cur -ᶠ w, s))
        (fun done st => st.1 = fin (pathCost c pre) ∧ J st.2.2 ∧ Better c m.dim pre s.1 st.2.1 ∧
          (∀ q T, IsTour m.dim q → pre <+: q → tourCost c q ≤ T → AlongT c test J T pre q →
            (∃ i ∈ done, pre ++ [i] <+: q) → FloatOps.le st.2.1.1 (fin T) = true) ∧
          ((∀ i ∈ done, i ∈ pre) → st.2.1 = s.1) ∧
          (s.1.1 = XNum.inf → AlongInf c test J pre (firstLeaf m.dim pre) → (∃ i ∈ done, i ∉ pre) →
            FloatOps.le st.2.1.1 (fin (tourCost c (firstLeaf m.dim pre))) = true))
        (List.range m.dim) (fin (pathCost c pre), s)
        ⟨rfl, hJ, Or.inl rfl, by simp, by simp, by simp⟩ ?_
      · obtain ⟨b, hb, h1, h2, h3, h4, h5, h6⟩ := key
        refine ⟨b.2, ?_, h2, h3, ?_, ?_⟩
        · rw [hb]; rfl
        · intro q T hq hpq hT hal
          obtain ⟨i, hi, hiq⟩ := next_of_prefix hpq (by rw [hq.length]; exact hlt)
          exact h4 q T hq hpq hT hal ⟨i, by simpa using hq.mem.mp hiq, hi⟩
        · intro hinf hal
          apply h6 hinf hal
          by_contra hcon
          push Not at hcon
          have : (List.range m.dim).Subperm pre :=
            List.subperm_of_subset List.nodup_range hcon
          have := this.length_le
          simp at this
          omega
      · rintro done i rest ⟨cur, t⟩ hl ⟨h1, h2, h3, h4, h5, h6⟩
        simp only at h1 h2 h3 h4 h5 h6
        subst h1
        have hi : i < m.dim := by
          have : i ∈ List.range m.dim := by rw [hl]; simp
          simpa using this
        by_cases hc : pre.contains i = true
        · have hc' : i ∈ pre := by simpa using hc
          refine ⟨(fin (pathCost c pre), t), by simp [hc'], rfl, h2, h3, ?_, ?_, ?_⟩
          · rintro q T hq hpq hT hal ⟨j, hj, hjq⟩
            rcases List.mem_append.mp hj with hj | hj
            · exact h4 q T hq hpq hT hal ⟨j, hj, hjq⟩
            · simp at hj; subst hj
              exact absurd hc' (next_notMem hjq hq.nodup)
          · intro hd
            exact h5 (fun j hj => hd j (by simp [hj]))
          · rintro hinf hal ⟨j, hj, hjp⟩
            rcases List.mem_append.mp hj with hj | hj
            · exact h6 hinf hal ⟨j, hj, hjp⟩
            · simp at hj; subst hj; exact absurd hc' hjp
        · have hc' : i ∉ pre := by simpa using hc
          have hv' := hv.snoc hi hc'
          have hpr : Proper t.1.1 := h3.proper hs
          have hpp : pre <+: pre ++ [i] := List.prefix_append _ _
          -- common conclusion from a step `t ↦ r`
          have finish : ∀ (r : Solution (XNum K) × σ), J r.2 → Better c m.dim pre t.1 r.1 →
              (∀ q T, IsTour m.dim q → pre ++ [i] <+: q → tourCost c q ≤ T → AlongT c test J T pre q →
                FloatOps.le r.1.1 (fin T) = true) →
              (t.1.1 = XNum.inf → AlongInf c test J pre (firstLeaf m.dim (pre ++ [i])) →
                FloatOps.le r.1.1 (fin (tourCost c (firstLeaf m.dim (pre ++ [i])))) = true) →
              (fin (pathCost c pre) = fin (pathCost c pre) ∧ J r.2 ∧ Better c m.dim pre s.1 r.1 ∧
                (∀ q T, IsTour m.dim q → pre <+: q → tourCost c q ≤ T → AlongT c test J T pre q →
                  (∃ j ∈ done ++ [i], pre ++ [j] <+: q) →
                    FloatOps.le r.1.1 (fin T) = true) ∧
                ((∀ j ∈ done ++ [i], j ∈ pre) → r.1 = s.1) ∧
                (s.1.1 = XNum.inf → AlongInf c test J pre (firstLeaf m.dim pre) →
                  (∃ j ∈ done ++ [i], j ∉ pre) →
                  FloatOps.le r.1.1 (fin (tourCost c (firstLeaf m.dim pre))) = true)) := by
            intro r r1 r2 r3 r4
            have hle : FloatOps.le r.1.1 t.1.1 = true := r2.le hpr
            refine ⟨rfl, r1, h3.trans r2 (List.prefix_refl _), ?_, ?_, ?_⟩
            · rintro q T hq hpq hT hal ⟨j, hj, hjq⟩
              rcases List.mem_append.mp hj with hj | hj
              · exact le_trans' hle (h4 q T hq hpq hT hal ⟨j, hj, hjq⟩)
              · simp at hj; subst hj
                exact r3 q T hq hjq hT hal
            · intro hd
              exact absurd (hd i (by simp)) hc'
            · intro hinf hal _
              by_cases hd : ∃ j ∈ done, j ∉ pre
              · exact le_trans' hle (h6 hinf hal hd)
              · push Not at hd
                have e := firstLeaf_snoc hl hd hc'
                rw [← e] at hal ⊢
                exact r4 (by rw [h5 hd]; exact hinf) hal
          have hcont : (pre.contains i) = false := by simpa using hc'
          simp only [hcont, Bool.false_eq_true, if_false]
          by_cases h1 : (pre ++ [i]).length = 1
          · simp only [h1, if_true]
            have hnil : pre = [] := by
              apply List.length_eq_zero_iff.mp
              simpa using h1
            have hpc : pathCost c pre = pathCost c (pre ++ [i]) := by simp [hnil]
            obtain ⟨r, hr, r1, r2, r3, r4⟩ := ih (pre ++ [i]) t hv' (by simp; omega) h2 hpr
            rw [← hpc] at hr
            refine ⟨(fin (pathCost c pre), r), by simp [hr], ?_⟩
            have hall : ∀ p : List Nat, 2 ≤ p.length → (pre ++ [i]).length < p.length := by
              intro p hp; omega
            refine finish r r1 (Better.trans (Or.inl rfl) r2 hpp) ?_ ?_
            · intro q T hq hpq hT hal
              exact r3 q T hq hpq hT (fun p hp _ h2p => hal p hp (by simp [hnil]; omega) h2p)
            · intro hinf hal
              exact r4 hinf (fun p hp _ h2p => hal p hp (by simp [hnil]; omega) h2p)
          · simp only [h1, if_false]
            have hne : pre ≠ [] := by rintro rfl; simp at h1
            have hpos : 0 < pre.length := List.length_pos_of_ne_nil hne
            have i1 : idx (pre ++ [i]) ((pre ++ [i]).length - 2) = .ok (pre.getLast hne) := by
              apply idx_ok
              rw [List.getLast_eq_getElem]
              simp only [List.length_append, List.length_cons, List.length_nil]
              rw [List.getElem?_append_left (by omega)]
              rw [show pre.length + (0 + 1) - 2 = pre.length - 1 by omega]
              exact List.getElem?_eq_getElem _
            have i2 : idx (pre ++ [i]) ((pre ++ [i]).length - 2 + 1) = .ok i := by
              apply idx_ok
              simp only [List.length_append, List.length_cons, List.length_nil]
              rw [show pre.length + (0 + 1) - 2 + 1 = pre.length by omega]
              simp
            have hlastm := List.getLast_mem hne
            have i3 : m.entry (pre.getLast hne) i = .ok (fin (c (pre.getLast hne) i)) := by
              rw [entry_ok (hv.2 _ hlastm) hi, hm.off _ _ (hv.2 _ hlastm) hi]
              rintro rfl
              exact hc' hlastm
            have hpc : pathCost c pre + c (pre.getLast hne) i = pathCost c (pre ++ [i]) := by
              conv_rhs => rw [← List.dropLast_append_getLast hne]
              rw [List.append_assoc, List.cons_append, List.nil_append, pathCost_snoc,
                List.dropLast_append_getLast]
            have hadd : FloatOps.add (fin (pathCost c pre)) (fin (c (pre.getLast hne) i)) =
                fin (pathCost c (pre ++ [i])) := by rw [XNum.add_fin, hpc]
            simp only [i1, i2, i3, rm_bind_ok, hadd]
            have hlen2 : 2 ≤ (pre ++ [i]).length := by simp; omega
            obtain ⟨go, a', ht, hJ'⟩ :=
              htest t.2 (pre ++ [i]) (pathCost c (pre ++ [i])) t.1.1 h2 hv' hlen2 hpr
            have hback : FloatOps.sub (fin (pathCost c (pre ++ [i])))
                (fin (c (pre.getLast hne) i)) = fin (pathCost c pre) := by
              rw [XNum.sub_fin, ← hpc]; congr 1; ring
            simp only [ht, rm_bind_ok]
            cases go with
            | false =>
              refine ⟨(fin (pathCost c pre), (t.1, a')), by simp [hback], ?_⟩
              refine finish (t.1, a') hJ' (Or.inl rfl) ?_ ?_
              · intro q T hq hpq hT hal
                by_contra hcon
                have hcon : FloatOps.le t.1.1 (fin T) = false := by simpa using hcon
                have hlt := Proper.not_le hpr (proper_fin _) hcon
                obtain ⟨a'', ha''⟩ := hal (pre ++ [i]) hpq (by simp) hlen2 t.2 t.1.1 h2 hpr
                  (le_of_lt' hlt)
                rw [ht] at ha''
                simp at ha''
              · intro hinf hal
                obtain ⟨a'', ha''⟩ := hal (pre ++ [i]) ⟨_, rfl⟩ (by simp) hlen2 t.2 h2
                rw [hinf] at ht
                rw [ht] at ha''
                simp at ha''
            | true =>
              obtain ⟨r, hr, r1, r2, r3, r4⟩ := ih (pre ++ [i]) (t.1, a') hv' (by simp; omega)
                hJ' hpr
              refine ⟨(fin (pathCost c pre), r), by simp [hr, hback], ?_⟩
              refine finish r r1 (Better.trans (Or.inl rfl) r2 hpp) ?_ ?_
              · intro q T hq hpq hT hal
                exact r3 q T hq hpq hT (fun p hp hpl h2p => hal p hp (by simp at hpl; omega) h2p)
              · intro hinf hal
                exact r4 hinf (fun p hp hpl h2p => hal p hp (by simp at hpl; omega) h2p)

end Walky
