import Verif.Lemmas.NearExact
import Verif.Lemmas.StaticMpi
import Verif.Lemmas.Binary64

/-! # The search of the MPI solvers in a rounded arithmetic: signs, and what the invariants need -/

namespace Walky

open FloatOps XNum Spec

variable {K : Type} [Field K] [LinearOrder K] [IsStrictOrderedRing K] {R : Rounding K} {B e M : K}
  {m : Mat (XNum K)} {c : Nat → Nat → K} {D : K → Prop}

/-- Rounding does not go below a number of `D` that is not negative. -/
def Rounding.Floors (R : Rounding K) (D : K → Prop) : Prop :=
  ∀ d x, D d → 0 ≤ d → d ≤ x → FloatOps.le (fin d) (R.rnd x) = true

/-- IEEE double precision -/
theorem floors64 : binary64.Floors IsDouble := by
  intro d x hd h0 hle
  change FloatOps.le (fin d) (round64 x) = true
  unfold round64
  by_cases hx : x = 0
  · rw [if_pos hx]
    simp only [XNum.le_fin, decide_eq_true_eq]
    linarith
  rw [if_neg hx]
  have hge : d ≤ nearest64 x := by
    by_contra hlt
    have := nearest64_nearest hx hd
    rw [abs_of_nonpos (by linarith), abs_of_nonpos (by linarith)] at this
    linarith
  split
  · rfl
  · split
    · rename_i h
      have := pow2_pos 1024
      linarith
    · simpa using hge

/-- not negative -/
abbrev NotNeg (x : XNum K) : Prop := FloatOps.le (fin 0) x = true

omit [IsStrictOrderedRing K] in
theorem notNeg_cases {x : XNum K} (h : NotNeg x) : x = XNum.inf ∨ ∃ a, x = fin a ∧ 0 ≤ a := by
  cases x with
  | inf => exact Or.inl rfl
  | fin a => exact Or.inr ⟨a, rfl, by simpa [NotNeg] using h⟩
  | nan => cases h
  | ninf => cases h

/-- a sum is not below the second summand -/
theorem add_floor (h : R.Floors D) {x : XNum K} (hx : NotNeg x) {w : K} (hw : D w) (h0 : 0 ≤ w) :
    FloatOps.le (fin w) (@FloatOps.add _ R.ops x (fin w)) = true := by
  rcases notNeg_cases hx with rfl | ⟨a, rfl, ha⟩
  · rfl
  · exact h w (a + w) hw h0 (by linarith)

omit [IsStrictOrderedRing K] in
theorem notNeg_of_le {x y : XNum K} (hx : NotNeg x) (h : FloatOps.le x y = true) : NotNeg y :=
  XNum.le_trans' hx h

/-- going back -/
theorem sub_notNeg (h : R.Floors D) (hD : D 0) {x : XNum K} {w : K}
    (hx : FloatOps.le (fin w) x = true) : NotNeg (@FloatOps.sub _ R.ops x (fin w)) := by
  cases x with
  | inf => rfl
  | fin a =>
    simp only [XNum.le_fin, decide_eq_true_eq] at hx
    exact h 0 (a - w) hD le_rfl (by linarith)
  | nan => cases hx
  | ninf => cases hx

/-- Costs between different cities are numbers of `D` that are not negative. -/
def PosCosts (D : K → Prop) (n : Nat) (c : Nat → Nat → K) : Prop :=
  ∀ i j, i < n → j < n → i ≠ j → D (c i j) ∧ 0 ≤ c i j

theorem evaluatePath_notNeg (h : R.Floors D) (hm : Rep m c) (hc : PosCosts D m.dim c)
    {p : List Nat} (hv : ValidPre m.dim p) {x : XNum K} (hx : @Mat.evaluatePath _ R.ops m p = .ok x) :
    NotNeg x := by
  unfold Mat.evaluatePath at hx
  have key : ∀ (l : List (Nat × Nat)) (a : XNum K), NotNeg a →
      (∀ q ∈ l, q.1 < m.dim ∧ q.2 < m.dim ∧ q.1 ≠ q.2) → ∀ y,
      l.foldlM (fun acc p => do
        let cost ← m.entry p.1 p.2
        return @FloatOps.add _ R.ops acc cost) a = (.ok y : RM (XNum K)) → NotNeg y := by
    intro l
    induction l with
    | nil =>
      intro a ha _ y hy
      have := Except.ok.inj hy
      rw [← this]
      exact ha
    | cons q l ih =>
      intro a ha hl y hy
      obtain ⟨h1, h2, h3⟩ := hl q (by simp)
      obtain ⟨k1, k2⟩ := hc _ _ h1 h2 h3
      rw [List.foldlM_cons] at hy
      simp only [hm.entry h1 h2 h3, rm_bind_ok, rm_pure] at hy
      refine ih _ (notNeg_of_le ?_ (add_floor h ha k1 k2)) (fun q hq => hl q (by simp [hq])) y hy
      simpa [NotNeg] using k2
  have zero_notNeg : NotNeg (@FloatOps.zero _ R.ops) := by
    change FloatOps.le (fin 0) (fin 0) = true
    simp
  split at hx
  · have := Except.ok.inj hx
    rw [← this]
    exact zero_notNeg
  · exact key _ _ zero_notNeg (fun q hq => ⟨hv.2 _ (mem_pairs hq).1, hv.2 _ (mem_pairs hq).2,
      pairs_ne hv.1 hq⟩) x hx

private theorem foldlM_keep {β γ : Type} {f : γ → β → RM γ} {P : γ → Prop} {l : List β}
    (h : ∀ s, P s → ∀ x ∈ l, ∀ s', f s x = .ok s' → P s') : ∀ {s r : γ}, P s →
    l.foldlM f s = .ok r → P r := by
  induction l with
  | nil =>
    intro s r hs hr
    rw [← Except.ok.inj hr]
    exact hs
  | cons x t ih =>
    intro s r hs hr
    rw [List.foldlM_cons] at hr
    cases hx : f s x with
    | error e => rw [hx] at hr; cases hr
    | ok s' =>
      rw [hx] at hr
      exact ih (fun s hs y hy => h s hs y (by simp [hy])) (h s hs x (by simp) s' hx) hr

/-- In the recursion no cost becomes negative. -/
theorem dfs_notNeg (h : R.Floors D) (hD : D 0) (hm : Rep m c) (hd : 2 ≤ m.dim) (hc : PosCosts D m.dim c)
    {σ : Type} {test : PruneTest σ (XNum K)} : ∀ (fuel : Nat) (pre : List Nat) (cost : XNum K)
    (s r : Solution (XNum K) × σ), ValidPre m.dim pre → NotNeg cost → NotNeg s.1.1 →
    @dfs _ R.ops _ m test fuel pre cost s = .ok r → NotNeg r.1.1 := by
  intro fuel
  induction fuel with
  | zero => intro pre cost s r _ _ _ hr; cases hr
  | succ fuel ih =>
    intro pre cost s r hv hcost hs hr
    unfold dfs at hr
    by_cases hlen : pre.length = m.dim
    · have hne : pre ≠ [] := by rintro rfl; simp at hlen; omega
      have hl : pre.getLast? = some (pre.getLast hne) := List.getLast?_eq_getLast_of_ne_nil hne
      have hh : pre.head? = some (pre.head hne) := List.head?_eq_some_head hne
      have b1 := hv.2 _ (List.getLast_mem hne)
      have b2 := hv.2 _ (List.head_mem hne)
      have b3 : pre.getLast hne ≠ pre.head hne := by
        rw [List.getLast_eq_getElem, List.head_eq_getElem]
        intro h'
        have := (List.Nodup.getElem_inj_iff hv.1).mp h'
        omega
      simp only [hlen, if_true, hl, hh, unwrapO, rm_bind_ok, hm.entry b1 b2 b3, rm_pure] at hr
      obtain ⟨k1, k2⟩ := hc _ _ b1 b2 b3
      split at hr
      · rw [← Except.ok.inj hr]
        exact notNeg_of_le (by simpa [NotNeg] using k2) (add_floor h hcost k1 k2)
      · rw [← Except.ok.inj hr]
        exact hs
    · simp only [hlen, if_false] at hr
      cases hf : (List.range m.dim).foldlM (fun (st : XNum K × Solution (XNum K) × σ) i => do
        let (cur, s) := st
        if pre.contains i then return (cur, s)
        let pre' := pre ++ [i]
        if pre'.length = 1 then do
          let s ← @dfs _ R.ops _ m test fuel pre' cur s
          return (cur, s)
        else do
          let a ← idx pre' (pre'.length - 2)
          let b ← idx pre' (pre'.length - 2 + 1)
          let w ← m.entry a b
          let cur := @FloatOps.add _ R.ops cur w
          let (go, aux) ← test s.2 pre' cur s.1.1
          let s ← if go then @dfs _ R.ops _ m test fuel pre' cur (s.1, aux) else pure (s.1, aux)
          return (@FloatOps.sub _ R.ops cur w, s)) (cost, s) with
      | error e =>
        have : (Except.error e : RM (XNum K × Solution (XNum K) × σ)) >>= (fun r => pure r.2) = .ok r := by
          rw [← hf]
          exact hr
        cases this
      | ok st =>
        have hst : st.2 = r := by
          have : (Except.ok st : RM (XNum K × Solution (XNum K) × σ)) >>= (fun r => pure r.2) = .ok r := by
            rw [← hf]
            exact hr
          exact Except.ok.inj this
        rw [← hst]
        refine (foldlM_keep (P := fun st => NotNeg st.1 ∧ NotNeg st.2.1.1) ?_ ⟨hcost, hs⟩ hf).2
        rintro ⟨cur, t⟩ ⟨h1, h2⟩ i hi u hu
        have hi : i < m.dim := by simpa using hi
        by_cases hcn : i ∈ pre
        · simp [hcn] at hu
          rw [← hu]
          exact ⟨h1, h2⟩
        have hv' := hv.snoc hi hcn
        have hcont : (pre.contains i) = false := by simpa using hcn
        simp only [hcont, Bool.false_eq_true, if_false] at hu
        by_cases hl1 : (pre ++ [i]).length = 1
        · simp only [hl1, if_true] at hu
          cases hdf : @dfs _ R.ops _ m test fuel (pre ++ [i]) cur t with
          | error e => rw [hdf] at hu; cases hu
          | ok t' =>
            rw [hdf] at hu
            rw [← Except.ok.inj hu]
            exact ⟨h1, ih _ _ _ _ hv' h1 h2 hdf⟩
        · simp only [hl1, if_false] at hu
          have hne : pre ≠ [] := by rintro rfl; simp at hl1
          have hpos : 0 < pre.length := List.length_pos_of_ne_nil hne
          have i1 : idx (pre ++ [i]) ((pre ++ [i]).length - 2) = .ok (pre.getLast hne) := by
            apply idx_ok
            rw [List.getLast_eq_getElem]
            simp only [List.length_append, List.length_cons, List.length_nil]
            rw [List.getElem?_append_left (by omega)]
            rw [show pre.length + (0 + 1) - 2 = pre.length - 1 by omega]
            exact List.getElem?_eq_getElem _
          have i2 : idx (pre ++ [i]) ((pre ++ [i]).length - 2 + 1) = .ok i := by
            apply idx_ok
            simp only [List.length_append, List.length_cons, List.length_nil]
            rw [show pre.length + (0 + 1) - 2 + 1 = pre.length by omega]
            simp
          have hlastm := List.getLast_mem hne
          have hneq : pre.getLast hne ≠ i := by rintro rfl; exact hcn hlastm
          have i3 : m.entry (pre.getLast hne) i = .ok (fin (c (pre.getLast hne) i)) :=
            hm.entry (hv.2 _ hlastm) hi hneq
          obtain ⟨k1, k2⟩ := hc _ _ (hv.2 _ hlastm) hi hneq
          simp only [i1, i2, i3, rm_bind_ok] at hu
          have hfl := add_floor h h1 k1 k2
          have hy : NotNeg (@FloatOps.add _ R.ops cur (fin (c (pre.getLast hne) i))) :=
            notNeg_of_le (by simpa [NotNeg] using k2) hfl
          cases ht : test t.2 (pre ++ [i]) (@FloatOps.add _ R.ops cur (fin (c (pre.getLast hne) i))) t.1.1 with
          | error e => rw [ht] at hu; cases hu
          | ok ga =>
            obtain ⟨go, aux⟩ := ga
            rw [ht] at hu
            simp only [rm_bind_ok] at hu
            cases go with
            | false =>
              simp only [Bool.false_eq_true, if_false, rm_pure, rm_bind_ok] at hu
              rw [← Except.ok.inj hu]
              exact ⟨sub_notNeg h hD hfl, h2⟩
            | true =>
              simp only [if_true] at hu
              cases hdf : @dfs _ R.ops _ m test fuel (pre ++ [i])
                  (@FloatOps.add _ R.ops cur (fin (c (pre.getLast hne) i))) (t.1, aux) with
              | error e => rw [hdf] at hu; cases hu
              | ok t' =>
                rw [hdf] at hu
                rw [← Except.ok.inj hu]
                exact ⟨sub_notNeg h hD hfl, ih _ _ (t.1, aux) _ hv' hy h2 hdf⟩

theorem searchMpi_notNeg (h : R.Floors D) (hD : D 0) (hm : Rep m c) (hd : 2 ≤ m.dim)
    (hc : PosCosts D m.dim c) {g : XNum K} {pre : List Nat} (hv : ValidPre m.dim pre)
    {r : Solution (XNum K)} (hr : @searchMpi _ R.ops m g pre = .ok r) : NotNeg r.1 := by
  unfold searchMpi at hr
  cases hx : @Mat.evaluatePath _ R.ops m pre with
  | error e => rw [hx] at hr; cases hr
  | ok x =>
    rw [hx] at hr
    simp only [rm_bind_ok] at hr
    cases hdf : @dfs _ R.ops _ m (@testMpi _ R.ops m g) (m.dim + 1) pre x
        ((@FloatOps.inf _ R.ops, []), ()) with
    | error e => rw [hdf] at hr; cases hr
    | ok t =>
      rw [hdf] at hr
      rw [← Except.ok.inj hr]
      exact dfs_notNeg h hD hm hd hc _ _ _ _ _ hv (evaluatePath_notNeg h hm hc hv hx) rfl hdf

theorem firstLeaf_prefix (n : Nat) (pre : List Nat) : pre <+: firstLeaf n pre := ⟨_, rfl⟩

theorem firstLeaf_tour {n : Nat} {pre : List Nat} (hv : ValidPre n pre) : IsTour n (firstLeaf n pre) := by
  unfold IsTour firstLeaf
  refine (List.perm_ext_iff_of_nodup ?_ List.nodup_range).mpr ?_
  · rw [List.nodup_append]
    refine ⟨hv.1, List.nodup_range.filter _, ?_⟩
    intro a ha b hb e
    subst e
    simp at hb
    exact hb.2 ha
  · intro a
    simp only [List.mem_append, List.mem_filter, List.mem_range]
    constructor
    · rintro (h | h)
      · exact hv.2 a h
      · exact h.1
    · intro h
      by_cases ha : a ∈ pre
      · exact Or.inl ha
      · exact Or.inr ⟨h, by simpa using ha⟩

/-- a tour and its length up to `(2 n² + 1) e`; not negative if the costs are not -/
def nearV (D : K → Prop) (n : Nat) (c : Nat → Nat → K) (e : K) : List Nat → K → Prop :=
  fun q w => |w - tourCost c q| ≤ (2 * n * n + 1 : Nat) * e ∧ (PosCosts D n c → 0 ≤ w)

/-- bounds that the search does not prune: twice the length of the tour, and everything from `B` upwards -/
def nearA (B : K) (n : Nat) (c : Nat → Nat → K) (e : K) : K → List Nat → List Nat → Prop :=
  fun T _ q => B ≤ T ∨
    (Symm n c ∧ Nonneg n c ∧ T = 2 * tourCost c q + (2 * n * n + 3 * n + 1 : Nat) * e)

/-- The search of the MPI solvers -/
theorem searchMpi_msearch (h : R.Fits B e M m c) (hF : R.Floors D) (hD : D 0) :
    MSearch m.dim (@searchMpi _ R.ops m) (nearV D m.dim c e) (nearA B m.dim c e) := by
  intro g pre hg hv
  obtain ⟨r, r1, r2, r3, r4, r5⟩ := searchMpi_near h hg hv
  have hsol : SolOk m.dim (nearV D m.dim c e) r := by
    rcases r3 with h' | ⟨k1, w, k2, k3⟩
    · exact Or.inl h'
    · refine Or.inr ⟨k1, w, k2, k3, fun hc => ?_⟩
      have := searchMpi_notNeg hF hD h.rep h.dim hc hv r1
      rw [k2] at this
      simpa [NotNeg] using this
  refine ⟨r, r1, hsol, ?_, ?_⟩
  · rintro q T hq hpq (hT | ⟨hs, hn, rfl⟩)
    · have hBT : FloatOps.le (fin B) (fin T) = true := by simpa using hT
      rcases r4 q hq hpq with h' | h'
      · exact Or.inr (XNum.le_trans' h' hBT)
      · exact Or.inl (XNum.le_trans' h' hBT)
    · exact (r5 hs hn q hq hpq).symm
  · rintro rfl
    rcases hsol with h' | ⟨h', -⟩
    · rcases r4 _ (firstLeaf_tour hv) (firstLeaf_prefix _ _) with h2 | h2
      · rw [h'] at h2
        simp at h2
      · simp at h2
    · exact h'

end Walky
