import Verif.Lemmas.DfsThrough
import Verif.Lemmas.ExactUpper
import Mathlib.Tactic.Linarith
import Mathlib.Tactic.Ring

/-! # Helper lemmas: the search of v4 on two metric spaces that are glued at a city -/

set_option linter.unusedSectionVars false

namespace Walky

open FloatOps Spec XNum

/-! ## loops -/

theorem foldlM_sim {ι β γ : Type} {f : β → ι → RM β} {f' : γ → ι → RM γ} (R : β → γ → Prop) :
    ∀ (l : List ι) (b : β) (b' : γ) (r : β), R b b' →
      (∀ x ∈ l, ∀ b b' y, R b b' → f b x = .ok y → ∃ y', f' b' x = .ok y' ∧ R y y') →
      l.foldlM f b = .ok r → ∃ r', l.foldlM f' b' = .ok r' ∧ R r r'
  | [], b, b', r, h, _, e => by
    simp only [List.foldlM_nil, rm_pure, Except.ok.injEq] at e
    subst e
    exact ⟨b', rfl, h⟩
  | x :: l, b, b', r, h, hs, e => by
    rw [List.foldlM_cons] at e
    cases hy : f b x with
    | error p => rw [hy] at e; simp at e
    | ok y =>
      rw [hy, rm_bind_ok] at e
      obtain ⟨y', h1, h2⟩ := hs x (by simp) b b' y h hy
      obtain ⟨r', h3, h4⟩ := foldlM_sim R l y y' r h2 (fun z hz => hs z (by simp [hz])) e
      exact ⟨r', by rw [List.foldlM_cons, h1, rm_bind_ok, h3], h4⟩

theorem foldlM_skip {ι β : Type} {f : β → ι → RM β} (b : β) :
    ∀ (l : List ι), (∀ x ∈ l, f b x = .ok b) → l.foldlM f b = .ok b
  | [], _ => rfl
  | x :: l, h => by
    rw [List.foldlM_cons, h x (by simp), rm_bind_ok]
    exact foldlM_skip b l (fun y hy => h y (by simp [hy]))

theorem foldl_sim {ι β γ : Type} {f : β → ι → β} {f' : γ → ι → γ} (R : β → γ → Prop) :
    ∀ (l : List ι) (b : β) (b' : γ), R b b' →
      (∀ x ∈ l, ∀ b b', R b b' → R (f b x) (f' b' x)) → R (l.foldl f b) (l.foldl f' b')
  | [], _, _, h, _ => h
  | x :: l, _, _, h, hs => foldl_sim R l _ _ (hs x (by simp) _ _ h) (fun y hy => hs y (by simp [hy]))

/-! ## one step of the search -/

section
variable {K : Type} [Field K] [LinearOrder K] [IsStrictOrderedRing K]

/-- the body of the loop of `dfs` -/
def dfsBody {σ : Type} (m : Mat (XNum K)) (test : PruneTest σ (XNum K)) (fuel : Nat) (pre : List Nat)
    (st : XNum K × Solution (XNum K) × σ) (i : Nat) : RM (XNum K × Solution (XNum K) × σ) := do
  let (cur, s) := st
  if pre.contains i then return (cur, s)
  let pre' := pre ++ [i]
  if pre'.length = 1 then do
    let s ← dfs m test fuel pre' cur s
    return (cur, s)
  else do
    let a ← idx pre' (pre'.length - 2)
    let b ← idx pre' (pre'.length - 2 + 1)
    let w ← m.entry a b
    let cur := cur +ᶠ w
    let (go, aux) ← test s.2 pre' cur s.1.1
    let s ← if go then dfs m test fuel pre' cur (s.1, aux) else pure (s.1, aux)
    return (cur -ᶠ w, s)

theorem dfs_inner {σ : Type} (m : Mat (XNum K)) (test : PruneTest σ (XNum K)) (fuel : Nat)
    {pre : List Nat} (cost : XNum K) (s : Solution (XNum K) × σ) (h : pre.length ≠ m.dim) :
    dfs m test (fuel + 1) pre cost s = (do
      let r ← (List.range m.dim).foldlM (dfsBody m test fuel pre) (cost, s)
      return r.2) := by
  conv_lhs => unfold dfs
  simp only [h, if_false]
  rfl

theorem dfsBody_old {σ : Type} (m : Mat (XNum K)) (test : PruneTest σ (XNum K)) (fuel : Nat)
    {pre : List Nat} (st : XNum K × Solution (XNum K) × σ) {i : Nat} (h : i ∈ pre) :
    dfsBody m test fuel pre st i = .ok st := by
  unfold dfsBody
  simp [h]

theorem dfsBody_new {σ : Type} {m : Mat (XNum K)} {c : Nat → Nat → K} (hm : Rep m c)
    (test : PruneTest σ (XNum K)) (fuel : Nat) {pre : List Nat} (hv : ValidPre m.dim pre)
    (hne : pre ≠ []) {i : Nat} (hi : i < m.dim) (hc' : i ∉ pre) (s : Solution (XNum K) × σ) :
    dfsBody m test fuel pre (fin (pathCost c pre), s) i = (do
      let t ← test s.2 (pre ++ [i]) (fin (pathCost c (pre ++ [i]))) s.1.1
      let r ← if t.1 then dfs m test fuel (pre ++ [i]) (fin (pathCost c (pre ++ [i]))) (s.1, t.2)
        else pure (s.1, t.2)
      return (fin (pathCost c pre), r)) := by
  have hcont : (pre.contains i) = false := by simpa using hc'
  have hpos : 0 < pre.length := List.length_pos_of_ne_nil hne
  have h1 : ¬ (pre ++ [i]).length = 1 := by simp; omega
  have i1 : idx (pre ++ [i]) ((pre ++ [i]).length - 2) = .ok (pre.getLast hne) := by
    apply idx_ok
    rw [List.getLast_eq_getElem]
    simp only [List.length_append, List.length_cons, List.length_nil]
    rw [List.getElem?_append_left (by omega)]
    rw [show pre.length + (0 + 1) - 2 = pre.length - 1 by omega]
    exact List.getElem?_eq_getElem _
  have i2 : idx (pre ++ [i]) ((pre ++ [i]).length - 2 + 1) = .ok i := by
    apply idx_ok
    simp only [List.length_append, List.length_cons, List.length_nil]
    rw [show pre.length + (0 + 1) - 2 + 1 = pre.length by omega]
    simp
  have hlastm := List.getLast_mem hne
  have i3 : m.entry (pre.getLast hne) i = .ok (fin (c (pre.getLast hne) i)) := by
    rw [entry_ok (hv.2 _ hlastm) hi, hm.off _ _ (hv.2 _ hlastm) hi]
    rintro rfl
    exact hc' hlastm
  have hpc : pathCost c pre + c (pre.getLast hne) i = pathCost c (pre ++ [i]) := by
    conv_rhs => rw [← List.dropLast_append_getLast hne]
    rw [List.append_assoc, List.cons_append, List.nil_append, pathCost_snoc,
      List.dropLast_append_getLast]
  have hadd : FloatOps.add (fin (pathCost c pre)) (fin (c (pre.getLast hne) i)) =
      fin (pathCost c (pre ++ [i])) := by rw [XNum.add_fin, hpc]
  have hback : FloatOps.sub (fin (pathCost c (pre ++ [i])))
      (fin (c (pre.getLast hne) i)) = fin (pathCost c pre) := by
    rw [XNum.sub_fin, ← hpc]; congr 1; ring
  unfold dfsBody
  simp only [hcont, Bool.false_eq_true, if_false, h1, i1, i2, i3, rm_bind_ok, hadd, hback]

end

/-! ## the glued space -/

/-- The cities `0, …, a` of a space `d` and, from city `a` on, the cities of the space `g`, `lam` times
as large; city `a` is the common city, and all ways from one part to the other go through it. -/
def glue (a : Nat) (lam : ℚ) (d : Nat → Nat → ℚ) (g : Nat → Nat → ℤ) (i j : Nat) : ℚ :=
  d (min i a) (min j a) + lam * g (i - a) (j - a)

/-- the costs of the second space -/
def ofInt (g : Nat → Nat → ℤ) (i j : Nat) : ℚ := g i j

variable {a k : Nat} {lam : ℚ} {d : Nat → Nat → ℚ} {g : Nat → Nat → ℤ}

theorem glue_metric (hk : 1 ≤ k) (hd : Metric (a + 1) d) (hg : Metric k (ofInt g)) (hl : 0 ≤ lam) :
    Metric (a + k) (glue a lam d g) := by
  have h1 : ∀ i, min i a < a + 1 := fun i => by omega
  have h2 : ∀ i, i < a + k → i - a < k := fun i hi => by omega
  refine ⟨fun i hi => ?_, fun i j hi hj => ?_, fun i j l hi hj hl' => ?_⟩
  · have := hg.diag _ (h2 i hi)
    simp only [ofInt] at this
    simp [glue, hd.diag _ (h1 i), this]
  · have := hg.symm _ _ (h2 i hi) (h2 j hj)
    simp only [ofInt] at this
    simp only [glue, hd.symm _ _ (h1 i) (h1 j), this]
  · have t1 := hd.tri _ _ _ (h1 i) (h1 j) (h1 l)
    have t2 := hg.tri _ _ _ (h2 i hi) (h2 j hj) (h2 l hl')
    simp only [ofInt] at t2
    have t3 := mul_le_mul_of_nonneg_left t2 hl
    simp only [glue]
    linarith

theorem glue_hi (hd : d a a = 0) (i j : Nat) :
    glue a lam d g (a + i) (a + j) = lam * g i j := by
  simp [glue, hd]

theorem glue_lo (hg : g 0 0 = 0) {i j : Nat} (hi : i ≤ a) (hj : j ≤ a) :
    glue a lam d g i j = d i j := by
  simp [glue, Nat.min_eq_left hi, Nat.min_eq_left hj, Nat.sub_eq_zero_of_le hi,
    Nat.sub_eq_zero_of_le hj, hg]

/-- the prefix `0, …, a - 1` followed by a path in the second space -/
def gpath (a : Nat) (q : List Nat) : List Nat := List.range a ++ q.map (a + ·)

theorem gpath_zero (a : Nat) : gpath a [0] = List.range (a + 1) := by
  simp [gpath, List.range_succ]

theorem gpath_snoc (a : Nat) (q : List Nat) (i : Nat) : gpath a (q ++ [i]) = gpath a q ++ [a + i] := by
  simp [gpath]

theorem gpath_length (a : Nat) (q : List Nat) : (gpath a q).length = a + q.length := by simp [gpath]

theorem mem_gpath {a : Nat} {q : List Nat} {i : Nat} : a + i ∈ gpath a q ↔ i ∈ q := by
  simp [gpath]

theorem gpath_valid {q : List Nat} (hq : ValidPre k q) : ValidPre (a + k) (gpath a q) := by
  refine ⟨?_, ?_⟩
  · unfold gpath
    rw [List.nodup_append]
    refine ⟨List.nodup_range, hq.1.map (fun _ _ h => by simpa using h), ?_⟩
    intro x hx y hy e
    simp only [List.mem_range] at hx
    obtain ⟨z, -, rfl⟩ := List.mem_map.mp hy
    omega
  · intro i hi
    unfold gpath at hi
    rcases List.mem_append.mp hi with h | h
    · simp only [List.mem_range] at h; omega
    · obtain ⟨z, hz, rfl⟩ := List.mem_map.mp h
      have := hq.2 z hz
      omega

theorem pathCost_hi (hd : d a a = 0) : ∀ q : List Nat,
    pathCost (glue a lam d g) (q.map (a + ·)) = lam * pathCost (ofInt g) q
  | [] => by simp
  | [x] => by simp
  | x :: y :: t => by
    have := pathCost_hi hd (y :: t)
    simp only [List.map_cons] at this ⊢
    rw [pathCost_cons₂, pathCost_cons₂, this, glue_hi hd]
    simp only [ofInt]
    ring

theorem pathCost_lo (hg : g 0 0 = 0) :
    pathCost (glue a lam d g) (List.range (a + 1)) = pathCost d (List.range (a + 1)) := by
  refine pathCost_congr fun i j h => ?_
  have hi : i ∈ List.range (a + 1) := h.subset (by simp)
  have hj : j ∈ List.range (a + 1) := h.subset (by simp)
  simp only [List.mem_range] at hi hj
  exact glue_lo hg (by omega) (by omega)

theorem pathCost_gpath (hd : d a a = 0) (hg : g 0 0 = 0) (q : List Nat) :
    pathCost (glue a lam d g) (gpath a (0 :: q)) =
      pathCost d (List.range (a + 1)) + lam * pathCost (ofInt g) (0 :: q) := by
  unfold gpath
  have := pathCost_hi (lam := lam) (g := g) hd (0 :: q)
  rw [List.map_cons] at this ⊢
  rw [pathCost_append, this]
  congr 1
  rw [← pathCost_lo (lam := lam) hg, List.range_succ]
  rfl

theorem pathCost_int (q : List Nat) : ∃ z : ℤ, pathCost (ofInt g) q = z := by
  induction q with
  | nil => exact ⟨0, by simp⟩
  | cons x t ih =>
    cases t with
    | nil => exact ⟨0, by simp⟩
    | cons y t =>
      obtain ⟨z, hz⟩ := ih
      exact ⟨g x y + z, by rw [pathCost_cons₂, hz]; simp [ofInt]⟩

/-! ## the bound of v4 in the glued space -/

/-- a number of the second space and the number in the glued space -/
def Scaled (lam : ℚ) (x y : XNum ℚ) : Prop :=
  (x = XNum.inf ∧ y = XNum.inf) ∨ ∃ z : ℤ, x = fin (z : ℚ) ∧ y = fin (lam * z)

theorem shortestLater_glue (hd : d a a = 0) (hl : 0 < lam) (q : List Nat) {i : Nat} (hi : i < k) :
    Scaled lam (shortestLaterEdge (Mat.ofFun k (ofInt g)) q i)
      (shortestLaterEdge (Mat.ofFun (a + k) (glue a lam d g)) (gpath a q) (a + i)) := by
  unfold shortestLaterEdge
  have hr : List.range' (a + i + 1) ((Mat.ofFun (a + k) (glue a lam d g)).dim - (a + i + 1)) =
      (List.range' (i + 1) ((Mat.ofFun k (ofInt g)).dim - (i + 1))).map (a + ·) := by
    rw [List.map_add_range']
    simp only [Mat.ofFun]
    congr 1
    omega
  rw [hr, List.foldl_map]
  refine foldl_sim (Scaled lam) _ _ _ (Or.inl ⟨rfl, rfl⟩) ?_
  intro j _ x y hxy
  have hcon : (gpath a q).contains (a + j) = q.contains j := by
    rw [Bool.eq_iff_iff]
    simp [mem_gpath]
  rw [hcon]
  split
  · exact hxy
  · have e : (Mat.ofFun (a + k) (glue a lam d g)).get (a + i) (a + j) = fin (lam * g i j) := by
      simp [Mat.ofFun, glue_hi hd]
    have e' : (Mat.ofFun k (ofInt g)).get i j = fin (g i j : ℚ) := rfl
    rw [e, e']
    rcases hxy with ⟨rfl, rfl⟩ | ⟨z, rfl, rfl⟩
    · have l1 : FloatOps.lt (fin (g i j : ℚ)) XNum.inf = true := rfl
      have l2 : FloatOps.lt (fin (lam * (g i j : ℚ))) XNum.inf = true := rfl
      rw [l1, l2]
      exact Or.inr ⟨g i j, rfl, rfl⟩
    · have : FloatOps.lt (fin (lam * (g i j : ℚ))) (fin (lam * (z : ℚ))) =
          FloatOps.lt (fin (g i j : ℚ)) (fin (z : ℚ)) := by
        simp only [XNum.lt_fin]
        rw [decide_eq_decide]
        exact mul_lt_mul_iff_right₀ hl
      rw [this]
      split
      · exact Or.inr ⟨g i j, rfl, rfl⟩
      · exact Or.inr ⟨z, rfl, rfl⟩

theorem nnOfRemaining_glue (hd : d a a = 0) (hl : 0 < lam) (q : List Nat) :
    ∃ z : ℤ, nnOfRemaining (Mat.ofFun k (ofInt g)) q = fin (z : ℚ) ∧
      nnOfRemaining (Mat.ofFun (a + k) (glue a lam d g)) (gpath a q) = fin (lam * z) := by
  unfold nnOfRemaining
  have hr : List.range (Mat.ofFun (a + k) (glue a lam d g)).dim =
      List.range a ++ (List.range (Mat.ofFun k (ofInt g)).dim).map (a + ·) := by
    simp only [Mat.ofFun]
    rw [List.range_add]
  rw [hr, List.foldl_append, List.foldl_map]
  have h0 : ∀ l : List Nat, (∀ x ∈ l, x < a) → ∀ b : XNum ℚ, l.foldl (fun res i =>
      if (gpath a q).contains i then res
      else
        let e := shortestLaterEdge (Mat.ofFun (a + k) (glue a lam d g)) (gpath a q) i
        if !(FloatOps.eq e FloatOps.inf) then res +ᶠ e else res) b = b := by
    intro l
    induction l with
    | nil => intro _ _; rfl
    | cons x l ih =>
      intro hx b
      rw [List.foldl_cons]
      have : (gpath a q).contains x = true := by
        have := hx x (by simp)
        simp [gpath, this]
      rw [if_pos this]
      exact ih (fun y hy => hx y (by simp [hy])) b
  rw [h0 _ (fun x hx => by simpa using hx)]
  refine foldl_sim (fun x y => ∃ z : ℤ, x = fin (z : ℚ) ∧ y = fin (lam * z)) _ _ _
    ⟨0, by simp, by simp⟩ ?_
  rintro i hi x y ⟨z, rfl, rfl⟩
  have hi' : i < k := by simpa [Mat.ofFun] using hi
  have hcon : (gpath a q).contains (a + i) = q.contains i := by
    rw [Bool.eq_iff_iff]
    simp [mem_gpath]
  rw [hcon]
  split
  · exact ⟨z, rfl, rfl⟩
  · rcases shortestLater_glue (g := g) hd hl q hi' with ⟨e1, e2⟩ | ⟨w, e1, e2⟩
    · simp only [e1, e2]
      exact ⟨z, by simp, by simp⟩
    · simp only [e1, e2]
      exact ⟨z + w, by simp, by simp [mul_add]⟩

/-! ## the search below `0, …, a` is the search in the second space -/

/-- solutions of the second space and of the glued space -/
def SolRel (lam P : ℚ) (s t : Solution (XNum ℚ) × Unit) : Prop :=
  (s.1.1 = XNum.inf ∧ t.1.1 = XNum.inf) ∨
    ∃ z : ℤ, s.1.1 = fin (z : ℚ) ∧ t.1.1 = fin (P + lam * z)

theorem dfs_glue (hk : 2 ≤ k) (hd : d a a = 0) (hg : g 0 0 = 0) (hl : 0 < lam)
    (hD0 : 0 ≤ d a 0) (hD : d a 0 < lam) :
    ∀ (fuel : Nat) (q : List Nat) (s t r : Solution (XNum ℚ) × Unit), ValidPre k (0 :: q) →
      SolRel lam (pathCost d (List.range (a + 1)) + d a 0) s t →
      dfs (Mat.ofFun k (ofInt g)) (test4 (Mat.ofFun k (ofInt g))) fuel (0 :: q)
        (fin (pathCost (ofInt g) (0 :: q))) s = .ok r →
      ∃ r', dfs (Mat.ofFun (a + k) (glue a lam d g))
          (test4 (Mat.ofFun (a + k) (glue a lam d g))) fuel (gpath a (0 :: q))
          (fin (pathCost (glue a lam d g) (gpath a (0 :: q)))) t = .ok r' ∧
        SolRel lam (pathCost d (List.range (a + 1)) + d a 0) r r' := by
  set P := pathCost d (List.range (a + 1)) with hP
  intro fuel
  induction fuel with
  | zero => intro q s t r _ _ h; simp [dfs] at h
  | succ fuel ih =>
    intro q s t r hv hst hr
    have hm := rep_ofFun k (ofInt g)
    have hM := rep_ofFun (a + k) (glue a lam d g)
    by_cases hlen : (0 :: q).length = k
    · -- a whole tour
      have hlen' : (gpath a (0 :: q)).length = a + k := by rw [gpath_length, hlen]
      obtain ⟨l, hq⟩ : ∃ l, (0 :: q).getLast? = some l := by
        cases h : (0 :: q).getLast? with
        | none => simp at h
        | some l => exact ⟨l, rfl⟩
      have hq' : (gpath a (0 :: q)).getLast? = some (a + l) := by
        unfold gpath
        rw [List.getLast?_append, List.getLast?_map, hq]
        rfl
      have hh' : (gpath a (0 :: q)).head? = some 0 := by
        unfold gpath
        cases a with
        | zero => simp
        | succ a => simp [List.range_succ_eq_map]
      have hl0 : l ≠ 0 := by
        have hne : q ≠ [] := by rintro rfl; simp at hlen; omega
        have e : l = q.getLast hne := by
          rw [List.getLast?_cons, List.getLast?_eq_some_getLast hne] at hq
          simpa using hq.symm
        have := hv.1
        rw [List.nodup_cons] at this
        rintro rfl
        exact this.1 (e ▸ List.getLast_mem hne)
      have hlk : l < k := hv.2 l (List.mem_of_getLast? hq)
      have e1 : (Mat.ofFun k (ofInt g)).entry l 0 = .ok (fin (g l 0 : ℚ)) := by
        rw [entry_ok (m := Mat.ofFun k (ofInt g)) hlk (by show 0 < k; omega)]; rfl
      have e2 : (Mat.ofFun (a + k) (glue a lam d g)).entry (a + l) 0 =
          .ok (fin (d a 0 + lam * g l 0)) := by
        rw [entry_ok (m := Mat.ofFun (a + k) (glue a lam d g)) (by show a + l < a + k; omega)
          (by show 0 < a + k; omega)]
        simp [Mat.ofFun, glue]
      unfold dfs at hr ⊢
      have c1 : (0 :: q).length = (Mat.ofFun k (ofInt g)).dim := hlen
      have c2 : (gpath a (0 :: q)).length = (Mat.ofFun (a + k) (glue a lam d g)).dim := hlen'
      rw [if_pos c1] at hr
      rw [if_pos c2]
      simp only [hq, hq', hh', List.head?_cons, unwrapO, rm_bind_ok, e1, e2, XNum.add_fin] at hr ⊢
      rw [pathCost_gpath hd hg]
      obtain ⟨z, hz⟩ := pathCost_int (g := g) (0 :: q)
      rw [hz] at hr ⊢
      have hnew : fin ((z : ℚ) + (g l 0 : ℚ)) = fin (((z + g l 0 : ℤ)) : ℚ) := by push_cast; rfl
      have hnew' : fin (P + lam * (z : ℚ) + (d a 0 + lam * (g l 0 : ℚ))) =
          fin (P + d a 0 + lam * ((z + g l 0 : ℤ) : ℚ)) := by
        congr 1; push_cast; ring
      simp only [hnew] at hr
      simp only [← hP, hnew']
      have hcmp : FloatOps.lt (fin (P + d a 0 + lam * ((z + g l 0 : ℤ) : ℚ))) t.1.1 =
          FloatOps.lt (fin (((z + g l 0 : ℤ)) : ℚ)) s.1.1 := by
        rcases hst with ⟨h1, h2⟩ | ⟨w, h1, h2⟩
        · rw [h1, h2]; rfl
        · rw [h1, h2]
          simp only [XNum.lt_fin]
          rw [decide_eq_decide, add_lt_add_iff_left]
          exact mul_lt_mul_iff_right₀ hl
      simp only [hcmp]
      split at hr
      · rename_i hlt
        simp only [rm_pure, Except.ok.injEq] at hr
        subst hr
        rw [if_pos hlt]
        exact ⟨_, rfl, Or.inr ⟨z + g l 0, rfl, rfl⟩⟩
      · rename_i hlt
        simp only [rm_pure, Except.ok.injEq] at hr
        subst hr
        rw [if_neg hlt]
        exact ⟨_, rfl, hst⟩
    · have c1 : (0 :: q).length ≠ (Mat.ofFun k (ofInt g)).dim := hlen
      have c2 : (gpath a (0 :: q)).length ≠ (Mat.ofFun (a + k) (glue a lam d g)).dim := by
        rw [gpath_length]
        show a + (0 :: q).length ≠ a + k
        omega
      rw [dfs_inner _ _ _ _ _ c1] at hr
      rw [dfs_inner _ _ _ _ _ c2]
      have hrange : List.range (Mat.ofFun (a + k) (glue a lam d g)).dim =
          List.range a ++ (List.range (Mat.ofFun k (ofInt g)).dim).map (a + ·) := by
        simp only [Mat.ofFun]
        rw [List.range_add]
      rw [hrange, List.foldlM_append, foldlM_skip _ (List.range a) (fun x hx =>
        dfsBody_old _ _ _ _ (by unfold gpath; exact List.mem_append.mpr (Or.inl hx))), rm_bind_ok,
        List.foldlM_map]
      cases hf : (List.range (Mat.ofFun k (ofInt g)).dim).foldlM
          (dfsBody (Mat.ofFun k (ofInt g)) (test4 (Mat.ofFun k (ofInt g))) fuel (0 :: q))
          (fin (pathCost (ofInt g) (0 :: q)), s) with
      | error p => rw [hf] at hr; simp at hr
      | ok w =>
        rw [hf] at hr
        simp only [rm_bind_ok, rm_pure, Except.ok.injEq] at hr
        subst hr
        obtain ⟨w', h1, -, -, h2⟩ := foldlM_sim
          (f' := fun st i => dfsBody (Mat.ofFun (a + k) (glue a lam d g))
            (test4 (Mat.ofFun (a + k) (glue a lam d g))) fuel (gpath a (0 :: q)) st (a + i))
          (fun st st' => st.1 = fin (pathCost (ofInt g) (0 :: q)) ∧
            st'.1 = fin (pathCost (glue a lam d g) (gpath a (0 :: q))) ∧
            SolRel lam (P + d a 0) st.2 st'.2) _ _
          (fin (pathCost (glue a lam d g) (gpath a (0 :: q))), t) _ ⟨rfl, rfl, hst⟩ (by
          rintro i hi ⟨x, s⟩ ⟨x', t⟩ y ⟨hx, hx', hst⟩ hy
          simp only at hx hx' hst
          subst hx hx'
          have hik : i < k := by simpa [Mat.ofFun] using hi
          by_cases hmem : i ∈ 0 :: q
          · rw [dfsBody_old _ _ _ _ hmem] at hy
            cases hy
            exact ⟨_, dfsBody_old _ _ _ _ (mem_gpath.mpr hmem), rfl, rfl, hst⟩
          · rw [dfsBody_new hm _ _ hv (by simp) hik hmem] at hy
            rw [dfsBody_new hM _ _ (gpath_valid hv) (by
              intro h
              have := congrArg List.length h
              rw [gpath_length] at this
              simp at this) (show a + i < a + k by omega) (mt mem_gpath.mp hmem)]
            rw [← gpath_snoc]
            have hv' := hv.snoc hik hmem
            obtain ⟨z, hz1, hz2⟩ := nnOfRemaining_glue (k := k) (g := g) hd hl (0 :: q ++ [i])
            obtain ⟨p, hp⟩ := pathCost_int (g := g) (0 :: q ++ [i])
            have hpg : pathCost (glue a lam d g) (gpath a (0 :: q ++ [i])) = P + lam * p := by
              rw [List.cons_append, pathCost_gpath hd hg, ← List.cons_append, hp]
            have ht : test4 (Mat.ofFun (a + k) (glue a lam d g)) t.2 (gpath a (0 :: q ++ [i]))
                (fin (pathCost (glue a lam d g) (gpath a (0 :: q ++ [i])))) t.1.1 =
                test4 (Mat.ofFun k (ofInt g)) s.2 (0 :: q ++ [i])
                  (fin (pathCost (ofInt g) (0 :: q ++ [i]))) s.1.1 := by
              unfold test4
              rw [hz1, hz2, hpg, hp]
              simp only [XNum.add_fin]
              congr 2
              rcases hst with ⟨h1, h2⟩ | ⟨w, h1, h2⟩
              · rw [h1, h2]; rfl
              · rw [h1, h2]
                simp only [XNum.le_fin]
                rw [decide_eq_decide]
                have e : (p : ℚ) + z ≤ w ↔ p + z ≤ w := by norm_cast
                rw [e]
                constructor
                · intro h
                  by_contra h'
                  have h3 : w + 1 ≤ p + z := by omega
                  have h4 : (w : ℚ) + 1 ≤ p + z := by exact_mod_cast h3
                  nlinarith
                · intro h
                  have h4 : (p : ℚ) + z ≤ w := by exact_mod_cast h
                  nlinarith
            rw [ht]
            cases htt : test4 (Mat.ofFun k (ofInt g)) s.2 (0 :: q ++ [i])
                (fin (pathCost (ofInt g) (0 :: q ++ [i]))) s.1.1 with
            | error e => rw [htt] at hy; simp at hy
            | ok v =>
              rw [htt] at hy
              simp only [rm_bind_ok] at hy ⊢
              obtain ⟨go, aux⟩ := v
              cases go with
              | false =>
                simp only [Bool.false_eq_true, if_false, rm_pure, rm_bind_ok, Except.ok.injEq] at hy ⊢
                subst hy
                exact ⟨_, rfl, rfl, rfl, hst⟩
              | true =>
                simp only [if_true] at hy ⊢
                cases hdf : dfs (Mat.ofFun k (ofInt g)) (test4 (Mat.ofFun k (ofInt g))) fuel
                    (0 :: q ++ [i]) (fin (pathCost (ofInt g) (0 :: q ++ [i]))) (s.1, aux) with
                | error e => rw [hdf] at hy; simp at hy
                | ok r =>
                  rw [hdf] at hy
                  simp only [rm_bind_ok, rm_pure, Except.ok.injEq] at hy
                  subst hy
                  obtain ⟨r', hr1, hr2⟩ := ih (q ++ [i]) (s.1, aux) (t.1, aux) r hv' hst hdf
                  rw [List.cons_append, hr1]
                  exact ⟨_, rfl, rfl, rfl, hr2⟩) hf
        rw [h1]
        exact ⟨_, rfl, h2⟩

end Walky
