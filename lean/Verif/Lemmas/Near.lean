import Verif.Rounding
import Verif.Model.Permutation
import Verif.Model.Exact
import Verif.Lemmas.Dfs
import Verif.Lemmas.Eval
import Verif.Lemmas.Fixed

/-! # Accuracy of v0 – v3 in a rounded arithmetic -/

namespace Walky

open FloatOps XNum Spec

variable {K : Type} [Field K] [LinearOrder K] [IsStrictOrderedRing K] {R : Rounding K} {B e M : K}

/-- numbers of size at most `B` are rounded with an error of at most `e` -/
def Rounding.Near (R : Rounding K) (B e : K) : Prop :=
  ∀ x, |x| ≤ B → ∃ y, R.rnd x = .fin y ∧ |y - x| ≤ e

omit [IsStrictOrderedRing K] in
theorem Rounding.Near.add (h : R.Near B e) {a b : K} (hb : |a + b| ≤ B) :
    ∃ y, @FloatOps.add _ R.ops (.fin a) (.fin b) = .fin y ∧ |y - (a + b)| ≤ e := h _ hb

omit [IsStrictOrderedRing K] in
theorem Rounding.Near.sub (h : R.Near B e) {a b : K} (hb : |a - b| ≤ B) :
    ∃ y, @FloatOps.sub _ R.ops (.fin a) (.fin b) = .fin y ∧ |y - (a - b)| ≤ e := h _ hb

/-- Sums of costs: `k` additions. -/
theorem foldlM_near (h : R.Near B e) (he : 0 ≤ e) (hM : 0 ≤ M) {m : Mat (XNum K)}
    {c : Nat → Nat → K} : ∀ (l : List (Nat × Nat)) (x a : K) (k : K),
    (∀ p ∈ l, m.entry p.1 p.2 = .ok (fin (c p.1 p.2)) ∧ |c p.1 p.2| ≤ M) →
    |x - a| ≤ k → |a| + l.length * M + k + l.length * e ≤ B →
    ∃ y, l.foldlM (fun acc p => do
        let cost ← m.entry p.1 p.2
        return @FloatOps.add _ R.ops acc cost) (fin x) = (.ok (fin y) : RM (XNum K)) ∧
      |y - (a + edgesCost c l)| ≤ k + l.length * e := by
  intro l
  induction l with
  | nil =>
    intro x a k _ hx _
    exact ⟨x, rfl, by simpa [edgesCost] using hx⟩
  | cons p t ih =>
    intro x a k hl hx hB
    obtain ⟨h1, h2⟩ := hl p (by simp)
    have ht : (0 : K) ≤ t.length * M := mul_nonneg (Nat.cast_nonneg _) hM
    have ht' : (0 : K) ≤ t.length * e := mul_nonneg (Nat.cast_nonneg _) he
    simp only [List.length_cons, Nat.cast_add, Nat.cast_one] at hB ⊢
    have hab := abs_add_le a (c p.1 p.2)
    have hxc : |x + c p.1 p.2| ≤ B := by
      have e1 : x + c p.1 p.2 = (x - a) + (a + c p.1 p.2) := by ring
      rw [e1]
      have := abs_add_le (x - a) (a + c p.1 p.2)
      linarith
    obtain ⟨y, hy, hy'⟩ := h.add hxc
    rw [List.foldlM_cons, h1]
    simp only [rm_bind_ok, rm_pure]
    rw [hy]
    have hy2 : |y - (a + c p.1 p.2)| ≤ k + e := by
      have e1 : y - (a + c p.1 p.2) = (y - (x + c p.1 p.2)) + (x - a) := by ring
      rw [e1]
      have := abs_add_le (y - (x + c p.1 p.2)) (x - a)
      linarith
    obtain ⟨z, hz, hz'⟩ := ih y (a + c p.1 p.2) (k + e) (fun q hq => hl q (by simp [hq])) hy2 (by linarith)
    refine ⟨z, hz, ?_⟩
    have e2 : a + edgesCost c (p :: t) = a + c p.1 p.2 + edgesCost c t := by
      simp [edgesCost, add_assoc]
    rw [e2]
    linarith

/-- bound on the costs between different cities -/
def CostBound (n : Nat) (c : Nat → Nat → K) (M : K) : Prop :=
  ∀ i j, i < n → j < n → i ≠ j → |c i j| ≤ M

theorem edgesCost_bound {c : Nat → Nat → K} {l : List (Nat × Nat)}
    (h : ∀ p ∈ l, |c p.1 p.2| ≤ M) : |edgesCost c l| ≤ l.length * M := by
  induction l with
  | nil => simp [edgesCost]
  | cons p t ih =>
    have h1 := ih fun q hq => h q (by simp [hq])
    have h2 := h p (by simp)
    have h3 : edgesCost c (p :: t) = c p.1 p.2 + edgesCost c t := by simp [edgesCost]
    rw [h3]
    have := abs_add_le (c p.1 p.2) (edgesCost c t)
    simp only [List.length_cons, Nat.cast_add, Nat.cast_one]
    linarith

theorem pairs_length (p : List Nat) : (pairs p).length = p.length - 1 := by
  simp [pairs]

theorem pathCost_bound {c : Nat → Nat → K} {n : Nat} (hc : CostBound n c M) (hM : 0 ≤ M)
    {p : List Nat} (hp : ValidPre n p) : |pathCost c p| ≤ (p.length : K) * M := by
  rw [← edgesCost_pairs]
  refine (edgesCost_bound fun e he =>
    hc _ _ (hp.2 _ (mem_pairs he).1) (hp.2 _ (mem_pairs he).2) (pairs_ne hp.1 he)).trans ?_
  rw [pairs_length]
  refine mul_le_mul_of_nonneg_right ?_ hM
  exact_mod_cast Nat.sub_le _ _

theorem tourCost_bound {c : Nat → Nat → K} {n : Nat} (hc : CostBound n c M) {p : List Nat}
    (hp : ValidPre n p) (hl : 2 ≤ p.length) : |tourCost c p| ≤ (p.length : K) * M := by
  have hne : p ≠ [] := by rintro rfl; simp at hl
  have b3 : p.getLast hne ≠ p.head hne := by
    rw [List.getLast_eq_getElem, List.head_eq_getElem]
    intro h'
    have := (List.Nodup.getElem_inj_iff hp.1).mp h'
    omega
  have hcl := hc _ _ (hp.2 _ (List.getLast_mem hne)) (hp.2 _ (List.head_mem hne)) b3
  have hpath : |pathCost c p| ≤ ((p.length - 1 : Nat) : K) * M := by
    rw [← edgesCost_pairs, ← pairs_length]
    exact edgesCost_bound fun q hq =>
      hc _ _ (hp.2 _ (mem_pairs hq).1) (hp.2 _ (mem_pairs hq).2) (pairs_ne hp.1 hq)
  have hlen : ((p.length - 1 : Nat) : K) + 1 = p.length := by
    exact_mod_cast (by omega : p.length - 1 + 1 = p.length)
  rw [tourCost_eq c p hne, ← hlen]
  have := abs_add_le (pathCost c p) (c (p.getLast hne) (p.head hne))
  linarith

/-- `evaluate_path` -/
theorem evaluatePath_near (h : R.Near B e) (he : 0 ≤ e) (hM : 0 ≤ M) {m : Mat (XNum K)}
    {c : Nat → Nat → K} (hm : Rep m c) (hc : CostBound m.dim c M) {p : List Nat}
    (hp : ValidPre m.dim p) (hB : (p.length : K) * (M + e) ≤ B) :
    ∃ y, @Mat.evaluatePath _ R.ops m p = .ok (fin y) ∧ |y - pathCost c p| ≤ (p.length - 1 : Nat) * e := by
  unfold Mat.evaluatePath
  split
  · rename_i hl
    refine ⟨0, rfl, ?_⟩
    rcases p with _ | ⟨a, _ | ⟨b, t⟩⟩
    · simp
    · simp
    · simp at hl
  · have hlen : ((pairs p).length : K) ≤ p.length := by
      rw [pairs_length]; exact_mod_cast Nat.sub_le _ _
    have a1 := mul_le_mul_of_nonneg_right hlen hM
    have a2 := mul_le_mul_of_nonneg_right hlen he
    obtain ⟨y, h1, h2⟩ := foldlM_near (m := m) (c := c) h he hM (pairs p) 0 0 0 (fun q hq =>
      have h1 := hp.2 _ (mem_pairs hq).1
      have h2 := hp.2 _ (mem_pairs hq).2
      ⟨hm.entry h1 h2 (pairs_ne hp.1 hq), hc _ _ h1 h2 (pairs_ne hp.1 hq)⟩) (by simp)
      (by rw [abs_zero]; linarith)
    refine ⟨y, h1, ?_⟩
    rwa [zero_add, zero_add, edgesCost_pairs, pairs_length] at h2

/-- `evaluate_circle` -/
theorem evaluateCircle_near (h : R.Near B e) (he : 0 ≤ e) (hM : 0 ≤ M) {m : Mat (XNum K)}
    {c : Nat → Nat → K} (hm : Rep m c) (hc : CostBound m.dim c M) {p : List Nat}
    (hp : ValidPre m.dim p) (hl : 2 ≤ p.length) (hB : (p.length : K) * (M + e) ≤ B) :
    ∃ y, @Mat.evaluateCircle _ R.ops m p = .ok (fin y) ∧ |y - tourCost c p| ≤ p.length * e := by
  have hne : p ≠ [] := by rintro rfl; simp at hl
  obtain ⟨x, hx, hx'⟩ := evaluatePath_near h he hM hm hc hp hB
  have h1 : p.getLast? = some (p.getLast hne) := List.getLast?_eq_getLast_of_ne_nil hne
  have h2 : p.head? = some (p.head hne) := List.head?_eq_some_head hne
  have b1 := hp.2 _ (List.getLast_mem hne)
  have b2 := hp.2 _ (List.head_mem hne)
  have b3 : p.getLast hne ≠ p.head hne := by
    rw [List.getLast_eq_getElem, List.head_eq_getElem]
    intro h'
    have := (List.Nodup.getElem_inj_iff hp.1).mp h'
    omega
  have hlen : ((p.length - 1 : Nat) : K) + 1 = p.length := by
    exact_mod_cast (by omega : p.length - 1 + 1 = p.length)
  have hpath : |pathCost c p| ≤ ((p.length - 1 : Nat) : K) * M := by
    rw [← edgesCost_pairs, ← pairs_length]
    exact edgesCost_bound fun q hq =>
      hc _ _ (hp.2 _ (mem_pairs hq).1) (hp.2 _ (mem_pairs hq).2) (pairs_ne hp.1 hq)
  have hcl := hc _ _ b1 b2 b3
  rw [← hlen] at hB ⊢
  obtain ⟨y, hy, hy'⟩ := h.add (a := x) (b := c (p.getLast hne) (p.head hne)) (by
    have e1 : x + c (p.getLast hne) (p.head hne) =
        (x - pathCost c p) + (pathCost c p + c (p.getLast hne) (p.head hne)) := by ring
    rw [e1]
    have k1 := abs_add_le (x - pathCost c p) (pathCost c p + c (p.getLast hne) (p.head hne))
    have k2 := abs_add_le (pathCost c p) (c (p.getLast hne) (p.head hne))
    linarith)
  refine ⟨y, ?_, ?_⟩
  · unfold Mat.evaluateCircle
    rw [if_neg (by omega), h1, h2]
    simp only [unwrapO, rm_bind_ok]
    rw [hm.entry b1 b2 b3, hx]
    simp only [rm_bind_ok, rm_pure]
    rw [hy]
  · rw [tourCost_eq c p hne]
    have e1 : y - (pathCost c p + c (p.getLast hne) (p.head hne)) =
        (y - (x + c (p.getLast hne) (p.head hne))) + (x - pathCost c p) := by ring
    rw [e1]
    have := abs_add_le (y - (x + c (p.getLast hne) (p.head hne))) (x - pathCost c p)
    linarith

/-! ## v0 and v1 -/

omit [IsStrictOrderedRing K] in
/-- The loop of v0 and v1 takes the best of the visited tours, whatever the arithmetic. -/
theorem permLoop_any {m : Mat (XNum K)} {f : List Nat → K}
    {step : List Nat → RM (Bool × List Nat)} {cur : List Nat} {l : List (List Nat)}
    (hrun : Run step cur l) (hl : ∀ p ∈ l, @Mat.evaluateCircle _ R.ops m p = .ok (fin (f p))) :
    ∀ (fuel : Nat) (best : Solution (XNum K)), l.length < fuel → Proper best.1 →
      ∃ r, @permLoop _ R.ops m step fuel cur best = .ok r ∧
        (r = best ∨ (r.2 ∈ l ∧ r.1 = fin (f r.2))) ∧
        FloatOps.le r.1 best.1 = true ∧ ∀ p ∈ l, FloatOps.le r.1 (fin (f p)) = true := by
  induction hrun with
  | stop h =>
    intro fuel best hf hb
    cases fuel with
    | zero => simp at hf
    | succ fuel =>
      refine ⟨best, ?_, Or.inl rfl, hb.le_refl, by simp⟩
      simp [permLoop, h]
  | @next a b l h hr ih =>
    intro fuel best hf hb
    cases fuel with
    | zero => simp at hf
    | succ fuel =>
      have hcost := hl b (by simp)
      have ih := ih (fun p hp => hl p (by simp [hp])) fuel
      unfold permLoop
      rw [h]
      simp only [rm_bind_ok, if_true, hcost]
      have e : @FloatOps.lt _ R.ops (fin (f b)) best.1 = FloatOps.lt (fin (f b)) best.1 := rfl
      rw [e]
      by_cases hlt : FloatOps.lt (fin (f b)) best.1 = true
      · rw [if_pos hlt]
        obtain ⟨r, r1, r2, r3, r4⟩ := ih (fin (f b), b) (by simp at hf; omega) (proper_fin _)
        refine ⟨r, r1, ?_, le_trans' r3 (le_of_lt' hlt), ?_⟩
        · right
          rcases r2 with r2 | ⟨r2, r2'⟩
          · rw [r2]; exact ⟨by simp, rfl⟩
          · exact ⟨by simp [r2], r2'⟩
        · intro p hp
          rcases List.mem_cons.mp hp with h1 | h1
          · subst h1; exact r3
          · exact r4 p h1
      · rw [if_neg hlt]
        obtain ⟨r, r1, r2, r3, r4⟩ := ih best (by simp at hf; omega) hb
        refine ⟨r, r1, ?_, r3, ?_⟩
        · rcases r2 with r2 | ⟨r2, r2'⟩
          · exact Or.inl r2
          · exact Or.inr ⟨by simp [r2], r2'⟩
        · intro p hp
          rcases List.mem_cons.mp hp with h1 | h1
          · subst h1
            exact le_trans' r3 (Proper.not_lt (proper_fin _) hb (by simpa using hlt))
          · exact r4 p h1

omit [IsStrictOrderedRing K] in
/-- v0 in any arithmetic -/
theorem naive_any {m : Mat (XNum K)} {f : List Nat → K} (hn : 2 ≤ m.dim)
    (hv : ∀ p, IsTour m.dim p → @Mat.evaluateCircle _ R.ops m p = .ok (fin (f p))) :
    ∃ p, @naiveSolver _ R.ops m = .ok (fin (f p), p) ∧ IsTour m.dim p ∧
      ∀ q, IsTour m.dim q → q ≠ List.range m.dim → f p ≤ f q := by
  obtain ⟨l, l1, l2, l3⟩ := run_nextPermutation (List.range m.dim)
  have hlen : l.length < m.dim.factorial + 1 := by
    have := length_le_factorial (l := l) (a := List.range m.dim) (l2.imp (fun h => ne_of_lt h))
      (fun c hc => ((l3 c).mp hc).1)
    simp at this
    omega
  obtain ⟨r, r1, r2, _, r4⟩ := permLoop_any (R := R) l1 (fun p hp => hv p ((l3 p).mp hp).1)
    (m.dim.factorial + 1) (XNum.inf, List.range m.dim) hlen proper_inf
  have hall : ∀ q, IsTour m.dim q → q ≠ List.range m.dim → FloatOps.le r.1 (fin (f q)) = true :=
    fun q hq h => r4 q ((l3 q).mpr ⟨hq, range_le hq h⟩)
  rcases r2 with r2 | ⟨r2, r2'⟩
  · have := hall ((List.range m.dim).rotate 1) ((isTour_range _).rotate 1) (by
      obtain ⟨k, hk⟩ : ∃ k, m.dim = k + 2 := ⟨m.dim - 2, by omega⟩
      rw [hk, List.range_succ_eq_map, List.range_succ_eq_map]
      simp)
    rw [r2] at this
    simp at this
  · refine ⟨r.2, ?_, ((l3 _).mp r2).1, ?_⟩
    · unfold naiveSolver
      rw [← r2']
      exact r1
    · intro q hq h
      have := hall q hq h
      rw [r2'] at this
      simpa using this

omit [IsStrictOrderedRing K] in
/-- v1 in any arithmetic -/
theorem first_any {m : Mat (XNum K)} {f : List Nat → K} (hn : 3 ≤ m.dim)
    (hv : ∀ p, IsTour m.dim p → @Mat.evaluateCircle _ R.ops m p = .ok (fin (f p))) :
    ∃ p, @firstImprovedSolver _ R.ops m = .ok (fin (f p), p) ∧ IsTour m.dim p ∧
      ∀ t, IsTour m.dim (0 :: t) → 0 :: t ≠ List.range m.dim → f p ≤ f (0 :: t) := by
  obtain ⟨k, hk⟩ : ∃ k, m.dim = k + 3 := ⟨m.dim - 3, by omega⟩
  have hrange : List.range m.dim = 0 :: (List.range (k + 2)).map (· + 1) := by
    rw [hk, List.range_succ_eq_map]
  generalize ht : (List.range (k + 2)).map (· + 1) = t0 at hrange
  obtain ⟨l, l1, l2, l3⟩ := run_nextPermutation t0
  have htour : ∀ t, t.Perm t0 → IsTour m.dim (0 :: t) := by
    intro t h
    unfold IsTour
    rw [hrange]
    exact h.cons 0
  have hlen0 : t0.length = k + 2 := by rw [← ht]; simp
  have hlen : (l.map (0 :: ·)).length < m.dim.factorial + 1 := by
    have h1 := length_le_factorial (l := l) (a := t0) (l2.imp (fun h => ne_of_lt h))
      (fun c hc => ((l3 c).mp hc).1)
    have h2 : (k + 2).factorial ≤ m.dim.factorial := Nat.factorial_le (by omega)
    rw [hlen0] at h1
    simp
    omega
  obtain ⟨r, r1, r2, _, r4⟩ := permLoop_any (R := R) (run_tail 0 l1)
    (fun p hp => by
      obtain ⟨t, h1, rfl⟩ := List.mem_map.mp hp
      exact hv _ (htour t ((l3 t).mp h1).1))
    (m.dim.factorial + 1) (XNum.inf, List.range m.dim) hlen proper_inf
  have hsorted : t0.Pairwise (· < ·) := by
    rw [← ht, List.pairwise_map]
    exact List.pairwise_lt_range.imp (fun h => by omega)
  have hvis : ∀ t, t.Perm t0 → t ≠ t0 → FloatOps.le r.1 (fin (f (0 :: t))) = true := by
    intro t h1 h2
    refine r4 _ (List.mem_map.mpr ⟨t, (l3 t).mpr ⟨h1, ?_⟩, rfl⟩)
    refine lt_of_le_of_ne ?_ (Ne.symm h2)
    exact not_lt.mp (not_lt_of_asc (hsorted.imp (fun h => le_of_lt h)) h1)
  have hne : t0.reverse ≠ t0 := by
    rw [← ht, List.range_succ_eq_map, List.range_succ]
    simp
  rcases r2 with r2 | ⟨r2, r2'⟩
  · have := hvis _ t0.reverse_perm hne
    rw [r2] at this
    simp at this
  · obtain ⟨t, h1, h2⟩ := List.mem_map.mp r2
    refine ⟨r.2, ?_, h2 ▸ htour t ((l3 t).mp h1).1, ?_⟩
    · unfold firstImprovedSolver
      rw [← r2', hrange]
      rw [hrange] at r1
      exact r1
    · intro u hu h
      rw [hrange] at h
      have hp : u.Perm t0 := by
        unfold IsTour at hu
        rw [hrange] at hu
        exact hu.cons_inv
      have := hvis u hp (by rintro rfl; exact h rfl)
      rw [r2'] at this
      simpa using this

/-! ## v2 and v3 -/

/-- error of the cost of a path of length `k` -/
def drift (n k : Nat) (e : K) : K := (2 * n * k : Nat) * e

/-- The search with rounding. `G b p q` is what is claimed about the best cost `b` with regard to the
tour `q`, which starts with the prefix `p`; it has to hold when `b` is at most the computed length of `q`,
and when the branch of a prefix of `q` is pruned with the best cost `b`. -/
theorem dfs_near (h : R.Near B e) (he : 0 ≤ e) (hM : 0 ≤ M) {m : Mat (XNum K)} {c : Nat → Nat → K}
    (hm : Rep m c) (hc : CostBound m.dim c M) (hdim : 2 ≤ m.dim)
    (hB : m.dim * M + (2 * m.dim * m.dim + 1 : Nat) * e ≤ B) {σ : Type} {test : PruneTest σ (XNum K)}
    {J : σ → Prop} {G : XNum K → List Nat → Prop}
    (hmono : ∀ b b' q, FloatOps.le b b' = true → G b' q → G b q)
    (hleaf : ∀ b y q, IsTour m.dim q → |y - tourCost c q| ≤ (2 * m.dim * m.dim + 1 : Nat) * e →
      FloatOps.le b (fin y) = true → G b q)
    (htest : ∀ a p x b, J a → ValidPre m.dim p → 2 ≤ p.length → Proper b →
      |x - pathCost c p| ≤ drift m.dim p.length e →
      ∃ go a', test a p (fin x) b = .ok (go, a') ∧ J a' ∧ (go = false →
        ∀ q, IsTour m.dim q → p <+: q → G b q)) :
    ∀ (fuel : Nat) (pre : List Nat) (x : K) (s : Solution (XNum K) × σ), ValidPre m.dim pre →
      m.dim + 1 ≤ fuel + pre.length → |x - pathCost c pre| ≤ drift m.dim pre.length e →
      J s.2 → Proper s.1.1 →
      ∃ r, @dfs _ R.ops _ m test fuel pre (fin x) s = .ok r ∧ J r.2 ∧
        (r.1 = s.1 ∨ (IsTour m.dim r.1.2 ∧ pre <+: r.1.2 ∧ FloatOps.lt r.1.1 s.1.1 = true ∧
          ∃ w, r.1.1 = fin w ∧ |w - tourCost c r.1.2| ≤ drift m.dim m.dim e + e)) ∧
        ∀ q, IsTour m.dim q → pre <+: q → G r.1.1 q := by
  have hdr : ∀ {j k : Nat}, j ≤ k → drift m.dim j e ≤ drift m.dim k e := by
    intro j k hjk
    unfold drift
    refine mul_le_mul_of_nonneg_right ?_ he
    exact_mod_cast Nat.mul_le_mul_left _ hjk
  have hdn : drift m.dim m.dim e + e = (2 * m.dim * m.dim + 1 : Nat) * e := by
    unfold drift
    push_cast
    ring
  rw [← hdn] at hB hleaf
  intro fuel
  induction fuel with
  | zero =>
    intro pre x s hv hf
    have := hv.length_le
    omega
  | succ fuel ih =>
    intro pre x s hv hf hx hJ hs
    unfold dfs
    by_cases hlen : pre.length = m.dim
    · have hne : pre ≠ [] := by rintro rfl; simp at hlen; omega
      have hT : IsTour m.dim pre := isTour_of_nodup hv.1 hv.2 hlen
      have hl : pre.getLast? = some (pre.getLast hne) := List.getLast?_eq_getLast_of_ne_nil hne
      have hh : pre.head? = some (pre.head hne) := List.head?_eq_some_head hne
      have b1 := hv.2 _ (List.getLast_mem hne)
      have b2 := hv.2 _ (List.head_mem hne)
      have b3 : pre.getLast hne ≠ pre.head hne := by
        rw [List.getLast_eq_getElem, List.head_eq_getElem]
        intro h'
        have := (List.Nodup.getElem_inj_iff hv.1).mp h'
        omega
      have hcl := hc _ _ b1 b2 b3
      have hpath : |pathCost c pre| ≤ ((m.dim - 1 : Nat) : K) * M := by
        rw [← edgesCost_pairs, ← hlen, ← pairs_length]
        exact edgesCost_bound fun q hq =>
          hc _ _ (hv.2 _ (mem_pairs hq).1) (hv.2 _ (mem_pairs hq).2) (pairs_ne hv.1 hq)
      have hdimK : (m.dim : K) = ((m.dim - 1 : Nat) : K) + 1 := by
        exact_mod_cast (by omega : m.dim = m.dim - 1 + 1)
      have hd := hdr (le_of_eq hlen)
      obtain ⟨y, hy, hy'⟩ := h.add (a := x) (b := c (pre.getLast hne) (pre.head hne)) (by
        have e1 : x + c (pre.getLast hne) (pre.head hne) =
            (x - pathCost c pre) + (pathCost c pre + c (pre.getLast hne) (pre.head hne)) := by ring
        rw [e1]
        have k1 := abs_add_le (x - pathCost c pre) (pathCost c pre + c (pre.getLast hne) (pre.head hne))
        have k2 := abs_add_le (pathCost c pre) (c (pre.getLast hne) (pre.head hne))
        rw [hdimK] at hB
        linarith)
      have hyt : |y - tourCost c pre| ≤ drift m.dim m.dim e + e := by
        rw [tourCost_eq c pre hne]
        have e1 : y - (pathCost c pre + c (pre.getLast hne) (pre.head hne)) =
            (y - (x + c (pre.getLast hne) (pre.head hne))) + (x - pathCost c pre) := by ring
        rw [e1]
        have := abs_add_le (y - (x + c (pre.getLast hne) (pre.head hne))) (x - pathCost c pre)
        linarith
      simp only [hlen, if_true, hl, hh, unwrapO, rm_bind_ok, hm.entry b1 b2 b3, rm_pure, hy]
      have hq : ∀ q, IsTour m.dim q → pre <+: q → q = pre := by
        intro q hq hpq
        obtain ⟨t, rfl⟩ := hpq
        have := hq.length
        simp at this
        have : t = [] := List.length_eq_zero_iff.mp (by omega)
        simp [this]
      have elt : @FloatOps.lt _ R.ops (fin y) s.1.1 = FloatOps.lt (fin y) s.1.1 := rfl
      rw [elt]
      by_cases hlt : FloatOps.lt (fin y) s.1.1 = true
      · refine ⟨((fin y, pre), s.2), by simp [hlt], hJ, Or.inr ⟨hT, List.prefix_refl _, hlt, y, rfl, hyt⟩, ?_⟩
        intro q hq1 hq2
        rw [hq q hq1 hq2]
        exact hleaf _ y _ hT hyt (proper_fin _).le_refl
      · have hlt' : FloatOps.lt (fin y) s.1.1 = false := by simpa using hlt
        refine ⟨s, by simp [hlt'], hJ, Or.inl rfl, ?_⟩
        intro q hq1 hq2
        rw [hq q hq1 hq2]
        exact hleaf _ y _ hT hyt (Proper.not_lt (proper_fin _) hs hlt')
    · simp only [hlen, if_false]
      have hlt : pre.length < m.dim := lt_of_le_of_ne hv.length_le hlen
      have key := foldlM_ok (fun (st : XNum K × Solution (XNum K) × σ) i => do
        let (cur, s) := st
        if pre.contains i then return (cur, s)
        let pre' := pre ++ [i]
        if pre'.length = 1 then do
          let s ← @dfs _ R.ops _ m test fuel pre' cur s
          return (cur, s)
        else do
          let a ← idx pre' (pre'.length - 2)
          let b ← idx pre' (pre'.length - 2 + 1)
          let w ← m.entry a b
          let cur := @FloatOps.add _ R.ops cur w
          let (go, aux) ← test s.2 pre' cur s.1.1
          let s ← if go then @dfs _ R.ops _ m test fuel pre' cur (s.1, aux) else pure (s.1, aux)
          return (@FloatOps.sub _ R.ops cur w, s))
        (fun done st => (∃ y, st.1 = fin y ∧
            |y - pathCost c pre| ≤ drift m.dim pre.length e + (2 * done.length : Nat) * e) ∧
          J st.2.2 ∧ Proper st.2.1.1 ∧
          (st.2.1 = s.1 ∨ (IsTour m.dim st.2.1.2 ∧ pre <+: st.2.1.2 ∧ FloatOps.lt st.2.1.1 s.1.1 = true ∧
            ∃ w, st.2.1.1 = fin w ∧ |w - tourCost c st.2.1.2| ≤ drift m.dim m.dim e + e)) ∧
          (pre = [] → st.1 = fin x) ∧
          ∀ q, IsTour m.dim q → (∃ i ∈ done, pre ++ [i] <+: q) → G st.2.1.1 q)
        (List.range m.dim) (fin x, s)
        ⟨⟨x, rfl, by simpa using hx⟩, hJ, hs, Or.inl rfl, fun _ => rfl, by simp⟩ ?_
      · obtain ⟨b, hb, -, hJ', -, h3, -, h4⟩ := key
        refine ⟨b.2, ?_, hJ', h3, ?_⟩
        · refine Eq.trans (congrArg (fun z => z >>= _) hb) rfl
        · intro q hq hpq
          obtain ⟨i, hi, hiq⟩ := next_of_prefix hpq (by rw [hq.length]; exact hlt)
          exact h4 q hq ⟨i, by simpa using hq.mem.mp hiq, hi⟩
      · rintro done i rest ⟨cur, t⟩ hl ⟨⟨y, h1, h1'⟩, hJt, h2, h3, h0, h4⟩
        simp only at h1 hJt h2 h3 h4 h0
        subst h1
        have hi : i < m.dim := by
          have : i ∈ List.range m.dim := by rw [hl]; simp
          simpa using this
        have hdl : done.length + 1 ≤ m.dim := by
          have := congrArg List.length hl
          simp at this
          omega
        have hle2 : ((2 * done.length : Nat) : K) * e ≤ (2 * (done ++ [i]).length : Nat) * e := by
          refine mul_le_mul_of_nonneg_right ?_ he
          simp
        by_cases hcn : pre.contains i = true
        · have hc' : i ∈ pre := by simpa using hcn
          refine ⟨(fin y, t), by simp [hc'], ⟨y, rfl, h1'.trans (by linarith)⟩, hJt, h2, h3, h0, ?_⟩
          rintro q hq ⟨j, hj, hjq⟩
          rcases List.mem_append.mp hj with hj | hj
          · exact h4 q hq ⟨j, hj, hjq⟩
          · simp at hj; subst hj
            exact absurd hc' (next_notMem hjq hq.nodup)
        · have hc' : i ∉ pre := by simpa using hcn
          have hv' := hv.snoc hi hc'
          -- common conclusion from a step `t ↦ r`
          have finish : ∀ (r : Solution (XNum K) × σ),
              (r.1 = t.1 ∨ (IsTour m.dim r.1.2 ∧ pre ++ [i] <+: r.1.2 ∧ FloatOps.lt r.1.1 t.1.1 = true ∧
                ∃ w, r.1.1 = fin w ∧ |w - tourCost c r.1.2| ≤ drift m.dim m.dim e + e)) →
              (∀ q, IsTour m.dim q → pre ++ [i] <+: q → G r.1.1 q) →
              Proper r.1.1 ∧
              (r.1 = s.1 ∨ (IsTour m.dim r.1.2 ∧ pre <+: r.1.2 ∧ FloatOps.lt r.1.1 s.1.1 = true ∧
                ∃ w, r.1.1 = fin w ∧ |w - tourCost c r.1.2| ≤ drift m.dim m.dim e + e)) ∧
              ∀ q, IsTour m.dim q → (∃ j ∈ done ++ [i], pre ++ [j] <+: q) → G r.1.1 q := by
            intro r r1 r2
            have hle : FloatOps.le r.1.1 t.1.1 = true := by
              rcases r1 with r1 | ⟨-, -, r1, -⟩
              · rw [r1]; exact h2.le_refl
              · exact le_of_lt' r1
            refine ⟨?_, ?_, ?_⟩
            · rcases r1 with r1 | ⟨-, -, -, w, r1, -⟩
              · rw [r1]; exact h2
              · rw [r1]; exact proper_fin _
            · rcases r1 with r1 | ⟨k1, k0, k2, k3⟩
              · rw [r1]; exact h3
              · right
                refine ⟨k1, (List.prefix_append _ _).trans k0, ?_, k3⟩
                rcases h3 with h3 | ⟨-, -, h3, -⟩
                · rw [← h3]; exact k2
                · exact lt_trans' k2 h3
            · rintro q hq ⟨j, hj, hjq⟩
              rcases List.mem_append.mp hj with hj | hj
              · exact hmono _ _ _ hle (h4 q hq ⟨j, hj, hjq⟩)
              · simp at hj; subst hj
                exact r2 q hq hjq
          have hcont : (pre.contains i) = false := by simpa using hc'
          simp only [hcont, Bool.false_eq_true, if_false]
          by_cases h1 : (pre ++ [i]).length = 1
          · simp only [h1, if_true]
            have hnil : pre = [] := by
              apply List.length_eq_zero_iff.mp
              simpa using h1
            have hyx : y = x := XNum.fin.inj (h0 hnil)
            subst hyx
            have hx' : |y - pathCost c (pre ++ [i])| ≤ drift m.dim (pre ++ [i]).length e := by
              rw [hnil] at hx ⊢
              exact hx.trans (hdr (by simp))
            obtain ⟨r, hr, rJ, r1, r2⟩ := ih (pre ++ [i]) y t hv' (by simp; omega) hx' hJt h2
            obtain ⟨f1, f2, f3⟩ := finish r r1 r2
            refine ⟨(fin y, r), by simp [hr], ⟨y, rfl, h1'.trans (by linarith)⟩, rJ, f1, f2, h0, f3⟩
          · simp only [h1, if_false]
            have hne : pre ≠ [] := by rintro rfl; simp at h1
            have hpos : 0 < pre.length := List.length_pos_of_ne_nil hne
            have i1 : idx (pre ++ [i]) ((pre ++ [i]).length - 2) = .ok (pre.getLast hne) := by
              apply idx_ok
              rw [List.getLast_eq_getElem]
              simp only [List.length_append, List.length_cons, List.length_nil]
              rw [List.getElem?_append_left (by omega)]
              rw [show pre.length + (0 + 1) - 2 = pre.length - 1 by omega]
              exact List.getElem?_eq_getElem _
            have i2 : idx (pre ++ [i]) ((pre ++ [i]).length - 2 + 1) = .ok i := by
              apply idx_ok
              simp only [List.length_append, List.length_cons, List.length_nil]
              rw [show pre.length + (0 + 1) - 2 + 1 = pre.length by omega]
              simp
            have hlastm := List.getLast_mem hne
            have hneq : pre.getLast hne ≠ i := by rintro rfl; exact hc' hlastm
            have i3 : m.entry (pre.getLast hne) i = .ok (fin (c (pre.getLast hne) i)) :=
              hm.entry (hv.2 _ hlastm) hi hneq
            have hpc : pathCost c pre + c (pre.getLast hne) i = pathCost c (pre ++ [i]) := by
              conv_rhs => rw [← List.dropLast_append_getLast hne]
              rw [List.append_assoc, List.cons_append, List.nil_append, pathCost_snoc,
                List.dropLast_append_getLast]
            -- sizes
            have hcl := hc _ _ (hv.2 _ hlastm) hi hneq
            have hdrift : drift m.dim pre.length e + (2 * done.length : Nat) * e + 2 * e ≤
                drift m.dim (pre ++ [i]).length e := by
              have hN : 2 * m.dim * pre.length + 2 * done.length + 2 ≤ 2 * m.dim * (pre.length + 1) := by
                have : 2 * m.dim * (pre.length + 1) = 2 * m.dim * pre.length + 2 * m.dim := by ring
                omega
              have hN' : ((2 * m.dim * pre.length + 2 * done.length + 2 : Nat) : K) ≤
                  (2 * m.dim * (pre.length + 1) : Nat) := by exact_mod_cast hN
              have := mul_le_mul_of_nonneg_right hN' he
              unfold drift
              simp only [List.length_append, List.length_cons, List.length_nil, zero_add]
              push_cast at this ⊢
              linarith
            have hdn1 : drift m.dim (pre ++ [i]).length e ≤ drift m.dim m.dim e :=
              hdr hv'.length_le
            have hpb : |pathCost c (pre ++ [i])| ≤ (m.dim : K) * M := by
              refine (pathCost_bound hc hM hv').trans (mul_le_mul_of_nonneg_right ?_ hM)
              exact_mod_cast hv'.length_le
            have hpb0 : |pathCost c pre| ≤ (m.dim : K) * M := by
              refine (pathCost_bound hc hM hv).trans (mul_le_mul_of_nonneg_right ?_ hM)
              exact_mod_cast hv.length_le
            obtain ⟨z, hz, hz'⟩ := h.add (a := y) (b := c (pre.getLast hne) i) (by
              have e1 : y + c (pre.getLast hne) i = (y - pathCost c pre) + pathCost c (pre ++ [i]) := by
                rw [← hpc]; ring
              rw [e1]
              have k1 := abs_add_le (y - pathCost c pre) (pathCost c (pre ++ [i]))
              linarith)
            have hzp : |z - pathCost c (pre ++ [i])| ≤
                drift m.dim pre.length e + (2 * done.length : Nat) * e + e := by
              have e1 : z - pathCost c (pre ++ [i]) =
                  (z - (y + c (pre.getLast hne) i)) + (y - pathCost c pre) := by rw [← hpc]; ring
              rw [e1]
              have := abs_add_le (z - (y + c (pre.getLast hne) i)) (y - pathCost c pre)
              linarith
            obtain ⟨u, hu, hu'⟩ := h.sub (a := z) (b := c (pre.getLast hne) i) (by
              have e1 : z - c (pre.getLast hne) i = (z - pathCost c (pre ++ [i])) + pathCost c pre := by
                rw [← hpc]; ring
              rw [e1]
              have k1 := abs_add_le (z - pathCost c (pre ++ [i])) (pathCost c pre)
              linarith)
            have hup : |u - pathCost c pre| ≤
                drift m.dim pre.length e + (2 * (done ++ [i]).length : Nat) * e := by
              have e1 : u - pathCost c pre =
                  (u - (z - c (pre.getLast hne) i)) + (z - pathCost c (pre ++ [i])) := by rw [← hpc]; ring
              rw [e1]
              have := abs_add_le (u - (z - c (pre.getLast hne) i)) (z - pathCost c (pre ++ [i]))
              simp only [List.length_append, List.length_cons, List.length_nil, zero_add]
              push_cast at this hzp ⊢
              linarith
            simp only [i1, i2, i3, rm_bind_ok, hz]
            obtain ⟨go, a', ht, hJa, hgo⟩ := htest t.2 (pre ++ [i]) z t.1.1 hJt hv' (by simp; omega) h2
              (hzp.trans (by linarith))
            simp only [ht, rm_bind_ok]
            cases go with
            | false =>
              obtain ⟨f1, f2, f3⟩ := finish (t.1, a') (Or.inl rfl) (hgo rfl)
              refine ⟨(fin u, (t.1, a')), by simp [hu], ⟨u, rfl, hup⟩, hJa, f1, f2,
                fun h' => absurd h' hne, f3⟩
            | true =>
              obtain ⟨r, hr, rJ, r1, r2⟩ := ih (pre ++ [i]) z (t.1, a') hv' (by simp; omega)
                (hzp.trans (by linarith)) hJa h2
              obtain ⟨f1, f2, f3⟩ := finish r r1 r2
              refine ⟨(fin u, r), by simp [hr, hu], ⟨u, rfl, hup⟩, rJ, f1, f2, fun h' => absurd h' hne, f3⟩

/-! ## Relative errors -/

/-- `R` rounds sums of numbers of `D` that are not negative with a relative error of at most `u`, as long
as they are at most `B`, to numbers of `D` -/
def Rounding.Rel (R : Rounding K) (D : K → Prop) (B u : K) : Prop :=
  ∀ a b, D a → D b → 0 ≤ a → 0 ≤ b → a + b ≤ B →
    ∃ y, R.rnd (a + b) = .fin y ∧ D y ∧ 0 ≤ y ∧ |y - (a + b)| ≤ u * (a + b)

theorem rel_step {D : K → Prop} {u : K} (h : R.Rel D B u) (hu : 0 ≤ u) {x a w δ : K} (hx : D x)
    (hw : D w) (hx0 : 0 ≤ x) (hw0 : 0 ≤ w) (hδ : 0 ≤ δ) (hxa : |x - a| ≤ δ * a)
    (hB : (1 + δ) * (a + w) ≤ B) :
    ∃ y, @FloatOps.add _ R.ops (fin x) (fin w) = fin y ∧ D y ∧ 0 ≤ y ∧
      |y - (a + w)| ≤ ((1 + δ) * (1 + u) - 1) * (a + w) := by
  have hx1 := (abs_le.mp hxa).2
  have hδw : 0 ≤ δ * w := mul_nonneg hδ hw0
  have hxw : x + w ≤ (1 + δ) * (a + w) := by linarith
  obtain ⟨y, h1, h2, h3, h4⟩ := h x w hx hw hx0 hw0 (hxw.trans hB)
  refine ⟨y, h1, h2, h3, ?_⟩
  have e1 : y - (a + w) = (y - (x + w)) + (x - a) := by ring
  rw [e1]
  have k1 := abs_add_le (y - (x + w)) (x - a)
  have k2 := mul_le_mul_of_nonneg_left hxw hu
  have e2 : ((1 + δ) * (1 + u) - 1) * (a + w) = u * ((1 + δ) * (a + w)) + δ * a + δ * w := by ring
  rw [e2]
  linarith

theorem foldlM_rel {D : K → Prop} {u : K} (h : R.Rel D B u) (hu : 0 ≤ u) {m : Mat (XNum K)}
    {c : Nat → Nat → K} : ∀ (l : List (Nat × Nat)) (x a δ : K),
    (∀ p ∈ l, m.entry p.1 p.2 = .ok (fin (c p.1 p.2)) ∧ D (c p.1 p.2) ∧ 0 ≤ c p.1 p.2) →
    D x → 0 ≤ x → 0 ≤ a → 0 ≤ δ → |x - a| ≤ δ * a →
    (1 + δ) * (1 + u) ^ l.length * (a + edgesCost c l) ≤ B →
    ∃ y, l.foldlM (fun acc p => do
        let cost ← m.entry p.1 p.2
        return @FloatOps.add _ R.ops acc cost) (fin x) = (.ok (fin y) : RM (XNum K)) ∧ D y ∧ 0 ≤ y ∧
      |y - (a + edgesCost c l)| ≤ ((1 + δ) * (1 + u) ^ l.length - 1) * (a + edgesCost c l) := by
  intro l
  induction l with
  | nil =>
    intro x a δ _ hx hx0 _ _ hxa _
    exact ⟨x, rfl, hx, hx0, by simpa [edgesCost] using hxa⟩
  | cons p t ih =>
    intro x a δ hl hx hx0 ha0 hδ hxa hB
    obtain ⟨h1, h2, h3⟩ := hl p (by simp)
    have he : edgesCost c (p :: t) = c p.1 p.2 + edgesCost c t := by simp [edgesCost]
    have ht0 : 0 ≤ edgesCost c t := by
      unfold edgesCost
      refine List.sum_nonneg ?_
      intro z hz
      obtain ⟨q, hq, rfl⟩ := List.mem_map.mp hz
      exact (hl q (by simp [hq])).2.2
    have hp1 : 1 ≤ (1 + u) ^ (t.length + 1) := one_le_pow₀ (by linarith)
    rw [he, List.length_cons] at hB ⊢
    have hs0 : 0 ≤ a + (c p.1 p.2 + edgesCost c t) := by positivity
    obtain ⟨y, y1, y2, y3, y4⟩ := rel_step h hu hx h2 hx0 h3 hδ hxa (by
      refine le_trans ?_ hB
      have k1 : (1 + δ) * (a + c p.1 p.2) ≤ (1 + δ) * (a + (c p.1 p.2 + edgesCost c t)) :=
        mul_le_mul_of_nonneg_left (by linarith) (by linarith)
      have k2 : (1 + δ) * (a + (c p.1 p.2 + edgesCost c t)) * 1 ≤
          (1 + δ) * (a + (c p.1 p.2 + edgesCost c t)) * (1 + u) ^ (t.length + 1) :=
        mul_le_mul_of_nonneg_left hp1 (by positivity)
      nlinarith)
    rw [List.foldlM_cons, h1]
    simp only [rm_bind_ok, rm_pure]
    rw [y1]
    have e3 : (1 + δ) * (1 + u) ^ (t.length + 1) =
        (1 + ((1 + δ) * (1 + u) - 1)) * (1 + u) ^ t.length := by ring
    have e4 : a + (c p.1 p.2 + edgesCost c t) = a + c p.1 p.2 + edgesCost c t := by ring
    rw [e3, e4] at hB ⊢
    exact ih y (a + c p.1 p.2) _ (fun q hq => hl q (by simp [hq])) y2 y3 (by positivity)
      (by nlinarith) y4 hB

/-- `evaluate_circle` with a relative error -/
theorem evaluateCircle_rel {D : K → Prop} {u : K} (h : R.Rel D B u) (hu : 0 ≤ u) (hD : D 0)
    {m : Mat (XNum K)} {c : Nat → Nat → K} (hm : Rep m c)
    (hc : ∀ i j, i < m.dim → j < m.dim → i ≠ j → D (c i j) ∧ 0 ≤ c i j) {p : List Nat}
    (hp : ValidPre m.dim p) (hl : 2 ≤ p.length) (hB : (1 + u) ^ p.length * tourCost c p ≤ B) :
    ∃ y, @Mat.evaluateCircle _ R.ops m p = .ok (fin y) ∧
      |y - tourCost c p| ≤ ((1 + u) ^ p.length - 1) * tourCost c p := by
  have hne : p ≠ [] := by rintro rfl; simp at hl
  have h1 : p.getLast? = some (p.getLast hne) := List.getLast?_eq_getLast_of_ne_nil hne
  have h2 : p.head? = some (p.head hne) := List.head?_eq_some_head hne
  have b1 := hp.2 _ (List.getLast_mem hne)
  have b2 := hp.2 _ (List.head_mem hne)
  have b3 : p.getLast hne ≠ p.head hne := by
    rw [List.getLast_eq_getElem, List.head_eq_getElem]
    intro h'
    have := (List.Nodup.getElem_inj_iff hp.1).mp h'
    omega
  obtain ⟨c1, c2⟩ := hc _ _ b1 b2 b3
  have hpr : ∀ q ∈ pairs p, m.entry q.1 q.2 = .ok (fin (c q.1 q.2)) ∧ D (c q.1 q.2) ∧ 0 ≤ c q.1 q.2 :=
    fun q hq =>
      have h1 := hp.2 _ (mem_pairs hq).1
      have h2 := hp.2 _ (mem_pairs hq).2
      ⟨hm.entry h1 h2 (pairs_ne hp.1 hq), hc _ _ h1 h2 (pairs_ne hp.1 hq)⟩
  have hpc0 : 0 ≤ pathCost c p := by
    rw [← edgesCost_pairs]
    unfold edgesCost
    refine List.sum_nonneg ?_
    intro z hz
    obtain ⟨q, hq, rfl⟩ := List.mem_map.mp hz
    exact (hpr q hq).2.2
  rw [tourCost_eq c p hne] at hB ⊢
  have hpow : (1 + u) ^ p.length = (1 + u) ^ (p.length - 1) * (1 + u) := by
    rw [← pow_succ]
    congr 1
    omega
  have hpow1 : 1 ≤ (1 + u) ^ (p.length - 1) := one_le_pow₀ (by linarith)
  have hsum0 : 0 ≤ pathCost c p + c (p.getLast hne) (p.head hne) := by positivity
  have hB1 : (1 + u) ^ (p.length - 1) * (pathCost c p + c (p.getLast hne) (p.head hne)) ≤ B := by
    refine le_trans ?_ hB
    rw [hpow]
    refine mul_le_mul_of_nonneg_right ?_ hsum0
    nlinarith
  obtain ⟨x, x1, x2, x3, x4⟩ := foldlM_rel (m := m) (c := c) h hu (pairs p) 0 0 0 hpr hD le_rfl le_rfl
    le_rfl (by simp) (by
      rw [edgesCost_pairs, pairs_length, zero_add, add_zero, one_mul]
      refine le_trans ?_ hB1
      exact mul_le_mul_of_nonneg_left (by linarith) (by positivity))
  rw [edgesCost_pairs, pairs_length, zero_add, add_zero, one_mul] at x4
  obtain ⟨y, y1, y2, y3, y4⟩ := rel_step h hu x2 c1 x3 c2 (by linarith) x4 (by
    rw [add_sub_cancel]; exact hB1)
  refine ⟨y, ?_, ?_⟩
  · unfold Mat.evaluateCircle
    rw [if_neg (by omega), h1, h2]
    simp only [unwrapO, rm_bind_ok]
    rw [hm.entry b1 b2 b3]
    have hpath : @Mat.evaluatePath _ R.ops m p = .ok (fin x) := by
      unfold Mat.evaluatePath
      rw [if_neg (by omega)]
      exact x1
    rw [hpath]
    simp only [rm_bind_ok, rm_pure]
    rw [y1]
  · rw [hpow]
    rwa [add_sub_cancel] at y4

end Walky
