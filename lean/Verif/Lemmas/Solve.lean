import Verif.Lemmas.Dfs
import Verif.Lemmas.PrimWeight

/-! # Helper lemmas: the branch-and-bound solvers as a whole -/

set_option linter.unusedSectionVars false

namespace Walky

open FloatOps Spec XNum

variable {K : Type} [Field K] [LinearOrder K] [IsStrictOrderedRing K]

/-- the test never panics and keeps the invariant of its auxiliary state -/
def TestOk {σ : Type} (n : Nat) (test : PruneTest σ (XNum K)) (J : σ → Prop) : Prop :=
  ∀ a p x b, J a → ValidPre n p → 2 ≤ p.length → Proper b →
    ∃ go a', test a p (fin x) b = .ok (go, a') ∧ J a'

theorem validPre_nil (n : Nat) : ValidPre n [] := ⟨List.nodup_nil, by simp⟩

theorem firstLeaf_nil (n : Nat) : firstLeaf n [] = List.range n := by
  simp [firstLeaf]

theorem solveDfs_exact {σ : Type} {m : Mat (XNum K)} {c : Nat → Nat → K} (hm : Rep m c)
    {test : PruneTest σ (XNum K)} {J : σ → Prop} (ht : TestOk m.dim test J) (hdim : 0 < m.dim)
    {aux : σ} (hJ : J aux) :
    ∃ r, solveDfs m test aux = .ok r ∧
      (r = (XNum.inf, []) ∨ (IsTour m.dim r.2 ∧ r.1 = fin (tourCost c r.2))) ∧
      (∀ q T, IsTour m.dim q → tourCost c q ≤ T → AlongT c test J T [] q →
        FloatOps.le r.1 (fin T) = true) ∧
      (AlongInf c test J [] (List.range m.dim) →
        FloatOps.le r.1 (fin (tourCost c (List.range m.dim))) = true) := by
  obtain ⟨r, h1, h2, h3, h4, h5⟩ := dfs_exact m c hm test J ht hdim (m.dim + 1) []
    ((XNum.inf, []), aux) (validPre_nil _) (by simp) hJ proper_inf
  refine ⟨r.1, ?_, ?_, ?_, ?_⟩
  · unfold solveDfs
    have : (zero : XNum K) = fin (pathCost c []) := rfl
    rw [this, inf_def, h1]
    rfl
  · rcases h3 with h | ⟨a, b, d, e⟩
    · left; exact h
    · right; exact ⟨a, d⟩
  · intro q T hq hT hal
    exact h4 q T hq (List.nil_prefix) hT hal
  · intro hal
    have := h5 rfl (by rw [firstLeaf_nil]; exact hal)
    rwa [firstLeaf_nil] at this

/-- answer of a solver that follows the identity tour first: a tour with its length, not longer
than the identity tour -/
theorem solveDfs_truthful {σ : Type} {m : Mat (XNum K)} {c : Nat → Nat → K} (hm : Rep m c)
    {test : PruneTest σ (XNum K)} {J : σ → Prop} (ht : TestOk m.dim test J) (hdim : 0 < m.dim)
    {aux : σ} (hJ : J aux) (hal : AlongInf c test J [] (List.range m.dim)) :
    ∃ p, solveDfs m test aux = .ok (fin (tourCost c p), p) ∧ IsTour m.dim p ∧
      tourCost c p ≤ tourCost c (List.range m.dim) ∧
      (∀ q T, IsTour m.dim q → tourCost c q ≤ T → AlongT c test J T [] q → tourCost c p ≤ T) := by
  obtain ⟨r, h1, h2, h3, h4⟩ := solveDfs_exact hm ht hdim hJ
  have h4 := h4 hal
  rcases h2 with h | ⟨a, b⟩
  · rw [h] at h4; simp at h4
  · refine ⟨r.2, ?_, a, ?_, ?_⟩
    · rw [h1, ← b]
    · rw [b] at h4; simpa using h4
    · intro q T hq hT hq'
      have := h3 q T hq hT hq'
      rw [b] at this; simpa using this

/-! ## Totality of the tests -/

theorem test2_ok (n : Nat) : TestOk (K := K) n test2 (fun _ => True) := by
  intro a p x b _ _ _ _; exact ⟨true, (), rfl, trivial⟩

theorem test3_ok (n : Nat) : TestOk (K := K) n test3 (fun _ => True) := by
  intro a p x b _ _ _ _; exact ⟨_, (), rfl, trivial⟩

theorem shortestLaterEdge_proper {m : Mat (XNum K)} {c : Nat → Nat → K} (hm : Rep m c)
    (sub : List Nat) {i : Nat} (hi : i < m.dim) : Proper (shortestLaterEdge m sub i) := by
  unfold shortestLaterEdge
  refine foldl_inv _ (fun _ b => Proper b) _ _ proper_inf ?_
  intro done j rest b hl hb
  have hj : j ∈ List.range' (i + 1) (m.dim - (i + 1)) := by rw [hl]; simp
  rw [List.mem_range'_1] at hj
  split
  · exact hb
  · split
    · rw [hm.off i j hi (by omega) (by omega)]; exact proper_fin _
    · exact hb

theorem nnOfRemaining_fin {m : Mat (XNum K)} {c : Nat → Nat → K} (hm : Rep m c)
    (sub : List Nat) : ∃ x, nnOfRemaining m sub = fin x := by
  unfold nnOfRemaining
  refine foldl_inv _ (fun _ b => ∃ x, b = fin x) _ _ ⟨0, rfl⟩ ?_
  rintro done i rest b hl ⟨x, rfl⟩
  have hi : i ∈ List.range m.dim := by rw [hl]; simp
  simp only [List.mem_range] at hi
  split
  · exact ⟨x, rfl⟩
  · rcases shortestLaterEdge_proper hm sub hi with h | ⟨a, h⟩
    · rw [h]; simp
    · rw [h]; simp

theorem test4_ok {m : Mat (XNum K)} (n : Nat) :
    TestOk (K := K) n (test4 m) (fun _ => True) := by
  intro a p x b _ _ _ _
  exact ⟨_, (), rfl, trivial⟩

/-- the bound of v5: twice the weight of a minimum spanning tree, or 0 -/
theorem mstBound_fin {m : Mat (XNum K)} {c : Nat → Nat → K} (hm : Rep m c) {p : List Nat}
    (hp : ∀ v ∈ p, v < m.dim) : ∃ x, mstBound m p = .ok (fin x) := by
  rcases primSeq_exact hm p hp with ⟨_, h⟩ | ⟨start, P, _, _, _, h, _⟩
  · refine ⟨0, ?_⟩
    unfold mstBound
    rw [h]; rfl
  · refine ⟨wsum (treeGraph c m.dim P), ?_⟩
    unfold mstBound
    rw [h]
    simp only [rm_bind_ok, rm_pure]
    rw [directedEdgeWeight_fin _ (finG_treeGraph _ _ _)]

theorem test5_ok {m : Mat (XNum K)} {c : Nat → Nat → K} (hm : Rep m c) :
    TestOk m.dim (test5 m) (fun _ => True) := by
  intro a p x b _ hp _ _
  obtain ⟨y, hy⟩ := mstBound_fin hm hp.2
  unfold test5
  rw [hy]
  exact ⟨_, (), rfl, trivial⟩

/-- all cached bounds are finite -/
def CacheFin (cache : Cache (XNum K)) : Prop := ∀ x ∈ cache, ∃ y, x.2 = fin y

theorem lookup_mem {β : Type} {l : List (Nat × β)} {k : Nat} {v : β}
    (h : l.lookup k = some v) : (k, v) ∈ l := by
  induction l with
  | nil => simp at h
  | cons a t ih =>
    obtain ⟨x, y⟩ := a
    rw [List.lookup_cons] at h
    split at h
    · rename_i hk
      simp at hk h
      simp [hk, h]
    · exact List.mem_cons_of_mem _ (ih h)

theorem test6_ok {m : Mat (XNum K)} {c : Nat → Nat → K} (hm : Rep m c) (hash : List Nat → Nat) :
    TestOk m.dim (test6 m hash) CacheFin := by
  intro a p x b ha hp _ _
  obtain ⟨y, hy⟩ := mstBound_fin hm hp.2
  unfold test6
  rw [hy]
  simp only [rm_bind_ok, rm_pure]
  cases hl : a.lookup (hash p) with
  | some v => exact ⟨_, _, rfl, ha⟩
  | none =>
    refine ⟨_, _, rfl, ?_⟩
    intro z hz
    rcases List.mem_cons.mp hz with h | h
    · rw [h]; exact ⟨y, rfl⟩
    · exact ha z h

theorem testMpi_ok {m : Mat (XNum K)} {c : Nat → Nat → K} (hm : Rep m c) (g : XNum K) :
    TestOk m.dim (testMpi m g) (fun _ => True) := by
  intro a p x b _ hp _ _
  obtain ⟨y, hy⟩ := mstBound_fin hm hp.2
  unfold testMpi
  rw [hy]
  exact ⟨_, (), rfl, trivial⟩

/-! ## The tests admit every branch while nothing has been found -/

/-- prefixes of tours are valid -/
theorem validPre_prefix {n : Nat} {p q : List Nat} (hq : IsTour n q) (h : p <+: q) :
    ValidPre n p := by
  refine ⟨h.sublist.nodup hq.nodup, ?_⟩
  intro i hi
  exact hq.mem.mp (h.subset hi)

theorem alongInf_of_ok {σ : Type} {n : Nat} {c : Nat → Nat → K} {test : PruneTest σ (XNum K)}
    {J : σ → Prop} {q : List Nat} (hq : IsTour n q)
    (h : ∀ a p x, J a → ValidPre n p → 2 ≤ p.length →
      ∃ a', test a p (fin x) XNum.inf = .ok (true, a')) : AlongInf c test J [] q := by
  intro p hp _ h2 a ha
  exact h a p _ ha (validPre_prefix hq hp) h2

theorem test2_inf (n : Nat) (c : Nat → Nat → K) :
    AlongInf c test2 (fun _ => True) [] (List.range n) :=
  alongInf_of_ok (isTour_range n) (fun _ _ _ _ _ _ => ⟨(), rfl⟩)

theorem test3_inf (n : Nat) (c : Nat → Nat → K) :
    AlongInf c test3 (fun _ => True) [] (List.range n) :=
  alongInf_of_ok (isTour_range n) (fun _ _ _ _ _ _ => ⟨(), by simp [test3]⟩)

theorem test4_inf {m : Mat (XNum K)} {c : Nat → Nat → K} (hm : Rep m c) :
    AlongInf c (test4 m) (fun _ => True) [] (List.range m.dim) :=
  alongInf_of_ok (isTour_range _) (fun _ p _ _ _ _ => ⟨(), by
    obtain ⟨y, hy⟩ := nnOfRemaining_fin hm p
    simp [test4, hy]⟩)

theorem test5_inf {m : Mat (XNum K)} {c : Nat → Nat → K} (hm : Rep m c) :
    AlongInf c (test5 m) (fun _ => True) [] (List.range m.dim) :=
  alongInf_of_ok (isTour_range _) (fun _ p _ _ hp _ => ⟨(), by
    obtain ⟨y, hy⟩ := mstBound_fin hm hp.2
    simp [test5, hy]⟩)

theorem test6_inf {m : Mat (XNum K)} {c : Nat → Nat → K} (hm : Rep m c) (hash : List Nat → Nat) :
    AlongInf c (test6 m hash) CacheFin [] (List.range m.dim) :=
  alongInf_of_ok (isTour_range _) (fun a p x ha hp _ => by
    obtain ⟨y, hy⟩ := mstBound_fin hm hp.2
    unfold test6
    rw [hy]
    simp only [rm_bind_ok, rm_pure]
    cases hl : a.lookup (hash p) with
    | some v =>
      obtain ⟨z, hz⟩ := ha _ (lookup_mem hl)
      simp only at hz
      exact ⟨a, by simp [hz]⟩
    | none => exact ⟨_, by simp; rfl⟩)

/-! ## Lengths of prefixes -/

theorem pathCost_nonneg {c : Nat → Nat → K} {n : Nat} (hc : Nonneg n c) {p : List Nat}
    (hp : ValidPre n p) : 0 ≤ pathCost c p := by
  induction p with
  | nil => simp
  | cons a t ih =>
    cases t with
    | nil => simp
    | cons b t =>
      have h1 := hp.1
      rw [List.nodup_cons] at h1
      have := ih ⟨h1.2, fun i hi => hp.2 i (by simp [hi])⟩
      simp only [pathCost_cons₂]
      have hab : a ≠ b := by rintro rfl; exact h1.1 (by simp)
      have := hc a b (hp.2 a (by simp)) (hp.2 b (by simp)) hab
      linarith

theorem pathCost_prefix_le {c : Nat → Nat → K} {n : Nat} (hc : Nonneg n c) {p q : List Nat}
    (hq : ValidPre n q) (h : p <+: q) : pathCost c p ≤ pathCost c q := by
  obtain ⟨t, rfl⟩ := h
  rcases List.eq_nil_or_concat p with rfl | ⟨l, x, rfl⟩
  · simpa using pathCost_nonneg hc hq
  · rw [List.concat_eq_append, List.append_assoc, List.cons_append, List.nil_append] at *
    rw [pathCost_append c l x t]
    have : ValidPre n (x :: t) := by
      refine ⟨?_, fun i hi => hq.2 i (by simp at hi ⊢; tauto)⟩
      have := hq.1
      rw [List.nodup_append] at this
      exact this.2.1
    have := pathCost_nonneg hc this
    linarith

theorem closing_nonneg {c : Nat → Nat → K} {n : Nat} (hc : Nonneg n c) (h1 : n = 1 → 0 ≤ c 0 0)
    {q : List Nat} (hq : IsTour n q) : pathCost c q ≤ tourCost c q := by
  rcases q with _ | ⟨a, t⟩
  · simp [tourCost]
  · have hne : a :: t ≠ [] := by simp
    rw [tourCost_eq c _ hne]
    have hv := validPre_prefix hq (List.prefix_refl _)
    have hl := hv.2 _ (List.getLast_mem hne)
    have hh := hv.2 _ (List.head_mem hne)
    have : 0 ≤ c ((a :: t).getLast hne) ((a :: t).head hne) := by
      rcases Nat.lt_or_ge 1 n with h | h
      · apply hc _ _ hl hh
        rw [List.getLast_eq_getElem, List.head_eq_getElem]
        intro h'
        have := (List.Nodup.getElem_inj_iff hv.1).mp h'
        have := hq.length
        omega
      · have hn : n = 1 := by omega
        have e1 : (a :: t).getLast hne = 0 := by omega
        have e2 : (a :: t).head hne = 0 := by omega
        rw [e1, e2]
        exact h1 hn
    linarith

end Walky
