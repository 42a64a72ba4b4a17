import Verif.Lemmas.Cost
import Verif.Lemmas.XNum
import Verif.Lemmas.Perm
import Verif.Lemmas.Bounds

/-! # Helper lemmas: path evaluation and the loop of v0 and v1 -/

set_option linter.unusedSectionVars false

namespace Walky

open FloatOps Spec XNum

variable {K : Type} [Field K] [LinearOrder K] [IsStrictOrderedRing K]

theorem evaluatePath_exact {m : Mat (XNum K)} {c : Nat → Nat → K} {p : List Nat}
    (h : ∀ e ∈ pairs p, m.entry e.1 e.2 = .ok (fin (c e.1 e.2))) :
    m.evaluatePath p = .ok (fin (pathCost c p)) := by
  unfold Mat.evaluatePath
  split
  · rename_i hl
    rcases p with _ | ⟨a, _ | ⟨b, t⟩⟩
    · rfl
    · rfl
    · simp at hl
  · suffices H : ∀ (x : K), (pairs p).foldlM (fun acc e => do
        let cost ← m.entry e.1 e.2
        return acc +ᶠ cost) (fin x) = .ok (fin (x + edgesCost c (pairs p))) by
      have := H 0
      rw [zero_add, edgesCost_pairs] at this
      exact this
    generalize pairs p = l at h
    induction l with
    | nil => intro x; simp [edgesCost]
    | cons e l ih =>
      intro x
      rw [List.foldlM_cons, h e (by simp)]
      have := ih (fun e' he' => h e' (by simp [he'])) (x + c e.1 e.2)
      simp only [rm_bind_ok, rm_pure, XNum.add_fin] at this ⊢
      rw [this]
      simp [edgesCost, add_assoc]

theorem evaluateCircle_exact {m : Mat (XNum K)} {c : Nat → Nat → K} {p : List Nat}
    (h : ∀ e ∈ pairs p, m.entry e.1 e.2 = .ok (fin (c e.1 e.2))) (hl : 2 ≤ p.length)
    (hclose : ∀ a b, p.getLast? = some a → p.head? = some b → m.entry a b = .ok (fin (c a b))) :
    m.evaluateCircle p = .ok (fin (tourCost c p)) := by
  have hne : p ≠ [] := by rintro rfl; simp at hl
  unfold Mat.evaluateCircle
  rw [if_neg (by omega)]
  have h1 : p.getLast? = some (p.getLast hne) := List.getLast?_eq_getLast_of_ne_nil hne
  have h2 : p.head? = some (p.head hne) := List.head?_eq_some_head hne
  rw [h1, h2]
  simp only [unwrapO, rm_bind_ok]
  rw [hclose _ _ h1 h2, evaluatePath_exact h]
  simp only [rm_bind_ok, rm_pure, XNum.add_fin]
  rw [tourCost_eq c p hne]

theorem pairs_ne {p : List Nat} (h : p.Nodup) {e : Nat × Nat} (he : e ∈ pairs p) : e.1 ≠ e.2 := by
  induction p with
  | nil => simp [pairs] at he
  | cons a t ih =>
    cases t with
    | nil => simp [pairs] at he
    | cons b t =>
      rw [pairs_cons₂] at he
      rw [List.nodup_cons] at h
      rcases List.mem_cons.mp he with h1 | h1
      · subst h1
        rintro (rfl : a = b)
        exact h.1 (by simp)
      · exact ih h.2 h1

theorem Rep.entry {m : Mat (XNum K)} {c : Nat → Nat → K} (hm : Rep m c) {i j : Nat}
    (hi : i < m.dim) (hj : j < m.dim) (hij : i ≠ j) : m.entry i j = .ok (fin (c i j)) := by
  rw [entry_ok hi hj, hm.off i j hi hj hij]

theorem evaluatePath_valid {m : Mat (XNum K)} {c : Nat → Nat → K} (hm : Rep m c) {p : List Nat}
    (hp : ValidPre m.dim p) : m.evaluatePath p = .ok (fin (pathCost c p)) := by
  apply evaluatePath_exact
  intro e he
  exact hm.entry (hp.2 _ (mem_pairs he).1) (hp.2 _ (mem_pairs he).2) (pairs_ne hp.1 he)

theorem evaluateCircle_valid {m : Mat (XNum K)} {c : Nat → Nat → K} (hm : Rep m c) {p : List Nat}
    (hp : ValidPre m.dim p) (hl : 2 ≤ p.length) :
    m.evaluateCircle p = .ok (fin (tourCost c p)) := by
  refine evaluateCircle_exact ?_ hl ?_
  · intro e he
    exact hm.entry (hp.2 _ (mem_pairs he).1) (hp.2 _ (mem_pairs he).2) (pairs_ne hp.1 he)
  · intro a b ha hb
    have hne : p ≠ [] := by rintro rfl; simp at hl
    have e1 : a = p.getLast hne := by
      rw [List.getLast?_eq_getLast_of_ne_nil hne] at ha; exact (Option.some.inj ha).symm
    have e2 : b = p.head hne := by
      rw [List.head?_eq_some_head hne] at hb; exact (Option.some.inj hb).symm
    refine hm.entry ?_ ?_ ?_
    · rw [e1]; exact hp.2 _ (List.getLast_mem hne)
    · rw [e2]; exact hp.2 _ (List.head_mem hne)
    · rw [e1, e2, List.getLast_eq_getElem, List.head_eq_getElem]
      intro h'
      have := (List.Nodup.getElem_inj_iff hp.1).mp h'
      omega

/-- reversal, with symmetry on the cities only -/
theorem tourCost_reverse_of_symm {n : Nat} {c : Nat → Nat → K} (hsym : Symm n c) {p : List Nat}
    (hp : ∀ i ∈ p, i < n) : tourCost c p.reverse = tourCost c p := by
  -- make the costs globally symmetric without changing them on the cities
  let c' : Nat → Nat → K := fun i j => if i < n ∧ j < n then c i j else 0
  have hc' : ∀ i j, c' i j = c' j i := by
    intro i j
    simp only [c']
    by_cases h : i < n ∧ j < n
    · rw [if_pos h, if_pos h.symm]; exact hsym i j h.1 h.2
    · rw [if_neg h, if_neg (fun h' => h h'.symm)]
  have heq : ∀ p, (∀ i ∈ p, i < n) → tourCost c p = tourCost c' p := by
    intro p hp
    cases p with
    | nil => rfl
    | cons a p =>
      unfold tourCost
      apply pathCost_congr
      intro x y hxy
      have hx := hxy.subset (a := x) (by simp)
      have hy := hxy.subset (a := y) (by simp)
      have hmem : ∀ z ∈ a :: p ++ [a], z < n := by
        intro z hz
        apply hp
        simp at hz ⊢
        tauto
      simp only [c']
      rw [if_pos ⟨hmem x hx, hmem y hy⟩]
  rw [heq _ hp, heq _ (fun i hi => hp i (by simpa using hi)), tourCost_reverse c' hc']

/-- The loop of v0/v1 takes the best of the visited tours. -/
theorem permLoop_run {m : Mat (XNum K)} {c : Nat → Nat → K}
    {step : List Nat → RM (Bool × List Nat)} {cur : List Nat} {l : List (List Nat)}
    (hrun : Run step cur l) (hl : ∀ p ∈ l, m.evaluateCircle p = .ok (fin (tourCost c p))) :
    ∀ (fuel : Nat) (best : Solution (XNum K)), l.length < fuel → Proper best.1 →
      ∃ r, permLoop m step fuel cur best = .ok r ∧
        (r = best ∨ (r.2 ∈ l ∧ r.1 = fin (tourCost c r.2))) ∧
        FloatOps.le r.1 best.1 = true ∧ ∀ p ∈ l, FloatOps.le r.1 (fin (tourCost c p)) = true := by
  induction hrun with
  | stop h =>
    intro fuel best hf hb
    cases fuel with
    | zero => simp at hf
    | succ fuel =>
      refine ⟨best, ?_, Or.inl rfl, hb.le_refl, by simp⟩
      simp [permLoop, h]
  | @next a b l h hr ih =>
    intro fuel best hf hb
    cases fuel with
    | zero => simp at hf
    | succ fuel =>
      have hcost := hl b (by simp)
      have ih := ih (fun p hp => hl p (by simp [hp])) fuel
      unfold permLoop
      rw [h]
      simp only [rm_bind_ok, if_true, hcost]
      by_cases hlt : FloatOps.lt (fin (tourCost c b)) best.1 = true
      · rw [if_pos hlt]
        obtain ⟨r, r1, r2, r3, r4⟩ := ih (fin (tourCost c b), b) (by simp at hf; omega)
          (proper_fin _)
        refine ⟨r, r1, ?_, le_trans' r3 (le_of_lt' hlt), ?_⟩
        · right
          rcases r2 with r2 | ⟨r2, r2'⟩
          · rw [r2]; exact ⟨by simp, rfl⟩
          · exact ⟨by simp [r2], r2'⟩
        · intro p hp
          rcases List.mem_cons.mp hp with h1 | h1
          · subst h1; exact r3
          · exact r4 p h1
      · rw [if_neg hlt]
        obtain ⟨r, r1, r2, r3, r4⟩ := ih best (by simp at hf; omega) hb
        refine ⟨r, r1, ?_, r3, ?_⟩
        · rcases r2 with r2 | ⟨r2, r2'⟩
          · exact Or.inl r2
          · exact Or.inr ⟨by simp [r2], r2'⟩
        · intro p hp
          rcases List.mem_cons.mp hp with h1 | h1
          · subst h1
            exact le_trans' r3 (Proper.not_lt (proper_fin _) hb (by simpa using hlt))
          · exact r4 p h1

/-- the number of rearrangements bounds the number of loop iterations -/
theorem length_le_factorial {l : List (List Nat)} {a : List Nat} (hnd : l.Nodup)
    (h : ∀ c ∈ l, c.Perm a) : l.length ≤ a.length.factorial := by
  rw [← List.length_permutations]
  have : l.Subperm a.permutations :=
    List.subperm_of_subset hnd (fun c hc => List.mem_permutations.mpr (h c hc))
  exact this.length_le

theorem run_tail {a : List Nat} {l : List (List Nat)} (x : Nat) (h : Run nextPermutation a l) :
    Run nextPermutationTail (x :: a) (l.map (x :: ·)) := by
  induction h with
  | stop h =>
    exact .stop (b := x :: _) (by simp only [nextPermutationTail, h, rm_bind_ok, rm_pure]; rfl)
  | next h _ ih =>
    exact .next (by simp only [nextPermutationTail, h, rm_bind_ok, rm_pure]) ih

/-- the start of the enumeration is the smallest rearrangement -/
theorem range_le {n : Nat} {q : List Nat} (hq : IsTour n q) (hne : q ≠ List.range n) :
    List.range n < q := by
  refine lt_of_le_of_ne ?_ (Ne.symm hne)
  refine not_lt.mp (not_lt_of_asc ?_ hq)
  exact List.pairwise_lt_range.imp (fun h => le_of_lt h)

end Walky
