import Verif.Model.Permutation
import Verif.Lemmas.Basic
import Mathlib.Data.List.Lex
import Mathlib.Data.Finset.Card
import Mathlib.Data.Finset.Filter
import Mathlib.Data.Finset.Dedup
import Mathlib.Data.List.Permutation

/-! # Helper lemmas: `next_permutation` -/

set_option linter.unusedSectionVars false

namespace Walky

variable {β : Type} [LinearOrder β]

theorem findPivot_spec (a : List β) : ∀ k, k < a.length → (a.drop k).Pairwise (· ≥ ·) →
    ∃ i, findPivot a k = .ok i ∧ i ≤ k ∧ (a.drop i).Pairwise (· ≥ ·) ∧
      (∀ j, i = j + 1 → ∃ x y, a[j]? = some x ∧ a[j + 1]? = some y ∧ x < y) := by
  intro k
  induction k with
  | zero => intro _ h; exact ⟨0, rfl, le_rfl, h, by simp⟩
  | succ k ih =>
    intro hk h
    have hk' : k < a.length := by omega
    unfold findPivot
    rw [idx_ok (List.getElem?_eq_getElem hk'), idx_ok (List.getElem?_eq_getElem hk)]
    simp only [rm_bind_ok]
    by_cases hle : a[k + 1] ≤ a[k]
    · rw [if_pos hle]
      obtain ⟨i, h1, h2, h3, h4⟩ := ih hk' (by
        rw [List.drop_eq_getElem_cons hk', List.pairwise_cons]
        refine ⟨?_, h⟩
        intro z hz
        rw [List.drop_eq_getElem_cons hk] at hz h
        rcases List.mem_cons.mp hz with hz | hz
        · rw [hz]; exact hle
        · exact ge_trans hle ((List.pairwise_cons.mp h).1 z hz))
      exact ⟨i, h1, by omega, h3, h4⟩
    · rw [if_neg hle]
      refine ⟨k + 1, rfl, le_rfl, h, ?_⟩
      intro j hj
      have : j = k := by omega
      subst this
      exact ⟨_, _, List.getElem?_eq_getElem hk', List.getElem?_eq_getElem hk, not_le.mp hle⟩

theorem findSucc_spec (a : List β) (x : β) : ∀ k i (_ : k < a.length) (_ : i ≤ k)
    (hi : i < a.length), x < a[i] → (∀ z ∈ a.drop (k + 1), z ≤ x) →
    ∃ j, findSucc a x k = .ok j ∧ i ≤ j ∧ j ≤ k ∧ (∃ h : j < a.length, x < a[j]) ∧
      (∀ z ∈ a.drop (j + 1), z ≤ x) := by
  intro k
  induction k with
  | zero =>
    intro i hk hik hi hx hd
    have : i = 0 := by omega
    subst this
    unfold findSucc
    rw [idx_ok (List.getElem?_eq_getElem hk)]
    simp only [rm_bind_ok]
    rw [if_neg (not_le.mpr hx)]
    exact ⟨0, rfl, le_rfl, le_rfl, ⟨hk, hx⟩, hd⟩
  | succ k ih =>
    intro i hk hik hi hx hd
    unfold findSucc
    rw [idx_ok (List.getElem?_eq_getElem hk)]
    simp only [rm_bind_ok]
    by_cases hle : a[k + 1] ≤ x
    · rw [if_pos hle]
      have hne : i ≠ k + 1 := by
        rintro rfl
        exact absurd hx (not_lt.mpr hle)
      obtain ⟨j, h1, h2, h3, h4, h5⟩ := ih i (by omega) (by omega) hi hx (by
        intro z hz
        rw [List.drop_eq_getElem_cons hk] at hz
        rcases List.mem_cons.mp hz with hz | hz
        · rw [hz]; exact hle
        · exact hd z hz)
      exact ⟨j, h1, h2, by omega, h4, h5⟩
    · rw [if_neg hle]
      exact ⟨k + 1, rfl, hik, le_rfl, ⟨hk, not_le.mp hle⟩, hd⟩

/-- What `next_permutation` does, without indices. -/
theorem nextPermutation_shape (a : List β) :
    (a.Pairwise (· ≥ ·) ∧ nextPermutation a = .ok (false, a)) ∨
    ∃ p x s₁ y s₂, a = p ++ x :: (s₁ ++ y :: s₂) ∧ (s₁ ++ y :: s₂).Pairwise (· ≥ ·) ∧ x < y ∧
      (∀ z ∈ s₂, z ≤ x) ∧
      nextPermutation a = .ok (true, p ++ y :: (s₁ ++ x :: s₂).reverse) := by
  rcases a with _ | ⟨a0, t⟩
  · left; exact ⟨by simp, rfl⟩
  generalize ha : a0 :: t = a
  have hpos : 0 < a.length := by rw [← ha]; simp
  have hempty : a.isEmpty = false := by rw [← ha]; rfl
  obtain ⟨i, h1, h2, h3, h4⟩ := findPivot_spec a (a.length - 1) (by omega) (by
    rw [List.drop_eq_getElem_cons (by omega), List.drop_of_length_le (by omega)]
    simp)
  unfold nextPermutation
  rw [hempty, h1]
  simp only [Bool.false_eq_true, if_false, rm_bind_ok]
  cases i with
  | zero =>
    left
    exact ⟨by simpa using h3, by simp⟩
  | succ i =>
    right
    obtain ⟨x, y0, hx, hy0, hlt⟩ := h4 i rfl
    have hi : i < a.length := by omega
    have hi1 : i + 1 < a.length := by
      rw [List.getElem?_eq_some_iff] at hy0; exact hy0.1
    have ex : a[i] = x := by
      rw [List.getElem?_eq_getElem hi] at hx; simpa using hx
    have ey : a[i + 1] = y0 := by
      rw [List.getElem?_eq_getElem hi1] at hy0; simpa using hy0
    obtain ⟨j, j1, j2, j3, ⟨j4, j5⟩, j6⟩ := findSucc_spec a x (a.length - 1) (i + 1) (by omega)
      (by omega) hi1 (by rw [ey]; exact hlt) (by
        rw [List.drop_of_length_le (by omega)]; simp)
    -- decomposition
    have d1 : a = a.take i ++ x :: a.drop (i + 1) := by
      rw [← ex, ← List.drop_eq_getElem_cons hi, List.take_append_drop]
    have d2 : a.drop (i + 1) = (a.drop (i + 1)).take (j - (i + 1)) ++ a[j] :: a.drop (j + 1) := by
      have := List.take_append_drop (j - (i + 1)) (a.drop (i + 1))
      rw [List.drop_drop] at this
      rw [show i + 1 + (j - (i + 1)) = j by omega, List.drop_eq_getElem_cons j4] at this
      exact this.symm
    generalize hp : a.take i = p at d1
    generalize hs1 : (a.drop (i + 1)).take (j - (i + 1)) = s₁ at d2
    generalize hy : a[j] = y at d2 j5
    generalize hs2 : a.drop (j + 1) = s₂ at d2 j6
    have lp : p.length = i := by rw [← hp]; simp; omega
    have ls1 : s₁.length = j - (i + 1) := by rw [← hs1]; simp; omega
    refine ⟨p, x, s₁, y, s₂, ?_, ?_, j5, j6, ?_⟩
    · rw [← d2]; exact d1
    · rw [← d2]; exact h3
    · have hpiv : idx a (i + 1 - 1) = .ok x := idx_ok hx
      have hjy : idx a j = .ok y := idx_ok (by rw [List.getElem?_eq_getElem j4, hy])
      simp only [Nat.add_eq_zero_iff, one_ne_zero, and_false, if_false, hpiv, rm_bind_ok, j1]
      have hsw : swapAt a (i + 1 - 1) j = .ok (p ++ y :: (s₁ ++ x :: s₂)) := by
        unfold swapAt
        rw [hpiv, hjy]
        simp only [rm_bind_ok, rm_pure, Nat.add_sub_cancel]
        congr 1
        rw [d1, d2]
        rw [List.set_append_right _ _ (by omega), lp, Nat.sub_self, List.set_cons_zero]
        rw [List.set_append_right _ _ (by omega), lp]
        rw [show j - i = (j - (i + 1)) + 1 by omega, List.set_cons_succ]
        rw [List.set_append_right _ _ (by omega), ls1, Nat.sub_self, List.set_cons_zero]
      rw [hsw]
      simp only [rm_bind_ok, rm_pure]
      congr 2
      have e : p ++ y :: (s₁ ++ x :: s₂) = (p ++ [y]) ++ (s₁ ++ x :: s₂) := by simp
      have l : (p ++ [y]).length = i + 1 := by simp [lp]
      rw [e, ← l, List.take_left, List.drop_left]
      simp

theorem cons_lt_cons {a b : β} {s t : List β} : a :: s < b :: t ↔ a < b ∨ a = b ∧ s < t := by
  exact List.cons_lt_cons_iff

/-- a non-increasing list is the largest of its rearrangements -/
theorem not_lt_of_desc {s u : List β} (hs : s.Pairwise (· ≥ ·)) (hu : u.Perm s) : ¬ s < u := by
  induction s generalizing u with
  | nil => rw [List.perm_nil.mp hu]; exact lt_irrefl _
  | cons a s ih =>
    cases u with
    | nil => simp at hu
    | cons b u =>
      rw [cons_lt_cons]
      rw [List.pairwise_cons] at hs
      have hb : b ≤ a := by
        have : b ∈ a :: s := hu.subset (by simp)
        rcases List.mem_cons.mp this with h | h
        · exact h.le
        · exact hs.1 b h
      rintro (h | ⟨rfl, h⟩)
      · exact absurd h (not_lt.mpr hb)
      · exact ih hs.2 (List.Perm.cons_inv hu) h

/-- a non-decreasing list is the smallest of its rearrangements -/
theorem not_lt_of_asc {s u : List β} (hs : s.Pairwise (· ≤ ·)) (hu : u.Perm s) : ¬ u < s := by
  induction s generalizing u with
  | nil => rw [List.perm_nil.mp hu]; exact lt_irrefl _
  | cons a s ih =>
    cases u with
    | nil => simp at hu
    | cons b u =>
      rw [cons_lt_cons]
      rw [List.pairwise_cons] at hs
      have hb : a ≤ b := by
        have : b ∈ a :: s := hu.subset (by simp)
        rcases List.mem_cons.mp this with h | h
        · exact h.ge
        · exact hs.1 b h
      rintro (h | ⟨rfl, h⟩)
      · exact absurd h (not_lt.mpr hb)
      · exact ih hs.2 (List.Perm.cons_inv hu) h

/-- nothing lies between a list and its successor -/
theorem no_between {p : List β} {x y : β} {s t : List β}
    (hx : ∀ u, u.Perm s → ¬ s < u) (hy : ∀ u, u.Perm t → ¬ u < t)
    (hz : ∀ z ∈ x :: s, x < z → ¬ z < y)
    (hp : (x :: s).Perm (y :: t)) :
    ∀ c, c.Perm (p ++ x :: s) → p ++ x :: s < c → ¬ c < p ++ y :: t := by
  induction p with
  | nil =>
    intro c hc h1 h2
    simp only [List.nil_append] at hc h1 h2
    cases c with
    | nil => simp at hc
    | cons z u =>
      rw [cons_lt_cons] at h1 h2
      have hmem : z ∈ x :: s := hc.subset (by simp)
      rcases h1 with h1 | ⟨rfl, h1⟩
      · rcases h2 with h2 | ⟨rfl, h2⟩
        · exact hz z hmem h1 h2
        · exact hy u ((hc.trans hp).cons_inv) h2
      · exact hx u hc.cons_inv h1
  | cons w p ih =>
    intro c hc h1 h2
    simp only [List.cons_append] at hc h1 h2
    cases c with
    | nil => simp at hc
    | cons z u =>
      rw [cons_lt_cons] at h1 h2
      rcases h1 with h1 | ⟨rfl, h1⟩
      · rcases h2 with h2 | ⟨rfl, h2⟩
        · exact absurd h2 (not_lt.mpr h1.le)
        · exact absurd h1 (lt_irrefl _)
      · rcases h2 with h2 | ⟨_, h2⟩
        · exact absurd h2 (lt_irrefl _)
        · exact ih u hc.cons_inv h1 h2

theorem nextPermutation_spec (a : List β) :
    (nextPermutation a = .ok (false, a) ∧ ∀ c, c.Perm a → ¬ a < c) ∨
    ∃ b, nextPermutation a = .ok (true, b) ∧ b.Perm a ∧ a < b ∧
      ∀ c, c.Perm a → a < c → b ≤ c := by
  rcases nextPermutation_shape a with ⟨h1, h2⟩ | ⟨p, x, s₁, y, s₂, rfl, h2, h3, h4, h5⟩
  · left; exact ⟨h2, fun c hc => not_lt_of_desc h1 hc⟩
  · right
    have hperm : (y :: (s₁ ++ x :: s₂).reverse).Perm (x :: (s₁ ++ y :: s₂)) := by
      have e1 : (y :: (s₁ ++ x :: s₂).reverse).Perm (y :: x :: (s₁ ++ s₂)) :=
        ((List.reverse_perm _).trans List.perm_middle).cons y
      have e2 : (x :: (s₁ ++ y :: s₂)).Perm (x :: y :: (s₁ ++ s₂)) := List.perm_middle.cons x
      exact (e1.trans (List.Perm.swap _ _ _)).trans e2.symm
    rw [List.pairwise_append] at h2
    obtain ⟨k1, k2, k3⟩ := h2
    rw [List.pairwise_cons] at k2
    refine ⟨_, h5, hperm.append_left p, ?_, ?_⟩
    · clear h5 hperm
      induction p with
      | nil => simp only [List.nil_append]; rw [cons_lt_cons]; exact Or.inl h3
      | cons w p ih => simp only [List.cons_append]; rw [cons_lt_cons]; exact Or.inr ⟨rfl, ih⟩
    · intro c hc hlt
      refine not_lt.mp ?_
      refine no_between ?_ ?_ ?_ hperm.symm c hc hlt
      · intro u hu
        exact not_lt_of_desc (List.pairwise_append.mpr ⟨k1, List.pairwise_cons.mpr k2, k3⟩) hu
      · intro u hu
        refine not_lt_of_asc ?_ hu
        rw [List.pairwise_reverse, List.pairwise_append, List.pairwise_cons]
        refine ⟨k1, ⟨fun z hz => h4 z hz, k2.2⟩, ?_⟩
        intro z hz w hw
        have hzy := k3 z hz y (by simp)
        rcases List.mem_cons.mp hw with h | h
        · rw [h]; exact (h3.le.trans hzy)
        · exact (h4 w h).trans (h3.le.trans hzy)
      · intro z hz hxz hzy
        rcases List.mem_cons.mp hz with h | h
        · exact absurd hxz (by rw [h]; exact lt_irrefl _)
        · rcases List.mem_append.mp h with h | h
          · exact absurd hzy (not_lt.mpr (k3 z h y (by simp)))
          · rcases List.mem_cons.mp h with h | h
            · exact absurd hzy (by rw [h]; exact lt_irrefl _)
            · exact absurd hxz (not_lt.mpr (h4 z h))

/-! ## Enumeration -/

/-- `l` is the list of arrays produced by calling `step` until it reports `false`. -/
inductive Run {γ : Type} (step : γ → RM (Bool × γ)) : γ → List γ → Prop
  | stop {a b : γ} (h : step a = .ok (false, b)) : Run step a []
  | next {a b : γ} {l : List γ} (h : step a = .ok (true, b)) (hl : Run step b l) :
      Run step a (b :: l)

/-- from any array, the loop visits exactly the larger rearrangements, in increasing order -/
theorem run_nextPermutation (a : List β) :
    ∃ l, Run nextPermutation a l ∧ l.Pairwise (· < ·) ∧ ∀ c, c ∈ l ↔ c.Perm a ∧ a < c := by
  classical
  generalize hN : (a.permutations.toFinset.filter (a < ·)).card = N
  induction N using Nat.strong_induction_on generalizing a with
  | _ N ih =>
    rcases nextPermutation_spec a with ⟨h1, h2⟩ | ⟨b, h1, h2, h3, h4⟩
    · exact ⟨[], .stop h1, by simp, fun c => by simpa using h2 c⟩
    · have hlt : (b.permutations.toFinset.filter (b < ·)).card < N := by
        rw [← hN]
        apply Finset.card_lt_card
        rw [Finset.ssubset_iff_of_subset]
        · refine ⟨b, ?_, ?_⟩
          · simp only [Finset.mem_filter, List.mem_toFinset, List.mem_permutations]
            exact ⟨h2, h3⟩
          · simp
        · intro c
          simp only [Finset.mem_filter, List.mem_toFinset, List.mem_permutations]
          rintro ⟨c1, c2⟩
          exact ⟨c1.trans h2, h3.trans c2⟩
      obtain ⟨l, l1, l2, l3⟩ := ih _ hlt b rfl
      refine ⟨b :: l, .next h1 l1, ?_, ?_⟩
      · rw [List.pairwise_cons]
        exact ⟨fun c hc => ((l3 c).mp hc).2, l2⟩
      · intro c
        rw [List.mem_cons, l3]
        constructor
        · rintro (rfl | ⟨c1, c2⟩)
          · exact ⟨h2, h3⟩
          · exact ⟨c1.trans h2, h3.trans c2⟩
        · rintro ⟨c1, c2⟩
          rcases (h4 c c1 c2).eq_or_lt with h | h
          · exact Or.inl h.symm
          · exact Or.inr ⟨c1.trans h2.symm, h⟩

end Walky
