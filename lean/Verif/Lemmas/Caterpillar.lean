import Verif.Lemmas.NearestNeighbour
import Verif.Lemmas.Bounds
import Mathlib.Algebra.Order.Ring.Abs
import Mathlib.Data.List.TakeWhile

/-!
# Bad instances for nearest neighbour

Points on a line with a weight: the distance of different points is the distance on the line plus both weights.
Points of weight 0 sit at even places and points of weight 1 at odd places. In the order `postPts`, which is the
post-order of a binary tree, every point is a nearest one to the point before among all the later ones.
-/

namespace Walky

open FloatOps XNum Spec

/-- place and weight -/
abbrev Pt := ℤ × ℤ

/-- distance -/
def ptDist (p q : Pt) : ℤ := if p = q then 0 else |p.1 - q.1| + p.2 + q.2

theorem ptDist_symm (p q : Pt) : ptDist p q = ptDist q p := by
  unfold ptDist
  by_cases h : p = q
  · rw [if_pos h, if_pos h.symm]
  · rw [if_neg h, if_neg fun e => h e.symm, abs_sub_comm]
    ring

theorem ptDist_tri {p q r : Pt} (hp : 0 ≤ p.2) (hq : 0 ≤ q.2) (hr : 0 ≤ r.2) :
    ptDist p q ≤ ptDist p r + ptDist r q := by
  unfold ptDist
  have h1 := abs_nonneg (p.1 - q.1)
  have h2 := abs_nonneg (p.1 - r.1)
  have h3 := abs_nonneg (r.1 - q.1)
  have h4 : |p.1 - q.1| ≤ |p.1 - r.1| + |r.1 - q.1| := abs_sub_le _ _ _
  by_cases e1 : p = r
  · subst e1
    simp
  · by_cases e2 : r = q
    · subst e2
      simp
    · rw [if_neg e1, if_neg e2]
      split <;> omega

theorem ptDist_pos {p q : Pt} (hp : 0 ≤ p.2) (hq : 0 ≤ q.2) (h : p ≠ q) (h1 : p.1 ≠ q.1) : 0 < ptDist p q := by
  unfold ptDist
  rw [if_neg h]
  have := abs_pos.mpr (sub_ne_zero.mpr h1)
  omega

theorem ptDist_of_ne {p q : Pt} (h1 : p.1 ≠ q.1) : ptDist p q = |p.1 - q.1| + p.2 + q.2 := by
  unfold ptDist
  rw [if_neg fun e => h1 (by rw [e])]

/-- length of the path -/
def ptPath : List Pt → ℤ
  | p :: q :: t => ptDist p q + ptPath (q :: t)
  | _ => 0

theorem ptPath_append (A : List Pt) (p q : Pt) (B : List Pt) :
    ptPath ((A ++ [p]) ++ q :: B) = ptPath (A ++ [p]) + ptDist p q + ptPath (q :: B) := by
  induction A with
  | nil => simp [ptPath]
  | cons a A ih =>
    cases A with
    | nil => simp [ptPath]; ring
    | cons b A =>
      simp only [List.cons_append, ptPath] at ih ⊢
      rw [ih]
      ring

/-- every point is a nearest one to the point before among all the later ones -/
def NearNext : List Pt → Prop
  | [] => True
  | p :: t => (∀ q, t.head? = some q → ∀ z ∈ t, ptDist p q ≤ ptDist p z) ∧ NearNext t

/-- weight of the root of a tree of height `k` -/
def rootWeight (k : Nat) : ℤ := if k = 0 then 0 else 1

theorem rootWeight_cases (k : Nat) : rootWeight k = 0 ∨ rootWeight k = 1 := by
  unfold rootWeight
  split
  · exact Or.inl rfl
  · exact Or.inr rfl

theorem rootWeight_succ (k : Nat) : rootWeight (k + 1) = 1 := rfl

/-- root of a tree of height `k` that starts at the place `o` -/
def rootPt (k : Nat) (o : ℤ) : Pt := (o + 2 ^ k - 1, rootWeight k)

/-- post-order -/
def postPts : Nat → ℤ → List Pt
  | 0, o => [rootPt 0 o]
  | k + 1, o => postPts k o ++ (postPts k (o + 2 ^ (k + 1)) ++ [rootPt (k + 1) o])

/-- in-order -/
def linePts : Nat → ℤ → List Pt
  | 0, o => [rootPt 0 o]
  | k + 1, o => linePts k o ++ (rootPt (k + 1) o :: linePts k (o + 2 ^ (k + 1)))

theorem pow_int_pos (k : Nat) : (1 : ℤ) ≤ 2 ^ k := one_le_pow₀ (by norm_num)

theorem pow_int_succ (k : Nat) : (2 : ℤ) ^ (k + 1) = 2 * 2 ^ k := by ring

theorem linePts_perm (k : Nat) (o : ℤ) : (linePts k o).Perm (postPts k o) := by
  induction k generalizing o with
  | zero => exact .refl _
  | succ k ih =>
    refine List.Perm.append (ih o) ?_
    refine List.Perm.trans ?_ (List.perm_append_comm (l₁ := [rootPt (k + 1) o]))
    exact List.Perm.cons _ (ih _)

theorem postPts_length (k : Nat) (o : ℤ) : (postPts k o).length + 1 = 2 ^ (k + 1) := by
  induction k generalizing o with
  | zero => rfl
  | succ k ih =>
    have h1 := ih o
    have h2 := ih (o + 2 ^ (k + 1))
    simp only [postPts, List.length_append, List.length_singleton]
    rw [pow_succ 2 (k + 1)]
    omega

theorem mem_postPts {k : Nat} {o : ℤ} {z : Pt} (h : z ∈ postPts k o) :
    (z.2 = 0 ∧ o ≤ z.1 ∧ z.1 ≤ o + 2 ^ (k + 1) - 2) ∨ (z.2 = 1 ∧ o + 1 ≤ z.1 ∧ z.1 ≤ o + 2 ^ (k + 1) - 3) := by
  induction k generalizing o with
  | zero =>
    simp only [postPts, List.mem_singleton] at h
    subst h
    left
    simp [rootPt, rootWeight]
  | succ k ih =>
    have hp := pow_int_pos k
    have e1 := pow_int_succ k
    have e2 := pow_int_succ (k + 1)
    simp only [postPts, List.mem_append, List.mem_singleton] at h
    rcases h with h | h | h
    · have := ih h; omega
    · have := ih h; omega
    · subst h
      right
      simp only [rootPt, rootWeight_succ, true_and]
      omega

theorem postPts_sorted (k : Nat) (o : ℤ) : (linePts k o).Pairwise fun p q => p.1 < q.1 := by
  induction k generalizing o with
  | zero => simp [linePts]
  | succ k ih =>
    have hp := pow_int_pos k
    have e1 := pow_int_succ k
    simp only [linePts]
    rw [List.pairwise_append, List.pairwise_cons]
    have hl : ∀ {o : ℤ} {z : Pt}, z ∈ linePts k o → o ≤ z.1 ∧ z.1 ≤ o + 2 ^ (k + 1) - 2 := by
      intro o z hz
      have := mem_postPts ((linePts_perm k o).mem_iff.mp hz)
      omega
    refine ⟨ih o, ⟨fun q hq => ?_, ih _⟩, fun p hp q hq => ?_⟩
    · have := hl hq
      simp only [rootPt]
      omega
    · have h1 := hl hp
      rcases List.mem_cons.mp hq with rfl | hq
      · simp only [rootPt]; omega
      · have := hl hq
        omega

/-- places are different -/
theorem postPts_inj {k : Nat} {o : ℤ} {p q : Pt} (hp : p ∈ postPts k o) (hq : q ∈ postPts k o) (h : p.1 = q.1) : p = q := by
  by_contra hne
  have h1 := (linePts_perm k o).mem_iff.mpr hp
  have h2 := (linePts_perm k o).mem_iff.mpr hq
  have : Std.Symm fun p q : Pt => p.1 ≠ q.1 := ⟨fun a b h => h.symm⟩
  exact (((postPts_sorted k o).imp fun h => ne_of_lt h).forall h1 h2 hne) h

theorem postPts_nodup (k : Nat) (o : ℤ) : (postPts k o).Nodup :=
  (linePts_perm k o).nodup_iff.mp ((postPts_sorted k o).imp fun h e => by rw [e] at h; exact lt_irrefl _ h)

theorem postPts_last (k : Nat) (o : ℤ) : ∃ A, postPts k o = A ++ [rootPt k o] := by
  cases k with
  | zero => exact ⟨[], rfl⟩
  | succ k => exact ⟨postPts k o ++ postPts k (o + 2 ^ (k + 1)), by simp [postPts]⟩

theorem postPts_head (k : Nat) (o : ℤ) : ∃ B, postPts k o = (o, 0) :: B := by
  induction k generalizing o with
  | zero => exact ⟨[], by simp [postPts, rootPt, rootWeight]⟩
  | succ k ih =>
    obtain ⟨B, h⟩ := ih o
    exact ⟨_, by simp only [postPts]; rw [h]; rfl⟩

/-- points outside of the tree -/
def Outside (k : Nat) (o : ℤ) (z : Pt) : Prop :=
  (z.2 = 0 ∧ (z.1 ≤ o - 2 ∨ o + 2 ^ (k + 1) ≤ z.1)) ∨ (z.2 = 1 ∧ (z.1 ≤ o - 1 ∨ o + 2 ^ (k + 1) - 1 ≤ z.1))

/-- distance from the root of a tree to the next point -/
def stepLen (k : Nat) : ℤ := 2 ^ k + 1 + rootWeight k

theorem outside_far {k : Nat} {o : ℤ} {z : Pt} (h : Outside k o z) : stepLen k ≤ ptDist (rootPt k o) z := by
  have hp := pow_int_pos k
  have e1 := pow_int_succ k
  unfold Outside at h
  have hw := rootWeight_cases k
  rw [ptDist_of_ne (by simp only [rootPt]; omega)]
  simp only [rootPt, stepLen]
  have l1 := le_abs_self (o + 2 ^ k - 1 - z.1)
  have l2 := neg_le_abs (o + 2 ^ k - 1 - z.1)
  omega

theorem nearNext_cons {k : Nat} {o : ℤ} {S : List Pt} (h1 : NearNext S) (h2 : ∀ z ∈ S, Outside k o z)
    (h3 : ∀ q, S.head? = some q → ptDist (rootPt k o) q ≤ stepLen k) : NearNext (rootPt k o :: S) :=
  ⟨fun q hq z hz => (h3 q hq).trans (outside_far (h2 z hz)), h1⟩

theorem root_left (k : Nat) (o : ℤ) : ptDist (rootPt k o) (o + 2 ^ (k + 1), 0) = stepLen k := by
  have hp := pow_int_pos k
  have e1 := pow_int_succ k
  rw [ptDist_of_ne (by simp only [rootPt]; omega)]
  simp only [rootPt, stepLen]
  rw [abs_of_nonpos (by omega)]
  omega

theorem root_right (k : Nat) (o : ℤ) : ptDist (rootPt k (o + 2 ^ (k + 1))) (rootPt (k + 1) o) = stepLen k := by
  have hp := pow_int_pos k
  have e1 := pow_int_succ k
  rw [ptDist_of_ne (by simp only [rootPt]; omega)]
  simp only [rootPt, stepLen, rootWeight_succ]
  rw [abs_of_nonneg (by omega)]
  omega

theorem nearNext_post (k : Nat) : ∀ (o : ℤ) (S : List Pt), NearNext S → (∀ z ∈ S, Outside k o z) →
    (∀ q, S.head? = some q → ptDist (rootPt k o) q ≤ stepLen k) → NearNext (postPts k o ++ S) := by
  induction k with
  | zero => exact fun o S h1 h2 h3 => nearNext_cons h1 h2 h3
  | succ k ih =>
    intro o S h1 h2 h3
    have hp := pow_int_pos k
    have e1 := pow_int_succ k
    have e2 := pow_int_succ (k + 1)
    have h4 := nearNext_cons h1 h2 h3
    have h5 : ∀ z ∈ rootPt (k + 1) o :: S, Outside k (o + 2 ^ (k + 1)) z ∧ Outside k o z := by
      intro z hz
      rcases List.mem_cons.mp hz with rfl | hz
      · unfold Outside
        simp only [rootPt, rootWeight_succ, true_and, one_ne_zero, false_and, false_or]
        omega
      · have := h2 z hz
        unfold Outside at this ⊢
        omega
    have h6 := ih (o + 2 ^ (k + 1)) (rootPt (k + 1) o :: S) h4 (fun z hz => (h5 z hz).1) (by
      intro q hq
      rw [List.head?_cons] at hq
      rw [← Option.some.inj hq, root_right])
    have h7 := ih o _ h6 (by
      intro z hz
      rcases List.mem_append.mp hz with hz | hz
      · have := mem_postPts hz
        unfold Outside
        omega
      · exact (h5 z hz).2) (by
      intro q hq
      obtain ⟨B, hB⟩ := postPts_head k (o + 2 ^ (k + 1))
      rw [hB, List.cons_append, List.head?_cons] at hq
      rw [← Option.some.inj hq, root_left])
    have : postPts (k + 1) o ++ S = postPts k o ++ (postPts k (o + 2 ^ (k + 1)) ++ rootPt (k + 1) o :: S) := by
      simp [postPts]
    rw [this]
    exact h7

theorem nearNext_postPts (k : Nat) (o : ℤ) : NearNext (postPts k o) := by
  have := nearNext_post k o [] trivial (by simp) (by simp)
  rwa [List.append_nil] at this

/-- the path in post-order is long -/
theorem postPts_cost (k : Nat) (o : ℤ) : (k : ℤ) * 2 ^ k ≤ ptPath (postPts k o) := by
  induction k generalizing o with
  | zero => simp [postPts, ptPath]
  | succ k ih =>
    have hp := pow_int_pos k
    have e1 := pow_int_succ k
    obtain ⟨A, hA⟩ := postPts_last k o
    obtain ⟨A', hA'⟩ := postPts_last k (o + 2 ^ (k + 1))
    obtain ⟨B, hB⟩ := postPts_head k (o + 2 ^ (k + 1))
    have h1 := ih o
    have h2 := ih (o + 2 ^ (k + 1))
    have hw := rootWeight_cases k
    have e3 : ptPath (postPts (k + 1) o) = ptPath (postPts k o) + stepLen k + (ptPath (postPts k (o + 2 ^ (k + 1))) + stepLen k) := by
      have r1 := root_left k o
      have r2 := root_right k o
      have a1 : ptPath (postPts k (o + 2 ^ (k + 1)) ++ [rootPt (k + 1) o]) =
          ptPath (postPts k (o + 2 ^ (k + 1))) + stepLen k := by
        rw [hA', ptPath_append, r2]
        simp [ptPath]
      have a2 : postPts (k + 1) o = (A ++ [rootPt k o]) ++ ((o + 2 ^ (k + 1), 0) :: (B ++ [rootPt (k + 1) o])) := by
        simp only [postPts]
        rw [hA, hB]
        rfl
      rw [a2, ptPath_append, r1, ← hA, ← List.cons_append, ← hB, a1]
    rw [e3]
    unfold stepLen
    push_cast
    have : ((k : ℤ) + 1) * 2 ^ (k + 1) = 2 * (k * 2 ^ k) + 2 * 2 ^ k := by ring
    omega

theorem linePts_head (k : Nat) (o : ℤ) : ∃ B, linePts k o = (o, 0) :: B := by
  induction k generalizing o with
  | zero => exact ⟨[], by simp [linePts, rootPt, rootWeight]⟩
  | succ k ih =>
    obtain ⟨B, h⟩ := ih o
    exact ⟨_, by simp only [linePts]; rw [h]; rfl⟩

theorem linePts_last (k : Nat) (o : ℤ) : ∃ A, linePts k o = A ++ [(o + 2 ^ (k + 1) - 2, 0)] := by
  induction k generalizing o with
  | zero => exact ⟨[], by simp [linePts, rootPt, rootWeight]⟩
  | succ k ih =>
    obtain ⟨A, h⟩ := ih (o + 2 ^ (k + 1))
    refine ⟨linePts k o ++ rootPt (k + 1) o :: A, ?_⟩
    simp only [linePts]
    rw [h]
    have : o + 2 ^ (k + 1) + 2 ^ (k + 1) - 2 = o + 2 ^ (k + 1 + 1) - 2 := by ring
    rw [this]
    simp

/-- the path along the line is short -/
theorem linePts_cost (k : Nat) (o : ℤ) : ptPath (linePts k o) = 2 * (2 ^ (k + 1) - 2) := by
  induction k generalizing o with
  | zero => simp [linePts, ptPath]
  | succ k ih =>
    have hp := pow_int_pos k
    have e1 := pow_int_succ k
    have e2 := pow_int_succ (k + 1)
    obtain ⟨A, hA⟩ := linePts_last k o
    obtain ⟨B, hB⟩ := linePts_head k (o + 2 ^ (k + 1))
    have d1 : ptDist (o + 2 ^ (k + 1) - 2, 0) (rootPt (k + 1) o) = 2 := by
      rw [ptDist_of_ne (by simp only [rootPt]; omega)]
      simp only [rootPt, rootWeight_succ]
      rw [abs_of_nonpos (by omega)]
      omega
    have d2 : ptDist (rootPt (k + 1) o) (o + 2 ^ (k + 1), 0) = 2 := by
      rw [ptDist_of_ne (by simp only [rootPt]; omega)]
      simp only [rootPt, rootWeight_succ]
      rw [abs_of_nonpos (by omega)]
      omega
    have e3 : ptPath (linePts (k + 1) o) = ptPath (linePts k o) + 2 + (2 + ptPath (linePts k (o + 2 ^ (k + 1)))) := by
      simp only [linePts]
      rw [hA, ptPath_append, d1, hB]
      simp only [ptPath]
      rw [d2]
    rw [e3, ih, ih]
    omega

/-! ## Nearest neighbour in two blocks -/

section
variable {K : Type} [Field K] [LinearOrder K] [IsStrictOrderedRing K]

omit [Field K] [IsStrictOrderedRing K] in
/-- A greedy tour that starts outside of the block `b, …, b + n - 1`, and always prefers the cities outside of it,
ends with the block in ascending order. -/
theorem greedy_block {N n b : Nat} {c : Nat → Nat → K} {p : List Nat} (hp : IsTour N p) (hg : Greedy N c p)
    (hb : b + n ≤ N) (hn : 1 ≤ n)
    (h1 : ∀ u u' v, u < N → u' < N → ¬(b ≤ u ∧ u < b + n) → ¬(b ≤ u' ∧ u' < b + n) → b ≤ v → v < b + n → c u u' < c u v)
    (h2 : ∀ u v, u < N → ¬(b ≤ u ∧ u < b + n) → b < v → v < b + n → c u b < c u v)
    (h3 : ∀ j z, j + 1 < n → b + j < z → z < b + n → c (b + j) (b + j + 1) ≤ c (b + j) z)
    {s : Nat} (hs : p.head? = some s) (hsb : ¬(b ≤ s ∧ s < b + n)) : ∃ q, p = q ++ List.range' b n := by
  have hmem : ∀ x, x ∈ p ↔ x < N := fun x => by rw [hp.mem_iff, List.mem_range]
  have hnd : p.Nodup := hp.nodup_iff.mpr List.nodup_range
  let f : Nat → Bool := fun x => !(decide (b ≤ x) && decide (x < b + n))
  have hf : ∀ x, f x = true ↔ ¬(b ≤ x ∧ x < b + n) := by intro x; simp only [f]; simp; omega
  have hsplit : p.takeWhile f ++ p.dropWhile f = p := List.takeWhile_append_dropWhile
  have hq : ∀ x ∈ p.takeWhile f, ¬(b ≤ x ∧ x < b + n) := fun x hx => (hf x).mp (List.mem_takeWhile_imp hx)
  cases hd : p.dropWhile f with
  | nil =>
    rw [hd, List.append_nil] at hsplit
    exact absurd ⟨le_refl b, by omega⟩ (hq b (by rw [hsplit]; exact (hmem b).mpr (by omega)))
  | cons y r =>
    have hy : b ≤ y ∧ y < b + n := by
      have := List.head_dropWhile_not f (l := p) (by rw [hd]; simp)
      simp only [hd, List.head_cons] at this
      by_contra hc
      rw [(hf y).mpr hc] at this
      cases this
    rcases List.eq_nil_or_concat (p.takeWhile f) with hq0 | ⟨q', x, hq0⟩
    · rw [hq0, List.nil_append, hd] at hsplit
      rw [← hsplit, List.head?_cons] at hs
      exact absurd (Option.some.inj hs ▸ hy) hsb
    · have hx : ¬(b ≤ x ∧ x < b + n) := hq x (by rw [hq0]; simp)
      rw [hd, hq0] at hsplit
      rw [hq0] at hq
      have hpe : p = q' ++ x :: y :: r := by rw [← hsplit]; simp
      have hxN : x < N := (hmem x).mp (by rw [hpe]; simp)
      have hstep := hg q' x y r hpe
      -- the cities outside have all been visited
      have hall : ∀ z < N, ¬(b ≤ z ∧ z < b + n) → z ∈ q' ++ [x] := by
        intro z hz hzb
        by_contra hc
        simp only [List.mem_append, List.mem_singleton, not_or] at hc
        have e1 := (hstep z hz hc.1 hc.2).1
        have e2 := h1 x z y hxN hz hx hzb hy.1 hy.2
        exact absurd e1 (not_le.mpr e2)
      have hyb : y = b := by
        by_contra hc
        have e2 := h2 x y hxN hx (by omega) hy.2
        have e1 := (hstep b (by omega) (fun h => hq b (by simp [h]) ⟨le_refl b, by omega⟩)
          (fun h => hx (by rw [← h]; omega))).1
        exact absurd e1 (not_le.mpr e2)
      subst hyb
      have key : ∀ j, j < n → ∃ t, p = (q' ++ [x]) ++ List.range' y (j + 1) ++ t := by
        intro j
        induction j with
        | zero => exact fun _ => ⟨r, by rw [hpe]; simp [List.range'_one]⟩
        | succ j ih =>
          intro hj
          obtain ⟨t, ht⟩ := ih (by omega)
          have hlast : List.range' y (j + 1) = List.range' y j ++ [y + j] := by
            rw [List.range'_concat]; simp
          have hnext : ∀ z, y ≤ z → z < y + n → (z ∈ t ↔ y + j < z) := by
            intro z hz1 hz2
            have hz : z ∈ p := (hmem z).mpr (by omega)
            have hzq : z ∉ q' ++ [x] := fun h => hq z (by simpa using h) ⟨hz1, hz2⟩
            constructor
            · intro hzt
              by_contra hc
              rw [ht, List.nodup_append] at hnd
              refine hnd.2.2 z (List.mem_append_right _ ?_) z hzt rfl
              rw [List.mem_range'_1]
              omega
            · intro hlt
              rw [ht] at hz
              rcases List.mem_append.mp hz with hz | hz
              · rcases List.mem_append.mp hz with hz | hz
                · exact absurd hz hzq
                · rw [List.mem_range'_1] at hz
                  omega
              · exact hz
          cases t with
          | nil => exact absurd ((hnext (y + j + 1) (by omega) (by omega)).mpr (by omega)) (by simp)
          | cons w t =>
            have hwN : w < N := (hmem w).mp (by rw [ht]; simp)
            have hwb : y ≤ w ∧ w < y + n := by
              by_contra hc
              have := hall w hwN hc
              rw [ht, List.nodup_append] at hnd
              exact hnd.2.2 w (List.mem_append_left _ this) w (by simp) rfl
            have hwj := (hnext w hwb.1 hwb.2).mp (by simp)
            have hz := (hnext (y + j + 1) (by omega) (by omega)).mpr (by omega)
            have e := hg ((q' ++ [x]) ++ List.range' y j) (y + j) w t (by rw [ht, hlast]; simp) (y + j + 1) (by omega)
              (fun h => by
                rcases List.mem_append.mp h with h | h
                · exact hq _ (by simpa using h) ⟨by omega, by omega⟩
                · rw [List.mem_range'_1] at h; omega) (by omega)
            have hle := e.2 (h3 j w (by omega) hwj hwb.2)
            have hw : w = y + j + 1 := by omega
            refine ⟨t, ?_⟩
            rw [ht, hw, List.range'_concat (n := j + 1)]
            simp [Nat.add_assoc]
      obtain ⟨t, ht⟩ := key (n - 1) (by omega)
      have e : n - 1 + 1 = n := by omega
      rw [e] at ht
      refine ⟨q' ++ [x], ?_⟩
      cases t with
      | nil => rw [ht, List.append_nil]
      | cons w t =>
        exfalso
        have hwN : w < N := (hmem w).mp (by rw [ht]; simp)
        rw [ht, List.nodup_append] at hnd
        refine hnd.2.2 w ?_ w (by simp) rfl
        by_cases hwb : y ≤ w ∧ w < y + n
        · exact List.mem_append_right _ (by rw [List.mem_range'_1]; exact hwb)
        · exact List.mem_append_left _ (hall w hwN hwb)

end

end Walky
