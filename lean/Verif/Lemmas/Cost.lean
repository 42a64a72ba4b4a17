import Verif.Lemmas.Basic
import Mathlib.Data.List.Rotate
import Mathlib.Tactic.Ring
import Mathlib.Tactic.Abel
import Mathlib.Algebra.Order.BigOperators.Group.List

/-! # Helper lemmas: path and tour lengths -/

set_option linter.unusedSectionVars false

namespace Walky.Spec

variable {K : Type}

section
variable [AddCommMonoid K] (c : Nat → Nat → K)

@[simp] theorem pathCost_nil : pathCost c [] = 0 := rfl
@[simp] theorem pathCost_one (a : Nat) : pathCost c [a] = 0 := rfl
@[simp] theorem pathCost_cons₂ (a b : Nat) (t : List Nat) :
    pathCost c (a :: b :: t) = c a b + pathCost c (b :: t) := rfl

theorem pathCost_append (l : List Nat) (x : Nat) (r : List Nat) :
    pathCost c (l ++ x :: r) = pathCost c (l ++ [x]) + pathCost c (x :: r) := by
  induction l with
  | nil => simp
  | cons a t ih =>
    cases t with
    | nil => simp
    | cons b t => simp only [List.cons_append, pathCost_cons₂] at ih ⊢; rw [ih, add_assoc]

theorem pathCost_snoc (l : List Nat) (x y : Nat) :
    pathCost c (l ++ [x, y]) = pathCost c (l ++ [x]) + c x y := by
  rw [pathCost_append]; simp

theorem tourCost_cons (a : Nat) (t : List Nat) :
    tourCost c (a :: t) = pathCost c (a :: t ++ [a]) := rfl

/-- tour length = path length plus the closing edge -/
theorem tourCost_eq (p : List Nat) (h : p ≠ []) :
    tourCost c p = pathCost c p + c (p.getLast h) (p.head h) := by
  cases p with
  | nil => exact absurd rfl h
  | cons a t =>
    rw [tourCost_cons]
    obtain ⟨l, x, hx⟩ : ∃ l x, a :: t = l ++ [x] :=
      ⟨(a :: t).dropLast, (a :: t).getLast h, (List.dropLast_append_getLast h).symm⟩
    have hh : (a :: t).head h = a := rfl
    have hl : (a :: t).getLast h = x := by simp [hx]
    rw [hh, hl, hx, List.append_assoc, List.cons_append, List.nil_append, pathCost_snoc]

theorem tourCost_rotate_one (a : Nat) (t : List Nat) :
    tourCost c (t ++ [a]) = tourCost c (a :: t) := by
  cases t with
  | nil => rfl
  | cons b t =>
    rw [List.cons_append, tourCost_cons, tourCost_cons]
    simp only [List.cons_append, List.append_assoc, List.nil_append, pathCost_cons₂]
    have := pathCost_snoc c (b :: t) a b
    simp only [List.cons_append] at this
    rw [this, add_comm]

theorem tourCost_append_comm (l r : List Nat) : tourCost c (l ++ r) = tourCost c (r ++ l) := by
  induction l generalizing r with
  | nil => simp
  | cons a l ih =>
    rw [List.cons_append, ← tourCost_rotate_one, List.append_assoc, ih (r ++ [a])]
    simp

theorem tourCost_rotate (p : List Nat) (k : Nat) : tourCost c (p.rotate k) = tourCost c p := by
  rcases p with _ | ⟨a, t⟩
  · simp
  rw [← List.rotate_mod, List.rotate_eq_drop_append_take (Nat.mod_lt _ (by simp)).le]
  rw [tourCost_append_comm, List.take_append_drop]

theorem pathCost_congr {c c' : Nat → Nat → K} {p : List Nat}
    (h : ∀ a b, [a, b] <:+: p → c a b = c' a b) : pathCost c p = pathCost c' p := by
  induction p with
  | nil => rfl
  | cons a t ih =>
    cases t with
    | nil => rfl
    | cons b t =>
      simp only [pathCost_cons₂]
      rw [h a b ⟨[], t, by simp⟩, ih]
      intro x y hxy
      exact h x y (hxy.trans (List.suffix_cons a _).isInfix)

theorem pathCost_reverse (hs : ∀ a b, c a b = c b a) (p : List Nat) :
    pathCost c p.reverse = pathCost c p := by
  induction p with
  | nil => rfl
  | cons a t ih =>
    cases t with
    | nil => rfl
    | cons b t =>
      simp only [List.reverse_cons, List.append_assoc, List.cons_append, List.nil_append] at ih ⊢
      rw [pathCost_snoc, ih, pathCost_cons₂, hs b a, add_comm]

theorem tourCost_reverse (hs : ∀ a b, c a b = c b a) (p : List Nat) :
    tourCost c p.reverse = tourCost c p := by
  cases p with
  | nil => rfl
  | cons a t =>
    rw [List.reverse_cons, tourCost_rotate_one, tourCost_cons, tourCost_cons]
    rw [← pathCost_reverse c hs]
    simp

end

section tours

theorem IsTour.nodup {n : Nat} {p : List Nat} (h : IsTour n p) : p.Nodup :=
  (List.Perm.nodup_iff h).mpr List.nodup_range

theorem IsTour.length {n : Nat} {p : List Nat} (h : IsTour n p) : p.length = n := by
  simpa using h.length_eq

theorem IsTour.mem {n : Nat} {p : List Nat} (h : IsTour n p) {i : Nat} : i ∈ p ↔ i < n := by
  simpa using h.mem_iff (a := i)

theorem isTour_iff {n : Nat} {p : List Nat} :
    IsTour n p ↔ p.Nodup ∧ ∀ i, i ∈ p ↔ i < n := by
  constructor
  · intro h; exact ⟨h.nodup, fun i => h.mem⟩
  · rintro ⟨h1, h2⟩
    exact (List.perm_ext_iff_of_nodup h1 List.nodup_range).mpr (by simpa using h2)

theorem isTour_of_nodup {n : Nat} {p : List Nat} (h1 : p.Nodup) (h2 : ∀ i ∈ p, i < n)
    (h3 : p.length = n) : IsTour n p := by
  have hs : p.Subperm (List.range n) :=
    List.subperm_of_subset h1 (fun i hi => by simpa using h2 i hi)
  exact hs.perm_of_length_le (by simp [h3])

theorem IsTour.rotate {n : Nat} {p : List Nat} (h : IsTour n p) (k : Nat) :
    IsTour n (p.rotate k) := (List.rotate_perm p k).trans h

theorem IsTour.reverse {n : Nat} {p : List Nat} (h : IsTour n p) : IsTour n p.reverse :=
  p.reverse_perm.trans h

theorem isTour_range (n : Nat) : IsTour n (List.range n) := List.Perm.refl _

end tours

end Walky.Spec
