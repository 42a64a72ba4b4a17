import Verif.Lemmas.Eval
import Verif.Model.Prim

/-! # Helper lemmas: exact addition with infinities and NaN is a commutative monoid -/

set_option linter.unusedSectionVars false
set_option linter.unusedSimpArgs false

namespace Walky

open FloatOps Spec

variable {K : Type} [Field K] [LinearOrder K] [IsStrictOrderedRing K]

theorem XNum.add_assoc' (a b c : XNum K) : (a.add b).add c = a.add (b.add c) := by
  cases a <;> cases b <;> cases c <;> simp [XNum.add, add_assoc]

theorem XNum.add_comm' (a b : XNum K) : a.add b = b.add a := by
  cases a <;> cases b <;> simp [XNum.add, add_comm]

instance : Add (XNum K) := ⟨XNum.add⟩
instance : Zero (XNum K) := ⟨.fin 0⟩

instance : AddCommMonoid (XNum K) where
  add_assoc := XNum.add_assoc'
  zero_add a := by
    show XNum.add (.fin 0) a = a
    cases a <;> simp [XNum.add]
  add_zero a := by
    show XNum.add a (.fin 0) = a
    cases a <;> simp [XNum.add]
  add_comm := XNum.add_comm'
  nsmul := nsmulRec

theorem addf_eq (a b : XNum K) : (a +ᶠ b) = a + b := rfl
theorem zerof_eq : (FloatOps.zero : XNum K) = 0 := rfl

theorem XNum.half_add (x c : XNum K) : XNum.half (x + (c + c)) = XNum.half x + c := by
  show XNum.half (XNum.add x (XNum.add c c)) = XNum.add (XNum.half x) c
  cases x <;> cases c <;> simp [XNum.add, XNum.half]
  ring

theorem foldl_addf (l : List (XNum K)) (x : XNum K) : l.foldl FloatOps.add x = x + l.sum := by
  induction l generalizing x with
  | nil => simp
  | cons a l ih => rw [List.foldl_cons, ih, List.sum_cons, addf_eq, add_assoc]

theorem sum_eq_list_sum (l : List (XNum K)) : FloatOps.sum l = l.sum := by
  unfold FloatOps.sum
  rw [foldl_addf, zerof_eq, zero_add]

theorem evaluatePath_any {m : Mat (XNum K)} {p : List Nat} (hp : ∀ i ∈ p, i < m.dim) :
    m.evaluatePath p = .ok (pathCost m.get p) := by
  have key : ∀ (t : List Nat) (a : Nat) (x : XNum K), (∀ i ∈ a :: t, i < m.dim) →
      ((a :: t).zip (a :: t).tail).foldlM (fun (acc : XNum K) (e : Nat × Nat) => do
        let cost ← m.entry e.1 e.2
        return acc +ᶠ cost) x = .ok (x + pathCost m.get (a :: t)) := by
    intro t
    induction t with
    | nil => intro a x _; simp
    | cons b t ih =>
      intro a x h
      have := ih b (x + m.get a b) (fun i hi => h i (by simp at hi ⊢; tauto))
      simp only [List.tail_cons, List.zip_cons_cons, List.foldlM_cons, rm_pure, addf_eq] at this ⊢
      rw [entry_ok (h a (by simp)) (h b (by simp))]
      simp only [rm_bind_ok]
      rw [this, pathCost_cons₂, add_assoc]
  unfold Mat.evaluatePath
  rcases p with _ | ⟨a, t⟩
  · rfl
  · split
    · rename_i h
      have : t = [] := by
        cases t with
        | nil => rfl
        | cons => simp at h
      subst this
      rfl
    · have := key t a 0 hp
      rw [zero_add] at this
      exact this

theorem evaluateCircle_any {m : Mat (XNum K)} {p : List Nat} (hp : ∀ i ∈ p, i < m.dim)
    (hl : 2 ≤ p.length) : m.evaluateCircle p = .ok (tourCost m.get p) := by
  have hne : p ≠ [] := by rintro rfl; simp at hl
  unfold Mat.evaluateCircle
  rw [if_neg (by omega), List.getLast?_eq_getLast_of_ne_nil hne, List.head?_eq_some_head hne]
  simp only [unwrapO, rm_bind_ok]
  rw [entry_ok (hp _ (List.getLast_mem hne)) (hp _ (List.head_mem hne)), evaluatePath_any hp]
  simp only [rm_bind_ok, rm_pure, addf_eq]
  rw [tourCost_eq m.get p hne]

theorem evaluateCircle_short {α : Type} [FloatOps α] {m : Mat α} {p : List Nat} (h : p.length ≤ 1) :
    m.evaluateCircle p = .ok zero := by
  unfold Mat.evaluateCircle
  rw [if_pos h]

/-- a path of two or more vertices with an invalid one panics -/
theorem evaluateCircle_invalid {α : Type} [FloatOps α] {m : Mat α} {p : List Nat} (hl : 2 ≤ p.length)
    {x : Nat} (hx : x ∈ p) (hxd : ¬ x < m.dim) : m.evaluateCircle p = .error .index := by
  have key : ∀ (t : List Nat) (a : Nat) (y : α), 1 ≤ t.length → x ∈ a :: t →
      ((a :: t).zip (a :: t).tail).foldlM (fun (acc : α) (e : Nat × Nat) => do
        let cost ← m.entry e.1 e.2
        return acc +ᶠ cost) y = .error .index := by
    intro t
    induction t with
    | nil => intro a y h; simp at h
    | cons b t ih =>
      intro a y _ hm
      simp only [List.tail_cons, List.zip_cons_cons, List.foldlM_cons]
      by_cases h : a < m.dim ∧ b < m.dim
      · rw [entry_ok h.1 h.2]
        simp only [rm_bind_ok, rm_pure]
        have hm' : x ∈ b :: t := by
          rcases List.mem_cons.mp hm with rfl | h'
          · exact absurd h.1 hxd
          · exact h'
        cases t with
        | nil =>
          simp at hm'
          subst hm'
          exact absurd h.2 hxd
        | cons d t =>
          have := ih b (y +ᶠ m.get a b) (by simp) hm'
          simpa only [List.tail_cons, rm_pure] using this
      · have : m.entry a b = .error .index := by
          unfold Mat.entry; rw [if_neg h]
        rw [this]
        rfl
  have hne : p ≠ [] := by rintro rfl; simp at hl
  unfold Mat.evaluateCircle
  rw [if_neg (by omega), List.getLast?_eq_getLast_of_ne_nil hne, List.head?_eq_some_head hne]
  simp only [unwrapO, rm_bind_ok]
  cases he : m.entry (p.getLast hne) (p.head hne) with
  | error e =>
    unfold Mat.entry at he
    split at he
    · cases he
    · injection he with he
      subst he
      rfl
  | ok w =>
    simp only [rm_bind_ok]
    unfold Mat.evaluatePath
    rw [if_neg (by omega)]
    obtain ⟨a, t, rfl⟩ : ∃ a t, p = a :: t := by
      cases p with
      | nil => exact absurd rfl hne
      | cons a t => exact ⟨a, t, rfl⟩
    rw [key t a zero (by simpa using hl) hx]
    rfl

/-- two readings of the same cycle have the same length if their tour lengths agree -/
theorem evaluateCircle_congr {m : Mat (XNum K)} {p q : List Nat} (hperm : q.Perm p)
    (h : (∀ i ∈ p, i < m.dim) → tourCost m.get q = tourCost m.get p) :
    m.evaluateCircle q = m.evaluateCircle p := by
  have hlen := hperm.length_eq
  by_cases hl : p.length ≤ 1
  · rw [evaluateCircle_short hl, evaluateCircle_short (hlen ▸ hl)]
  · by_cases hv : ∀ i ∈ p, i < m.dim
    · rw [evaluateCircle_any hv (by omega), evaluateCircle_any (fun i hi => hv i (hperm.mem_iff.mp hi)) (by omega),
        h hv]
    · push Not at hv
      obtain ⟨x, hx, hxd⟩ := hv
      rw [evaluateCircle_invalid (by omega) hx (by omega),
        evaluateCircle_invalid (by omega) (hperm.mem_iff.mpr hx) (by omega)]

/-- reversal, with symmetry on the cities only -/
theorem tourCost_reverse_symm {A : Type} [AddCommMonoid A] {n : Nat} {c : Nat → Nat → A} (hsym : Symm n c)
    {p : List Nat} (hp : ∀ i ∈ p, i < n) : tourCost c p.reverse = tourCost c p := by
  let c' : Nat → Nat → A := fun i j => if i < n ∧ j < n then c i j else 0
  have hc' : ∀ i j, c' i j = c' j i := by
    intro i j
    simp only [c']
    by_cases h : i < n ∧ j < n
    · rw [if_pos h, if_pos h.symm]; exact hsym i j h.1 h.2
    · rw [if_neg h, if_neg (fun h' => h h'.symm)]
  have heq : ∀ p, (∀ i ∈ p, i < n) → tourCost c p = tourCost c' p := by
    intro p hp
    cases p with
    | nil => rfl
    | cons a p =>
      unfold tourCost
      apply pathCost_congr
      intro x y hxy
      have hx := hxy.subset (a := x) (by simp)
      have hy := hxy.subset (a := y) (by simp)
      have hmem : ∀ z ∈ a :: p ++ [a], z < n := by
        intro z hz
        apply hp
        simp at hz ⊢
        tauto
      simp only [c']
      rw [if_pos ⟨hmem x hx, hmem y hy⟩]
  rw [heq p hp, heq p.reverse (fun i hi => hp i (List.mem_reverse.mp hi)), tourCost_reverse c' hc']

/-- the weight after an edge has been pushed -/
theorem directedEdgeWeight_push {g : Graph (XNum K)} {i : Nat} (hi : i < g.length) (e : Edge (XNum K)) :
    Graph.pushEdge g i e = .ok (g.modify i (· ++ [e])) ∧
    Graph.directedEdgeWeight (g.modify i (· ++ [e])) = Graph.directedEdgeWeight g + e.cost := by
  refine ⟨by unfold Graph.pushEdge; rw [if_pos hi], ?_⟩
  unfold Graph.directedEdgeWeight
  simp only [sum_eq_list_sum]
  induction g generalizing i with
  | nil => simp at hi
  | cons v g ih =>
    cases i with
    | zero => simp [add_assoc, add_comm, add_left_comm]
    | succ i =>
      have := ih (i := i) (by simpa using hi)
      simp only [List.modify_succ_cons, List.map_cons, List.sum_cons]
      rw [this, add_assoc]

end Walky
