import Verif.Lemmas.V4Factor
import Mathlib.Data.List.Sort

/-! # Helper lemmas: a numbering of the cities that is bad for v4 -/

set_option linter.unusedSectionVars false

namespace Walky

open FloatOps Spec XNum

/-! ## the comb -/

/-- a city at the upper end of a pin of height `h` at position `x`; `u` is the distance to the nearest
later city -/
structure Pin where
  x : ℤ
  h : ℤ
  u : ℤ
deriving Inhabited

/-- distance along the pins and the line -/
def pdist (e f : Pin) : ℤ := |e.x - f.x| + e.h + f.h

/-- The cities at the positions `x - 2^k + 1, …, x + 2^k - 1`: first the left half, then the right half,
then the city in the middle. -/
def comb : Nat → ℤ → List Pin
  | 0, x => [⟨x, 0, 2⟩]
  | k + 1, x => comb k (x - 2 ^ k) ++ comb k (x + 2 ^ k) ++ [⟨x, 1, 2 ^ (k + 1) + 2⟩]

theorem comb_length : ∀ (k : Nat) (x : ℤ), (comb k x).length + 1 = 2 ^ (k + 1)
  | 0, _ => rfl
  | k + 1, x => by
    have h1 := comb_length k (x - 2 ^ k)
    have h2 := comb_length k (x + 2 ^ k)
    simp only [comb, List.length_append, List.length_singleton]
    rw [pow_succ 2 (k + 1)]
    omega

theorem comb_near : ∀ (k : Nat) (x : ℤ), ∀ e ∈ comb k x,
    e.u + |e.x - x| ≤ 2 ^ k + 1 + e.h ∧ 0 ≤ e.h ∧ e.h ≤ 1 ∧ |e.x - x| + 1 ≤ 2 ^ k ∧ 0 ≤ e.u
  | 0, x => by
    intro e he
    simp only [comb, List.mem_singleton] at he
    subst he
    simp
  | k + 1, x => by
    intro e he
    have hp : (0 : ℤ) < 2 ^ k := by positivity
    simp only [comb, List.mem_append, List.mem_singleton] at he
    rcases he with (he | he) | rfl
    · obtain ⟨h1, h2, h3, h4, h5⟩ := comb_near k _ e he
      have : |e.x - x| ≤ |e.x - (x - 2 ^ k)| + 2 ^ k := by
        have := abs_sub_le e.x (x - 2 ^ k) x
        rw [show x - 2 ^ k - x = -(2 ^ k : ℤ) by ring, abs_neg, abs_of_pos hp] at this
        exact this
      rw [pow_succ]
      exact ⟨by linarith, h2, h3, by linarith, h5⟩
    · obtain ⟨h1, h2, h3, h4, h5⟩ := comb_near k _ e he
      have : |e.x - x| ≤ |e.x - (x + 2 ^ k)| + 2 ^ k := by
        have := abs_sub_le e.x (x + 2 ^ k) x
        rw [show x + 2 ^ k - x = (2 ^ k : ℤ) by ring, abs_of_pos hp] at this
        exact this
      rw [pow_succ]
      exact ⟨by linarith, h2, h3, by linarith, h5⟩
    · refine ⟨?_, ?_, ?_, ?_, ?_⟩
      · simp only [sub_self, abs_zero]; linarith
      · simp
      · simp
      · simp only [sub_self, abs_zero, pow_succ]; linarith
      · simp only [pow_succ]; linarith

/-- a city outside of the comb, or the one next to it on a pin, is far away -/
theorem comb_far {k : Nat} {x : ℤ} {e f : Pin} (he : e ∈ comb k x)
    (hf : 2 ^ k + 1 ≤ |f.x - x| + f.h) : e.u ≤ pdist e f := by
  obtain ⟨h1, -⟩ := comb_near k x e he
  have : |f.x - x| ≤ |e.x - f.x| + |e.x - x| := by
    have := abs_sub_le f.x e.x x
    rwa [abs_sub_comm f.x e.x] at this
  unfold pdist
  linarith

theorem comb_pairwise : ∀ (k : Nat) (x : ℤ), (comb k x).Pairwise fun e f => e.u ≤ pdist e f
  | 0, x => by simp [comb]
  | k + 1, x => by
    have hp : (0 : ℤ) < 2 ^ k := by positivity
    simp only [comb]
    rw [List.pairwise_append, List.pairwise_append]
    refine ⟨⟨comb_pairwise k _, comb_pairwise k _, ?_⟩, by simp, ?_⟩
    · intro e he f hf
      refine comb_far he ?_
      obtain ⟨-, h2, -, h4, -⟩ := comb_near k _ f hf
      have h5 := neg_abs_le (f.x - (x + 2 ^ k))
      have h6 := le_abs_self (f.x - (x - 2 ^ k))
      linarith
    · intro e he f hf
      simp only [List.mem_singleton] at hf
      subst hf
      rcases List.mem_append.mp he with he | he
      · refine comb_far he ?_
        rw [show x - (x - 2 ^ k) = (2 ^ k : ℤ) by ring, abs_of_pos hp]
      · refine comb_far he ?_
        rw [show x - (x + 2 ^ k) = -(2 ^ k : ℤ) by ring, abs_neg, abs_of_pos hp]

theorem comb_head : ∀ (k : Nat) (x : ℤ), (comb k x).head? = some ⟨x - 2 ^ k + 1, 0, 2⟩
  | 0, x => by simp [comb]
  | k + 1, x => by
    simp only [comb, List.head?_append, comb_head k, Option.some_or]
    rw [show x - 2 ^ k - 2 ^ k + 1 = x - 2 ^ (k + 1) + 1 by ring]

theorem comb_last (k : Nat) (x : ℤ) :
    ∃ h, 0 ≤ h ∧ (comb k x).getLast? = some ⟨x, h, 2 ^ k + 1 + h⟩ := by
  cases k with
  | zero => exact ⟨0, le_rfl, by simp [comb]⟩
  | succ k => exact ⟨1, by simp, by simp [comb]; ring⟩

theorem comb_chain : ∀ (k : Nat) (x : ℤ), (comb k x).IsChain fun e f => pdist e f = e.u
  | 0, x => by simp [comb]
  | k + 1, x => by
    have hp : (0 : ℤ) < 2 ^ k := by positivity
    simp only [comb]
    rw [List.isChain_append, List.isChain_append]
    refine ⟨⟨comb_chain k _, comb_chain k _, ?_⟩, by simp, ?_⟩
    · intro e he f hf
      obtain ⟨h, h0, hl⟩ := comb_last k (x - 2 ^ k)
      rw [hl] at he
      rw [comb_head] at hf
      simp only [Option.mem_def, Option.some.injEq] at he hf
      subst he hf
      simp only [pdist]
      rw [show x - 2 ^ k - (x + 2 ^ k - 2 ^ k + 1) = -(2 ^ k + 1 : ℤ) by ring, abs_neg,
        abs_of_pos (by linarith)]
      ring
    · intro e he f hf
      obtain ⟨h, h0, hl⟩ := comb_last k (x + 2 ^ k)
      rw [List.getLast?_append, hl] at he
      simp only [Option.mem_def, Option.some.injEq, List.head?_cons, Option.some_or] at he hf
      subst he hf
      simp only [pdist]
      rw [show x + 2 ^ k - x = (2 ^ k : ℤ) by ring, abs_of_pos hp]
      ring

theorem comb_sum : ∀ (k : Nat) (x : ℤ), ((k : ℤ) + 1) * 2 ^ k ≤ ((comb k x).map Pin.u).sum
  | 0, x => by simp [comb]
  | k + 1, x => by
    have h1 := comb_sum k (x - 2 ^ k)
    have h2 := comb_sum k (x + 2 ^ k)
    simp only [comb, List.map_append, List.sum_append, List.map_cons, List.map_nil, List.sum_cons,
      List.sum_nil]
    push_cast
    rw [pow_succ]
    linarith

/-! ## the cities as numbers -/

/-- city number `i` of the comb with the middle city at position 0 -/
def pin (k i : Nat) : Pin := (comb k 0).getD i default

/-- the distances of the comb -/
def combDist (k i j : Nat) : ℚ := if i = j then 0 else (pdist (pin k i) (pin k j) : ℤ)

/-- the number of the middle city, the last one -/
def mid (k : Nat) : Nat := 2 ^ (k + 1) - 2

theorem mid_length (k : Nat) : mid k + 1 = (comb k 0).length := by
  have := comb_length k 0
  unfold mid
  omega

theorem pin_mem {k i : Nat} (hi : i < mid k + 1) : pin k i ∈ comb k 0 := by
  rw [mid_length] at hi
  unfold pin
  rw [List.getD_eq_getElem _ _ hi]
  exact List.getElem_mem _

theorem combDist_metric (k : Nat) : Metric (mid k + 1) (combDist k) := by
  refine ⟨fun i _ => by simp [combDist], fun i j _ _ => ?_, fun i j l hi hj hl => ?_⟩
  · unfold combDist
    by_cases h : i = j
    · subst h; rfl
    · rw [if_neg h, if_neg (Ne.symm h)]
      unfold pdist
      rw [abs_sub_comm]
      push_cast
      ring
  · obtain ⟨-, hi0, -⟩ := comb_near k 0 _ (pin_mem hi)
    obtain ⟨-, hj0, -⟩ := comb_near k 0 _ (pin_mem hj)
    obtain ⟨-, hl0, -⟩ := comb_near k 0 _ (pin_mem hl)
    have t := abs_sub_le (pin k i).x (pin k l).x (pin k j).x
    have n1 := abs_nonneg ((pin k i).x - (pin k l).x)
    have n2 := abs_nonneg ((pin k l).x - (pin k j).x)
    unfold combDist
    by_cases h1 : i = j
    · rw [if_pos h1]
      have e1 : (0 : ℚ) ≤ if i = l then (0 : ℚ) else ((pdist (pin k i) (pin k l) : ℤ) : ℚ) := by
        split
        · exact le_rfl
        · have : 0 ≤ pdist (pin k i) (pin k l) := by unfold pdist; linarith
          exact_mod_cast this
      have e2 : (0 : ℚ) ≤ if l = j then (0 : ℚ) else ((pdist (pin k l) (pin k j) : ℤ) : ℚ) := by
        split
        · exact le_rfl
        · have : 0 ≤ pdist (pin k l) (pin k j) := by unfold pdist; linarith
          exact_mod_cast this
      linarith
    · rw [if_neg h1]
      by_cases h2 : i = l
      · subst h2; simp [h1]
      · rw [if_neg h2]
        by_cases h3 : l = j
        · subst h3; simp
        · rw [if_neg h3]
          have : pdist (pin k i) (pin k j) ≤ pdist (pin k i) (pin k l) + pdist (pin k l) (pin k j) := by
            unfold pdist; linarith
          exact_mod_cast this

theorem combDist_ge {k i j : Nat} (hij : i < j) (hj : j < mid k + 1) :
    ((pin k i).u : ℚ) ≤ combDist k i j := by
  have hl := mid_length k
  have := List.pairwise_iff_getElem.mp (comb_pairwise k 0) i j (by omega) (by omega) hij
  unfold combDist pin
  rw [if_neg (by omega), List.getD_eq_getElem _ _ (by omega), List.getD_eq_getElem _ _ (by omega)]
  exact_mod_cast this

theorem combDist_next {k i : Nat} (hi : i < mid k) : combDist k i (i + 1) = ((pin k i).u : ℚ) := by
  have hl := mid_length k
  have := List.isChain_iff_getElem.mp (comb_chain k 0) i (by omega)
  unfold combDist pin
  rw [if_neg (by omega), List.getD_eq_getElem _ _ (by omega), List.getD_eq_getElem _ _ (by omega), this]

theorem range_path {K : Type} [Field K] [LinearOrder K] [IsStrictOrderedRing K] {c : Nat → Nat → K}
    {U : Nat → K} : ∀ (j : Nat), (∀ i, i < j → c i (i + 1) = U i) →
    pathCost c (List.range (j + 1)) = ((List.range j).map U).sum
  | 0, _ => by simp
  | j + 1, h => by
    have ih := range_path j (fun i hi => h i (by omega))
    rw [List.range_succ (n := j + 1), List.range_succ (n := j), List.append_assoc, List.cons_append,
      List.nil_append, pathCost_snoc, ← List.range_succ, ih, h j (by omega), List.range_succ,
      List.map_append, List.sum_append]
    simp

theorem comb_path (k : Nat) : pathCost (combDist k) (List.range (mid k + 1)) =
    ((List.range (mid k)).map fun i => ((pin k i).u : ℚ)).sum :=
  range_path _ fun _ hi => combDist_next hi

/-- visiting the comb in the order of the numbers is long … -/
theorem comb_path_ge (k : Nat) : (k : ℚ) * 2 ^ k ≤ pathCost (combDist k) (List.range (mid k + 1)) := by
  rw [comb_path]
  have e : (List.range (mid k)).map (fun i => (pin k i).u) = (comb k 0).dropLast.map Pin.u := by
    refine List.ext_getElem (by have := mid_length k; simp; omega) ?_
    intro i h1 h2
    have : i < (comb k 0).length := by simp at h2; omega
    simp [pin, this]
  have hs : ((comb k 0).dropLast.map Pin.u).sum ≥ (k : ℤ) * 2 ^ k := by
    cases k with
    | zero => simp [comb]
    | succ k =>
      have h1 := comb_sum k (0 - 2 ^ k)
      have h2 := comb_sum k (0 + 2 ^ k)
      simp only [comb, List.dropLast_concat, List.map_append, List.sum_append]
      push_cast
      rw [pow_succ]
      linarith
  have h3 : ((List.range (mid k)).map fun i => ((pin k i).u : ℚ)).sum =
      ((((List.range (mid k)).map fun i => (pin k i).u).sum : ℤ) : ℚ) := by
    rw [Int.cast_list_sum, List.map_map]
    rfl
  rw [h3, e]
  exact_mod_cast hs

/-! ## … but there is a short tour -/

theorem sorted_path {k : Nat} : ∀ (i : Nat) (t : List Nat), i < mid k + 1 → (∀ j ∈ t, j < mid k + 1) →
    (i :: t).Pairwise (fun a b => (pin k a).x ≤ (pin k b).x) →
    pathCost (combDist k) (i :: t) ≤ 2 ^ k - ((pin k i).x : ℚ) + 2 * t.length
  | i, [], hi, _, _ => by
    obtain ⟨-, -, -, h4, -⟩ := comb_near k 0 _ (pin_mem hi)
    have h5 := le_abs_self ((pin k i).x - 0)
    have : (pin k i).x ≤ 2 ^ k := by linarith
    have h6 : ((pin k i).x : ℚ) ≤ 2 ^ k := by exact_mod_cast this
    simp
    linarith
  | i, j :: t, hi, ht, hs => by
    rw [List.pairwise_cons] at hs
    have hj : j < mid k + 1 := ht j (by simp)
    have ih := sorted_path j t hj (fun l hl => ht l (by simp [hl])) hs.2
    rw [pathCost_cons₂]
    have hxy := hs.1 j (by simp)
    obtain ⟨-, -, hi1, -, -⟩ := comb_near k 0 _ (pin_mem hi)
    obtain ⟨-, -, hj1, -, -⟩ := comb_near k 0 _ (pin_mem hj)
    have hd : combDist k i j ≤ ((pin k j).x : ℚ) - (pin k i).x + 2 := by
      unfold combDist
      split
      · have : ((pin k i).x : ℚ) ≤ (pin k j).x := by exact_mod_cast hxy
        linarith
      · have : pdist (pin k i) (pin k j) ≤ (pin k j).x - (pin k i).x + 2 := by
          unfold pdist
          rw [abs_sub_comm, abs_of_nonneg (by linarith)]
          linarith
        exact_mod_cast this
    simp only [List.length_cons]
    push_cast
    linarith

theorem comb_tour (k : Nat) : ∃ t, IsTour (mid k + 1) (mid k :: t) ∧
    tourCost (combDist k) (mid k :: t) ≤ 8 * 2 ^ k := by
  have hlen := comb_length k 0
  have hmid := mid_length k
  let r : Nat → Nat → Prop := fun a b => (pin k a).x ≤ (pin k b).x
  have : DecidableRel r := fun a b => by unfold r; infer_instance
  have : Std.Total r := ⟨fun a b => le_total _ _⟩
  have : IsTrans Nat r := ⟨fun a b c h1 h2 => le_trans (α := ℤ) h1 h2⟩
  set q := (List.range (mid k + 1)).insertionSort r with hq
  have hperm : q.Perm (List.range (mid k + 1)) := List.perm_insertionSort r _
  have hsort : q.Pairwise r := List.pairwise_insertionSort r _
  have htour : IsTour (mid k + 1) q := hperm
  have hlt : ∀ j ∈ q, j < mid k + 1 := fun j hj => by simpa using hperm.mem_iff.mp hj
  have hqlen : q.length = mid k + 1 := by rw [hperm.length_eq]; simp
  have hcost : tourCost (combDist k) q ≤ 8 * 2 ^ k := by
    clear_value q
    cases q with
    | nil => simp at hqlen
    | cons i t =>
      have hi : i < mid k + 1 := hlt i (by simp)
      have h1 := sorted_path i t hi (fun j hj => hlt j (by simp [hj])) hsort
      have hn : ((t.length : ℕ) : ℚ) + 2 = 2 * 2 ^ k := by
        have : t.length + 2 = 2 * 2 ^ k := by
          simp at hqlen
          rw [pow_succ] at hlen
          omega
        exact_mod_cast this
      have hpin : ∀ j, j < mid k + 1 → -(2 ^ k : ℚ) ≤ (pin k j).x ∧ ((pin k j).x : ℚ) ≤ 2 ^ k ∧
          (pin k j).h ≤ 1 := by
        intro j hj
        obtain ⟨-, -, h3, h4, -⟩ := comb_near k 0 _ (pin_mem hj)
        have h5 := le_abs_self ((pin k j).x - 0)
        have h6 := neg_abs_le ((pin k j).x - 0)
        have a1 : -(2 ^ k) ≤ (pin k j).x := by linarith
        have a2 : (pin k j).x ≤ 2 ^ k := by linarith
        exact ⟨by exact_mod_cast a1, by exact_mod_cast a2, h3⟩
      have hclose : ∀ j, j < mid k + 1 → combDist k j i ≤ 2 * 2 ^ k + 2 := by
        intro j hj
        obtain ⟨a1, a2, a3⟩ := hpin i hi
        obtain ⟨b1, b2, b3⟩ := hpin j hj
        unfold combDist
        split
        · positivity
        · have hab : ((|(pin k j).x - (pin k i).x| : ℤ) : ℚ) ≤ 2 * 2 ^ k := by
            push_cast
            rw [abs_le]
            constructor <;> linarith
          have a3' : ((pin k i).h : ℚ) ≤ 1 := by exact_mod_cast a3
          have b3' : ((pin k j).h : ℚ) ≤ 1 := by exact_mod_cast b3
          unfold pdist
          push_cast at hab ⊢
          linarith
      have hne : (i :: t) ≠ [] := by simp
      rw [tourCost_cons, ← List.dropLast_append_getLast hne, List.append_assoc, List.cons_append,
        List.nil_append, pathCost_snoc, List.dropLast_append_getLast]
      have h2 := hclose ((i :: t).getLast hne) (hlt _ (List.getLast_mem hne))
      have h3 := (hpin i hi).1
      linarith
  have hmem : mid k ∈ q := hperm.mem_iff.mpr (by simp)
  obtain ⟨l, s, e⟩ := List.append_of_mem hmem
  refine ⟨s ++ l, ?_, ?_⟩
  · have := htour.rotate l.length
    rwa [e, List.rotate_append_length_eq] at this
  · have := tourCost_rotate (combDist k) q l.length
    rw [e, List.rotate_append_length_eq] at this
    rw [← List.cons_append, this, ← e]
    exact hcost

end Walky
