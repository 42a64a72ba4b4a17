import Verif.Lemmas.Hill
import Verif.Props.Exact

/-!
# What remains true of v4 and v5 (C07, C08)

Full claims (false, see `C07_v4_not_exact` and `C08_v5_not_exact`): the solver returns a shortest
tour for every finite symmetric non-negative matrix of every dimension.
-/

namespace Walky.Props

open Spec XNum

variable {K : Type} [Field K] [LinearOrder K] [IsStrictOrderedRing K]

/-- **C07, partial.** For every dimension, the answer of v4 is at most the length of every tour whose
cities after the second one are first increasing and then decreasing. Missing: other tours. -/
theorem C07_v4_hill_partial (m : Mat (XNum K)) (c : Nat → Nat → K) (hm : Rep m c)
    (hsym : Symm m.dim c) (hc : Nonneg m.dim c) (a b : Nat) (l : List Nat) (x : Nat) (r : List Nat)
    (hq : IsTour m.dim (a :: b :: (l ++ x :: r))) (hl : (l ++ [x]).Pairwise (· < ·))
    (hr : (x :: r).Pairwise (· > ·)) :
    ∃ p, fourthImprovedSolver m = .ok (fin (tourCost c p), p) ∧ IsTour m.dim p ∧
      tourCost c p ≤ tourCost c (a :: b :: (l ++ x :: r)) := by
  have hn : 1 ≤ m.dim := by have := hq.length; simp at this; omega
  obtain ⟨p, h1, h2, _, h4⟩ := solveDfs_truthful hm (test4_ok _) hn (aux := ()) trivial
    (test4_inf hm)
  exact ⟨p, h1, h2, h4 _ _ hq le_rfl (along_test4 hm hsym hc hq (Or.inr ⟨l, x, r, rfl, hl, hr⟩))⟩

example : ∃ l x r, IsTour 6 (0 :: 1 :: (l ++ x :: r)) ∧ (l ++ [x]).Pairwise (· < ·) ∧
    (x :: r).Pairwise (· > ·) :=
  ⟨[2], 5, [4, 3], by unfold IsTour; decide, by decide, by decide⟩

/-- every tour of at most five cities has a rotation that v4 follows -/
theorem hill_rotation {n : Nat} (hn : 2 ≤ n) (hn5 : n ≤ 5) {q : List Nat} (hq : IsTour n q) :
    ∃ k a b t, q.rotate k = a :: b :: t ∧ (t = [] ∨ Hill t) := by
  have hlen := hq.length
  have hnd := hq.nodup
  rcases q with _ | ⟨a, _ | ⟨b, t⟩⟩
  · simp at hlen; omega
  · simp at hlen; omega
  rcases t with _ | ⟨d, t⟩
  · exact ⟨0, a, b, [], rfl, Or.inl rfl⟩
  rcases t with _ | ⟨e, t⟩
  · exact ⟨0, a, b, [d], rfl, Or.inr ⟨[], d, [], rfl, by simp, by simp⟩⟩
  rcases t with _ | ⟨f, t⟩
  · refine ⟨0, a, b, [d, e], rfl, Or.inr ?_⟩
    have hde : d ≠ e := by simp at hnd; tauto
    rcases Nat.lt_or_gt_of_ne hde with h | h
    · exact ⟨[d], e, [], rfl, by simpa using h, by simp⟩
    · exact ⟨[], d, [e], rfl, by simp, by simpa using h⟩
  rcases t with _ | ⟨g, t⟩
  · have hn : n = 5 := by simp at hlen; omega
    subst hn
    have key : ∀ x y z : Nat, x < y → z < y → Hill [x, y, z] := fun x y z h1 h2 =>
      ⟨[x], y, [z], rfl, by simpa using h1, by simpa using h2⟩
    have hmem : ∀ i ∈ [a, b, d, e, f], i < 5 := fun i hi => hq.mem.mp hi
    have h4 : 4 ∈ [a, b, d, e, f] := hq.mem.mpr (by omega)
    have ha := hmem a (by simp)
    have hb := hmem b (by simp)
    have hd := hmem d (by simp)
    have he := hmem e (by simp)
    have hf := hmem f (by simp)
    simp only [List.nodup_cons, List.mem_cons, List.not_mem_nil, or_false, not_or] at hnd
    simp only [List.mem_cons, List.not_mem_nil, or_false] at h4
    rcases h4 with h | h | h | h | h
    · exact ⟨2, d, e, [f, a, b], rfl, Or.inr (key _ _ _ (by omega) (by omega))⟩
    · exact ⟨3, e, f, [a, b, d], rfl, Or.inr (key _ _ _ (by omega) (by omega))⟩
    · exact ⟨4, f, a, [b, d, e], rfl, Or.inr (key _ _ _ (by omega) (by omega))⟩
    · exact ⟨0, a, b, [d, e, f], rfl, Or.inr (key _ _ _ (by omega) (by omega))⟩
    · exact ⟨1, b, d, [e, f, a], rfl, Or.inr (key _ _ _ (by omega) (by omega))⟩
  · simp at hlen; omega

/-- **C07, partial.** v4 is exact up to five cities. Missing: larger dimensions, where it is false
in general. -/
theorem C07_v4_exact_partial (m : Mat (XNum K)) (c : Nat → Nat → K) (hm : Rep m c)
    (hn : 1 ≤ m.dim) (hn5 : m.dim ≤ 5) (hsym : Symm m.dim c) (hc : Nonneg m.dim c) :
    ∃ p, fourthImprovedSolver m = .ok (fin (tourCost c p), p) ∧ IsShortest m.dim c p := by
  obtain ⟨p, h1, h2, _, h4⟩ := solveDfs_truthful hm (test4_ok _) hn (aux := ()) trivial
    (test4_inf hm)
  refine ⟨p, h1, h2, fun q hq => ?_⟩
  rcases Nat.lt_or_ge 1 m.dim with h | h
  · obtain ⟨k, a, b, t, e, hh⟩ := hill_rotation h hn5 hq
    have hq' : IsTour m.dim (a :: b :: t) := e ▸ hq.rotate k
    rw [← tourCost_rotate c q k, e]
    exact h4 _ _ hq' le_rfl (along_test4 hm hsym hc hq' hh)
  · refine h4 q _ hq le_rfl ?_
    intro p hp _ h2 
    have := hp.length_le
    rw [hq.length] at this
    omega

example : Rep Ex.m4 Ex.c4 ∧ 1 ≤ Ex.m4.dim ∧ Ex.m4.dim ≤ 5 ∧ Symm Ex.m4.dim Ex.c4 ∧
    Nonneg Ex.m4.dim Ex.c4 := ⟨Ex.rep4, by decide, by decide, Ex.symm4, Ex.nonneg4⟩

/-- splitting a tour -/
theorem tour_split_ge {n : Nat} {c : Nat → Nat → K} (hc : Nonneg n c) (h1 : n = 1 → 0 ≤ c 0 0)
    {p t : List Nat} (hq : IsTour n (p ++ t)) :
    0 ≤ pathCost c p ∧ 0 ≤ pathCost c t ∧ pathCost c p + pathCost c t ≤ tourCost c (p ++ t) := by
  have hv := validPre_prefix hq (List.prefix_refl _)
  have hvp : ValidPre n p := validPre_prefix hq ⟨t, rfl⟩
  have hvt : ValidPre n t := by
    obtain ⟨a, b⟩ := rest_of_tour hq
    exact ⟨a, fun i hi => ((b i).mp hi).1⟩
  refine ⟨pathCost_nonneg hc hvp, pathCost_nonneg hc hvt, ?_⟩
  refine le_trans ?_ (closing_nonneg hc h1 hq)
  cases t with
  | nil => simp
  | cons y s =>
    have hpos : pathCost c p ≤ pathCost c (p ++ [y]) :=
      pathCost_prefix_le hc (validPre_prefix hq ⟨s, by simp⟩) ⟨[y], rfl⟩
    rw [pathCost_append]
    linarith

/-- **C08, partial.** For every dimension, the answer of v5 is at most twice the length of a shortest
tour. Missing: the factor 1. -/
theorem C08_v5_within_twice_partial (m : Mat (XNum K)) (c : Nat → Nat → K) (hm : Rep m c)
    (hn : 1 ≤ m.dim) (hsym : Symm m.dim c) (hc : Nonneg m.dim c) (hd : m.dim = 1 → 0 ≤ c 0 0) :
    ∃ p, fifthImprovedSolver m = .ok (fin (tourCost c p), p) ∧ IsTour m.dim p ∧
      ∀ q, IsTour m.dim q → tourCost c p ≤ 2 * tourCost c q := by
  obtain ⟨p, h1, h2, _, h4⟩ := solveDfs_truthful hm (test5_ok hm) hn (aux := ()) trivial
    (test5_inf hm)
  refine ⟨p, h1, h2, fun q hq => ?_⟩
  have h0 := tour_split_ge hc hd (p := q) (t := []) (by simpa using hq)
  simp only [List.append_nil, pathCost_nil, add_zero] at h0
  refine h4 q _ hq (by linarith) (along_test5 hm hsym hq ?_)
  rintro p t rfl _
  have := tour_split_ge hc hd hq
  linarith

example : Rep Ex.m4 Ex.c4 ∧ 1 ≤ Ex.m4.dim ∧ Symm Ex.m4.dim Ex.c4 ∧ Nonneg Ex.m4.dim Ex.c4 ∧
    (Ex.m4.dim = 1 → 0 ≤ Ex.c4 0 0) :=
  ⟨Ex.rep4, by decide, Ex.symm4, Ex.nonneg4, fun h => absurd h (by decide)⟩

/-- the spanning tree bound is admissible along `q` -/
def Balanced (c : Nat → Nat → K) (q : List Nat) : Prop :=
  ∀ p t, q = p ++ t → 2 ≤ p.length → pathCost c p + 2 * pathCost c t ≤ tourCost c q

/-- every tour of at most five cities has a balanced representative of the same length -/
theorem balanced_rep {n : Nat} {c : Nat → Nat → K} (hsym : Symm n c) (hc : Nonneg n c)
    (hn : 2 ≤ n) (hn5 : n ≤ 5) {q : List Nat} (hq : IsTour n q) :
    ∃ q', IsTour n q' ∧ tourCost c q' = tourCost c q ∧ Balanced c q' := by
  have hlen := hq.length
  have hnd := hq.nodup
  have hmem : ∀ i ∈ q, i < n := fun i hi => hq.mem.mp hi
  -- prefixes of explicit lists
  have split : ∀ (l p t : List Nat), l = p ++ t → p = l.take p.length ∧ t = l.drop p.length := by
    rintro l p t rfl; simp
  rcases q with _ | ⟨v0, _ | ⟨v1, r⟩⟩
  · simp at hlen; omega
  · simp at hlen; omega
  have h01 : 0 ≤ c v0 v1 := hc _ _ (hmem _ (by simp)) (hmem _ (by simp)) (by simp at hnd; tauto)
  rcases r with _ | ⟨v2, r⟩
  · refine ⟨[v0, v1], hq, rfl, ?_⟩
    have h10 : 0 ≤ c v1 v0 := hc _ _ (hmem _ (by simp)) (hmem _ (by simp)) (by simp at hnd; tauto)
    intro p t e hp
    obtain ⟨e1, e2⟩ := split _ _ _ e
    have hl : p.length = 2 := by
      have := congrArg List.length e; simp at this; omega
    rw [e1, e2, hl]
    simp [tourCost]; linarith
  have h12 : 0 ≤ c v1 v2 := hc _ _ (hmem _ (by simp)) (hmem _ (by simp)) (by simp at hnd; tauto)
  rcases r with _ | ⟨v3, r⟩
  · refine ⟨[v0, v1, v2], hq, rfl, ?_⟩
    have h20 : 0 ≤ c v2 v0 := hc _ _ (hmem _ (by simp)) (hmem _ (by simp)) (by simp at hnd; tauto)
    intro p t e hp
    obtain ⟨e1, e2⟩ := split _ _ _ e
    have hl : p.length = 2 ∨ p.length = 3 := by
      have := congrArg List.length e; simp at this; omega
    rcases hl with hl | hl <;> rw [e1, e2, hl] <;> simp [tourCost] <;> linarith
  have h23 : 0 ≤ c v2 v3 := hc _ _ (hmem _ (by simp)) (hmem _ (by simp)) (by simp at hnd; tauto)
  rcases r with _ | ⟨v4, r⟩
  · have h30 : 0 ≤ c v3 v0 := hc _ _ (hmem _ (by simp)) (hmem _ (by simp)) (by simp at hnd; tauto)
    have main : ∀ a b d e : Nat, 0 ≤ c a b → 0 ≤ c b d → 0 ≤ c d e → 0 ≤ c e a →
        c d e ≤ c b d + c e a → Balanced c [a, b, d, e] := by
      intro a b d e g1 g2 g3 g4 g5 p t e' hp
      obtain ⟨e1, e2⟩ := split _ _ _ e'
      have hl : p.length = 2 ∨ p.length = 3 ∨ p.length = 4 := by
        have := congrArg List.length e'; simp at this; omega
      rcases hl with hl | hl | hl <;> rw [e1, e2, hl] <;> simp [tourCost] <;> linarith
    by_cases h : c v2 v3 ≤ c v1 v2 + c v3 v0
    · exact ⟨_, hq, rfl, main _ _ _ _ h01 h12 h23 h30 h⟩
    · refine ⟨[v1, v2, v3, v0], hq.rotate 1, tourCost_rotate c [v0, v1, v2, v3] 1,
        main _ _ _ _ h12 h23 h30 h01 ?_⟩
      linarith
  have h34 : 0 ≤ c v3 v4 := hc _ _ (hmem _ (by simp)) (hmem _ (by simp)) (by simp at hnd; tauto)
  rcases r with _ | ⟨v5, r⟩
  · have h40 : 0 ≤ c v4 v0 := hc _ _ (hmem _ (by simp)) (hmem _ (by simp)) (by simp at hnd; tauto)
    have main : ∀ a b d e f : Nat, 0 ≤ c a b → 0 ≤ c b d → 0 ≤ c d e → 0 ≤ c e f → 0 ≤ c f a →
        c d e + c e f ≤ c b d + c f a → c e f ≤ c d e + c f a → Balanced c [a, b, d, e, f] := by
      intro a b d e f g1 g2 g3 g4 g5 g6 g7 p t e' hp
      obtain ⟨e1, e2⟩ := split _ _ _ e'
      have hl : p.length = 2 ∨ p.length = 3 ∨ p.length = 4 ∨ p.length = 5 := by
        have := congrArg List.length e'; simp at this; omega
      rcases hl with hl | hl | hl | hl <;> rw [e1, e2, hl] <;> simp [tourCost] <;> linarith
    -- with the first inequality, the tour or its mirror image is balanced
    have mirror : ∀ a b d e f : Nat, IsTour n [a, b, d, e, f] →
        0 ≤ c a b → 0 ≤ c b d → 0 ≤ c d e → 0 ≤ c e f → 0 ≤ c f a →
        c d e + c e f ≤ c b d + c f a →
        ∃ q', IsTour n q' ∧ tourCost c q' = tourCost c [a, b, d, e, f] ∧ Balanced c q' := by
      intro a b d e f ht g1 g2 g3 g4 g5 g6
      rcases le_total (c e f) (c d e) with h | h
      · exact ⟨_, ht, rfl, main _ _ _ _ _ g1 g2 g3 g4 g5 g6 (by linarith)⟩
      · have m1 := ht.mem (i := a)
        have m2 := ht.mem (i := b)
        have m3 := ht.mem (i := d)
        have m4 := ht.mem (i := e)
        have m5 := ht.mem (i := f)
        simp only [List.mem_cons, true_or, or_true, true_iff] at m1 m2 m3 m4 m5
        have s1 := hsym _ _ m1 m2
        have s2 := hsym _ _ m2 m3
        have s3 := hsym _ _ m3 m4
        have s4 := hsym _ _ m4 m5
        have s5 := hsym _ _ m5 m1
        refine ⟨[b, a, f, e, d], ht.reverse.rotate 3, ?_, main _ _ _ _ _ ?_ ?_ ?_ ?_ ?_ ?_ ?_⟩
        · simp [tourCost]; linarith
        all_goals linarith
    by_cases c1 : c v2 v3 + c v3 v4 ≤ c v1 v2 + c v4 v0
    · exact mirror _ _ _ _ _ hq h01 h12 h23 h34 h40 c1
    by_cases c2 : c v3 v4 + c v4 v0 ≤ c v2 v3 + c v0 v1
    · obtain ⟨q', a1, a2, a3⟩ := mirror _ _ _ _ _ (hq.rotate 1) h12 h23 h34 h40 h01 c2
      exact ⟨q', a1, a2.trans (tourCost_rotate c [v0, v1, v2, v3, v4] 1), a3⟩
    by_cases c3 : c v4 v0 + c v0 v1 ≤ c v3 v4 + c v1 v2
    · obtain ⟨q', a1, a2, a3⟩ := mirror _ _ _ _ _ (hq.rotate 2) h23 h34 h40 h01 h12 c3
      exact ⟨q', a1, a2.trans (tourCost_rotate c [v0, v1, v2, v3, v4] 2), a3⟩
    by_cases c4 : c v0 v1 + c v1 v2 ≤ c v4 v0 + c v2 v3
    · obtain ⟨q', a1, a2, a3⟩ := mirror _ _ _ _ _ (hq.rotate 3) h34 h40 h01 h12 h23 c4
      exact ⟨q', a1, a2.trans (tourCost_rotate c [v0, v1, v2, v3, v4] 3), a3⟩
    obtain ⟨q', a1, a2, a3⟩ := mirror _ _ _ _ _ (hq.rotate 4) h40 h01 h12 h23 h34 (by linarith)
    exact ⟨q', a1, a2.trans (tourCost_rotate c [v0, v1, v2, v3, v4] 4), a3⟩
  · simp at hlen; omega

/-- **C08, partial.** v5 is exact up to five cities. Missing: larger dimensions, where it is false
in general. -/
theorem C08_v5_exact_partial (m : Mat (XNum K)) (c : Nat → Nat → K) (hm : Rep m c)
    (hn : 1 ≤ m.dim) (hn5 : m.dim ≤ 5) (hsym : Symm m.dim c) (hc : Nonneg m.dim c) :
    ∃ p, fifthImprovedSolver m = .ok (fin (tourCost c p), p) ∧ IsShortest m.dim c p := by
  obtain ⟨p, h1, h2, _, h4⟩ := solveDfs_truthful hm (test5_ok hm) hn (aux := ()) trivial
    (test5_inf hm)
  refine ⟨p, h1, h2, fun q hq => ?_⟩
  rcases Nat.lt_or_ge 1 m.dim with h | h
  · obtain ⟨q', a1, a2, a3⟩ := balanced_rep hsym hc h hn5 hq
    rw [← a2]
    exact h4 _ _ a1 le_rfl (along_test5 hm hsym a1 a3)
  · refine h4 q _ hq le_rfl ?_
    intro p hp _ h2 
    have := hp.length_le
    rw [hq.length] at this
    omega

example : Rep Ex.m4 Ex.c4 ∧ 1 ≤ Ex.m4.dim ∧ Ex.m4.dim ≤ 5 ∧ Symm Ex.m4.dim Ex.c4 ∧
    Nonneg Ex.m4.dim Ex.c4 := ⟨Ex.rep4, by decide, by decide, Ex.symm4, Ex.nonneg4⟩

end Walky.Props
