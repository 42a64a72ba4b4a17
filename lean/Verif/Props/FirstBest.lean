import Verif.Lemmas.FirstBest
import Verif.Examples

/-!
# Which of several shortest tours is returned (C113)
-/

set_option linter.unusedSectionVars false

namespace Walky.Props

open FloatOps XNum Spec

variable {K : Type} [Field K] [LinearOrder K] [IsStrictOrderedRing K]

/-- `p` is the lexicographically first of the shortest ones among the tours with `P` -/
def LexFirst (n : Nat) (c : Nat → Nat → K) (P : List Nat → Prop) (p : List Nat) : Prop :=
  IsTour n p ∧ P p ∧
    ∀ q, IsTour n q → P q → tourCost c p < tourCost c q ∨ tourCost c p = tourCost c q ∧ p ≤ q

/-- there is only one such tour -/
theorem LexFirst.unique {n : Nat} {c : Nat → Nat → K} {P P' : List Nat → Prop} {p p' : List Nat}
    (h : LexFirst n c P p) (h' : LexFirst n c P' p') (h1 : P p') (h2 : P' p) : p = p' := by
  rcases h.2.2 p' h'.1 h1 with a | ⟨a, b⟩ <;> rcases h'.2.2 p h.1 h2 with a' | ⟨a', b'⟩
  · exact absurd (a.trans a') (lt_irrefl _)
  · exact absurd a (by rw [a']; exact lt_irrefl _)
  · exact absurd a' (by rw [a]; exact lt_irrefl _)
  · exact le_antisymm b b'

/-- **C113, v0.** The naive solver returns the lexicographically first of the shortest tours, where the
tour `0, 1, …, n-1` does not compete. -/
theorem C113_v0 (m : Mat (XNum K)) (c : Nat → Nat → K) (hm : Rep m c) (hn : 2 ≤ m.dim) :
    ∃ p, naiveSolver m = .ok (fin (tourCost c p), p) ∧
      LexFirst m.dim c (· ≠ List.range m.dim) p := by
  obtain ⟨l, l1, l2, l3⟩ := run_nextPermutation (List.range m.dim)
  have hv : ∀ p, IsTour m.dim p → m.evaluateCircle p = .ok (fin (tourCost c p)) := fun p hp =>
    evaluateCircle_valid hm (validPre_prefix hp (List.prefix_refl _)) (by rw [hp.length]; exact hn)
  have hlen : l.length < m.dim.factorial + 1 := by
    have := length_le_factorial (l := l) (a := List.range m.dim) (l2.imp (fun h => ne_of_lt h))
      (fun c hc => ((l3 c).mp hc).1)
    simp at this
    omega
  have hmem : ∀ q, IsTour m.dim q → q ≠ List.range m.dim → q ∈ l := fun q hq hne =>
    (l3 q).mpr ⟨hq, range_le hq hne⟩
  have hrev : (List.range m.dim).reverse ≠ List.range m.dim := by
    obtain ⟨k, hk⟩ : ∃ k, m.dim = k + 2 := ⟨m.dim - 2, by omega⟩
    rw [hk]
    conv_lhs => rw [List.range_succ]
    conv_rhs => rw [List.range_succ_eq_map]
    simp
  have hl : l ≠ [] := List.ne_nil_of_mem (hmem _ (List.reverse_perm _) hrev)
  obtain ⟨r, r1, r2, r3⟩ := foldl_updBest_first (w := tourCost c) hl l2 (List.range m.dim)
  refine ⟨r, ?_, ((l3 r).mp r2).1, (ne_of_lt ((l3 r).mp r2).2).symm, fun q hq hne => r3 q (hmem q hq hne)⟩
  unfold naiveSolver
  rw [XNum.inf_def, permLoop_best l1 (fun p hp => hv p ((l3 p).mp hp).1) _ _ hlen, r1]

example : Rep Ex.m4 Ex.c4 ∧ 2 ≤ Ex.m4.dim := ⟨Ex.rep4, by decide⟩

/-- with all distances equal, every tour is shortest, and the first one does not compete -/
example : naiveSolver (Mat.ofFun 4 (fun _ _ => (1 : ℚ))) = .ok (fin 4, [0, 1, 3, 2]) := by
  decide +kernel

/-- **C113, v1.** The first improved solver returns the lexicographically first of the shortest tours
that begin with city 0, where the tour `0, 1, …, n-1` does not compete. -/
theorem C113_v1 (m : Mat (XNum K)) (c : Nat → Nat → K) (hm : Rep m c) (hn : 3 ≤ m.dim) :
    ∃ p, firstImprovedSolver m = .ok (fin (tourCost c p), p) ∧
      LexFirst m.dim c (fun q => q.head? = some 0 ∧ q ≠ List.range m.dim) p := by
  obtain ⟨k, hk⟩ : ∃ k, m.dim = k + 3 := ⟨m.dim - 3, by omega⟩
  have hrange : List.range m.dim = 0 :: (List.range (k + 2)).map (· + 1) := by
    rw [hk, List.range_succ_eq_map]
  generalize ht : (List.range (k + 2)).map (· + 1) = t0 at hrange
  obtain ⟨l, l1, l2, l3⟩ := run_nextPermutation t0
  have hv : ∀ p, IsTour m.dim p → m.evaluateCircle p = .ok (fin (tourCost c p)) := fun p hp =>
    evaluateCircle_valid hm (validPre_prefix hp (List.prefix_refl _)) (by rw [hp.length]; omega)
  have htour : ∀ t, t.Perm t0 → IsTour m.dim (0 :: t) := by
    intro t h
    unfold IsTour
    rw [hrange]
    exact h.cons 0
  have hlen0 : t0.length = k + 2 := by rw [← ht]; simp
  have hlen : (l.map (0 :: ·)).length < m.dim.factorial + 1 := by
    have h1 := length_le_factorial (l := l) (a := t0) (l2.imp (fun h => ne_of_lt h))
      (fun c hc => ((l3 c).mp hc).1)
    have h2 : (k + 2).factorial ≤ m.dim.factorial := Nat.factorial_le (by omega)
    rw [hlen0] at h1
    simp
    omega
  have hsorted : t0.Pairwise (· < ·) := by
    rw [← ht, List.pairwise_map]
    exact List.pairwise_lt_range.imp (fun h => by omega)
  have hmem : ∀ q, IsTour m.dim q → q.head? = some 0 → q ≠ List.range m.dim →
      q ∈ l.map (0 :: ·) := by
    intro q hq hh hne
    cases q with
    | nil => simp at hh
    | cons x t =>
      simp only [List.head?_cons, Option.some.injEq] at hh
      subst hh
      unfold IsTour at hq
      rw [hrange] at hq hne
      have h1 := hq.cons_inv
      have h2 : t ≠ t0 := fun h => hne (by rw [h])
      refine List.mem_map.mpr ⟨t, (l3 t).mpr ⟨h1, lt_of_le_of_ne ?_ (Ne.symm h2)⟩, rfl⟩
      exact not_lt.mp (not_lt_of_asc (hsorted.imp (fun h => le_of_lt h)) h1)
  have hne : t0.reverse ≠ t0 := by
    rw [← ht, List.range_succ_eq_map, List.range_succ]
    simp
  have hl : l.map (0 :: ·) ≠ [] := List.ne_nil_of_mem
    (hmem (0 :: t0.reverse) (htour _ t0.reverse_perm) rfl (by rw [hrange]; simpa using hne))
  have hs : (l.map (0 :: ·)).Pairwise (· < ·) := by
    rw [List.pairwise_map]
    exact l2.imp fun h => cons_lt_cons.mpr (Or.inr ⟨rfl, h⟩)
  obtain ⟨r, r1, r2, r3⟩ := foldl_updBest_first (w := tourCost c) hl hs (List.range m.dim)
  obtain ⟨t, t1, t2⟩ := List.mem_map.mp r2
  have hrt : IsTour m.dim r := t2 ▸ htour t ((l3 t).mp t1).1
  have hrr : r ≠ List.range m.dim := by
    rw [← t2, hrange]
    intro h
    exact (ne_of_lt ((l3 t).mp t1).2) (List.cons.inj h).2.symm
  refine ⟨r, ?_, hrt, ⟨by rw [← t2]; rfl, hrr⟩, fun q hq h => r3 q (hmem q hq h.1 h.2)⟩
  have hrun := run_tail 0 l1
  rw [← hrange] at hrun
  unfold firstImprovedSolver
  rw [XNum.inf_def, permLoop_best hrun (fun p hp => by
      obtain ⟨t, h1, rfl⟩ := List.mem_map.mp hp
      exact hv _ (htour t ((l3 t).mp h1).1)) _ _ hlen, r1]

example : Rep Ex.m4 Ex.c4 ∧ 3 ≤ Ex.m4.dim := ⟨Ex.rep4, by decide⟩

/-- **C113, v2.** The second improved solver returns the lexicographically first of all shortest
tours. -/
theorem C113_v2 (m : Mat (XNum K)) (c : Nat → Nat → K) (hm : Rep m c) (hn : 1 ≤ m.dim) :
    ∃ p, secondImprovedSolver m = .ok (fin (tourCost c p), p) ∧
      LexFirst m.dim c (fun _ => True) p := by
  obtain ⟨p, h1, h2, h3⟩ := solveDfs_leaves hm (test := test2) (J := fun _ => True)
    (fun a p b _ _ _ _ => ⟨true, (), rfl, trivial, by simp⟩) hn (aux := ()) trivial
  exact ⟨p, h1, h2, trivial, fun q hq _ => h3 q hq⟩

/-- with all distances equal, v2 returns the first tour -/
example : secondImprovedSolver (Mat.ofFun 4 (fun _ _ => (1 : ℚ))) = .ok (fin 4, [0, 1, 2, 3]) := by
  decide +kernel

/-- **C113, v3.** Without negative distances, the pruning of the third improved solver does not change
the answer of the second, not even among equally short tours. -/
theorem C113_v3 (m : Mat (XNum K)) (c : Nat → Nat → K) (hm : Rep m c) (hn : 1 ≤ m.dim)
    (hc : Nonneg m.dim c) (hd : m.dim = 1 → 0 ≤ c 0 0) :
    thirdImprovedSolver m = secondImprovedSolver m := by
  obtain ⟨p, h1, h2⟩ := C113_v2 m c hm hn
  obtain ⟨p', h1', h2', h3'⟩ := solveDfs_leaves hm (test := test3) (J := fun _ => True)
    (fun a p b _ _ _ hb => ⟨_, (), rfl, trivial, by
      intro hgo q hq hpq
      have hv := validPre_prefix hq (List.prefix_refl _)
      have e1 := pathCost_prefix_le hc hv hpq
      have e2 := closing_nonneg hc hd hq
      by_contra hlt
      have hlt : ((fin (tourCost c q) : XNum K) <ᶠ b) = true := by simpa using hlt
      have : FloatOps.le (fin (pathCost c p)) b = true :=
        le_trans' (by simpa using e1.trans e2) (le_of_lt' hlt)
      rw [this] at hgo
      cases hgo⟩) hn (aux := ()) trivial
  have e := LexFirst.unique h2 (P' := fun _ => True) ⟨h2', trivial, fun q hq _ => h3' q hq⟩ trivial trivial
  subst e
  unfold thirdImprovedSolver
  rw [h1, h1']

example : Rep Ex.m4 Ex.c4 ∧ 1 ≤ Ex.m4.dim ∧ Nonneg Ex.m4.dim Ex.c4 ∧
    (Ex.m4.dim = 1 → 0 ≤ Ex.c4 0 0) :=
  ⟨Ex.rep4, by decide, Ex.nonneg4, fun h => absurd h (by decide)⟩

/-- rotating and turning a tour round -/
private theorem from_zero {n : Nat} {c : Nat → Nat → K} (hn : 3 ≤ n) (hsym : Symm n c) {p : List Nat}
    (hp : IsTour n p) : ∃ q, IsTour n q ∧ q.head? = some 0 ∧ q ≠ List.range n ∧
      tourCost c q = tourCost c p := by
  obtain ⟨u, v, rfl⟩ := List.append_of_mem (hp.mem.mpr (show 0 < n by omega))
  have e : tourCost c (0 :: (v ++ u)) = tourCost c (u ++ 0 :: v) := by
    rw [tourCost_append_comm]; rfl
  have hq' : IsTour n (0 :: (v ++ u)) := List.perm_append_comm.trans hp
  by_cases h : 0 :: (v ++ u) = List.range n
  · refine ⟨0 :: (v ++ u).reverse, ((List.reverse_perm _).cons 0).trans hq', rfl, ?_, ?_⟩
    · obtain ⟨k, rfl⟩ : ∃ k, n = k + 3 := ⟨n - 3, by omega⟩
      rw [← h]
      rw [List.range_succ_eq_map] at h
      rw [(List.cons.inj h).2, List.range_succ_eq_map, List.range_succ]
      simp
    · rw [← e, ← tourCost_reverse_of_symm hsym (p := 0 :: (v ++ u)) (fun i hi => hq'.mem.mp hi),
        List.reverse_cons, tourCost_append_comm]
      rfl
  · exact ⟨_, hq', rfl, h, e⟩

private theorem first_zero {n : Nat} {c : Nat → Nat → K} (hn : 3 ≤ n) (hsym : Symm n c)
    {P : List Nat → Prop} (hP : ∀ q, q ≠ List.range n → P q) {p : List Nat} (h : LexFirst n c P p) :
    p.head? = some 0 := by
  obtain ⟨q, q1, q2, q3, q4⟩ := from_zero hn hsym h.1
  rcases h.2.2 q q1 (hP q q3) with h1 | ⟨_, h1⟩
  · exact absurd h1 (by rw [q4]; exact lt_irrefl _)
  · cases p with
    | nil => have := h.1.length; simp at this; omega
    | cons x p =>
      cases q with
      | nil => simp at q2
      | cons y q =>
        simp only [List.head?_cons, Option.some.injEq] at q2 ⊢
        subst q2
        by_contra hx
        exact absurd h1 (not_le.mpr (cons_lt_cons.mpr (Or.inl (Nat.pos_of_ne_zero hx))))

/-- **C113, v0 and v1.** On symmetric distances between at least three cities, the naive and the first
improved solver return the same tour. -/
theorem C113_v0_v1 (m : Mat (XNum K)) (c : Nat → Nat → K) (hm : Rep m c) (hn : 3 ≤ m.dim)
    (hsym : Symm m.dim c) : firstImprovedSolver m = naiveSolver m := by
  obtain ⟨p, p1, p2⟩ := C113_v0 m c hm (by omega)
  obtain ⟨q, q1, q2⟩ := C113_v1 m c hm hn
  have e := LexFirst.unique p2 q2 q2.2.1.2 ⟨first_zero hn hsym (fun _ h => h) p2, p2.2.1⟩
  subst e
  rw [p1, q1]

/-- **C113, v0 – v3.** Symmetric distances, at least three cities. If the tour `0, 1, …, n-1` is not a
shortest one, then v2 returns the same tour as v0 and v1. If it is, then v2 returns it, and v0 and v1
return another tour of the same length. All return a tour that begins with city 0. -/
theorem C113_v0_v2 (m : Mat (XNum K)) (c : Nat → Nat → K) (hm : Rep m c) (hn : 3 ≤ m.dim)
    (hsym : Symm m.dim c) :
    ∃ p q, naiveSolver m = .ok (fin (tourCost c p), p) ∧
      secondImprovedSolver m = .ok (fin (tourCost c q), q) ∧
      p.head? = some 0 ∧ q.head? = some 0 ∧ p ≠ List.range m.dim ∧ tourCost c p = tourCost c q ∧
      (IsShortest m.dim c (List.range m.dim) → q = List.range m.dim) ∧
      (¬ IsShortest m.dim c (List.range m.dim) → p = q) := by
  obtain ⟨p, p1, p2⟩ := C113_v0 m c hm (by omega)
  obtain ⟨q, q1, q2⟩ := C113_v2 m c hm (by omega)
  have hle : ∀ x, IsTour m.dim x → tourCost c q ≤ tourCost c x := fun x hx =>
    (q2.2.2 x hx trivial).elim le_of_lt fun h => h.1.le
  refine ⟨p, q, p1, q1, first_zero hn hsym (fun _ h => h) p2, first_zero hn hsym (fun _ _ => trivial) q2,
    p2.2.1, ?_, ?_, ?_⟩
  · obtain ⟨x, x1, _, x3, x4⟩ := from_zero hn hsym q2.1
    refine le_antisymm ?_ (hle p p2.1)
    rw [← x4]
    exact (p2.2.2 x x1 x3).elim le_of_lt fun h => h.1.le
  · intro hid
    by_contra hne
    rcases q2.2.2 _ (isTour_range m.dim) trivial with h | ⟨_, h⟩
    · exact absurd (hid.2 q q2.1) (not_le.mpr h)
    · exact absurd h (not_le.mpr (range_le q2.1 hne))
  · intro hid
    refine LexFirst.unique p2 q2 ?_ trivial
    rintro rfl
    exact hid ⟨isTour_range _, hle⟩

example : Rep Ex.m4 Ex.c4 ∧ 3 ≤ Ex.m4.dim ∧ Symm Ex.m4.dim Ex.c4 :=
  ⟨Ex.rep4, by decide, Ex.symm4⟩

/-- **C113, v5.** The pruning of the fifth improved solver changes the answer even where it still finds a
shortest tour: on this metric v2 and v5 return different ones. -/
theorem C113_v5_differs :
    ∃ (m : Mat (XNum ℚ)) (c : Nat → Nat → ℚ), Rep m c ∧ m.dim = 5 ∧ Metric m.dim c ∧
      ∃ p q, secondImprovedSolver m = .ok (fin (tourCost c p), p) ∧
        fifthImprovedSolver m = .ok (fin (tourCost c q), q) ∧ p ≠ q ∧
        tourCost c p = tourCost c q := by
  refine ⟨Mat.ofRowsFin [[0, 2, 1, 1, 1], [2, 0, 2, 2, 2], [1, 2, 0, 2, 1], [1, 2, 2, 0, 2],
    [1, 2, 1, 2, 0]], _, rep_ofFun _ _, rfl, ⟨?_, ?_, ?_⟩, [0, 2, 4, 1, 3], [0, 3, 1, 2, 4], ?_, ?_, ?_, ?_⟩
  · intro i (hi : i < 5)
    interval_cases i <;> rfl
  · intro i j (hi : i < 5) (hj : j < 5)
    interval_cases i <;> interval_cases j <;> rfl
  · intro i j k (hi : i < 5) (hj : j < 5) (hk : k < 5)
    interval_cases i <;> interval_cases j <;> interval_cases k <;> norm_num [ofRowsC]
  · decide +kernel
  · decide +kernel
  · decide
  · decide +kernel

end Walky.Props
