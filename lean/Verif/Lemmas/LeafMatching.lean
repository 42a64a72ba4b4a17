import Verif.Lemmas.Ratio

/-! # Matched leaves of the tree stay neighbours in the tour -/

namespace Walky

open FloatOps XNum Spec

variable {K : Type} [Field K] [LinearOrder K] [IsStrictOrderedRing K]

/-- neighbours in a walk that occur only there -/
theorem idxOf_pairs {walk : List Nat} {u v : Nat} (h : (u, v) ∈ pairs walk) (hne : u ≠ v)
    (hu : walk.count u = 1) (hv : walk.count v = 1) : walk.idxOf v = walk.idxOf u + 1 := by
  induction walk with
  | nil => simp [pairs] at h
  | cons a t ih =>
    cases t with
    | nil => simp [pairs] at h
    | cons b t =>
      rw [pairs_cons₂, List.mem_cons] at h
      rcases h with h | h
      · rw [Prod.mk.injEq] at h
        obtain ⟨rfl, rfl⟩ := h
        rw [List.idxOf_cons_ne _ hne]
        simp
      · have h1 := (mem_pairs h).1
        have h2 := (mem_pairs h).2
        simp only at h1 h2
        have hau : a ≠ u := by
          rintro rfl
          rw [List.count_cons_self] at hu
          have := List.count_pos_iff.mpr h1
          omega
        have hav : a ≠ v := by
          rintro rfl
          rw [List.count_cons_self] at hv
          have := List.count_pos_iff.mpr h2
          omega
        rw [List.idxOf_cons_ne _ hau, List.idxOf_cons_ne _ hav,
          ih h (by rwa [List.count_cons_of_ne hau] at hu) (by rwa [List.count_cons_of_ne hav] at hv)]

/-- neighbours in an ordered list -/
theorem pairs_of_sorted {f : Nat → Nat} {p : List Nat} (hp : p.Pairwise fun a b => f a < f b) {u v : Nat}
    (hu : u ∈ p) (hv : v ∈ p) (h : f v = f u + 1) : (u, v) ∈ pairs p := by
  induction p with
  | nil => simp at hu
  | cons a t ih =>
    rw [List.pairwise_cons] at hp
    rcases List.mem_cons.mp hv with rfl | hv'
    · rcases List.mem_cons.mp hu with rfl | hu'
      · omega
      · have := hp.1 u hu'
        omega
    · cases t with
      | nil => simp at hv'
      | cons b t =>
        rw [pairs_cons₂]
        rcases List.mem_cons.mp hu with rfl | hu'
        · rcases List.mem_cons.mp hv' with rfl | hv''
          · simp
          · have h1 := hp.1 b (by simp)
            have h2 := (List.pairwise_cons.mp hp.2).1 v hv''
            omega
        · exact List.mem_cons_of_mem _ (ih hp.2 hu' hv')

theorem nodup_of_ends {M : List (Nat × Nat)} (h : (flattenEdges M).Nodup) : M.Nodup := by
  induction M with
  | nil => simp
  | cons e M ih =>
    rw [flatten_cons, List.nodup_cons, List.nodup_cons] at h
    refine List.nodup_cons.mpr ⟨fun he => ?_, ih h.2.2⟩
    exact h.1 (List.mem_cons_of_mem _ (mem_flatten.mpr ⟨e, he, Or.inl rfl⟩))

/-- The cost of part of the edges is not larger. -/
theorem edgeSum_subset {c : Nat → Nat → K} {M L : List (Nat × Nat)} (hM : M.Nodup) (h : ∀ e ∈ M, e ∈ L)
    (hnn : ∀ e ∈ L, 0 ≤ c e.1 e.2) : edgeSum c M ≤ edgeSum c L := by
  induction M generalizing L with
  | nil =>
    refine List.sum_nonneg fun x hx => ?_
    obtain ⟨e, he, rfl⟩ := List.mem_map.mp hx
    exact hnn e he
  | cons e M ih =>
    rw [List.nodup_cons] at hM
    have he := h e (by simp)
    rw [edgeSum_perm c (List.perm_cons_erase he), edgeSum_cons, edgeSum_cons]
    have := ih (L := L.erase e) hM.2 (fun f hf =>
      (List.mem_erase_of_ne (by rintro rfl; exact hM.1 hf)).mpr (h f (by simp [hf])))
      (fun f hf => hnn f (List.mem_of_mem_erase hf))
    linarith

/-- Edges between different vertices that are neighbours in a path, in some direction. -/
theorem edgeSum_le_path {n : Nat} {c : Nat → Nat → K} (hsym : Symm n c)
    (hnn : ∀ i j, i < n → j < n → 0 ≤ c i j) {M : List (Nat × Nat)} (hM : (flattenEdges M).Nodup)
    {p : List Nat} (hp : ∀ x ∈ p, x < n) (h : ∀ e ∈ M, e ∈ pairs p ∨ e.swap ∈ pairs p) :
    edgeSum c M ≤ pathCost c p := by
  have key : ∀ M : List (Nat × Nat), (flattenEdges M).Nodup → (∀ e ∈ M, e ∈ pairs p ∨ e.swap ∈ pairs p) →
      ∃ M' : List (Nat × Nat), (flattenEdges M').Perm (flattenEdges M) ∧ (∀ e ∈ M', e ∈ pairs p) ∧
        edgeSum c M' = edgeSum c M := by
    intro M
    induction M with
    | nil => exact fun _ _ => ⟨[], .refl _, by simp, rfl⟩
    | cons e M ih =>
      intro hM h
      rw [flatten_cons, List.nodup_cons, List.nodup_cons] at hM
      obtain ⟨M', k1, k2, k3⟩ := ih hM.2.2 fun f hf => h f (by simp [hf])
      rcases h e (by simp) with he | he
      · refine ⟨e :: M', ?_, ?_, by rw [edgeSum_cons, edgeSum_cons, k3]⟩
        · rw [flatten_cons, flatten_cons]
          exact (k1.cons _).cons _
        · intro f hf
          rcases List.mem_cons.mp hf with rfl | hf
          · exact he
          · exact k2 f hf
      · refine ⟨e.swap :: M', ?_, ?_, ?_⟩
        · rw [flatten_cons, flatten_cons]
          exact ((k1.cons _).cons _).trans (.swap _ _ _)
        · intro f hf
          rcases List.mem_cons.mp hf with rfl | hf
          · exact he
          · exact k2 f hf
        · rw [edgeSum_cons, edgeSum_cons, k3]
          have := mem_pairs he
          rw [hsym _ _ (hp _ this.1) (hp _ this.2)]
          rfl
  obtain ⟨M', k1, k2, k3⟩ := key M hM h
  rw [← k3, ← edgesCost_pairs]
  exact edgeSum_subset (nodup_of_ends (k1.nodup_iff.mpr hM)) k2
    fun e he => hnn _ _ (hp _ (mem_pairs he).1) (hp _ (mem_pairs he).2)

theorem pathCost_le_tourCost {n : Nat} {c : Nat → Nat → K} (hnn : ∀ i j, i < n → j < n → 0 ≤ c i j)
    {p : List Nat} (hp : ∀ x ∈ p, x < n) : pathCost c p ≤ tourCost c p := by
  cases p with
  | nil => exact le_refl _
  | cons a t =>
    show pathCost c (a :: t) ≤ pathCost c (a :: t ++ [a])
    obtain ⟨L, x, hL⟩ : ∃ L x, a :: t = L ++ [x] :=
      ⟨_, _, (List.dropLast_append_getLast (l := a :: t) (by simp)).symm⟩
    have ha := hp a (by simp)
    rw [hL] at hp ⊢
    rw [List.append_assoc]
    have h1 : pathCost c (L ++ ([x] ++ [a])) = pathCost c (L ++ [x]) + c x a := pathCost_snoc _ _ _ _
    rw [h1]
    have := hnn x a (hp x (by simp)) ha
    linarith

/-- The tour on the multigraph of a spanning tree and a perfect matching is at least as long as the matching,
if all matched vertices are leaves of the tree and not the first city. -/
theorem tail_ge_matching {m : Mat (XNum K)} {c : Nat → Nat → K} (hm : Rep m c) (hn : 1 ≤ m.dim)
    (hsym : Symm m.dim c) (hnn : ∀ i j, i < m.dim → j < m.dim → 0 ≤ c i j) {E : List (Nat × Nat)}
    (h2 : IsSpanningTree (List.range m.dim) E)
    {M : List (Nat × Nat)} (hM : PerfectMatching (oddDegree m.dim E) M) (hleaf : ∀ v ∈ ends M, v ≠ 0 ∧ (ends E).count v = 1)
    {g : MGraph (XNum K)}
    (a2 : g.dim = m.dim) (a1 : ∀ i j, i < m.dim → j < m.dim → (Joined E i j → g.times i j = 1 + und M i j) ∧
        (¬ Joined E i j → g.times i j = und M i j)) (dbg : Bool) :
    ∃ p, christofidesTail dbg m g = .ok (fin (tourCost c p), p ++ [0]) ∧ IsTour m.dim p ∧
      edgeSum c M ≤ tourCost c p := by
  obtain ⟨b1, b2, b3⟩ := union_ok h2 a2 a1
  obtain ⟨walk, p, a3, a4, a5, a6, a7, a8, a9⟩ := christofidesTail_ok hm a2 hn b1 b2 b3 dbg
  refine ⟨p, a5, a6, ?_⟩
  have hnd : (flattenEdges M).Nodup := hM.nodup_iff.mpr (List.nodup_range.filter _)
  have hval : Valid m.dim M := valid_iff.mpr fun v hv => oddSet_lt v (hM.mem_iff.mp hv)
  have hEM : Valid m.dim (E ++ M) := by
    intro e he
    rcases List.mem_append.mp he with he | he
    · exact spanning_valid h2 e he
    · exact hval e he
  have ht : ∀ i j, i < m.dim → j < m.dim → g.times i j = und (E ++ M) i j := by
    intro i j hi hj
    rw [und_append]
    by_cases hJ : Joined E i j
    · rw [(a1 i j hi hj).1 hJ, (spanning_und hn h2 i j).1 hJ]
    · rw [(a1 i j hi hj).2 hJ, (spanning_und hn h2 i j).2 hJ, Nat.zero_add]
  have hcnt : ∀ i, (flattenEdges (E ++ M)).count i = (flattenEdges E).count i + (flattenEdges M).count i := by
    intro i
    rw [flatten_append, List.count_append]
  have heven : ∀ i < g.dim, Even (g.rowSum i) := by
    intro i hi
    have hr : g.rowSum i = (flattenEdges (E ++ M)).count i := by
      rw [← sum_und hEM i]
      unfold MGraph.rowSum
      rw [a2]
      exact Finset.sum_congr rfl fun j hj => ht i j (by omega) (by simpa using hj)
    rw [hr, hcnt]
    have h3 : (flattenEdges M).count i = (oddSet m.dim E).count i := hM.count_eq i
    have h4 : (oddSet m.dim E).Nodup := List.nodup_range.filter _
    rw [h3, h4.count, Nat.even_iff]
    by_cases ho : (flattenEdges E).count i % 2 = 1
    · rw [if_pos (mem_oddSet.mpr ⟨by omega, ho⟩)]; omega
    · rw [if_neg fun h => ho (mem_oddSet.mp h).2]; omega
  obtain ⟨walk', k1, k2, k3, k4, k5⟩ := eulerianCycle_even dbg b1 b2 (by omega) b3 heven
  rw [a3] at k1
  injection k1 with k1
  subst k1
  obtain ⟨t, rfl⟩ : ∃ t, walk = 0 :: t := by
    cases walk with
    | nil => simp at k3
    | cons x t => simp at k3; exact ⟨t, by rw [k3]⟩
  have hlast : (0 :: t).getLast (by simp) = 0 := by
    rw [List.getLast?_eq_some_getLast (by simp)] at k4
    exact Option.some.inj k4
  have hone : ∀ v ∈ flattenEdges M, (0 :: t).count v = 1 := by
    intro v hv
    have hvn : v < m.dim := oddSet_lt v (hM.mem_iff.mp hv)
    have h1 := sum_und_pairs t 0 v a9
    rw [hlast, if_neg (hleaf v hv).1] at h1
    have h3 : ∑ j ∈ Finset.range m.dim, und (pairs (0 :: t)) v j = (flattenEdges (E ++ M)).count v := by
      rw [← sum_und hEM v]
      refine Finset.sum_congr rfl fun j hj => ?_
      have hj : j < m.dim := by simpa using hj
      rw [k5 v j (by omega) (by omega), ht v j hvn hj]
    have h4 : (flattenEdges M).count v = 1 := List.count_eq_one_of_mem hnd hv
    have h5 : (flattenEdges E).count v = 1 := (hleaf v hv).2
    rw [h3, hcnt, h4, h5] at h1
    omega
  have hpm : ∀ x, x ∈ p ↔ x ∈ 0 :: t := by
    intro x
    rw [a4, mem_firstOcc]
    simp
  have hpv : ∀ x ∈ p, x < m.dim := fun x hx => a9 x ((hpm x).mp hx)
  refine le_trans ?_ (pathCost_le_tourCost hnn hpv)
  have hsorted := firstOcc_sorted [] (0 :: t)
  rw [← a4] at hsorted
  have hadj : ∀ u v, (u, v) ∈ pairs (0 :: t) → u ≠ v → u ∈ flattenEdges M → v ∈ flattenEdges M →
      (u, v) ∈ pairs p := fun u v h hne hu hv =>
    pairs_of_sorted hsorted ((hpm u).mpr (mem_pairs h).1) ((hpm v).mpr (mem_pairs h).2)
      (idxOf_pairs h hne (hone u hu) (hone v hv))
  refine edgeSum_le_path hsym hnn hnd hpv fun e he => ?_
  have hu : e.1 ∈ flattenEdges M := mem_flatten.mpr ⟨e, he, Or.inl rfl⟩
  have hv : e.2 ∈ flattenEdges M := mem_flatten.mpr ⟨e, he, Or.inr rfl⟩
  have hne : e.1 ≠ e.2 := by
    intro h
    have := (List.perm_cons_erase he)
    have h3 := (flatten_perm this).nodup_iff.mp hnd
    rw [flatten_cons, List.nodup_cons] at h3
    exact h3.1 (by rw [h]; simp)
  have hpos : und (pairs (0 :: t)) e.1 e.2 ≠ 0 := by
    rw [k5 _ _ (by have := (hval e he).1; omega) (by have := (hval e he).2; omega), ht _ _ (hval e he).1 (hval e he).2,
      und_append]
    have : 0 < M.count (e.1, e.2) := List.count_pos_iff.mpr he
    unfold und
    omega
  rcases und_pos hpos with h | h
  · exact Or.inl (hadj _ _ h hne hu hv)
  · exact Or.inr (hadj _ _ h hne.symm hv hu)

end Walky
