import Verif.Props.SubInstance
import Verif.Props.Monotone
import Verif.Lemmas.PythonNN

/-!
# Cities at the same place (C117)

The second instance has some of the cities of the first one (`Keeps`, as in C114), and every city that was left
out is at distance 0 from one that was kept.
-/

set_option linter.unusedSectionVars false

namespace Walky.Props

open XNum Spec

variable {K : Type} [Field K] [LinearOrder K] [IsStrictOrderedRing K]

/-- a city at the same place as another one can be inserted into a round trip -/
private theorem insert_city {n : Nat} {c : Nat → Nat → K} (hd : Metric n c) {x j : Nat} {r : List Nat}
    (hx : x < n) (hj : j < n) (hr : ∀ i ∈ r, i < n) (h0 : c x j = 0) :
    tourCost c (x :: j :: r) ≤ tourCost c (x :: r) := by
  have h0' : c j x = 0 := by rw [← hd.symm x j hx hj]; exact h0
  have key : ∀ y l, y < n → pathCost c (x :: j :: y :: l) ≤ pathCost c (x :: y :: l) := by
    intro y l hy
    have := hd.tri j y x hj hy hx
    simp only [pathCost]
    linarith
  cases r with
  | nil => exact key x [] hx
  | cons y r => exact key y (r ++ [x]) (hr y (by simp))

/-- a round trip that passes by every place can be extended to a tour that is not longer -/
private theorem extend_tour {n : Nat} {c : Nat → Nat → K} (hd : Metric n c) :
    ∀ (d : Nat) (p : List Nat), p.Nodup → (∀ i ∈ p, i < n) → (∀ j, j < n → ∃ i ∈ p, c i j = 0) →
      n = p.length + d → ∃ q, IsTour n q ∧ tourCost c q ≤ tourCost c p := by
  intro d
  induction d with
  | zero =>
    intro p h1 h2 _ h4
    exact ⟨p, isTour_of_nodup h1 h2 (by omega), le_refl _⟩
  | succ d ih =>
    intro p h1 h2 h3 h4
    obtain ⟨j, hj, hjp⟩ : ∃ j, j < n ∧ j ∉ p := by
      by_contra hno
      have hsub : List.range n ⊆ p := by
        intro j hj
        by_contra hjp
        exact hno ⟨j, List.mem_range.mp hj, hjp⟩
      have := (List.nodup_range.subperm hsub).length_le
      rw [List.length_range] at this
      omega
    obtain ⟨x, hx, h0⟩ := h3 j hj
    obtain ⟨l, r, rfl⟩ := List.append_of_mem hx
    have hperm : (x :: j :: (r ++ l)).Perm (j :: (l ++ x :: r)) := by
      refine (List.Perm.swap j x _).trans (List.Perm.cons j ?_)
      exact (List.perm_append_comm (l₁ := x :: r) (l₂ := l))
    obtain ⟨q, hq, hle⟩ := ih (x :: j :: (r ++ l))
      (hperm.nodup_iff.mpr (List.nodup_cons.mpr ⟨hjp, h1⟩))
      (by
        intro i hi
        rcases List.mem_cons.mp (hperm.mem_iff.mp hi) with rfl | hi
        · exact hj
        · exact h2 i hi)
      (by
        intro i hi
        obtain ⟨y, hy, e⟩ := h3 i hi
        exact ⟨y, hperm.mem_iff.mpr (List.mem_cons_of_mem _ hy), e⟩)
      (by
        have := hperm.length_eq
        simp only [List.length_cons] at this
        simp only [List.length_cons]
        omega)
    refine ⟨q, hq, hle.trans ?_⟩
    rw [tourCost_append_comm]
    refine insert_city hd (h2 x hx) hj ?_ h0
    intro i hi
    apply h2
    rcases List.mem_append.mp hi with h | h
    · simp [h]
    · simp [h]

private theorem same_shortest {k n : Nat} {f : Nat → Nat} (hf : Keeps k n f) {c c' : Nat → Nat → K}
    (hc : ∀ i j, i < k → j < k → c' i j = c (f i) (f j)) (hd : Metric n c)
    (h0 : ∀ j, j < n → ∃ i, i < k ∧ c (f i) j = 0) {p p' : List Nat} (hp : IsShortest n c p)
    (hp' : IsTour k p') : tourCost c p ≤ tourCost c' p' := by
  have hnd : (p'.map f).Nodup := by
    refine List.Nodup.map_on ?_ hp'.nodup
    intro i hi j hj e
    exact hf.inj i j (hp'.mem.mp hi) (hp'.mem.mp hj) e
  have hlt : ∀ i ∈ p'.map f, i < n := by
    intro i hi
    obtain ⟨j, hj, rfl⟩ := List.mem_map.mp hi
    exact hf.lt j (hp'.mem.mp hj)
  have hle : (p'.map f).length ≤ n := by
    have := (hnd.subperm (fun i hi => List.mem_range.mpr (hlt i hi))).length_le
    simpa using this
  obtain ⟨q, hq, hqp⟩ := extend_tour hd (n - (p'.map f).length) (p'.map f) hnd hlt (by
    intro j hj
    obtain ⟨i, hi, e⟩ := h0 j hj
    exact ⟨f i, List.mem_map.mpr ⟨i, hp'.mem.mpr hi, rfl⟩, e⟩) (by omega)
  rw [tourCost_renumber hc hp'] at hqp
  exact (hp.2 q hq).trans hqp

/-- **C117, exact solvers.** With distances that satisfy the triangle inequality, v0, v1, v2 and v3 report the same length
when cities are left out that are at the same place as another one. -/
theorem C117_exact {m m' : Mat (XNum K)} {c c' : Nat → Nat → K} (hm : Rep m c) (hm' : Rep m' c')
    {f : Nat → Nat} (hf : Keeps m'.dim m.dim f)
    (hc : ∀ i j, i < m'.dim → j < m'.dim → c' i j = c (f i) (f j)) (hd : Metric m.dim c)
    (h0 : ∀ j, j < m.dim → ∃ i, i < m'.dim ∧ c (f i) j = 0) :
    (2 ≤ m'.dim → ∃ w p p', naiveSolver m = .ok (fin w, p) ∧ naiveSolver m' = .ok (fin w, p')) ∧
    (3 ≤ m'.dim → ∃ w p p', firstImprovedSolver m = .ok (fin w, p) ∧
      firstImprovedSolver m' = .ok (fin w, p')) ∧
    (1 ≤ m'.dim → ∃ w p p', secondImprovedSolver m = .ok (fin w, p) ∧
      secondImprovedSolver m' = .ok (fin w, p')) ∧
    (1 ≤ m'.dim → ∃ w p p', thirdImprovedSolver m = .ok (fin w, p) ∧
      thirdImprovedSolver m' = .ok (fin w, p')) := by
  obtain ⟨k0, k1, k2, k3⟩ := C114_exact hm hm' hf hc hd
  have hle : m'.dim ≤ m.dim := hf.le
  have hs' : Symm m'.dim c' := by
    intro i j hi hj
    rw [hc i j hi hj, hc j i hj hi]
    exact hd.symm _ _ (hf.lt i hi) (hf.lt j hj)
  have hz : Nonneg m.dim c := fun i j hi hj _ => hd.nonneg hi hj
  have hz' : Nonneg m'.dim c' := fun i j hi hj _ => by
    rw [hc i j hi hj]; exact hd.nonneg (hf.lt i hi) (hf.lt j hj)
  have key : ∀ {r r' : RM (Solution (XNum K))},
      (∃ w w' p p', r = .ok (fin w, p) ∧ r' = .ok (fin w', p') ∧ w' ≤ w) →
      (∃ p, r = .ok (fin (tourCost c p), p) ∧ IsShortest m.dim c p) →
      (∃ p, r' = .ok (fin (tourCost c' p), p) ∧ IsShortest m'.dim c' p) →
      ∃ w p p', r = .ok (fin w, p) ∧ r' = .ok (fin w, p') := by
    rintro r r' ⟨w, w', p, p', a, a', l⟩ ⟨q, b, hq⟩ ⟨q', b', hq'⟩
    rw [a] at b
    rw [a'] at b'
    have e := fin.inj (congrArg Prod.fst (Except.ok.inj b))
    have e' := fin.inj (congrArg Prod.fst (Except.ok.inj b'))
    have := same_shortest hf hc hd h0 hq hq'.1
    rw [← e, ← e'] at this
    refine ⟨w, p, p', a, ?_⟩
    rw [a', le_antisymm l this]
  refine ⟨fun hk => key (k0 hk) (C03_v0_exact_partial m c hm (by omega))
      (C03_v0_exact_partial m' c' hm' hk), fun hk => key (k1 hk) ?_ ?_,
    fun hk => key (k2 hk) (C05_v2_exact m c hm (by omega)) (C05_v2_exact m' c' hm' hk),
    fun hk => key (k3 hk) (C06_v3_exact m c hm (by omega) hz fun h => by rw [hd.diag 0 (by omega)])
      (C06_v3_exact m' c' hm' hk hz' fun h => by
        rw [hc 0 0 (by omega) (by omega), hd.diag _ (hf.lt 0 (by omega))])⟩
  · obtain ⟨p, a, b, -⟩ := C04_v1_exact_partial m c hm (by omega) hd.symm
    exact ⟨p, a, b⟩
  · obtain ⟨p, a, b, -⟩ := C04_v1_exact_partial m' c' hm' hk hs'
    exact ⟨p, a, b⟩

/-- **C117, spanning trees.** The weight of the spanning tree does not change either. -/
theorem C117_mst {m m' : Mat (XNum K)} {c c' : Nat → Nat → K} (hm : Rep m c) (hm' : Rep m' c')
    {f : Nat → Nat} (hf : Keeps m'.dim m.dim f)
    (hc : ∀ i j, i < m'.dim → j < m'.dim → c' i j = c (f i) (f j)) (hd : Metric m.dim c)
    (h0 : ∀ j, j < m.dim → ∃ i, i < m'.dim ∧ c (f i) j = 0) (hn : 1 ≤ m'.dim) :
    ∃ g g' w, primSeq m [] = .ok g ∧ primSeq m' [] = .ok g' ∧ g.undirectedEdgeWeight = fin w ∧
      g'.undirectedEdgeWeight = fin w := by
  classical
  have hs' : Symm m'.dim c' := by
    intro i j hi hj
    rw [hc i j hi hj, hc j i hj hi]
    exact hd.symm _ _ (hf.lt i hi) (hf.lt j hj)
  have hz' : ∀ i j, i < m'.dim → j < m'.dim → 0 ≤ c' i j := fun i j hi hj => by
    rw [hc i j hi hj]; exact hd.nonneg (hf.lt i hi) (hf.lt j hj)
  have hn' : 1 ≤ m.dim := by
    have := hf.lt 0 hn
    omega
  have hne : ∀ k, 1 ≤ k → citiesExcept k [] ≠ [] := by
    intro k hk h
    have : 0 ∈ citiesExcept k [] := mem_citiesExcept.mpr ⟨hk, by simp⟩
    rw [h] at this
    simp at this
  have hmem : ∀ {k i : Nat}, i ∈ citiesExcept k [] ↔ i < k := by
    intro k i
    simp [mem_citiesExcept]
  -- the city that is kept for `j`
  obtain ⟨g, hg⟩ : ∃ g : Nat → Nat, (∀ i, i < m'.dim → g (f i) = i) ∧
      ∀ j, j < m.dim → g j < m'.dim ∧ c (f (g j)) j = 0 := by
    have : ∀ j : Nat, ∃ i, (∀ x, x < m'.dim → f x = j → i = x) ∧
        (j < m.dim → i < m'.dim ∧ c (f i) j = 0) := by
      intro j
      by_cases hj : ∃ x, x < m'.dim ∧ f x = j
      · obtain ⟨x, hx, rfl⟩ := hj
        exact ⟨x, fun y hy e => (hf.inj y x hy hx e).symm, fun h => ⟨hx, hd.diag _ h⟩⟩
      · by_cases hjn : j < m.dim
        · obtain ⟨i, hi, e⟩ := h0 j hjn
          exact ⟨i, fun x hx e => absurd ⟨x, hx, e⟩ hj, fun _ => ⟨hi, e⟩⟩
        · exact ⟨0, fun x hx e => absurd ⟨x, hx, e⟩ hj, fun h => absurd h hjn⟩
    choose g h1 h2 using this
    exact ⟨g, fun i hi => h1 (f i) i hi rfl, h2⟩
  obtain ⟨hgf, hg⟩ := hg
  obtain ⟨G, w, h1, h2, -, h3, F, h4, h5⟩ := C29_prim_minimum hm hd.symm [] (by simp) (hne _ hn')
  obtain ⟨G', w', h1', h2', -, h3', F', h4', h5'⟩ := C29_prim_minimum hm' hs' [] (by simp) (hne _ hn)
  refine ⟨G, G', w, h1, h1', h2, ?_⟩
  rw [h2']
  refine congrArg fin (le_antisymm ?_ ?_)
  · -- move every edge to the cities that are kept
    have hends : ∀ e ∈ F, e.1 < m.dim ∧ e.2 < m.dim := fun e he =>
      ⟨hmem.mp (h4.ends e he).1, hmem.mp (h4.ends e he).2.1⟩
    refine (h3' (F.map fun e => (g e.1, g e.2)) ?_ ?_).trans ?_
    · intro x hx
      obtain ⟨e, he, rfl⟩ := List.mem_map.mp hx
      obtain ⟨a, b⟩ := hends e he
      exact ⟨hmem.mpr (hg _ a).1, hmem.mpr (hg _ b).1, hz' _ _ (hg _ a).1 (hg _ b).1⟩
    · intro a ha b hb
      rw [hmem] at ha hb
      have := h4.conn (f a) (hmem.mpr (hf.lt a ha)) (f b) (hmem.mpr (hf.lt b hb))
      have lift := Relation.ReflTransGen.lift g (p := Joined (F.map fun e => (g e.1, g e.2)))
        (fun x y (h : Joined F x y) => by
          rcases h with h | h
          · exact Or.inl (List.mem_map.mpr ⟨_, h, rfl⟩)
          · exact Or.inr (List.mem_map.mpr ⟨_, h, rfl⟩)) _ _ this
      unfold Function.onFun at lift
      rwa [hgf a ha, hgf b hb] at lift
    · rw [h5]
      unfold edgeSum
      rw [List.map_map]
      refine List.sum_le_sum fun e he => ?_
      obtain ⟨a, b⟩ := hends e he
      have t1 := hd.tri (f (g e.1)) (f (g e.2)) e.1 (hf.lt _ (hg _ a).1) (hf.lt _ (hg _ b).1) a
      have t2 := hd.tri e.1 (f (g e.2)) e.2 a (hf.lt _ (hg _ b).1) b
      have t3 := hd.symm (f (g e.2)) e.2 (hf.lt _ (hg _ b).1) b
      rw [(hg _ b).2] at t3
      rw [(hg _ a).2] at t1
      show c' (g e.1) (g e.2) ≤ _
      rw [hc _ _ (hg _ a).1 (hg _ b).1]
      linarith
  · -- add an edge of cost 0 for every city
    have hends : ∀ e ∈ F', e.1 < m'.dim ∧ e.2 < m'.dim := fun e he =>
      ⟨hmem.mp (h4'.ends e he).1, hmem.mp (h4'.ends e he).2.1⟩
    refine (h3 (F'.map (fun e => (f e.1, f e.2)) ++ (List.range m.dim).map fun j => (f (g j), j))
      ?_ ?_).trans (le_of_eq ?_)
    · intro x hx
      rcases List.mem_append.mp hx with hx | hx
      · obtain ⟨e, he, rfl⟩ := List.mem_map.mp hx
        obtain ⟨a, b⟩ := hends e he
        exact ⟨hmem.mpr (hf.lt _ a), hmem.mpr (hf.lt _ b), hd.nonneg (hf.lt _ a) (hf.lt _ b)⟩
      · obtain ⟨j, hj, rfl⟩ := List.mem_map.mp hx
        have hj := List.mem_range.mp hj
        exact ⟨hmem.mpr (hf.lt _ (hg j hj).1), hmem.mpr hj, le_of_eq (hg j hj).2.symm⟩
    · intro a ha b hb
      rw [hmem] at ha hb
      have hab := h4'.conn (g a) (hmem.mpr (hg a ha).1) (g b) (hmem.mpr (hg b hb).1)
      have lift := Relation.ReflTransGen.lift f (p := Joined (F'.map (fun e => (f e.1, f e.2)) ++
          (List.range m.dim).map fun j => (f (g j), j)))
        (fun x y (h : Joined F' x y) => by
          rcases h with h | h
          · exact Or.inl (List.mem_append_left _ (List.mem_map.mpr ⟨_, h, rfl⟩))
          · exact Or.inr (List.mem_append_left _ (List.mem_map.mpr ⟨_, h, rfl⟩))) _ _ hab
      refine .head (b := f (g a)) ?_ (lift.tail ?_)
      · exact Or.inr (List.mem_append_right _ (List.mem_map.mpr ⟨a, List.mem_range.mpr ha, rfl⟩))
      · exact Or.inl (List.mem_append_right _ (List.mem_map.mpr ⟨b, List.mem_range.mpr hb, rfl⟩))
    · rw [h5']
      unfold edgeSum
      rw [List.map_append, List.sum_append, List.map_map, List.map_map]
      have e1 : ((List.range m.dim).map ((fun e : Nat × Nat => c e.1 e.2) ∘ fun j => (f (g j), j))).sum
          = 0 := by
        refine List.sum_eq_zero fun x hx => ?_
        obtain ⟨j, hj, rfl⟩ := List.mem_map.mp hx
        exact (hg j (List.mem_range.mp hj)).2
      rw [e1, add_zero]
      congr 1
      refine List.map_congr_left fun e he => ?_
      obtain ⟨a, b⟩ := hends e he
      exact (hc _ _ a b).symm

/-- `c` has one city more than `c'`: city `n`, at the same place as city `k`. -/
structure Doubled (n k : Nat) (c' c : Nat → Nat → K) : Prop where
  lt : k < n
  old : ∀ i j, i < n → j < n → i ≠ j → c i j = c' i j
  from_new : ∀ j, j < n → j ≠ k → c n j = c' k j
  to_new : ∀ i, i < n → i ≠ k → c i n = c' i k
  zero : c k n = 0 ∧ c n k = 0

section doubled

variable {n k : Nat} {c' c : Nat → Nat → K}

/-- the new city is visited right after the old one -/
private theorem Doubled.greedy (h : Doubled n k c' c) (hpos : ∀ j, j < n → j ≠ k → 0 < c' k j)
    {l r : List Nat} (ht : IsTour n (l ++ k :: r)) (hg : Greedy n c' (l ++ k :: r)) :
    Greedy (n + 1) c (l ++ k :: n :: r) := by
  have hlt : ∀ i ∈ l ++ k :: r, i < n := fun i hi => ht.mem.mp hi
  have hnd := ht.nodup
  have hk := h.lt
  -- a step of the old walk, seen with the new city
  have step : ∀ l' x y r', l ++ k :: r = l' ++ x :: y :: r' → ∀ z, z < n + 1 → z ∉ l' → z ≠ x →
      (z = n → k ∉ l' ∧ k ≠ x) → c x y ≤ c x z ∧ (c x z ≤ c x y → y ≤ z) := by
    intro l' x y r' e z hz hzl hzx hzn
    have hx : x < n := hlt x (by rw [e]; simp)
    have hy : y < n := hlt y (by rw [e]; simp)
    have hxy : x ≠ y := by
      rw [e] at hnd
      have := (List.nodup_append.mp hnd).2.1
      rintro rfl
      simp at this
    rw [h.old x y hx hy hxy]
    by_cases hzn' : z = n
    · subst hzn'
      obtain ⟨a, b⟩ := hzn rfl
      rw [h.to_new x hx (Ne.symm b)]
      obtain ⟨d, -⟩ := hg l' x y r' e k hk a b
      exact ⟨d, fun _ => hy.le⟩
    · rw [h.old x z hx (by omega) (Ne.symm hzx)]
      exact hg l' x y r' e z (by omega) hzl hzx
  intro l' x y r' e0 z hz hzl hzx
  have e1 := List.append_eq_append_iff.mp e0
  clear e0
  rcases e1 with ⟨a, rfl, e⟩ | ⟨a, rfl, e⟩
  · cases a with
    | nil =>
      simp only [List.nil_append, List.cons.injEq] at e
      obtain ⟨rfl, rfl, rfl⟩ := e
      rw [h.zero.1]
      by_cases hzn : z = n
      · rw [hzn, h.zero.1]
        exact ⟨le_refl _, fun _ => le_refl _⟩
      · rw [h.old k z hk (by omega) (Ne.symm hzx)]
        have := hpos z (by omega) hzx
        exact ⟨this.le, fun hle => absurd hle (not_le.mpr this)⟩
    | cons u a =>
      simp only [List.cons_append, List.cons.injEq] at e
      obtain ⟨rfl, e⟩ := e
      cases a with
      | nil =>
        simp only [List.nil_append, List.cons.injEq] at e
        obtain ⟨rfl, rfl⟩ := e
        have hzk : z ≠ k := fun e => hzl (by rw [e]; simp)
        have hy : y < n := hlt y (by simp)
        have hyk : y ≠ k := by
          have := (List.nodup_append.mp hnd).2.1
          rintro rfl
          simp at this
        rw [h.from_new y hy hyk, h.from_new z (by omega) hzk]
        exact hg l k y r' rfl z (by omega) (fun hz' => hzl (by simp [hz'])) hzk
      | cons v a =>
        simp only [List.cons_append, List.cons.injEq] at e
        obtain ⟨rfl, rfl⟩ := e
        refine step (l ++ k :: a) x y r' (by simp) z hz (fun hz' => hzl ?_) hzx ?_
        · rcases List.mem_append.mp hz' with h | h
          · simp [h]
          · rcases List.mem_cons.mp h with h | h <;> simp [h]
        · intro hz'
          exact absurd (by rw [hz']; simp) hzl
  · cases a with
    | nil =>
      simp only [List.nil_append, List.cons.injEq] at e
      obtain ⟨rfl, rfl, rfl⟩ := e
      rw [h.zero.1]
      by_cases hzn : z = y
      · rw [hzn, h.zero.1]
        exact ⟨le_refl _, fun _ => le_refl _⟩
      · rw [h.old x z hk (by omega) (Ne.symm hzx)]
        have := hpos z (by omega) hzx
        exact ⟨this.le, fun hle => absurd hle (not_le.mpr this)⟩
    | cons u a =>
      simp only [List.cons_append, List.cons.injEq] at e
      obtain ⟨rfl, e⟩ := e
      have hk' : k ∉ l' ∧ k ≠ x := by
        have := hnd
        simp only [List.append_assoc, List.cons_append] at this
        have h1 := (List.nodup_append.mp this).2.2
        have h2 := (List.nodup_append.mp this).2.1
        constructor
        · intro hkl
          exact h1 k hkl k (by simp) rfl
        · rintro rfl
          simp at h2
      cases a with
      | nil =>
        simp only [List.nil_append, List.cons.injEq] at e
        obtain ⟨rfl, rfl⟩ := e
        exact step l' x y r (by simp) z hz hzl hzx fun _ => hk'
      | cons v a =>
        simp only [List.cons_append, List.cons.injEq] at e
        obtain ⟨rfl, rfl⟩ := e
        exact step l' x y (a ++ k :: r) (by simp) z hz hzl hzx fun _ => hk'

private theorem Doubled.tour (h : Doubled n k c' c) (hn : 2 ≤ n) {l r : List Nat} (ht : IsTour n (l ++ k :: r)) :
    IsTour (n + 1) (l ++ k :: n :: r) ∧ tourCost c (l ++ k :: n :: r) = tourCost c' (l ++ k :: r) := by
  have hlt : ∀ i ∈ l ++ k :: r, i < n := fun i hi => ht.mem.mp hi
  have hnd := ht.nodup
  have hperm : (l ++ k :: n :: r).Perm (n :: (l ++ k :: r)) := by
    rw [show l ++ k :: n :: r = (l ++ [k]) ++ n :: r by simp]
    refine List.perm_middle.trans ?_
    simp
  refine ⟨?_, ?_⟩
  · unfold IsTour
    rw [List.range_succ]
    refine hperm.trans ((List.Perm.cons n ht).trans ?_)
    exact (List.perm_append_singleton n (List.range n)).symm
  · rw [tourCost_append_comm, tourCost_append_comm c']
    have hnd' : (k :: (r ++ l)).Nodup := by
      have : (l ++ k :: r).Perm (k :: (r ++ l)) := List.perm_append_comm (l₁ := l) (l₂ := k :: r)
      exact this.nodup_iff.mp hnd
    have hlt' : ∀ i ∈ k :: (r ++ l), i < n := by
      intro i hi
      apply hlt
      simp only [List.mem_cons, List.mem_append] at hi ⊢
      tauto
    have hlen : (k :: (r ++ l)).length = n := by
      have := ht.length
      simp only [List.length_append, List.length_cons] at this ⊢
      omega
    show tourCost c (k :: n :: (r ++ l)) = tourCost c' (k :: (r ++ l))
    generalize r ++ l = s at hnd' hlt' hlen
    have hold : ∀ (t : List Nat), (∀ i ∈ t, i < n) → t.Nodup → pathCost c t = pathCost c' t := by
      intro t
      induction t with
      | nil => intro _ _; rfl
      | cons a t ih =>
        intro ha hd
        cases t with
        | nil => rfl
        | cons b t =>
          simp only [pathCost]
          rw [h.old a b (ha a (by simp)) (ha b (by simp)) (by rintro rfl; simp at hd),
            ih (fun i hi => ha i (List.mem_cons_of_mem _ hi)) hd.of_cons]
    cases s with
    | nil =>
      simp at hlen
      omega
    | cons a s =>
      have hne : a :: s ≠ [] := by simp
      have hs := hold (a :: s) (fun i hi => hlt' i (List.mem_cons_of_mem _ hi)) hnd'.of_cons
      rw [tourCost_eq c _ (by simp : k :: n :: a :: s ≠ []), tourCost_eq c' _ (by simp : k :: a :: s ≠ [])]
      simp only [List.head_cons, pathCost, List.getLast_cons_cons]
      have hak : a ≠ k := by
        rintro rfl
        simp at hnd'
      have hlk : (a :: s).getLast hne ≠ k := by
        intro e
        have := List.getLast_mem hne
        rw [e] at this
        exact (List.nodup_cons.mp hnd').1 this
      rw [h.zero.1, h.from_new a (hlt' a (by simp)) hak, hs,
        h.old _ k (hlt' _ (List.mem_cons_of_mem _ (List.getLast_mem hne))) h.lt hlk]
      ring

/-- the walk that starts at the new city -/
private theorem Doubled.start (h : Doubled n k c' c) (hpos : ∀ j, j < n → j ≠ k → 0 < c' k j) (hn : 2 ≤ n)
    {r : List Nat} (ht : IsTour n (k :: r)) (hg : Greedy n c' (k :: r)) :
    IsTour (n + 1) (n :: k :: r) ∧ tourCost c (n :: k :: r) = tourCost c' (k :: r) ∧
      Greedy (n + 1) c (n :: k :: r) := by
  have hlt : ∀ i ∈ k :: r, i < n := fun i hi => ht.mem.mp hi
  have hnd := ht.nodup
  have hlen := ht.length
  obtain ⟨t1, t2⟩ := h.tour (l := []) hn ht
  refine ⟨(List.Perm.swap k n r).trans t1, ?_, ?_⟩
  · rw [← show tourCost c (k :: n :: r) = tourCost c' (k :: r) from t2]
    cases r with
    | nil =>
      simp at hlen
      omega
    | cons a r =>
      have hne : a :: r ≠ [] := by simp
      rw [tourCost_eq c _ (by simp : n :: k :: a :: r ≠ []), tourCost_eq c _ (by simp : k :: n :: a :: r ≠ [])]
      simp only [List.head_cons, pathCost, List.getLast_cons_cons]
      have hak : a ≠ k := by
        rintro rfl
        simp at hnd
      have hlk : (a :: r).getLast hne ≠ k := by
        intro e
        have := List.getLast_mem hne
        rw [e] at this
        exact (List.nodup_cons.mp hnd).1 this
      have hll := hlt _ (List.mem_cons_of_mem k (List.getLast_mem hne))
      rw [h.zero.1, h.zero.2, h.from_new a (hlt a (by simp)) hak, h.old k a h.lt (hlt a (by simp)) (Ne.symm hak),
        h.to_new _ hll hlk, h.old _ k hll h.lt hlk]
  · intro l' x y r' e z hz hzl hzx
    cases l' with
    | nil =>
      simp only [List.nil_append, List.cons.injEq] at e
      obtain ⟨rfl, rfl, rfl⟩ := e
      rw [h.zero.2]
      by_cases hzk : z = k
      · rw [hzk, h.zero.2]
        exact ⟨le_refl _, fun _ => le_refl _⟩
      · rw [h.from_new z (by omega) hzk]
        have := hpos z (by omega) hzk
        exact ⟨this.le, fun hle => absurd hle (not_le.mpr this)⟩
    | cons u l' =>
      simp only [List.cons_append, List.cons.injEq] at e
      obtain ⟨rfl, e⟩ := e
      have hzn : z ≠ n := fun e => hzl (by simp [e])
      have hx : x < n := hlt x (by rw [e]; simp)
      have hy : y < n := hlt y (by rw [e]; simp)
      have hxy : x ≠ y := by
        rw [e] at hnd
        have := (List.nodup_append.mp hnd).2.1
        rintro rfl
        simp at this
      rw [h.old x y hx hy hxy, h.old x z hx (by omega) (Ne.symm hzx)]
      exact hg l' x y r' e z (by omega) (fun hz' => hzl (by simp [hz'])) hzx

end doubled

/-- **C117, nearest neighbour.** If city `k` is listed a second time, at the end, and the other cities are at other
places, then nearest neighbour visits the new city right after the old one, for every start, and the reported length
does not change. (No triangle inequality, no symmetry.) -/
theorem C117_nearest_neighbour {m m' : Mat (XNum K)} {c c' : Nat → Nat → K} (hm : Rep m c)
    (hm' : Rep m' c') (hd : m.dim = m'.dim + 1) {k : Nat} (h : Doubled m'.dim k c' c)
    (hpos : ∀ j, j < m'.dim → j ≠ k → 0 < c' k j) (hn : 2 ≤ m'.dim) :
    (∀ i, i < m'.dim → ∃ w l r, singleNN m' i = .ok (fin w, l ++ k :: r) ∧
      singleNN m i = .ok (fin w, l ++ k :: m'.dim :: r)) ∧
    (∃ w r, singleNN m' k = .ok (fin w, k :: r) ∧ singleNN m m'.dim = .ok (fin w, m'.dim :: k :: r)) ∧
    ∃ w, ∀ xs xs' : List Nat, xs.Perm (List.range m.dim) → xs'.Perm (List.range m'.dim) →
      ∃ p p', nearestNeighbourSeq xs m = .ok (fin w, p) ∧ nearestNeighbourSeq xs' m' = .ok (fin w, p') := by
  have hone : ∀ i, i < m'.dim → ∃ w l r, singleNN m' i = .ok (fin w, l ++ k :: r) ∧
      singleNN m i = .ok (fin w, l ++ k :: m'.dim :: r) := by
    intro i hi
    obtain ⟨p, a1, a2, a3, a4⟩ := singleNN_exact hm' hi
    obtain ⟨q, b1, b2, b3, b4⟩ := singleNN_exact hm (i := i) (by omega)
    obtain ⟨l, r, rfl⟩ := List.append_of_mem (a2.mem.mpr h.lt)
    obtain ⟨t1, t2⟩ := h.tour hn a2
    rw [hd] at b2 b4
    have e : l ++ k :: m'.dim :: r = q := by
      refine greedy_unique t1 b2 (h.greedy hpos a2 a4) b4 (s := i) ?_ b3
      cases l with
      | nil => exact a3
      | cons u l => exact a3
    exact ⟨_, l, r, a1, by rw [b1, ← e, t2]⟩
  have htwo : ∃ w r, singleNN m' k = .ok (fin w, k :: r) ∧
      singleNN m m'.dim = .ok (fin w, m'.dim :: k :: r) := by
    obtain ⟨p, a1, a2, a3, a4⟩ := singleNN_exact hm' h.lt
    obtain ⟨q, b1, b2, b3, b4⟩ := singleNN_exact hm (i := m'.dim) (by omega)
    obtain ⟨r, rfl⟩ : ∃ r, p = k :: r := by
      cases p with
      | nil => simp at a3
      | cons u r => simp at a3; exact ⟨r, by rw [a3]⟩
    obtain ⟨t1, t2, t3⟩ := h.start hpos hn a2 a4
    rw [hd] at b2 b4
    have e := greedy_unique t1 b2 t3 b4 rfl b3
    exact ⟨_, r, a1, by rw [b1, ← e, t2]⟩
  refine ⟨hone, htwo, ?_⟩
  obtain ⟨w, ⟨i, hi, p, h1⟩, h2, h3⟩ := C39_nearest_neighbour hm (by omega)
  obtain ⟨w', ⟨i', hi', p', h1'⟩, h2', h3'⟩ := C39_nearest_neighbour hm' (by omega)
  have hw : w = w' := by
    apply le_antisymm
    · obtain ⟨x, l, r, a, b⟩ := hone i' hi'
      rw [h1'] at a
      rw [fin.inj (congrArg Prod.fst (Except.ok.inj a))]
      exact h2 i' (by omega) _ _ b
    · by_cases hin : i = m'.dim
      · obtain ⟨x, r, a, b⟩ := htwo
        rw [hin, b] at h1
        rw [← fin.inj (congrArg Prod.fst (Except.ok.inj h1))]
        exact h2' k h.lt _ _ a
      · obtain ⟨x, l, r, a, b⟩ := hone i (by omega)
        rw [b] at h1
        rw [← fin.inj (congrArg Prod.fst (Except.ok.inj h1))]
        exact h2' i (by omega) _ _ a
  refine ⟨w, fun xs xs' hx hx' => ?_⟩
  obtain ⟨p, a, -⟩ := h3 xs hx
  obtain ⟨p', a', -⟩ := h3' xs' hx'
  exact ⟨p, p', a, by rw [a', hw]⟩

/-- the last of `n + 1` cities is at the same place as city `k` -/
def again (n k : Nat) (c : Nat → Nat → ℚ) : Nat → Nat → ℚ := fun i j =>
  c (if i < n then i else k) (if j < n then j else k)

private theorem metric_again {n k : Nat} {c : Nat → Nat → ℚ} (hk : k < n) (h : Metric n c) :
    Metric (n + 1) (again n k c) := by
  have hlt : ∀ i, (if i < n then i else k) < n := by
    intro i
    split <;> assumption
  exact ⟨fun i _ => h.diag _ (hlt i), fun i j _ _ => h.symm _ _ (hlt i) (hlt j),
    fun i j l _ _ _ => h.tri _ _ _ (hlt i) (hlt j) (hlt l)⟩

/-- **C117, negation for 1-trees.** Listing a city twice can make the 1-tree bound smaller: 4 instead of 6. -/
theorem C117_one_tree_not : Metric 4 starRoads ∧ Metric 5 (again 4 3 starRoads) ∧
    oneTreeLbSeq (Mat.ofFun 4 starRoads) = .ok (fin 6) ∧
    oneTreeLbSeq (Mat.ofFun 5 (again 4 3 starRoads)) = .ok (fin 4) :=
  ⟨C114_mst_not.1, metric_again (by decide) C114_mst_not.1, by decide +kernel, by decide +kernel⟩

/-- **C117, negation for v5.** Listing a city twice can make the answer of v5 worse: 19 instead of 18. -/
theorem C117_v5_not : Metric 6 (v5Road 5) ∧ Metric 7 (again 6 1 (v5Road 5)) ∧
    (fifthImprovedSolver (Mat.ofFun 6 (v5Road 5))).map (·.1) = .ok (fin 18) ∧
    (fifthImprovedSolver (Mat.ofFun 7 (again 6 1 (v5Road 5)))).map (·.1) = .ok (fin 19) := by
  have h : Metric 6 (v5Road 5) := by
    have a : ∀ i < 6, v5Road 5 i i = 0 := by decide +kernel
    have b : ∀ i < 6, ∀ j < 6, v5Road 5 i j = v5Road 5 j i := by decide +kernel
    have d : ∀ i < 6, ∀ j < 6, ∀ k < 6, v5Road 5 i j ≤ v5Road 5 i k + v5Road 5 k j := by decide +kernel
    exact ⟨a, fun i j hi hj => b i hi j hj, fun i j k hi hj hk => d i hi j hj k hk⟩
  exact ⟨h, metric_again (by decide) h, by decide +kernel, by decide +kernel⟩

/-- the hypotheses: the city in the middle of the star is listed twice; the length stays 6 -/
example : Keeps 4 5 id ∧ (∀ i < 4, ∀ j < 4, starRoads i j = again 4 3 starRoads i j) ∧
    (∀ j < 5, again 4 3 starRoads (if j < 4 then j else 3) j = 0) ∧
    Doubled 4 3 starRoads (again 4 3 starRoads) ∧ (∀ j < 4, j ≠ 3 → 0 < starRoads 3 j) ∧
    (thirdImprovedSolver (Mat.ofFun 4 starRoads)).map (·.1) = .ok (fin 6) ∧
    (thirdImprovedSolver (Mat.ofFun 5 (again 4 3 starRoads))).map (·.1) = .ok (fin 6) := by
  have a : ∀ i < 4, ∀ j < 4, i ≠ j → again 4 3 starRoads i j = starRoads i j := by decide +kernel
  have b : ∀ j < 4, j ≠ 3 → again 4 3 starRoads 4 j = starRoads 3 j := by decide +kernel
  have d : ∀ j < 4, j ≠ 3 → again 4 3 starRoads j 4 = starRoads j 3 := by decide +kernel
  exact ⟨⟨fun i hi => by simp only [id]; omega, fun i j _ _ e => e⟩, by decide +kernel, by decide +kernel,
    ⟨by decide, fun i j hi hj => a i hi j hj, b, d, by decide +kernel⟩, by decide +kernel, by decide +kernel,
    by decide +kernel⟩

end Walky.Props
