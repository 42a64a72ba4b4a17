import Verif.Lemmas.LeafMatching

/-! # Two stars far apart: instances on which the implemented Christofides algorithm is bad -/

namespace Walky

open FloatOps XNum Spec

variable {K : Type} [Field K] [LinearOrder K] [IsStrictOrderedRing K]

/-- the centre of the star of a city: the centres are 0 and 1, every fourth of the other cities belongs to
the second star -/
def starHub (v : Nat) : Nat := if v < 2 then v else if (v - 2) % 4 = 3 then 1 else 0

/-- two stars with edges of length 1, whose centres have distance `D` -/
def doubleStar (D : K) (i j : Nat) : K :=
  if i = j then 0
  else (if starHub i = starHub j then 0 else D) + (if i < 2 then 0 else 1) + (if j < 2 then 0 else 1)

theorem starHub_le (v : Nat) : starHub v ≤ 1 := by unfold starHub; split_ifs <;> omega

section
variable {D : K} (hD : 1 < D)
include hD

omit hD in
theorem doubleStar_cross {i j : Nat} (h : starHub i ≠ starHub j) : D ≤ doubleStar D i j := by
  have hij : i ≠ j := by rintro rfl; exact h rfl
  unfold doubleStar
  rw [if_neg hij, if_neg h]
  split_ifs <;> linarith

theorem doubleStar_nonneg (i j : Nat) : 0 ≤ doubleStar D i j := by
  unfold doubleStar
  split_ifs <;> linarith

theorem doubleStar_one {i j : Nat} (h : i ≠ j) : 1 ≤ doubleStar D i j := by
  unfold doubleStar
  rw [if_neg h]
  by_cases h1 : starHub i = starHub j
  · have : ¬ i < 2 ∨ ¬ j < 2 := by
      by_contra hc
      push Not at hc
      unfold starHub at h1
      rw [if_pos hc.1, if_pos hc.2] at h1
      exact h h1
    rw [if_pos h1]
    rcases this with h2 | h2 <;> rw [if_neg h2] <;> split_ifs <;> linarith
  · rw [if_neg h1]
    split_ifs <;> linarith

theorem doubleStar_metric (n : Nat) : Metric n (doubleStar D) := by
  refine ⟨fun i _ => if_pos rfl, fun i j _ _ => ?_, fun i j k _ _ _ => ?_⟩
  · unfold doubleStar
    by_cases h : i = j
    · subst h; rfl
    · rw [if_neg h, if_neg (Ne.symm h)]
      by_cases h2 : starHub i = starHub j
      · rw [if_pos h2, if_pos h2.symm]; ring
      · rw [if_neg h2, if_neg (Ne.symm h2)]; ring
  · by_cases hij : i = j
    · subst hij
      have h1 := doubleStar_nonneg hD i k
      have h2 := doubleStar_nonneg hD k i
      have : doubleStar D i i = 0 := if_pos rfl
      linarith
    by_cases hik : i = k
    · subst hik
      have : doubleStar D i i = 0 := if_pos rfl
      linarith
    by_cases hkj : k = j
    · subst hkj
      have : doubleStar D k k = 0 := if_pos rfl
      linarith
    unfold doubleStar
    rw [if_neg hij, if_neg hik, if_neg hkj]
    have key : (if starHub i = starHub j then 0 else D) ≤
        (if starHub i = starHub k then 0 else D) + (if starHub k = starHub j then 0 else D) := by
      split_ifs <;> first | linarith | omega
    have : (0 : K) ≤ if k < 2 then 0 else 1 := by split_ifs <;> linarith
    linarith

theorem doubleStar_noThree (n : Nat) : NoThree n (doubleStar D) := by
  intro v0 v1 v2 v3 _ _ _ _ hnd
  simp only [List.nodup_cons, List.mem_cons, List.not_mem_nil, or_false, not_or] at hnd
  obtain ⟨⟨h01, h02, h03⟩, ⟨h12, h13⟩, h23, -⟩ := hnd
  unfold doubleStar
  rw [if_neg h01, if_neg h02, if_neg h03, if_neg h12, if_neg h13, if_neg h23]
  have b0 := starHub_le v0
  have b1 := starHub_le v1
  have b2 := starHub_le v2
  have b3 := starHub_le v3
  generalize starHub v0 = x0 at *
  generalize starHub v1 = x1 at *
  generalize starHub v2 = x2 at *
  generalize starHub v3 = x3 at *
  rintro ⟨h1, h2⟩
  interval_cases x0 <;> interval_cases x1 <;> interval_cases x2 <;> interval_cases x3 <;>
    simp only [if_true, Nat.zero_ne_one, Nat.one_ne_zero, if_false] at h1 h2 <;> linarith

/-! ## the tree -/

/-- the edges of the two stars, and the edge between the centres -/
def starTree (n : Nat) : List (Nat × Nat) := (List.range' 1 (n - 1)).map fun v => (if v < 2 then 0 else starHub v, v)

omit hD in
theorem starTree_spanning {n : Nat} (hn : 2 ≤ n) : IsSpanningTree (List.range n) (starTree n) := by
  refine ⟨?_, ?_, ?_⟩
  · intro e he
    simp only [starTree, List.mem_map, List.mem_range'_1] at he
    obtain ⟨v, hv, rfl⟩ := he
    simp only [List.mem_range]
    have := starHub_le v
    split_ifs <;> omega
  · have h0 : ∀ v, v < n → Relation.ReflTransGen (Joined (starTree n)) 0 v := by
      intro v hv
      have hedge : ∀ v, 1 ≤ v → v < n → Joined (starTree n) (if v < 2 then 0 else starHub v) v := by
        intro v h1 h2
        refine Or.inl (List.mem_map.mpr ⟨v, ?_, rfl⟩)
        rw [List.mem_range'_1]; omega
      have h1 : Relation.ReflTransGen (Joined (starTree n)) 0 1 := .single (hedge 1 (by omega) (by omega))
      by_cases hz : v = 0
      · subst hz; exact .refl
      · by_cases h2 : v < 2
        · have : v = 1 := by omega
          subst this; exact h1
        · have h3 := hedge v (by omega) hv
          rw [if_neg h2] at h3
          have h4 := starHub_le v
          have : starHub v = 0 ∨ starHub v = 1 := by omega
          rcases this with h | h
          · rw [h] at h3; exact .single h3
          · rw [h] at h3; exact h1.tail h3
    have hsym : Std.Symm (Joined (starTree n)) := ⟨fun a b h => h.symm⟩
    intro a ha b hb
    have ha' := h0 a (by simpa using ha)
    have hb' := h0 b (by simpa using hb)
    exact (Relation.ReflTransGen.stdSymm.symm _ _ ha').trans hb'
  · simp [starTree]; omega

omit hD [LinearOrder K] [IsStrictOrderedRing K] in
theorem starTree_cost {n : Nat} (hn : 2 ≤ n) : edgeSum (doubleStar D) (starTree n) = D + ((n - 2 : Nat) : K) := by
  obtain ⟨k, rfl⟩ := Nat.exists_eq_add_of_le' hn
  have h1 : List.range' 1 (k + 2 - 1) = 1 :: List.range' 2 k := rfl
  unfold starTree edgeSum
  rw [h1, List.map_cons, List.map_cons, List.sum_cons, List.map_map]
  have h2 : (List.range' 2 k).map ((fun e => doubleStar D e.1 e.2) ∘ fun v => (if v < 2 then 0 else starHub v, v)) =
      (List.range' 2 k).map fun _ => 1 := by
    apply List.map_congr_left
    intro v hv
    rw [List.mem_range'_1] at hv
    have h3 : ¬ v < 2 := by omega
    have h4 := starHub_le v
    have h5 : starHub (starHub v) = starHub v := by
      have : starHub v < 2 := by omega
      rw [starHub, if_pos this]
    simp only [Function.comp, if_neg h3]
    unfold doubleStar
    rw [if_neg (by omega), if_pos h5, if_pos (by omega), if_neg h3]
    ring
  rw [h2]
  simp [doubleStar, starHub]

/-- The cost of a tree that is not more expensive than the two stars determines its edges. -/
theorem tree_edges {n : Nat} (hn : 2 ≤ n) {E : List (Nat × Nat)} (h : IsSpanningTree (List.range n) E)
    (hc : edgeSum (doubleStar D) E ≤ D + ((n - 2 : Nat) : K)) {i j : Nat} (hJ : Joined E i j) (hi : 2 ≤ i) :
    j = starHub i := by
  -- some edge joins the two stars
  obtain ⟨e, he, hx⟩ : ∃ e ∈ E, starHub e.1 ≠ starHub e.2 := by
    by_contra hcon
    push Not at hcon
    have h1 : ∀ b, Relation.ReflTransGen (Joined E) 0 b → starHub b = 0 := by
      intro b hb
      induction hb with
      | refl => rfl
      | tail _ hs ih =>
        rcases hs with hs | hs
        · have := hcon _ hs; simp only at this; omega
        · have := hcon _ hs; simp only at this; omega
    exact absurd (h1 1 (h.conn 0 (by simp; omega) 1 (by simp; omega))) (by decide)
  have hperm := List.perm_cons_erase he
  rw [edgeSum_perm _ hperm, edgeSum_cons] at hc
  have hlen : (E.erase e).length = n - 2 := by
    rw [List.length_erase_of_mem he]
    have := h.count
    rw [List.length_range] at this
    omega
  have hcross := doubleStar_cross (D := D) hx
  have hall : ∀ f ∈ E, f.1 ≠ f.2 := fun f hf => (h.ends f hf).2.2
  have hlow : ∀ L : List (Nat × Nat), (∀ f ∈ L, f.1 ≠ f.2) → (L.length : K) ≤ edgeSum (doubleStar D) L := by
    intro L
    induction L with
    | nil => intro _; simp [edgeSum]
    | cons f L ih =>
      intro hL
      rw [edgeSum_cons, List.length_cons]
      have h1 := doubleStar_one hD (hL f (by simp))
      have h2 := ih fun g hg => hL g (by simp [hg])
      push_cast
      linarith
  have herase : ∀ f ∈ E.erase e, f.1 ≠ f.2 := fun f hf => hall f (List.mem_of_mem_erase hf)
  have h2 := hlow _ herase
  rw [hlen] at h2
  have he1 : doubleStar D e.1 e.2 = D := by linarith
  have hf1 : ∀ f ∈ E.erase e, doubleStar D f.1 f.2 = 1 := by
    intro f hf
    have hp := List.perm_cons_erase hf
    have h3 := hlow ((E.erase e).erase f) (fun g hg => herase g (List.mem_of_mem_erase hg))
    have h4 : ((E.erase e).erase f).length + 1 = n - 2 := by
      rw [List.length_erase_of_mem hf, hlen]
      have := List.length_pos_of_mem hf
      omega
    rw [edgeSum_perm _ hp, edgeSum_cons] at hc
    have h5 := doubleStar_one hD (herase f hf)
    rw [← h4] at hc
    push_cast at hc
    linarith
  -- the edge between the stars has no leaf
  have hel : e.1 < 2 ∧ e.2 < 2 := by
    unfold doubleStar at he1
    rw [if_neg (hall e he), if_neg hx] at he1
    by_contra hcon
    by_cases h3 : e.1 < 2
    · have h4 : ¬ e.2 < 2 := fun h => hcon ⟨h3, h⟩
      rw [if_pos h3, if_neg h4] at he1
      linarith
    · rw [if_neg h3] at he1
      split_ifs at he1 <;> linarith
  -- the other edges are edges of the stars
  have hfl : ∀ f ∈ E, ∀ i j, (f = (i, j) ∨ f = (j, i)) → 2 ≤ i → j = starHub i := by
    intro f hf i j hfij hi
    have hne : f ≠ e := by
      rintro rfl
      rcases hfij with rfl | rfl
      · exact absurd hel.1 (by simp; omega)
      · exact absurd hel.2 (by simp; omega)
    have h3 := hf1 f ((List.mem_erase_of_ne hne).mpr hf)
    have hij : i ≠ j := by
      rcases hfij with rfl | rfl
      · exact hall _ hf
      · exact (hall _ hf).symm
    have h4 : doubleStar D i j = 1 := by
      rcases hfij with rfl | rfl
      · exact h3
      · rw [(doubleStar_metric hD (i + j + 1)).symm i j (by omega) (by omega)]; exact h3
    have hx : starHub i = starHub j := by
      by_contra hcon
      have := doubleStar_cross (D := D) hcon
      linarith
    unfold doubleStar at h4
    rw [if_neg hij, if_pos hx, if_neg (by omega)] at h4
    have hj : j < 2 := by
      by_contra hcon
      rw [if_neg hcon] at h4
      linarith
    rw [hx, starHub, if_pos hj]
  rcases hJ with hJ | hJ
  · exact hfl _ hJ i j (Or.inl rfl) hi
  · exact hfl _ hJ i j (Or.inr rfl) hi

/-- the leaves have degree one, the centres are joined -/
theorem tree_degrees {n : Nat} (hn : 2 ≤ n) {E : List (Nat × Nat)} (h : IsSpanningTree (List.range n) E)
    (hc : edgeSum (doubleStar D) E ≤ D + ((n - 2 : Nat) : K)) :
    (∀ v, 2 ≤ v → v < n → (flattenEdges E).count v = 1) ∧
    ∀ h, h < 2 → (flattenEdges E).count h =
      ∑ v ∈ Finset.range n, if (if v < 2 then v + h = 1 else starHub v = h) then 1 else 0 := by
  have hleaf : ∀ v, 2 ≤ v → v < n → Joined E v (starHub v) := by
    intro v h2 hv
    have h0 := h.conn v (by simpa using hv) 0 (by simp; omega)
    rcases Relation.ReflTransGen.cases_head h0 with h1 | ⟨w, h1, -⟩
    · omega
    · have := tree_edges hD hn h hc h1 h2
      rwa [this] at h1
  have hjoin : Joined E 0 1 := by
    by_contra hcon
    have h1 : ∀ b, Relation.ReflTransGen (Joined E) 0 b → starHub b = 0 := by
      intro b hb
      induction hb with
      | refl => rfl
      | @tail x y _ hs ih =>
        have hub : ∀ v, v < 2 → starHub v = v := fun v hv => if_pos hv
        by_cases hx : x < 2
        · rw [hub x hx] at ih
          subst ih
          by_cases hy : y < 2
          · have : y ≠ 1 := by rintro rfl; exact hcon hs
            rw [hub y hy]
            omega
          · exact (tree_edges hD hn h hc hs.symm (by omega)).symm
        · have := tree_edges hD hn h hc hs (by omega)
          rw [this, ih]
          rfl
    exact absurd (h1 1 (h.conn 0 (by simp; omega) 1 (by simp; omega))) (by decide)
  have hu := fun i j => spanning_und (by omega) h i j
  refine ⟨fun v h2 hv => ?_, fun k hk => ?_⟩
  · rw [← sum_und (spanning_valid h) v, Finset.sum_eq_single (starHub v)]
    · exact (hu _ _).1 (hleaf v h2 hv)
    · intro j _ hj
      exact (hu _ _).2 fun hJ => hj (tree_edges hD hn h hc hJ h2)
    · intro hns
      have := starHub_le v
      exact absurd (Finset.mem_range.mpr (by omega)) hns
  · rw [← sum_und (spanning_valid h) k]
    refine Finset.sum_congr rfl fun v hv => ?_
    rw [Finset.mem_range] at hv
    by_cases h2 : v < 2
    · simp only [if_pos h2]
      split_ifs with h3
      · apply (hu _ _).1
        have : (k = 0 ∧ v = 1) ∨ (k = 1 ∧ v = 0) := by omega
        rcases this with ⟨rfl, rfl⟩ | ⟨rfl, rfl⟩
        · exact hjoin
        · exact hjoin.symm
      · apply (hu _ _).2
        have : v = k := by omega
        subst this
        rintro (hJ | hJ) <;> exact (h.ends _ hJ).2.2 rfl
    · simp only [if_neg h2]
      split_ifs with h3
      · have := hleaf v (by omega) hv
        rw [h3] at this
        exact (hu _ _).1 this.symm
      · exact (hu _ _).2 fun hJ => h3 (tree_edges hD hn h hc hJ.symm (by omega)).symm

omit hD in
theorem hub_count (j : Nat) : (∑ v ∈ Finset.range (4 * j + 2), if (if v < 2 then v + 0 = 1 else starHub v = 0) then 1 else 0) =
      3 * j + 1 ∧
    (∑ v ∈ Finset.range (4 * j + 2), if (if v < 2 then v + 1 = 1 else starHub v = 1) then 1 else 0) = j + 1 := by
  induction j with
  | zero => decide
  | succ j ih =>
    have e : 4 * (j + 1) + 2 = 4 * j + 2 + 1 + 1 + 1 + 1 := by ring
    have t : ∀ k, k < 4 → ¬ 4 * j + 2 + k < 2 := by omega
    have s : ∀ k, k < 4 → starHub (4 * j + 2 + k) = if k = 3 then 1 else 0 := by
      intro k hk
      unfold starHub
      rw [if_neg (t k hk)]
      split_ifs <;> omega
    have s0 : starHub (4 * j + 2) = 0 := s 0 (by omega)
    have s1 : starHub (4 * j + 2 + 1) = 0 := s 1 (by omega)
    have s2 : starHub (4 * j + 2 + 1 + 1) = 0 := s 2 (by omega)
    have s3 : starHub (4 * j + 2 + 1 + 1 + 1) = 1 := s 3 (by omega)
    have t0 : ¬ 4 * j + 2 < 2 := t 0 (by omega)
    have t1 : ¬ 4 * j + 2 + 1 < 2 := t 1 (by omega)
    have t2 : ¬ 4 * j + 2 + 1 + 1 < 2 := t 2 (by omega)
    have t3 : ¬ 4 * j + 2 + 1 + 1 + 1 < 2 := t 3 (by omega)
    rw [e]
    simp only [Finset.sum_range_succ, ih.1, ih.2, if_neg t0, if_neg t1, if_neg t2, if_neg t3, s0, s1, s2, s3]
    constructor
    · simp; omega
    · simp

/-- the odd vertices are the leaves -/
theorem tree_odd {j : Nat} (hj : j % 2 = 1) {E : List (Nat × Nat)} (h : IsSpanningTree (List.range (4 * j + 2)) E)
    (hc : edgeSum (doubleStar D) E ≤ D + ((4 * j + 2 - 2 : Nat) : K)) :
    oddSet (4 * j + 2) E = List.range' 2 (4 * j) := by
  obtain ⟨h1, h2⟩ := tree_degrees hD (by omega) h hc
  have hr : List.range (4 * j + 2) = [0, 1] ++ List.range' 2 (4 * j) := by
    rw [List.range_eq_range', Nat.add_comm, ← List.range'_append_1]
    rfl
  unfold oddSet
  rw [hr, List.filter_append]
  have h0 : (flattenEdges E).count 0 % 2 = 0 := by
    rw [h2 0 (by omega), (hub_count j).1]; omega
  have h1' : (flattenEdges E).count 1 % 2 = 0 := by
    rw [h2 1 (by omega), (hub_count j).2]; omega
  have : [0, 1].filter (fun i => decide ((flattenEdges E).count i % 2 = 1)) = [] := by
    simp [h0, h1']
  rw [this, List.nil_append, List.filter_eq_self]
  intro v hv
  rw [List.mem_range'_1] at hv
  rw [h1 v hv.1 (by omega)]
  rfl

end

/-! ## the matching -/

/-- every pair of edges that are improved together has an odd number of ends in the second star -/
def OddChunks : List (Nat × Nat) → Prop
  | a :: b :: t => ((flattenEdges [a, b]).map starHub).sum % 2 = 1 ∧ OddChunks t
  | _ => True

theorem oddChunks_range : ∀ (j k : Nat), OddChunks (pairUp (List.range' (4 * k + 2) (4 * j)))
  | 0, _ => by simp [pairUp, OddChunks]
  | j + 1, k => by
    have e : List.range' (4 * k + 2) (4 * (j + 1)) =
        (4 * k + 2) :: (4 * k + 3) :: (4 * k + 4) :: (4 * k + 5) :: List.range' (4 * (k + 1) + 2) (4 * j) := rfl
    rw [e]
    refine ⟨?_, oddChunks_range j (k + 1)⟩
    have s0 : starHub (4 * k + 2) = 0 := by unfold starHub; split_ifs <;> omega
    have s1 : starHub (4 * k + 3) = 0 := by unfold starHub; split_ifs <;> omega
    have s2 : starHub (4 * k + 4) = 0 := by unfold starHub; split_ifs <;> omega
    have s3 : starHub (4 * k + 5) = 1 := by unfold starHub; split_ifs <;> omega
    simp [flattenEdges, s0, s1, s2, s3]

theorem oddChunks_imp {α : Type} [FloatOps α] {m : Mat α} (hm : NoBug m) : ∀ l : List (Nat × Nat),
    Valid m.dim l → OddChunks l → OddChunks (imp m l)
  | [], _, h => h
  | [_], _, h => h
  | a :: b :: t, hv, h => by
    refine ⟨?_, oddChunks_imp hm t (fun e he => hv e (by simp [he])) h.2⟩
    rw [((opt2_perm hm (hv a (by simp)) (hv b (by simp))).map starHub).sum_eq]
    exact h.1

theorem oddChunks_cost {D : K} (hD : 1 < D) : ∀ l : List (Nat × Nat), OddChunks l →
    ((l.length / 2 : Nat) : K) * D ≤ edgeSum (doubleStar D) l
  | [], _ => by simp [edgeSum]
  | [e], _ => by
    have := doubleStar_nonneg hD e.1 e.2
    simpa [edgeSum] using this
  | a :: b :: t, h => by
    have ih := oddChunks_cost hD t h.2
    have hlen : (a :: b :: t).length / 2 = t.length / 2 + 1 := by
      rw [List.length_cons, List.length_cons]; omega
    rw [hlen, edgeSum_cons, edgeSum_cons]
    have h1 := h.1
    simp only [flattenEdges, List.flatMap_cons, List.flatMap_nil, List.append_nil, List.cons_append,
      List.nil_append, List.map_cons, List.map_nil, List.sum_cons, List.sum_nil] at h1
    have n1 := doubleStar_nonneg hD a.1 a.2
    have n2 := doubleStar_nonneg hD b.1 b.2
    have : D ≤ doubleStar D a.1 a.2 + doubleStar D b.1 b.2 := by
      by_cases hx : starHub a.1 = starHub a.2
      · have := doubleStar_cross (D := D) (i := b.1) (j := b.2) (by omega)
        linarith
      · have := doubleStar_cross (D := D) hx
        linarith
    push_cast
    linarith

/-! ## a short tour -/

/-- the first star, then the second one -/
def starTour (n : Nat) : List Nat :=
  (List.range n).filter (fun v => starHub v = 0) ++ (List.range n).filter fun v => ¬ starHub v = 0

theorem starTour_tour (n : Nat) : IsTour n (starTour n) := by
  unfold starTour
  have := List.filter_append_perm (fun v => decide (starHub v = 0)) (List.range n)
  simpa [IsTour] using this

theorem starTour_cost {D : K} (hD : 1 < D) {n : Nat} (hn : 1 ≤ n) :
    tourCost (doubleStar D) (starTour n) ≤ 2 * D + 2 * n := by
  have hstep : ∀ a b, starHub a ≤ starHub b → doubleStar D a b ≤ 2 + D * (starHub b - starHub a) := by
    intro a b hab
    have ha := starHub_le a
    have hb := starHub_le b
    have h1 : ((if starHub a = starHub b then 0 else D) : K) ≤ D * (starHub b - starHub a) := by
      split_ifs with h
      · rw [h]; simp
      · have e1 : starHub a = 0 := by omega
        have e2 : starHub b = 1 := by omega
        rw [e1, e2]; simp
    unfold doubleStar
    split_ifs at h1 ⊢ <;> linarith
  have hpath : ∀ (t : List Nat) (a : Nat), (a :: t).Pairwise (fun x y => starHub x ≤ starHub y) →
      pathCost (doubleStar D) (a :: t) ≤ 2 * t.length + D * (1 - starHub a) := by
    intro t
    induction t with
    | nil =>
      intro a _
      have : (starHub a : K) ≤ 1 := by exact_mod_cast starHub_le a
      have h2 : 0 ≤ D * (1 - (starHub a : K)) := mul_nonneg (by linarith) (by linarith)
      simpa using h2
    | cons b t ih =>
      intro a hp
      rw [List.pairwise_cons] at hp
      have h1 := ih b hp.2
      have h2 := hstep a b (hp.1 b (by simp))
      rw [pathCost_cons₂, List.length_cons]
      push_cast
      linarith
  have hsorted : (starTour n).Pairwise (fun x y => starHub x ≤ starHub y) := by
    unfold starTour
    rw [List.pairwise_append]
    have hb := starHub_le
    refine ⟨?_, ?_, ?_⟩
    · refine List.Pairwise.imp_of_mem (R := fun _ _ => True) ?_ (List.pairwise_of_forall fun _ _ => trivial)
      intro a b ha _ _
      simp at ha
      omega
    · refine List.Pairwise.imp_of_mem (R := fun _ _ => True) ?_ (List.pairwise_of_forall fun _ _ => trivial)
      intro a b ha hb' _
      simp at ha hb'
      have := hb a
      omega
    · intro a ha b _
      simp at ha
      omega
  have hlen : (starTour n).length = n := by
    have := (starTour_tour n).length_eq
    simpa using this
  have hlast : ∀ a b, doubleStar D a b ≤ D + 2 := by
    intro a b
    unfold doubleStar
    split_ifs <;> linarith
  cases h : starTour n with
  | nil => rw [h] at hlen; simp at hlen; omega
  | cons a t =>
    rw [h] at hsorted hlen
    have h1 := hpath t a hsorted
    obtain ⟨L, x, hL⟩ : ∃ L x, a :: t = L ++ [x] :=
      ⟨_, _, (List.dropLast_append_getLast (l := a :: t) (by simp)).symm⟩
    show pathCost (doubleStar D) (a :: t ++ [a]) ≤ _
    rw [hL] at h1 ⊢
    rw [List.append_assoc]
    have h2 : pathCost (doubleStar D) (L ++ ([x] ++ [a])) = pathCost (doubleStar D) (L ++ [x]) + doubleStar D x a :=
      pathCost_snoc _ _ _ _
    rw [h2]
    have h3 := hlast x a
    have h4 : (t.length : K) + 1 = n := by
      rw [← hlen]; simp
    have h5 : 0 ≤ D * (starHub a : K) := mul_nonneg (by linarith) (by positivity)
    linarith

end Walky
