import Verif.Lemmas.PathTree

/-! # Cities on a line: the lemmas for C130 -/

namespace Walky.OnLine

open Spec

variable {K : Type} [Field K] [LinearOrder K] [IsStrictOrderedRing K]

/-- the distances of cities at the positions `x` of a line -/
def posCost (x : Nat → K) (i j : Nat) : K := |x i - x j|

variable {x : Nat → K}

theorem posCost_metric (n : Nat) : Metric n (posCost x) where
  diag i _ := by simp [posCost]
  symm i j _ _ := abs_sub_comm _ _
  tri i j k _ _ _ := by
    unfold posCost
    have := abs_add_le (x i - x k) (x k - x j)
    simpa using this

theorem path_ge : ∀ (l : List Nat) (u v : Nat), posCost x u v ≤ pathCost (posCost x) (u :: (l ++ [v]))
  | [], u, v => by simp [pathCost]
  | a :: l, u, v => by
    have h := path_ge l a v
    have h1 : posCost x u v ≤ posCost x u a + posCost x a v := (posCost_metric (u + v + a + 1)).tri u v a
      (by omega) (by omega) (by omega)
    show _ ≤ posCost x u a + pathCost (posCost x) (a :: (l ++ [v]))
    linarith

theorem path_nonneg : ∀ l : List Nat, 0 ≤ pathCost (posCost x) l
  | [] => le_rfl
  | [_] => le_rfl
  | _ :: b :: l => add_nonneg (abs_nonneg _) (path_nonneg (b :: l))

theorem path_nonneg' (q : List Nat) : 0 ≤ tourCost (posCost x) q := by
  cases q with
  | nil => exact le_rfl
  | cons a t => exact path_nonneg _

/-- a tour goes from one end to the other and back -/
theorem tour_ge {n a b : Nat} (ha : a < n) (hb : b < n) {q : List Nat} (hq : IsTour n q) :
    2 * (x b - x a) ≤ tourCost (posCost x) q := by
  by_cases hab : a = b
  · subst hab
    rw [sub_self, mul_zero]
    exact path_nonneg' q
  have hmem : a ∈ q := hq.mem_iff.mpr (by simpa using ha)
  obtain ⟨s, t, rfl⟩ := List.append_of_mem hmem
  have hrot : tourCost (posCost x) (a :: (t ++ s)) = tourCost (posCost x) (s ++ a :: t) := by
    rw [← tourCost_rotate (c := posCost x) (s ++ a :: t) s.length, List.rotate_append_length_eq]
    rfl
  rw [← hrot]
  have hmemb : b ∈ t ++ s := by
    have : b ∈ s ++ a :: t := hq.mem_iff.mpr (by simpa using hb)
    simp only [List.mem_append, List.mem_cons] at this ⊢
    rcases this with h | h | h
    · exact Or.inr h
    · exact absurd h.symm hab
    · exact Or.inl h
  obtain ⟨l, r, hlr⟩ := List.append_of_mem hmemb
  rw [hlr]
  have h1 := path_ge (x := x) l a b
  have h2 := path_ge (x := x) r b a
  have h3 := pathCost_append (c := posCost x) (a :: l) b (r ++ [a])
  have h4 : x b - x a ≤ posCost x b a := le_abs_self _
  have h5 : posCost x a b = posCost x b a := abs_sub_comm _ _
  show _ ≤ pathCost (posCost x) (a :: (l ++ b :: r) ++ [a])
  have h6 : a :: (l ++ b :: r) ++ [a] = a :: l ++ b :: (r ++ [a]) := by simp
  rw [h6, h3]
  simp only [List.cons_append] at h1 h2 ⊢
  linarith

/-- a path on which every city is nearest to the one before, from an end of the line -/
theorem path_sorted {n : Nat} {p : List Nat} (hp : IsTour n p)
    (hg : ∀ l u v r, p = l ++ u :: v :: r → ∀ z, z < n → z ∉ l → z ≠ u → posCost x u v ≤ posCost x u z) :
    ∀ (r l : List Nat) (u : Nat), p = l ++ u :: r → (∀ z ∈ r, x u ≤ x z) →
      (u :: r).Pairwise (fun i j => x i ≤ x j)
  | [], _, _, _, _ => by simp
  | v :: r, l, u, he, hz => by
    have hnd : p.Nodup := hp.nodup_iff.mpr List.nodup_range
    have hmin : ∀ z ∈ r, x v ≤ x z := by
      intro z hzr
      rw [he] at hnd
      have hd := List.nodup_append.mp hnd
      have hzn : z < n := by
        have : z ∈ p := by rw [he]; simp [hzr]
        simpa using hp.mem_iff.mp this
      have h1 := hg l u v r he z hzn
        (fun h => hd.2.2 z h z (by simp [hzr]) rfl)
        (fun h => by subst h; exact (List.nodup_cons.mp hd.2.1).1 (by simp [hzr]))
      unfold posCost at h1
      rw [abs_sub_comm, abs_sub_comm (x u), abs_of_nonneg (sub_nonneg.mpr (hz v (by simp))),
        abs_of_nonneg (sub_nonneg.mpr (hz z (by simp [hzr])))] at h1
      linarith
    have ih := path_sorted hp hg r (l ++ [u]) v (by rw [he]; simp) hmin
    exact List.pairwise_cons.mpr ⟨hz, ih⟩

/-- the length of an ascending path -/
theorem sorted_cost : ∀ (r : List Nat) (u : Nat), (u :: r).Pairwise (fun i j => x i ≤ x j) →
    pathCost (posCost x) (u :: r) = x ((u :: r).getLast (by simp)) - x u ∧
    ∀ z ∈ u :: r, x z ≤ x ((u :: r).getLast (by simp))
  | [], u, _ => by simp [pathCost]
  | v :: r, u, h => by
    obtain ⟨h1, h2⟩ := List.pairwise_cons.mp h
    obtain ⟨i1, i2⟩ := sorted_cost r v h2
    have huv := h1 v (by simp)
    have hl : (u :: v :: r).getLast (by simp) = (v :: r).getLast (by simp) := by simp
    rw [hl]
    refine ⟨?_, ?_⟩
    · show posCost x u v + pathCost (posCost x) (v :: r) = _
      rw [i1]
      unfold posCost
      rw [abs_sub_comm, abs_of_nonneg (sub_nonneg.mpr huv)]
      ring
    · intro z hz
      rcases List.mem_cons.mp hz with rfl | hz
      · exact huv.trans (i2 v (by simp))
      · exact i2 z hz

/-- an ascending tour -/
theorem sorted_tour {u : Nat} {r : List Nat} (h : (u :: r).Pairwise (fun i j => x i ≤ x j)) :
    tourCost (posCost x) (u :: r) = 2 * pathCost (posCost x) (u :: r) := by
  obtain ⟨h1, h2⟩ := sorted_cost r u h
  have h3 : u :: r ++ [u] = (u :: r).dropLast ++ (u :: r).getLast (by simp) :: [u] := by
    conv_lhs => rw [← List.dropLast_append_getLast (l := u :: r) (by simp)]
    simp
  show pathCost (posCost x) (u :: r ++ [u]) = _
  rw [h3, pathCost_append, List.dropLast_append_getLast, h1]
  show _ + (posCost x _ u + 0) = _
  unfold posCost
  rw [abs_of_nonneg (sub_nonneg.mpr (h2 u (by simp)))]
  ring

/-! ## Trees of smallest weight -/

/-- no city lies between -/
def Next (n : Nat) (x : Nat → K) (i j : Nat) : Prop := x i < x j ∧ ∀ k, k < n → ¬ (x i < x k ∧ x k < x j)

omit [Field K] [IsStrictOrderedRing K] in
theorem exists_next {n i : Nat} (h : ∃ k, k < n ∧ x i < x k) : ∃ j, j < n ∧ Next n x i j := by
  obtain ⟨k, hk, hik⟩ := h
  obtain ⟨j, hj, hmin⟩ := Finset.exists_min_image ((Finset.range n).filter fun k => x i < x k) x
    ⟨k, by simp [hk, hik]⟩
  simp only [Finset.mem_filter, Finset.mem_range] at hj hmin
  exact ⟨j, hj.1, hj.2, fun k hk h => absurd (hmin k ⟨hk, h.1⟩) (not_le.mpr h.2)⟩

omit [Field K] [IsStrictOrderedRing K] in
theorem exists_prev {n i : Nat} (h : ∃ k, k < n ∧ x k < x i) : ∃ j, j < n ∧ Next n x j i := by
  obtain ⟨k, hk, hik⟩ := h
  obtain ⟨j, hj, hmax⟩ := Finset.exists_max_image ((Finset.range n).filter fun k => x k < x i) x
    ⟨k, by simp [hk, hik]⟩
  simp only [Finset.mem_filter, Finset.mem_range] at hj hmax
  exact ⟨j, hj.1, hj.2, fun k hk h => absurd (hmax k ⟨hk, h.2⟩) (not_le.mpr h.1)⟩

/-- without an edge, every vertex is still linked to one of its ends -/
theorem linked_erase {E : List (Nat × Nat)} {e : Nat × Nat} {w y : Nat}
    (h : Relation.ReflTransGen (Joined E) w y) :
    Relation.ReflTransGen (Joined (E.erase e)) w e.1 ∨ Relation.ReflTransGen (Joined (E.erase e)) w e.2 ∨
      Relation.ReflTransGen (Joined (E.erase e)) w y := by
  induction h with
  | refl => exact Or.inr (Or.inr .refl)
  | @tail a b _ hs ih =>
    rcases ih with ih | ih | ih
    · exact Or.inl ih
    · exact Or.inr (Or.inl ih)
    · by_cases h1 : (a, b) = e
      · subst h1; exact Or.inl ih
      by_cases h2 : (b, a) = e
      · subst h2; exact Or.inr (Or.inl ih)
      refine Or.inr (Or.inr (ih.tail ?_))
      rcases hs with hs | hs
      · exact Or.inl ((List.mem_erase_of_ne h1).mpr hs)
      · exact Or.inr ((List.mem_erase_of_ne h2).mpr hs)

theorem joined_mono {E F : List (Nat × Nat)} (h : ∀ e ∈ E, e ∈ F) {a b : Nat}
    (hr : Relation.ReflTransGen (Joined E) a b) : Relation.ReflTransGen (Joined F) a b := by
  induction hr with
  | refl => exact .refl
  | tail _ hs ih => exact ih.tail (Or.imp (h _) (h _) hs)

/-- an edge may be replaced by two that are linked to its ends -/
theorem connects_swap {n : Nat} {E : List (Nat × Nat)} (hc : Connects E (List.range n)) {e f : Nat × Nat}
    (hef : Relation.ReflTransGen (Joined (f :: E.erase e)) e.1 e.2) : Connects (f :: E.erase e) (List.range n) := by
  have hsym : Std.Symm (Joined (f :: E.erase e)) := ⟨fun a b h => h.symm⟩
  intro a ha b hb
  have h := hc a ha b hb
  clear hb
  induction h with
  | refl => exact .refl
  | @tail u v _ hs ih =>
    refine ih.trans ?_
    by_cases h1 : (u, v) = e
    · subst h1; exact hef
    by_cases h2 : (v, u) = e
    · subst h2; exact Relation.ReflTransGen.stdSymm.symm _ _ hef
    refine .single ?_
    rcases hs with hs | hs
    · exact Or.inl (List.mem_cons_of_mem _ ((List.mem_erase_of_ne h1).mpr hs))
    · exact Or.inr (List.mem_cons_of_mem _ ((List.mem_erase_of_ne h2).mpr hs))

/-- the edges of a lightest tree join neighbours -/
theorem tree_edge {n : Nat} (hinj : ∀ i j, i < n → j < n → x i = x j → i = j) {E : List (Nat × Nat)}
    (h : IsSpanningTree (List.range n) E)
    (hmin : ∀ F, (∀ e ∈ F, e.1 < n ∧ e.2 < n) → Connects F (List.range n) →
      edgeSum (posCost x) E ≤ edgeSum (posCost x) F)
    {e : Nat × Nat} (he : e ∈ E) : Next n x e.1 e.2 ∨ Next n x e.2 e.1 := by
  obtain ⟨k1, k2, k3⟩ := h.ends e he
  rw [List.mem_range] at k1 k2
  -- a city in between would give a lighter tree
  have key : ∀ w, w < n → posCost x w e.1 < posCost x e.1 e.2 → posCost x w e.2 < posCost x e.1 e.2 → False := by
    intro w hw h1 h2
    have hlt : ∀ f : Nat × Nat, f.1 < n → f.2 < n → posCost x f.1 f.2 < posCost x e.1 e.2 →
        Relation.ReflTransGen (Joined (f :: E.erase e)) e.1 e.2 → False := by
      intro f f1 f2 f3 f4
      have := hmin (f :: E.erase e) (by
        intro g hg
        rcases List.mem_cons.mp hg with rfl | hg
        · exact ⟨f1, f2⟩
        · have := h.ends g (List.mem_of_mem_erase hg)
          simpa using And.intro this.1 this.2.1) (connects_swap h.conn f4)
      rw [edgeSum_perm _ (List.perm_cons_erase he), edgeSum_cons, edgeSum_cons] at this
      linarith
    have hl := linked_erase (e := e) (h.conn w (by simpa using hw) e.1 (by simpa using k1))
    have hl' : Relation.ReflTransGen (Joined (E.erase e)) w e.1 ∨ Relation.ReflTransGen (Joined (E.erase e)) w e.2 := by
      rcases hl with hl | hl | hl
      · exact Or.inl hl
      · exact Or.inr hl
      · exact Or.inl hl
    rcases hl' with hl' | hl'
    · refine hlt (w, e.2) hw k2 h2 ?_
      have hsym : Std.Symm (Joined ((w, e.2) :: E.erase e)) := ⟨fun a b h => h.symm⟩
      have := joined_mono (F := (w, e.2) :: E.erase e) (fun _ => List.mem_cons_of_mem _) hl'
      exact (Relation.ReflTransGen.stdSymm.symm _ _ this).tail (Or.inl (by simp))
    · refine hlt (w, e.1) hw k1 h1 ?_
      have := joined_mono (F := (w, e.1) :: E.erase e) (fun _ => List.mem_cons_of_mem _) hl'
      exact .head (Or.inr (by simp)) this
  have hne : x e.1 ≠ x e.2 := fun hx => k3 (hinj _ _ k1 k2 hx)
  rcases lt_or_gt_of_ne hne with hlt | hlt
  · refine Or.inl ⟨hlt, fun k hk hb => key k hk ?_ ?_⟩
    · unfold posCost
      rw [abs_of_pos (by linarith [hb.1]), abs_sub_comm, abs_of_pos (by linarith)]; linarith [hb.2]
    · unfold posCost
      rw [abs_sub_comm, abs_of_pos (by linarith [hb.2]), abs_sub_comm, abs_of_pos (by linarith)]; linarith [hb.1]
  · refine Or.inr ⟨hlt, fun k hk hb => key k hk ?_ ?_⟩
    · unfold posCost
      rw [abs_sub_comm, abs_of_pos (by linarith [hb.2]), abs_of_pos (by linarith)]; linarith [hb.1]
    · unfold posCost
      rw [abs_of_pos (by linarith [hb.1]), abs_of_pos (by linarith)]; linarith [hb.2]

omit [Field K] [IsStrictOrderedRing K] in
/-- all neighbours are joined -/
theorem tree_joined {n : Nat} (hinj : ∀ i j, i < n → j < n → x i = x j → i = j) {E : List (Nat × Nat)}
    (h : IsSpanningTree (List.range n) E) (hE : ∀ e ∈ E, Next n x e.1 e.2 ∨ Next n x e.2 e.1)
    {i j : Nat} (hi : i < n) (hj : j < n) (hij : Next n x i j) : Joined E i j := by
  by_contra hcon
  have h1 : ∀ y, Relation.ReflTransGen (Joined E) i y → x y ≤ x i := by
    intro y hy
    induction hy with
    | refl => exact le_rfl
    | @tail u v _ hs ih =>
      by_contra hv
      rw [not_le] at hv
      have hb : u < n ∧ v < n := by
        rcases hs with hs | hs
        · have := h.ends _ hs; simpa using And.intro this.1 this.2.1
        · have := h.ends _ hs; simpa using And.intro this.2.1 this.1
      have hnext : Next n x u v := by
        rcases hs with hs | hs <;> rcases hE _ hs with hn | hn
        · exact hn
        · exact absurd hn.1 (not_lt.mpr (ih.trans hv.le))
        · exact absurd hn.1 (not_lt.mpr (ih.trans hv.le))
        · exact hn
      have hu : u = i := by
        apply hinj u i hb.1 hi
        by_contra hne
        exact hnext.2 i hi ⟨lt_of_le_of_ne ih hne, hv⟩
      have hv' : v = j := by
        apply hinj v j hb.2 hj
        by_contra hne
        rcases lt_or_gt_of_ne hne with hlt | hlt
        · exact hij.2 v hb.2 ⟨hv, hlt⟩
        · exact hnext.2 j hj ⟨hu ▸ hij.1, hlt⟩
      subst hu hv'
      exact hcon hs
  have := h1 j (h.conn i (by simpa using hi) j (by simpa using hj))
  exact absurd hij.1 (not_lt.mpr this)

omit [Field K] [IsStrictOrderedRing K] in
/-- the two ends of the line are the vertices of odd degree -/
theorem tree_odd {n a b : Nat} (hinj : ∀ i j, i < n → j < n → x i = x j → i = j) (ha : a < n) (hb : b < n)
    (hab : a ≠ b) (hends : ∀ i, i < n → x a ≤ x i ∧ x i ≤ x b) {E : List (Nat × Nat)}
    (h : IsSpanningTree (List.range n) E) (hE : ∀ e ∈ E, Next n x e.1 e.2 ∨ Next n x e.2 e.1) :
    (oddDegree n E).Perm [a, b] := by
  classical
  have hval : ∀ i j, i < n → j < n → und E i j = (if Next n x j i then 1 else 0) + (if Next n x i j then 1 else 0) := by
    intro i j hi hj
    by_cases h1 : Next n x i j
    · rw [(spanning_und (by omega) h i j).1 (tree_joined hinj h hE hi hj h1), if_pos h1,
        if_neg fun h2 => absurd h1.1 h2.1.not_gt]
    · by_cases h2 : Next n x j i
      · rw [(spanning_und (by omega) h i j).1 (tree_joined hinj h hE hj hi h2).symm, if_pos h2, if_neg h1]
      · rw [(spanning_und (by omega) h i j).2, if_neg h1, if_neg h2]
        rintro (hJ | hJ)
        · exact (hE _ hJ).elim h1 h2
        · exact (hE _ hJ).elim h2 h1
  have hcount : ∀ i < n, (flattenEdges E).count i = (if i = a then 0 else 1) + (if i = b then 0 else 1) := by
    intro i hi
    rw [← sum_und (spanning_valid h) i, Finset.sum_congr rfl (fun j hj => hval i j hi (by simpa using hj)),
      Finset.sum_add_distrib]
    congr 1
    · split_ifs with hia
      · subst hia
        refine Finset.sum_eq_zero fun j hj => if_neg fun hn => ?_
        exact absurd (hends j (by simpa using hj)).1 (not_le.mpr hn.1)
      · obtain ⟨k, hk, hk'⟩ := exists_prev (n := n) (i := i) (x := x) ⟨a, ha, lt_of_le_of_ne (hends i hi).1
          fun he => hia (hinj _ _ ha hi he).symm⟩
        rw [Finset.sum_eq_single k, if_pos hk']
        · intro j hj hjk
          refine if_neg fun hn => hjk (hinj _ _ (by simpa using hj) hk ?_)
          by_contra hne
          rcases lt_or_gt_of_ne hne with hlt | hlt
          · exact hn.2 k hk ⟨hlt, hk'.1⟩
          · exact hk'.2 j (by simpa using hj) ⟨hlt, hn.1⟩
        · intro hk2; exact absurd (Finset.mem_range.mpr hk) hk2
    · split_ifs with hib
      · subst hib
        refine Finset.sum_eq_zero fun j hj => if_neg fun hn => ?_
        exact absurd (hends j (by simpa using hj)).2 (not_le.mpr hn.1)
      · obtain ⟨k, hk, hk'⟩ := exists_next (n := n) (i := i) (x := x) ⟨b, hb, lt_of_le_of_ne (hends i hi).2
          fun he => hib (hinj _ _ hi hb he)⟩
        rw [Finset.sum_eq_single k, if_pos hk']
        · intro j hj hjk
          refine if_neg fun hn => hjk (hinj _ _ (by simpa using hj) hk ?_)
          by_contra hne
          rcases lt_or_gt_of_ne hne with hlt | hlt
          · exact hk'.2 j (by simpa using hj) ⟨hn.1, hlt⟩
          · exact hn.2 k hk ⟨hk'.1, hlt⟩
        · intro hk2; exact absurd (Finset.mem_range.mpr hk) hk2
  refine (List.perm_ext_iff_of_nodup (List.nodup_range.filter _) ?_).mpr fun i => ?_
  · simpa using hab
  · refine (mem_oddSet : i ∈ oddSet n E ↔ _).trans ?_
    simp only [List.mem_cons, List.not_mem_nil, or_false]
    constructor
    · rintro ⟨h1, h2⟩
      rw [hcount i h1] at h2
      split_ifs at h2 <;> omega
    · rintro (rfl | rfl)
      · refine ⟨ha, ?_⟩
        rw [hcount _ ha, if_pos rfl, if_neg hab]
      · refine ⟨hb, ?_⟩
        rw [hcount _ hb, if_pos rfl, if_neg (Ne.symm hab)]

end Walky.OnLine
