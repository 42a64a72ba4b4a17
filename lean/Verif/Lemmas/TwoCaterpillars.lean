import Verif.Lemmas.Caterpillar
import Verif.Lemmas.LeafMatching
import Mathlib.Data.List.GetD

/-!
# Bad instances for nearest neighbour from every start

Two copies of the points of `Caterpillar.lean`, the second one mirrored. A walk that starts in one of them enters the
other one at its first point, and then follows the post-order.
-/

namespace Walky

open FloatOps XNum Spec

theorem nearNext_get : ∀ {L : List Pt}, NearNext L → ∀ j z, j < z → z < L.length →
    ptDist (L.getD j (0, 0)) (L.getD (j + 1) (0, 0)) ≤ ptDist (L.getD j (0, 0)) (L.getD z (0, 0))
  | [], _, _, z, _, hz => absurd hz (by simp)
  | p :: t, h, 0, z, hj, hz => by
    cases t with
    | nil => simp at hz; omega
    | cons q t =>
      obtain ⟨z, rfl⟩ : ∃ y, z = y + 1 := ⟨z - 1, by omega⟩
      have hz' : z < (q :: t).length := by simpa using hz
      have := h.1 q rfl ((q :: t).getD z (0, 0)) (by
        rw [List.getD_eq_getElem _ _ hz']; exact List.getElem_mem hz')
      simpa using this
  | p :: t, h, j + 1, z, hj, hz => by
    obtain ⟨z, rfl⟩ : ∃ y, z = y + 1 := ⟨z - 1, by omega⟩
    have := nearNext_get h.2 j z (by omega) (by simpa using hz)
    simpa using this

/-- reflection of the line -/
def mirror (k : Nat) (p : Pt) : Pt := (-2 ^ (k + 1) - p.1, p.2)

theorem mirror_inj {k : Nat} {p q : Pt} (h : mirror k p = mirror k q) : p = q := by
  unfold mirror at h
  have h1 := congrArg Prod.fst h
  have h2 := congrArg Prod.snd h
  simp only at h1 h2
  exact Prod.ext (by omega) h2

theorem ptDist_mirror (k : Nat) (p q : Pt) : ptDist (mirror k p) (mirror k q) = ptDist p q := by
  by_cases h : p = q
  · subst h; simp [ptDist]
  · unfold ptDist
    rw [if_neg h, if_neg fun e => h (mirror_inj e)]
    simp only [mirror]
    have : -2 ^ (k + 1) - p.1 - (-2 ^ (k + 1) - q.1) = q.1 - p.1 := by ring
    rw [this, abs_sub_comm]

theorem ptPath_reverse (l : List Pt) : ptPath l.reverse = ptPath l := by
  induction l with
  | nil => rfl
  | cons p t ih =>
    cases t with
    | nil => rfl
    | cons q t =>
      have : (p :: q :: t).reverse = (t.reverse ++ [q]) ++ p :: [] := by simp
      rw [this, ptPath_append, ← List.reverse_cons, ih, ptDist_symm]
      simp only [ptPath]
      ring

theorem ptPath_mirror (k : Nat) (l : List Pt) : ptPath (l.map (mirror k)) = ptPath l := by
  induction l with
  | nil => rfl
  | cons p t ih =>
    cases t with
    | nil => rfl
    | cons q t =>
      simp only [List.map_cons, ptPath] at ih ⊢
      rw [ih, ptDist_mirror]

/-- the points -/
def badPts (k : Nat) : List Pt := postPts k 0 ++ (postPts k 0).map (mirror k)

/-- number of points of a copy -/
def badHalf (k : Nat) : Nat := (postPts k 0).length

theorem badHalf_eq (k : Nat) : badHalf k + 1 = 2 ^ (k + 1) := postPts_length k 0

theorem badPts_length (k : Nat) : (badPts k).length = 2 * badHalf k := by
  simp [badPts, badHalf]; omega

/-- the point in the first copy -/
def basePt (k i : Nat) : Pt := (postPts k 0).getD (if i < badHalf k then i else i - badHalf k) (0, 0)

theorem basePt_mem {k i : Nat} (hi : i < 2 * badHalf k) : basePt k i ∈ postPts k 0 := by
  unfold basePt
  have : (if i < badHalf k then i else i - badHalf k) < (postPts k 0).length := by
    show _ < badHalf k
    split <;> omega
  rw [List.getD_eq_getElem _ _ this]
  exact List.getElem_mem this

theorem badPts_get {k i : Nat} (hi : i < 2 * badHalf k) :
    (badPts k).getD i (0, 0) = if i < badHalf k then basePt k i else mirror k (basePt k i) := by
  unfold badPts basePt
  by_cases h : i < badHalf k
  · rw [if_pos h, if_pos h, List.getD_append _ _ _ _ h]
  · rw [if_neg h, if_neg h, List.getD_append_right _ _ _ _ (not_lt.mp h)]
    have h2 : i - badHalf k < (postPts k 0).length := by show _ < badHalf k; omega
    show ((postPts k 0).map (mirror k)).getD (i - badHalf k) (0, 0) = _
    rw [List.getD_eq_getElem _ _ (by simpa using h2), List.getD_eq_getElem _ _ h2, List.getElem_map]

/-- place and weight of a point -/
theorem mem_post_bounds {k : Nat} {z : Pt} (h : z ∈ postPts k 0) :
    0 ≤ z.2 ∧ z.2 ≤ z.1 ∧ z.1 + z.2 ≤ 2 ^ (k + 1) - 2 := by
  have := mem_postPts h
  omega

/-- distance of two cities -/
def badDist (k i j : Nat) : ℤ := ptDist ((badPts k).getD i (0, 0)) ((badPts k).getD j (0, 0))

theorem badDist_same {k i j : Nat} (hi : i < 2 * badHalf k) (hj : j < 2 * badHalf k)
    (h : i < badHalf k ↔ j < badHalf k) : badDist k i j = ptDist (basePt k i) (basePt k j) := by
  unfold badDist
  rw [badPts_get hi, badPts_get hj]
  by_cases h1 : i < badHalf k
  · rw [if_pos h1, if_pos (h.mp h1)]
  · rw [if_neg h1, if_neg fun e => h1 (h.mpr e), ptDist_mirror]

theorem badDist_cross {k i j : Nat} (hi : i < 2 * badHalf k) (hj : j < 2 * badHalf k)
    (h : ¬(i < badHalf k ↔ j < badHalf k)) :
    badDist k i j = 2 ^ (k + 1) + ((basePt k i).1 + (basePt k i).2) + ((basePt k j).1 + (basePt k j).2) := by
  obtain ⟨a1, a2, a3⟩ := mem_post_bounds (basePt_mem hi)
  obtain ⟨b1, b2, b3⟩ := mem_post_bounds (basePt_mem hj)
  have hp := pow_int_pos (k + 1)
  unfold badDist
  rw [badPts_get hi, badPts_get hj]
  by_cases h1 : i < badHalf k
  · rw [if_pos h1, if_neg fun e => h ⟨fun _ => e, fun _ => h1⟩, ptDist_of_ne (by simp only [mirror]; omega)]
    simp only [mirror]
    rw [abs_of_nonneg (by omega)]
    ring
  · rw [if_neg h1, if_pos (by by_contra e; exact h ⟨fun x => absurd x h1, fun x => absurd x e⟩),
      ptDist_of_ne (by simp only [mirror]; omega)]
    simp only [mirror]
    rw [abs_of_nonpos (by omega)]
    ring

theorem badDist_near {k i j : Nat} (hi : i < 2 * badHalf k) (hj : j < 2 * badHalf k)
    (h : i < badHalf k ↔ j < badHalf k) : badDist k i j ≤ 2 ^ (k + 1) - 2 := by
  obtain ⟨a1, a2, a3⟩ := mem_post_bounds (basePt_mem hi)
  obtain ⟨b1, b2, b3⟩ := mem_post_bounds (basePt_mem hj)
  rw [badDist_same hi hj h]
  unfold ptDist
  split
  · omega
  · rcases abs_cases ((basePt k i).1 - (basePt k j).1) with ⟨e, -⟩ | ⟨e, -⟩ <;> rw [e] <;> omega

theorem badPts_weight {k i : Nat} : 0 ≤ ((badPts k).getD i (0, 0)).2 := by
  by_cases hi : i < 2 * badHalf k
  · have := (mem_post_bounds (basePt_mem hi)).1
    rw [badPts_get hi]
    split
    · exact this
    · exact this
  · rw [List.getD_eq_default _ _ (by rw [badPts_length]; omega)]

theorem badPts_nodup (k : Nat) : (badPts k).Nodup := by
  unfold badPts
  rw [List.nodup_append]
  refine ⟨postPts_nodup k 0, (List.nodup_map_iff fun p q h => mirror_inj h).mpr (postPts_nodup k 0), fun p hp q hq e => ?_⟩
  obtain ⟨r, hr, rfl⟩ := List.mem_map.mp hq
  have h1 := mem_post_bounds hp
  have h2 := mem_post_bounds hr
  have h3 := pow_int_pos (k + 1)
  have h4 := congrArg Prod.fst e
  simp only [mirror] at h4
  omega

theorem basePt_inj {k i j : Nat} (hi : i < 2 * badHalf k) (hj : j < 2 * badHalf k)
    (h : i < badHalf k ↔ j < badHalf k) (e : basePt k i = basePt k j) : i = j := by
  unfold basePt at e
  have h1 : (if i < badHalf k then i else i - badHalf k) < (postPts k 0).length := by
    show _ < badHalf k
    split <;> omega
  have h2 : (if j < badHalf k then j else j - badHalf k) < (postPts k 0).length := by
    show _ < badHalf k
    split <;> omega
  rw [List.getD_eq_getElem _ _ h1, List.getD_eq_getElem _ _ h2] at e
  have := (postPts_nodup k 0).getElem_inj_iff.mp e
  by_cases h3 : i < badHalf k
  · rw [if_pos h3, if_pos (h.mp h3)] at this
    exact this
  · rw [if_neg h3, if_neg fun x => h3 (h.mpr x)] at this
    have h4 : ¬ j < badHalf k := fun x => h3 (h.mpr x)
    omega

theorem badDist_pos {k i j : Nat} (hi : i < 2 * badHalf k) (hj : j < 2 * badHalf k) (hij : i ≠ j) : 0 < badDist k i j := by
  obtain ⟨a1, a2, a3⟩ := mem_post_bounds (basePt_mem hi)
  obtain ⟨b1, b2, b3⟩ := mem_post_bounds (basePt_mem hj)
  by_cases h : i < badHalf k ↔ j < badHalf k
  · rw [badDist_same hi hj h]
    have hne : basePt k i ≠ basePt k j := fun e => hij (basePt_inj hi hj h e)
    exact ptDist_pos a1 b1 hne fun e => hne (postPts_inj (basePt_mem hi) (basePt_mem hj) e)
  · rw [badDist_cross hi hj h]
    have hp := pow_int_pos (k + 1)
    omega

section
variable {K : Type} [Field K] [LinearOrder K] [IsStrictOrderedRing K]

/-- costs -/
def badCost (K : Type) [Field K] (k i j : Nat) : K := (badDist k i j : K)

theorem badCost_metric (k n : Nat) : Metric n (badCost K k) := by
  refine ⟨fun i _ => by simp [badCost, badDist, ptDist], fun i j _ _ => ?_, fun i j l _ _ _ => ?_⟩
  · unfold badCost badDist
    rw [ptDist_symm]
  · unfold badCost badDist
    exact_mod_cast ptDist_tri badPts_weight badPts_weight badPts_weight

omit [LinearOrder K] [IsStrictOrderedRing K] in
theorem pathCost_ptPath {ι : Type} {c : Nat → Nat → K} (f : ι → Nat) (g : ι → Pt) : ∀ l : List ι,
    (∀ x ∈ l, ∀ y ∈ l, c (f x) (f y) = (ptDist (g x) (g y) : K)) → pathCost c (l.map f) = (ptPath (l.map g) : K)
  | [], _ => by simp [ptPath]
  | [x], _ => by simp [ptPath]
  | x :: y :: t, h => by
    have ih := pathCost_ptPath f g (y :: t) fun a ha b hb => h a (List.mem_cons_of_mem _ ha) b (List.mem_cons_of_mem _ hb)
    simp only [List.map_cons, pathCost_cons₂, ptPath] at ih ⊢
    rw [ih, h x (by simp) y (by simp)]
    push_cast
    rfl

/-- the path through a copy -/
theorem bad_block {k b : Nat} (hb : b = 0 ∨ b = badHalf k) :
    (k : K) * 2 ^ k ≤ pathCost (badCost K k) (List.range' b (badHalf k)) := by
  have h1 : List.range' b (badHalf k) = (List.range (badHalf k)).map (b + ·) := by
    rw [List.range_eq_range', List.map_add_range', Nat.add_zero]
  have h2 : postPts k 0 = (List.range (badHalf k)).map fun i => (postPts k 0).getD i (0, 0) := by
    apply List.ext_getElem
    · simp [badHalf]
    · intro i h h'
      rw [List.getElem_map, List.getElem_range, List.getD_eq_getElem _ _ h]
  have h3 := pathCost_ptPath (c := badCost K k) (b + ·) (fun i => (postPts k 0).getD i (0, 0)) (List.range (badHalf k)) (by
    intro x hx y hy
    rw [List.mem_range] at hx hy
    unfold badCost
    rw [badDist_same (by omega) (by omega) (by omega)]
    have : ∀ x < badHalf k, basePt k (b + x) = (postPts k 0).getD x (0, 0) := by
      intro x hx
      unfold basePt
      rcases hb with rfl | rfl
      · rw [Nat.zero_add, if_pos hx]
      · rw [if_neg (by omega), Nat.add_sub_cancel_left]
    rw [this x hx, this y hy])
  rw [h1, h3, ← h2]
  have := postPts_cost k 0
  exact_mod_cast this

/-- every greedy tour is long -/
theorem bad_greedy {k : Nat} {p : List Nat} (hp : IsTour (2 * badHalf k) p)
    (hg : Greedy (2 * badHalf k) (badCost K k) p) : (k : K) * 2 ^ k ≤ tourCost (badCost K k) p := by
  have hn : 1 ≤ badHalf k := by
    have := badHalf_eq k
    have : 2 ^ 1 ≤ 2 ^ (k + 1) := Nat.pow_le_pow_right (by norm_num) (by omega)
    omega
  have hpow := pow_int_pos (k + 1)
  have hmem : ∀ x ∈ p, x < 2 * badHalf k := fun x hx => by simpa using hp.subset hx
  have hnn : ∀ i j, 0 ≤ badCost K k i j := by
    intro i j
    have hm := badCost_metric (K := K) k (i + j + 1)
    have h1 := hm.tri i i j (by omega) (by omega) (by omega)
    have h2 := hm.symm i j (by omega) (by omega)
    rw [hm.diag i (by omega), ← h2] at h1
    linarith
  have key : ∀ b, (b = 0 ∨ b = badHalf k) → ∀ s, p.head? = some s → ¬(b ≤ s ∧ s < b + badHalf k) →
      (k : K) * 2 ^ k ≤ tourCost (badCost K k) p := by
    intro b hb s hs hsb
    obtain ⟨q, hq⟩ := greedy_block hp hg (b := b) (n := badHalf k) (by omega) hn (by
        intro u u' v h1 h2 h3 h4 h5 h6
        have e1 := badDist_near h1 h2 (by omega)
        have e2 := badDist_cross h1 (show v < 2 * badHalf k by omega) (by omega)
        have e3 := mem_post_bounds (basePt_mem h1)
        have e4 := mem_post_bounds (basePt_mem (show v < 2 * badHalf k by omega))
        unfold badCost
        exact_mod_cast (by omega : badDist k u u' < badDist k u v)) (by
        intro u v h1 h2 h3 h4
        have hv : v < 2 * badHalf k := by omega
        have hb' : b < 2 * badHalf k := by omega
        have e1 := badDist_cross h1 hv (by omega)
        have e2 := badDist_cross h1 hb' (by omega)
        have e3 : basePt k b = (0, 0) := by
          obtain ⟨B, hB⟩ := postPts_head k 0
          unfold basePt
          rcases hb with rfl | rfl
          · rw [if_pos (by omega), hB]; rfl
          · rw [if_neg (by omega), Nat.sub_self, hB]; rfl
        have e4 := mem_post_bounds (basePt_mem hv)
        have e5 : (basePt k v).1 ≠ 0 := by
          intro e
          have := postPts_inj (basePt_mem hv) (basePt_mem hb') (by rw [e, e3])
          have := basePt_inj hv hb' (by omega) this
          omega
        rw [e3] at e2
        unfold badCost
        simp only at e2
        exact_mod_cast (by omega : badDist k u b < badDist k u v)) (by
        intro j z h1 h2 h3
        have e1 := badDist_same (k := k) (i := b + j) (j := b + j + 1) (by omega) (by omega) (by omega)
        have e2 := badDist_same (k := k) (i := b + j) (j := z) (by omega) (by omega) (by omega)
        have hbase : ∀ x < badHalf k, basePt k (b + x) = (postPts k 0).getD x (0, 0) := by
          intro x hx
          unfold basePt
          rcases hb with rfl | rfl
          · rw [Nat.zero_add, if_pos hx]
          · rw [if_neg (by omega), Nat.add_sub_cancel_left]
        obtain ⟨y, rfl⟩ : ∃ y, z = b + y := ⟨z - b, by omega⟩
        rw [hbase j (by omega), Nat.add_assoc, hbase (j + 1) (by omega)] at e1
        rw [hbase j (by omega), hbase y (by omega)] at e2
        have := nearNext_get (nearNext_postPts k 0) j y (by omega) (by show y < badHalf k; omega)
        rw [← e1, ← e2] at this
        unfold badCost
        rw [Nat.add_assoc]
        exact_mod_cast this) hs hsb
    refine (bad_block (K := K) hb).trans (le_trans ?_ (pathCost_le_tourCost (fun i j _ _ => hnn i j) hmem))
    have h2 : (List.range' b (badHalf k)).Sublist p := by rw [hq]; exact List.sublist_append_right _ _
    exact pathCost_shortcut (badCost_metric k (2 * badHalf k)) h2 hmem
  cases p with
  | nil =>
    have := hp.length_eq
    simp at this
    omega
  | cons s t =>
    have hs := hmem s (by simp)
    by_cases h : s < badHalf k
    · exact key (badHalf k) (Or.inr rfl) s rfl (by omega)
    · exact key 0 (Or.inl rfl) s rfl (by omega)

/-- the points along the line -/
def goodPts (k : Nat) : List Pt := ((linePts k 0).map (mirror k)).reverse ++ linePts k 0

theorem goodPts_perm (k : Nat) : (goodPts k).Perm (badPts k) := by
  unfold goodPts badPts
  refine List.perm_append_comm.trans ?_
  exact List.Perm.append (linePts_perm k 0) ((List.reverse_perm _).trans ((linePts_perm k 0).map _))

/-- the tour along the line -/
def goodTour (k : Nat) : List Nat := (goodPts k).map fun p => (badPts k).idxOf p

theorem goodTour_tour (k : Nat) : IsTour (2 * badHalf k) (goodTour k) := by
  unfold goodTour
  refine ((goodPts_perm k).map _).trans ?_
  have : (badPts k).map (fun p => (badPts k).idxOf p) = List.range (2 * badHalf k) := by
    apply List.ext_getElem
    · simp [badPts_length]
    · intro i h h'
      rw [List.getElem_map, List.getElem_range, (badPts_nodup k).idxOf_getElem]
  rw [this]

theorem goodTour_cost (k : Nat) : tourCost (badCost K k) (goodTour k) ≤ 16 * 2 ^ k := by
  have hp := pow_int_pos k
  have e1 := pow_int_succ k
  obtain ⟨B, hB⟩ := linePts_head k 0
  obtain ⟨A, hA⟩ := linePts_last k 0
  rw [zero_add] at hA
  set S : Pt := (2 ^ (k + 1) - 2, 0) with hS
  have hX : ((linePts k 0).map (mirror k)).reverse = mirror k S :: (A.map (mirror k)).reverse := by rw [hA]; simp
  have hX' : ((linePts k 0).map (mirror k)).reverse = (B.map (mirror k)).reverse ++ [mirror k (0, 0)] := by rw [hB]; simp
  have hT : goodPts k = mirror k S :: ((A.map (mirror k)).reverse ++ linePts k 0) := by
    unfold goodPts
    rw [hX]
    rfl
  have hlen : ptPath (goodPts k ++ [mirror k S]) = 6 * (2 ^ (k + 1) - 2) + 2 * 2 ^ (k + 1) := by
    have a1 : ptPath (linePts k 0 ++ [mirror k S]) = 2 * (2 ^ (k + 1) - 2) + (2 ^ (k + 1) + 2 * (2 ^ (k + 1) - 2)) := by
      have h0 := linePts_cost k 0
      rw [hA] at h0
      rw [hA, ptPath_append, h0]
      have : ptDist S (mirror k S) = 2 ^ (k + 1) + 2 * (2 ^ (k + 1) - 2) := by
        rw [ptDist_of_ne (by simp only [mirror, hS]; omega)]
        simp only [mirror, hS]
        rw [abs_of_nonneg (by omega)]
        ring
      rw [this]
      simp [ptPath]
    have a2 : goodPts k ++ [mirror k S] = ((B.map (mirror k)).reverse ++ [mirror k (0, 0)]) ++ (0, 0) :: (B ++ [mirror k S]) := by
      unfold goodPts
      rw [hX', hB]
      simp
    have a3 : ptDist (mirror k (0, 0)) (0, 0) = 2 ^ (k + 1) := by
      rw [ptDist_of_ne (by simp only [mirror]; omega)]
      simp only [mirror]
      rw [abs_of_nonpos (by omega)]
      ring
    rw [a2, ptPath_append, ← hX', ptPath_reverse, ptPath_mirror, linePts_cost, a3, ← List.cons_append, ← hB, a1]
    ring
  have hget : ∀ p ∈ badPts k, (badPts k).getD ((badPts k).idxOf p) (0, 0) = p := by
    intro p hp
    rw [List.getD_eq_getElem _ _ (List.idxOf_lt_length_iff.mpr hp), List.getElem_idxOf]
  have h1 : tourCost (badCost K k) (goodTour k) = (ptPath (goodPts k ++ [mirror k S]) : K) := by
    have h2 := pathCost_ptPath (c := badCost K k) (fun p => (badPts k).idxOf p) id (goodPts k ++ [mirror k S]) (by
      have hm : ∀ p ∈ goodPts k ++ [mirror k S], p ∈ badPts k := by
        intro p hp
        apply (goodPts_perm k).mem_iff.mp
        rcases List.mem_append.mp hp with hp | hp
        · exact hp
        · rw [List.mem_singleton.mp hp, hT]; simp
      intro x hx y hy
      unfold badCost badDist
      rw [hget x (hm x hx), hget y (hm y hy)]
      rfl)
    rw [List.map_id] at h2
    rw [← h2]
    unfold goodTour
    rw [hT]
    simp only [List.map_cons, List.map_append, tourCost, List.cons_append, List.map_nil]
  rw [h1, hlen]
  have : (6 * (2 ^ (k + 1) - 2) + 2 * 2 ^ (k + 1) : ℤ) ≤ 16 * 2 ^ k := by omega
  exact_mod_cast this

end

end Walky
