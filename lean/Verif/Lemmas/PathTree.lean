import Verif.Lemmas.LeafMatching

/-! # Spanning trees that are paths, and the tours that `christofides` builds on them -/

set_option linter.unusedSectionVars false

namespace Walky

open FloatOps XNum Spec

variable {K : Type} [Field K] [LinearOrder K] [IsStrictOrderedRing K]

/-! ## a multigraph that is a cycle -/

theorem firstOcc_of_nodup : ∀ (s l : List Nat), l.Nodup → (∀ x ∈ l, x ∉ s) → firstOcc s l = l
  | _, [], _, _ => rfl
  | s, a :: t, hn, hs => by
    rw [firstOcc, if_neg (hs a (by simp)), firstOcc_of_nodup (a :: s) t (List.nodup_cons.mp hn).2]
    intro x hx hc
    rcases List.mem_cons.mp hc with h | h
    · exact (List.nodup_cons.mp hn).1 (h ▸ hx)
    · exact hs x (by simp [hx]) h

/-- If every city is an end of exactly two edges of the tree and the matching, the tour uses exactly these
edges. -/
theorem tail_cycle {m : Mat (XNum K)} {c : Nat → Nat → K} (hm : Rep m c) (hn : 1 ≤ m.dim)
    (hsym : Symm m.dim c) {E : List (Nat × Nat)} (h2 : IsSpanningTree (List.range m.dim) E)
    {M : List (Nat × Nat)} (hval : Valid m.dim M)
    (hdeg : ∀ i < m.dim, (flattenEdges (E ++ M)).count i = 2) {g : MGraph (XNum K)}
    (a2 : g.dim = m.dim) (a1 : ∀ i j, i < m.dim → j < m.dim → (Joined E i j → g.times i j = 1 + und M i j) ∧
        (¬ Joined E i j → g.times i j = und M i j)) (dbg : Bool) :
    ∃ p, christofidesTail dbg m g = .ok (fin (edgeSum c E + edgeSum c M), p ++ [0]) ∧ IsTour m.dim p ∧
      tourCost c p = edgeSum c E + edgeSum c M := by
  obtain ⟨b1, b2, b3⟩ := union_ok h2 a2 a1
  obtain ⟨walk, p, a3, a4, a5, a6, a7, a8, a9⟩ := christofidesTail_ok hm a2 hn b1 b2 b3 dbg
  suffices hcost : tourCost c p = edgeSum c E + edgeSum c M from ⟨p, by rw [a5, hcost], a6, hcost⟩
  have hEM : Valid m.dim (E ++ M) := by
    intro e he
    rcases List.mem_append.mp he with he | he
    · exact spanning_valid h2 e he
    · exact hval e he
  have ht : ∀ i j, i < m.dim → j < m.dim → g.times i j = und (E ++ M) i j := by
    intro i j hi hj
    rw [und_append]
    by_cases hJ : Joined E i j
    · rw [(a1 i j hi hj).1 hJ, (spanning_und hn h2 i j).1 hJ]
    · rw [(a1 i j hi hj).2 hJ, (spanning_und hn h2 i j).2 hJ, Nat.zero_add]
  have heven : ∀ i < g.dim, Even (g.rowSum i) := by
    intro i hi
    have hr : g.rowSum i = (flattenEdges (E ++ M)).count i := by
      rw [← sum_und hEM i]
      unfold MGraph.rowSum
      rw [a2]
      exact Finset.sum_congr rfl fun j hj => ht i j (by omega) (by simpa using hj)
    rw [hr, hdeg i (by omega)]
    decide
  obtain ⟨walk', k1, k2, k3, k4, k5⟩ := eulerianCycle_even dbg b1 b2 (by omega) b3 heven
  rw [a3] at k1
  injection k1 with k1
  subst k1
  have hwv : Valid m.dim (pairs walk) := fun e he => ⟨a9 _ (mem_pairs he).1, a9 _ (mem_pairs he).2⟩
  have hcost : edgeSum c (pairs walk) = edgeSum c (E ++ M) := by
    apply edgeSum_und hsym hwv hEM
    intro i j hi hj
    rw [k5 i j (by omega) (by omega), ht i j hi hj]
  obtain ⟨t, rfl⟩ : ∃ t, walk = 0 :: t := by
    cases walk with
    | nil => simp at k3
    | cons x t => simp at k3; exact ⟨t, by rw [k3]⟩
  have hlast : (0 :: t).getLast (by simp) = 0 := by
    rw [List.getLast?_eq_some_getLast (by simp)] at k4
    exact Option.some.inj k4
  have hcount : ∀ v < m.dim, (0 :: t).count v = 1 + if v = 0 then 1 else 0 := by
    intro v hv
    have h1 := sum_und_pairs t 0 v a9
    rw [hlast] at h1
    have h3 : ∑ j ∈ Finset.range m.dim, und (pairs (0 :: t)) v j = (flattenEdges (E ++ M)).count v := by
      rw [← sum_und hEM v]
      refine Finset.sum_congr rfl fun j hj => ?_
      have hj : j < m.dim := by simpa using hj
      rw [k5 v j (by omega) (by omega), ht v j hv hj]
    rw [h3, hdeg v hv] at h1
    split_ifs at h1 ⊢ <;> omega
  -- the walk without its last city
  obtain ⟨p', hp'⟩ : ∃ p', 0 :: t = p' ++ [0] :=
    ⟨(0 :: t).dropLast, by conv_lhs => rw [← List.dropLast_append_getLast (l := 0 :: t) (by simp), hlast]⟩
  rw [hp'] at hcount a4 hcost a9 k3
  have hnd : p'.Nodup := by
    rw [List.nodup_iff_count_le_one]
    intro v
    by_cases hv : v ∈ p'
    · have := hcount v (a9 v (by simp [hv]))
      rw [List.count_append] at this
      by_cases h0 : v = 0
      · subst h0; simp at this; omega
      · rw [if_neg h0] at this; omega
    · rw [List.count_eq_zero_of_not_mem hv]; omega
  have h0 : 0 ∈ p' := by
    have := hcount 0 (by omega)
    rw [List.count_append] at this
    simp at this
    exact List.count_pos_iff.mp (by omega)
  have hpp : p = p' := by
    rw [a4, firstOcc_append, firstOcc_of_nodup [] p' hnd (by simp)]
    simp [firstOcc, h0]
  have hhead : ∃ t', p' = 0 :: t' := by
    cases p' with
    | nil => simp at h0
    | cons x t' => simp at k3; exact ⟨t', by rw [k3]⟩
  obtain ⟨t', rfl⟩ := hhead
  rw [hpp, ← edgeSum_append, ← hcost]
  exact (edgesCost_pairs c _).symm

/-! ## two vertices of odd degree -/

/-- If only two vertices of a spanning tree have odd degree, the tree is a path: these two have degree one
and all the others degree two. -/
theorem path_degrees {n : Nat} (hn : 2 ≤ n) {E : List (Nat × Nat)} (h : IsSpanningTree (List.range n) E)
    {u v : Nat} (ho : (oddDegree n E).Perm [u, v]) {i : Nat} (hi : i < n) :
    (flattenEdges E).count i + [u, v].count i = 2 := by
  have hnd : [u, v].Nodup := ho.nodup_iff.mp (List.nodup_range.filter _)
  have hmem : ∀ i, i ∈ [u, v] ↔ i < n ∧ (flattenEdges E).count i % 2 = 1 := by
    intro i
    rw [← ho.mem_iff]
    exact mem_oddSet
  have hpos : ∀ i < n, 1 ≤ (flattenEdges E).count i := by
    intro i hi
    obtain ⟨j, hj, hne⟩ : ∃ j, j < n ∧ i ≠ j := by
      by_cases h0 : i = 0
      · exact ⟨1, by omega, by omega⟩
      · exact ⟨0, by omega, h0⟩
    rcases Relation.ReflTransGen.cases_head (h.conn i (by simpa using hi) j (by simpa using hj)) with h1 | ⟨w, h1, -⟩
    · exact absurd h1 hne
    · apply List.count_pos_iff.mpr
      rcases h1 with h1 | h1
      · exact mem_flatten.mpr ⟨_, h1, Or.inl rfl⟩
      · exact mem_flatten.mpr ⟨_, h1, Or.inr rfl⟩
  have hge : ∀ i ∈ Finset.range n, 2 ≤ (flattenEdges E).count i + [u, v].count i := by
    intro i hi
    have hi : i < n := by simpa using hi
    have h1 := hpos i hi
    by_cases h2 : (flattenEdges E).count i % 2 = 1
    · rw [List.count_eq_one_of_mem hnd ((hmem i).mpr ⟨hi, h2⟩)]; omega
    · omega
  have hsum : ∑ i ∈ Finset.range n, ((flattenEdges E).count i + [u, v].count i) = ∑ i ∈ Finset.range n, 2 := by
    rw [Finset.sum_add_distrib, sum_count_range _ (valid_iff.mp (spanning_valid h)),
      sum_count_range [u, v] (fun x hx => ((hmem x).mp hx).1), length_flatten]
    have := h.count
    simp at this ⊢
    omega
  have := (Finset.sum_eq_sum_iff_of_le hge).mp hsum.symm i (by simpa using hi)
  exact this.symm

/-- the only perfect matching of two vertices -/
theorem matching_two {u v : Nat} {M : List (Nat × Nat)} (h : PerfectMatching [u, v] M) :
    M = [(u, v)] ∨ M = [(v, u)] := by
  have hlen := h.length_eq
  rw [show ends M = flattenEdges M from rfl, length_flatten] at hlen
  match M, hlen with
  | [(a, b)], _ =>
    have h : [a, b].Perm [u, v] := h
    have h2 := h.mem_iff (a := a)
    simp at h2
    rcases h2 with rfl | rfl
    · have := List.perm_cons a |>.mp h
      simp at this
      simp [this]
    · have := h.trans (List.Perm.swap a u [])
      have := List.perm_cons a |>.mp this
      simp at this
      simp [this]

/-! ## the family of Cornuéjols and Nemhauser -/

/-- Distance of two cities on the path: two steps cost `b`, a single step `a`. -/
def gapLen (a b : K) (d : Nat) : K := (d / 2 : Nat) * b + (d % 2 : Nat) * a

/-- The cities `0, 1, 2, …` in this order on the path. -/
def pathC (a b : K) (i j : Nat) : K := gapLen a b (i - j + (j - i))

section family

variable {a b : K} (ha : 0 < a) (hab : a < b) (hb : b < 2 * a)

include ha hab hb

theorem gapLen_step (d : Nat) : gapLen a b d < gapLen a b (d + 1) := by
  unfold gapLen
  rcases Nat.mod_two_eq_zero_or_one d with h | h
  · rw [show (d + 1) / 2 = d / 2 by omega, show (d + 1) % 2 = 1 by omega, h]
    push_cast
    linarith
  · rw [show (d + 1) / 2 = d / 2 + 1 by omega, show (d + 1) % 2 = 0 by omega, h]
    push_cast
    linarith

theorem gapLen_lt {d e : Nat} (h : d < e) : gapLen a b d < gapLen a b e :=
  strictMono_nat_of_lt_succ (gapLen_step ha hab hb) h

theorem gapLen_le {d e : Nat} (h : d ≤ e) : gapLen a b d ≤ gapLen a b e :=
  (strictMono_nat_of_lt_succ (gapLen_step ha hab hb)).monotone h

theorem gapLen_add (d e : Nat) : gapLen a b (d + e) ≤ gapLen a b d + gapLen a b e := by
  unfold gapLen
  rcases Nat.mod_two_eq_zero_or_one d with h | h <;> rcases Nat.mod_two_eq_zero_or_one e with h' | h'
  · rw [show (d + e) / 2 = d / 2 + e / 2 by omega, show (d + e) % 2 = 0 by omega, h, h']
    push_cast; linarith
  · rw [show (d + e) / 2 = d / 2 + e / 2 by omega, show (d + e) % 2 = 1 by omega, h, h']
    push_cast; linarith
  · rw [show (d + e) / 2 = d / 2 + e / 2 by omega, show (d + e) % 2 = 1 by omega, h, h']
    push_cast; linarith
  · rw [show (d + e) / 2 = d / 2 + e / 2 + 1 by omega, show (d + e) % 2 = 0 by omega, h, h']
    push_cast; linarith

theorem pathC_metric (n : Nat) : Metric n (pathC a b) := by
  refine ⟨fun i _ => ?_, fun i j _ _ => ?_, fun i j k _ _ _ => ?_⟩
  · simp [pathC, gapLen]
  · unfold pathC; rw [Nat.add_comm]
  · unfold pathC
    exact (gapLen_le ha hab hb (by omega)).trans (gapLen_add ha hab hb _ _)

/-- neighbours on the path are the closest cities -/
theorem pathC_ge {i j : Nat} (h : i ≠ j) : a ≤ pathC a b i j := by
  have := gapLen_le ha hab hb (d := 1) (e := i - j + (j - i)) (by omega)
  simpa [gapLen, pathC] using this

theorem pathC_eq {i j : Nat} (h : i ≠ j) (he : pathC a b i j ≤ a) : i = j + 1 ∨ j = i + 1 := by
  by_contra hc
  have := gapLen_lt ha hab hb (d := 1) (e := i - j + (j - i)) (by omega)
  unfold pathC at he
  have h1 : gapLen a b 1 = a := by simp [gapLen]
  rw [h1] at this
  exact absurd he (not_le.mpr this)

/-- the path -/
def pathTree (n : Nat) : List (Nat × Nat) := (List.range (n - 1)).map fun i => (i, i + 1)

omit ha hab hb in
theorem pathTree_spanning {n : Nat} (hn : 1 ≤ n) : IsSpanningTree (List.range n) (pathTree n) := by
  refine ⟨?_, ?_, ?_⟩
  · intro e he
    simp only [pathTree, List.mem_map, List.mem_range] at he
    obtain ⟨v, hv, rfl⟩ := he
    simp only [List.mem_range]
    omega
  · have h0 : ∀ v, v < n → Relation.ReflTransGen (Joined (pathTree n)) 0 v := by
      intro v
      induction v with
      | zero => intro _; exact .refl
      | succ v ih =>
        intro hv
        refine (ih (by omega)).tail (Or.inl (List.mem_map.mpr ⟨v, ?_, rfl⟩))
        rw [List.mem_range]; omega
    have hsym : Std.Symm (Joined (pathTree n)) := ⟨fun a b h => h.symm⟩
    intro a ha b hb
    have ha' := h0 a (by simpa using ha)
    have hb' := h0 b (by simpa using hb)
    exact (Relation.ReflTransGen.stdSymm.symm _ _ ha').trans hb'
  · simp [pathTree]; omega

omit ha hab hb [LinearOrder K] [IsStrictOrderedRing K] in
theorem pathTree_cost (n : Nat) : edgeSum (pathC a b) (pathTree n) = ((n - 1 : Nat) : K) * a := by
  unfold pathTree edgeSum
  rw [List.map_map]
  have : ((fun e : Nat × Nat => pathC a b e.1 e.2) ∘ fun i => (i, i + 1)) = fun _ => a := by
    funext i
    simp [pathC, gapLen]
  rw [this]
  simp

theorem pathTree_low {L : List (Nat × Nat)} (hL : ∀ f ∈ L, f.1 ≠ f.2) :
    (L.length : K) * a ≤ edgeSum (pathC a b) L := by
  induction L with
  | nil => simp [edgeSum]
  | cons f L ih =>
    rw [edgeSum_cons, List.length_cons]
    have h1 := pathC_ge ha hab hb (hL f (by simp))
    have h2 := ih fun g hg => hL g (by simp [hg])
    push_cast
    linarith

/-- A spanning tree that is not more expensive than the path is the path. -/
theorem pathTree_edges {n : Nat} {E : List (Nat × Nat)} (h : IsSpanningTree (List.range n) E)
    (hc : edgeSum (pathC a b) E ≤ ((n - 1 : Nat) : K) * a) {i j : Nat} (hJ : Joined E i j) : i = j + 1 ∨ j = i + 1 := by
  have hall : ∀ f ∈ E, f.1 ≠ f.2 := fun f hf => (h.ends f hf).2.2
  have hlen : E.length = n - 1 := by
    have := h.count
    rw [List.length_range] at this
    omega
  have key : ∀ f ∈ E, f.1 = f.2 + 1 ∨ f.2 = f.1 + 1 := by
    intro f hf
    apply pathC_eq ha hab hb (hall f hf)
    rw [edgeSum_perm _ (List.perm_cons_erase hf), edgeSum_cons] at hc
    have h3 := pathTree_low ha hab hb (L := E.erase f) (fun g hg => hall g (List.mem_of_mem_erase hg))
    have h4 : (E.erase f).length + 1 = n - 1 := by
      rw [List.length_erase_of_mem hf, hlen]
      have := List.length_pos_of_mem hf
      omega
    rw [← h4] at hc
    push_cast at hc
    linarith
  rcases hJ with hJ | hJ
  · exact key _ hJ
  · exact (key _ hJ).symm

theorem pathTree_joined {n : Nat} {E : List (Nat × Nat)} (h : IsSpanningTree (List.range n) E)
    (hc : edgeSum (pathC a b) E ≤ ((n - 1 : Nat) : K) * a) {i : Nat} (hi : i + 1 < n) : Joined E i (i + 1) := by
  by_contra hcon
  have h1 : ∀ x, Relation.ReflTransGen (Joined E) 0 x → x ≤ i := by
    intro x hx
    induction hx with
    | refl => omega
    | @tail x y _ hs ih =>
      rcases pathTree_edges ha hab hb h hc hs with e | e
      · omega
      · by_cases hxi : x = i
        · subst hxi; subst e; exact absurd hs hcon
        · omega
  have := h1 (i + 1) (h.conn 0 (by simp; omega) (i + 1) (by simpa using hi))
  omega

theorem pathTree_odd {n : Nat} (hn : 3 ≤ n) {E : List (Nat × Nat)} (h : IsSpanningTree (List.range n) E)
    (hc : edgeSum (pathC a b) E ≤ ((n - 1 : Nat) : K) * a) : (oddDegree n E).Perm [0, n - 1] := by
  have hu := fun i j => spanning_und (by omega) h i j
  have hval : ∀ i j, i < n → j < n → und E i j = if i = j + 1 ∨ j = i + 1 then 1 else 0 := by
    intro i j hi hj
    split_ifs with hij
    · apply (hu i j).1
      rcases hij with rfl | rfl
      · exact (pathTree_joined ha hab hb h hc hi).symm
      · exact pathTree_joined ha hab hb h hc hj
    · exact (hu i j).2 fun hJ => hij (pathTree_edges ha hab hb h hc hJ)
  have hcount : ∀ i < n, (flattenEdges E).count i =
      (if 1 ≤ i then 1 else 0) + (if i + 1 < n then 1 else 0) := by
    intro i hi
    rw [← sum_und (spanning_valid h) i]
    have h1 : ∀ j ∈ Finset.range n, und E i j =
        (if j = i - 1 then (if 1 ≤ i then 1 else 0) else 0) + (if j = i + 1 then 1 else 0) := by
      intro j hj
      rw [hval i j hi (by simpa using hj)]
      split_ifs <;> omega
    rw [Finset.sum_congr rfl h1, Finset.sum_add_distrib, Finset.sum_ite_eq', Finset.sum_ite_eq']
    simp only [Finset.mem_range]
    rw [if_pos (by omega)]
  refine (List.perm_ext_iff_of_nodup (List.nodup_range.filter _) ?_).mpr fun i => ?_
  · simp; omega
  · refine (mem_oddSet : i ∈ oddSet n E ↔ _).trans ?_
    simp only [List.mem_cons, List.not_mem_nil, or_false]
    constructor
    · rintro ⟨h1, h2⟩
      rw [hcount i h1] at h2
      split_ifs at h2 <;> omega
    · intro h1
      have hi : i < n := by omega
      refine ⟨hi, ?_⟩
      rw [hcount i hi]
      split_ifs <;> omega

/-! ## a short tour -/

/-- the odd cities below `2 k`, downwards -/
def downOdd : Nat → List Nat
  | 0 => []
  | k + 1 => (2 * k + 1) :: downOdd k

/-- every second city from `s` on, `j` times, and back along the odd cities below `2 k` -/
def upDown (k : Nat) : Nat → Nat → List Nat
  | s, 0 => s :: downOdd k
  | s, j + 1 => s :: upDown k (s + 2) j

/-- up the even cities `0, …, 2 k`, down the odd ones -/
def zigzag (k : Nat) : List Nat := upDown k 0 k

omit ha hab hb

theorem mem_downOdd {k x : Nat} : x ∈ downOdd k ↔ x % 2 = 1 ∧ x < 2 * k := by
  induction k with
  | zero => simp [downOdd]
  | succ k ih => rw [downOdd, List.mem_cons, ih]; omega

theorem nodup_downOdd (k : Nat) : (downOdd k).Nodup := by
  induction k with
  | zero => simp [downOdd]
  | succ k ih => rw [downOdd, List.nodup_cons, mem_downOdd]; exact ⟨by omega, ih⟩

theorem mem_upDown {k x : Nat} : ∀ {j s : Nat}, x ∈ upDown k s j ↔
    x ∈ downOdd k ∨ (s ≤ x ∧ x ≤ s + 2 * j ∧ (x - s) % 2 = 0)
  | 0, s => by rw [upDown, List.mem_cons]; by_cases h : x ∈ downOdd k <;> simp [h]; omega
  | j + 1, s => by
    rw [upDown, List.mem_cons, mem_upDown]
    by_cases h : x ∈ downOdd k
    · simp [h]
    · simp only [h, false_or]; omega

theorem nodup_upDown (k : Nat) : ∀ (j s : Nat), s % 2 = 0 → (upDown k s j).Nodup
  | 0, s, hs => by
    rw [upDown, List.nodup_cons, mem_downOdd]
    exact ⟨by omega, nodup_downOdd k⟩
  | j + 1, s, hs => by
    rw [upDown, List.nodup_cons, mem_upDown, mem_downOdd]
    exact ⟨by omega, nodup_upDown k j (s + 2) (by omega)⟩

theorem zigzag_tour (k : Nat) : IsTour (2 * k + 1) (zigzag k) := by
  rw [isTour_iff]
  refine ⟨nodup_upDown k k 0 rfl, fun i => ?_⟩
  rw [zigzag, mem_upDown, mem_downOdd]
  omega

theorem downOdd_cost (a b : K) : ∀ k, pathCost (pathC a b) (downOdd (k + 1) ++ [0]) = k * b + a
  | 0 => by simp [downOdd, pathC, gapLen]
  | k + 1 => by
    have h1 : pathC a b (2 * (k + 1) + 1) (2 * k + 1) = b := by
      unfold pathC
      rw [show 2 * (k + 1) + 1 - (2 * k + 1) + (2 * k + 1 - (2 * (k + 1) + 1)) = 2 by omega]
      simp [gapLen]
    have h2 := downOdd_cost a b k
    rw [downOdd, List.cons_append] at h2
    rw [downOdd, downOdd, List.cons_append, List.cons_append, pathCost_cons₂, h2, h1]
    push_cast
    ring

theorem upDown_cost (a b : K) (k : Nat) : ∀ j s, s + 2 * j = 2 * (k + 1) →
    pathCost (pathC a b) (upDown (k + 1) s j ++ [0]) = j * b + a + (k * b + a)
  | 0, s, h => by
    have h1 : pathC a b s (2 * k + 1) = a := by
      unfold pathC
      rw [show s - (2 * k + 1) + (2 * k + 1 - s) = 1 by omega]
      simp [gapLen]
    have h2 := downOdd_cost a b k
    rw [downOdd, List.cons_append] at h2
    rw [upDown, downOdd, List.cons_append, List.cons_append, pathCost_cons₂, h2, h1]
    push_cast
    ring
  | j + 1, s, h => by
    have h1 : pathC a b s (s + 2) = b := by
      unfold pathC
      rw [show s - (s + 2) + (s + 2 - s) = 2 by omega]
      simp [gapLen]
    have h2 := upDown_cost a b k j (s + 2) (by omega)
    obtain ⟨t, ht⟩ : ∃ t, upDown (k + 1) (s + 2) j = (s + 2) :: t := by cases j <;> exact ⟨_, rfl⟩
    rw [ht, List.cons_append] at h2
    rw [upDown, ht, List.cons_append, List.cons_append, pathCost_cons₂, h2, h1]
    push_cast
    ring

theorem zigzag_cost (a b : K) (k : Nat) : tourCost (pathC a b) (zigzag (k + 1)) = (2 * k + 1) * b + 2 * a := by
  have h := upDown_cost a b k (k + 1) 0 (by omega)
  have e : tourCost (pathC a b) (zigzag (k + 1)) = pathCost (pathC a b) (upDown (k + 1) 0 (k + 1) ++ [0]) := rfl
  rw [e, h]
  push_cast
  ring

end family

end Walky
