import Verif.Lemmas.Christofides
import Verif.Lemmas.NearestNeighbour
import Mathlib.Data.Nat.Log

/-! # How far lower bounds and nearest neighbour tours are from the optimum on metrics -/

namespace Walky

open FloatOps XNum Spec

variable {K : Type} [Field K] [LinearOrder K] [IsStrictOrderedRing K]

/-- walking around a spanning tree: there is a tour of at most twice its weight -/
theorem double_tree {n : Nat} {c : Nat → Nat → K} (hn : 1 ≤ n) (hmet : Metric n c)
    {E : List (Nat × Nat)} (hE : IsSpanningTree (List.range n) E) :
    ∃ p, IsTour n p ∧ tourCost c p ≤ 2 * edgeSum c E := by
  classical
  obtain ⟨p, -, h2, -, h4⟩ := tail_cost_even (m := Mat.ofFun n c) (rep_ofFun n c) hn hmet hE
    (spanning_valid hE) (by
      intro i _
      rw [flatten_append, List.count_append]
      exact ⟨_, rfl⟩)
    (g := ⟨n, fun i j => (fin (c i j), if Joined E i j then 1 + und E i j else und E i j)⟩) rfl
    (by
      intro i j _ _
      refine ⟨fun h => ?_, fun h => ?_⟩
      · simp [MGraph.times, h]
      · simp [MGraph.times, h]) false
  exact ⟨p, h2, by linarith⟩

/-! ## nearest neighbour -/

/-- the longer end of each edge -/
def longer (l : Nat → K) (M : List (Nat × Nat)) : List Nat :=
  M.map fun e => if l e.1 ≤ l e.2 then e.2 else e.1

omit [Field K] [IsStrictOrderedRing K] in
theorem longer_sublist (l : Nat → K) (M : List (Nat × Nat)) : (longer l M).Sublist (ends M) := by
  induction M with
  | nil => exact .slnil
  | cons e M ih =>
    have hcons : ends (e :: M) = [e.1, e.2] ++ ends M := rfl
    rw [hcons]
    show ([if l e.1 ≤ l e.2 then e.2 else e.1] ++ longer l M).Sublist _
    refine List.Sublist.append ?_ ih
    split <;> simp

theorem longer_sum {l : Nat → K} {c : Nat → Nat → K} : ∀ {M : List (Nat × Nat)},
    (∀ e ∈ M, min (l e.1) (l e.2) ≤ c e.1 e.2) →
    ((ends M).map l).sum ≤ edgeSum c M + ((longer l M).map l).sum := by
  intro M
  induction M with
  | nil => intro _; simp [ends, edgeSum, longer]
  | cons e M ih =>
    intro h
    have h1 := ih fun f hf => h f (by simp [hf])
    have h2 := h e (by simp)
    have hcons : ends (e :: M) = e.1 :: e.2 :: ends M := rfl
    rw [hcons, edgeSum_cons]
    have h3 : longer l (e :: M) = (if l e.1 ≤ l e.2 then e.2 else e.1) :: longer l M := rfl
    rw [h3]
    simp only [List.map_cons, List.sum_cons]
    split
    · rename_i hle
      rw [min_eq_left hle] at h2
      linarith
    · rename_i hle
      rw [min_eq_right (le_of_lt (not_le.mp hle))] at h2
      linarith

omit [IsStrictOrderedRing K] [LinearOrder K] [Field K] in
theorem length_ends (M : List (Nat × Nat)) : (ends M).length = 2 * M.length := by
  induction M with
  | nil => rfl
  | cons e M ih =>
    have hcons : ends (e :: M) = e.1 :: e.2 :: ends M := rfl
    rw [hcons]
    simp only [List.length_cons, ih]
    omega

/-- Halving: a bound for the sum of the lengths of the edges that leave the cities of a set. -/
theorem leave_sum {n : Nat} {c : Nat → Nat → K} (hmet : Metric n c) {q : List Nat} (hq : IsTour n q)
    {l : Nat → K} (h1 : ∀ a b, a < n → b < n → a ≠ b → min (l a) (l b) ≤ c a b)
    (h2 : ∀ a, a < n → 2 * l a ≤ tourCost c q) : ∀ (s : Nat) (V : List Nat), V.Nodup →
      (∀ v ∈ V, v < n) → V.length = s → 1 ≤ s →
      2 * (V.map l).sum ≤ (Nat.clog 2 s + 1 : ℕ) * tourCost c q := by
  intro s
  induction s using Nat.strong_induction_on with
  | _ s ih =>
    intro V hV hVn hlen hs
    by_cases hs1 : s = 1
    · subst hs1
      obtain ⟨v, rfl⟩ := List.length_eq_one_iff.mp hlen
      have := h2 v (hVn v (by simp))
      simpa using this
    have hclog : Nat.clog 2 s = Nat.clog 2 ((s + 1) / 2) + 1 := by
      rw [Nat.clog_of_two_le (by norm_num) (by omega), show s + 2 - 1 = s + 1 by omega]
    have key : ∀ W rest : List Nat, V = rest ++ W → rest.length = s % 2 →
        2 * (V.map l).sum ≤ (Nat.clog 2 s + 1 : ℕ) * tourCost c q := by
      intro W rest hW hrest
      have hVl : V.length = rest.length + W.length := by rw [hW, List.length_append]
      have hWn : W.Nodup := (List.nodup_append.mp (hW ▸ hV)).2.1
      have hWlt : ∀ v ∈ W, v < n := fun v hv => hVn v (by rw [hW]; simp [hv])
      obtain ⟨M, m1, m2⟩ := half_tour hmet hq hWn hWlt (by omega)
      have hMlen : 2 * M.length = W.length := by rw [← length_ends, m1.length_eq]
      have hMe : ∀ e ∈ M, e.1 < n ∧ e.2 < n ∧ e.1 ≠ e.2 := by
        intro e he
        have hnd : (ends M).Nodup := m1.nodup_iff.mpr hWn
        refine ⟨hWlt _ (m1.subset ?_), hWlt _ (m1.subset ?_), ?_⟩
        · exact List.mem_flatMap.mpr ⟨e, he, by simp⟩
        · exact List.mem_flatMap.mpr ⟨e, he, by simp⟩
        · have hsub : [e.1, e.2].Sublist (ends M) := by
            obtain ⟨A, B, rfl⟩ := List.append_of_mem he
            have : ends (A ++ e :: B) = ends A ++ ([e.1, e.2] ++ ends B) := by simp [ends]
            rw [this]
            exact (List.sublist_append_left _ _).trans (List.sublist_append_right _ _)
          simpa using hnd.sublist hsub
      have hsum := longer_sum (l := l) (c := c) (M := M) fun e he =>
        h1 _ _ (hMe e he).1 (hMe e he).2.1 (hMe e he).2.2
      have hpermsum : ((ends M).map l).sum = (W.map l).sum := (m1.map l).sum_eq
      have hlg : (longer l M).length = M.length := by simp [longer]
      have hsub : ∀ v ∈ longer l M, v ∈ W := fun v hv => m1.subset ((longer_sublist l M).subset hv)
      have hrec := ih ((s + 1) / 2) (by omega) (rest ++ longer l M)
        (by
          have h0 : (rest ++ W).Nodup := hW ▸ hV
          obtain ⟨n1, -, n3⟩ := List.nodup_append.mp h0
          exact List.nodup_append.mpr ⟨n1, (m1.nodup_iff.mpr hWn).sublist (longer_sublist l M),
            fun x hx y hy => n3 x hx y (hsub y hy)⟩)
        (by
          intro v hv
          rcases List.mem_append.mp hv with hv | hv
          · exact hVn v (by rw [hW]; simp [hv])
          · exact hWlt v (hsub v hv))
        (by rw [List.length_append, hlg]; omega) (by omega)
      rw [hclog]
      have e1 : (V.map l).sum = (rest.map l).sum + (W.map l).sum := by rw [hW]; simp
      have e2 : ((rest ++ longer l M).map l).sum = (rest.map l).sum + ((longer l M).map l).sum := by simp
      rw [e2] at hrec
      rw [e1, ← hpermsum]
      push_cast at hrec ⊢
      linarith
    refine key (V.drop (s % 2)) (V.take (s % 2)) (List.take_append_drop _ _).symm ?_
    rw [List.length_take]
    omega

/-- the city after `v` on the tour `p`, which starts at `a` -/
def after (p : List Nat) (a v : Nat) : Nat := (p ++ [a])[p.idxOf v + 1]?.getD 0

omit [LinearOrder K] [IsStrictOrderedRing K] in
theorem pathCost_after {c : Nat → Nat → K} (a : Nat) : ∀ {p : List Nat}, p.Nodup →
    pathCost c (p ++ [a]) = (p.map fun v => c v (after p a v)).sum := by
  intro p
  induction p with
  | nil => intro _; simp
  | cons x t ih =>
    intro h
    obtain ⟨hx, ht⟩ := List.nodup_cons.mp h
    have hcons : pathCost c (x :: t ++ [a]) = c x (after (x :: t) a x) + pathCost c (t ++ [a]) := by
      cases t with
      | nil => simp [after]
      | cons y t => simp [after]
    rw [hcons, ih ht, List.map_cons, List.sum_cons]
    congr 2
    apply List.map_congr_left
    intro v hv
    have hne : x ≠ v := fun e => hx (e ▸ hv)
    unfold after
    rw [List.idxOf_cons_ne _ hne]
    simp

omit [LinearOrder K] [Field K] [IsStrictOrderedRing K] in
theorem after_lt {n : Nat} {p : List Nat} (hp : IsTour n p) {a : Nat} (ha : a < n) {v : Nat} (hv : v < n) :
    after p a v < n := by
  have hlen : p.length = n := hp.length
  have hv' : p.idxOf v < p.length := List.idxOf_lt_length_iff.mpr (hp.mem.mpr hv)
  unfold after
  rw [List.getElem?_eq_getElem (by simp; omega), Option.getD_some]
  have : (p ++ [a])[p.idxOf v + 1]'(by simp; omega) ∈ p ++ [a] := List.getElem_mem _
  rcases List.mem_append.mp this with h | h
  · exact hp.mem.mp h
  · simp at h; omega

/-- tours of a metric are not negative -/
theorem tour_nonneg {n : Nat} {d : Nat → Nat → K} (hmet : Metric n d) {q : List Nat} (hq : IsTour n q) :
    0 ≤ tourCost d q := by
  obtain ⟨M, m1, m2⟩ := half_tour hmet hq (V := []) (by simp) (by simp) rfl
  have : M = [] := by
    have := m1.length_eq
    rw [length_ends] at this
    exact List.length_eq_zero_iff.mp (by simpa using this)
  subst this
  simpa [edgeSum] using m2

/-- in a metric every distance is at most half of every tour -/
theorem edge_half {n : Nat} {d : Nat → Nat → K} (hmet : Metric n d) {q : List Nat} (hq : IsTour n q)
    {x y : Nat} (hx : x < n) (hy : y < n) : 2 * d x y ≤ tourCost d q := by
  by_cases hxy : x = y
  · rw [hxy, hmet.diag y hy, mul_zero]
    exact tour_nonneg hmet hq
  obtain ⟨M, m1, m2⟩ := half_tour hmet hq (V := [x, y]) (by simpa using hxy) (by simp [hx, hy]) (by simp)
  have hM : edgeSum d M = d x y := by
    have hl : 2 * M.length = 2 := by rw [← length_ends, m1.length_eq]; rfl
    obtain ⟨e, rfl⟩ := List.length_eq_one_iff.mp (show M.length = 1 by omega)
    have h1 : [e.1, e.2].Perm [x, y] := m1
    simp only [edgeSum, List.map_cons, List.map_nil, List.sum_cons, List.sum_nil, add_zero]
    have hx1 : e.1 = x ∨ e.1 = y := by simpa using h1.subset (show e.1 ∈ [e.1, e.2] by simp)
    have hx2 : e.2 = x ∨ e.2 = y := by simpa using h1.subset (show e.2 ∈ [e.1, e.2] by simp)
    have hnd : [e.1, e.2].Nodup := h1.nodup_iff.mpr (by simpa using hxy)
    have hne : e.1 ≠ e.2 := by simpa using hnd
    rcases hx1 with h | h <;> rcases hx2 with h' | h'
    · exact absurd (h.trans h'.symm) hne
    · rw [h, h']
    · rw [h, h']; exact hmet.symm y x hy hx
    · exact absurd (h.trans h'.symm) hne
  rw [← hM]
  exact m2

/-- in a metric every tour is at most `n / 2` times as long as every other -/
theorem tour_ratio {n : Nat} {d : Nat → Nat → K} (hmet : Metric n d) {p q : List Nat} (hp : IsTour n p)
    (hq : IsTour n q) : 2 * tourCost d p ≤ n * tourCost d q := by
  cases p with
  | nil =>
    have hT := tour_nonneg hmet hq
    have h0 : tourCost d [] = 0 := rfl
    rw [h0, mul_zero]
    exact mul_nonneg (Nat.cast_nonneg _) hT
  | cons a t =>
    have ha : a < n := hp.mem.mp (by simp)
    rw [tourCost_cons, pathCost_after a hp.nodup, ← hp.length]
    have hlt : ∀ v ∈ a :: t, v < n := fun v hv => hp.mem.mp hv
    have key : ∀ l : List Nat, (∀ v ∈ l, v < n) →
        2 * (l.map fun v => d v (after (a :: t) a v)).sum ≤ l.length * tourCost d q := by
      intro l
      induction l with
      | nil => intro _; simp
      | cons x l ih =>
        intro h
        have h1 := ih fun v hv => h v (List.mem_cons_of_mem _ hv)
        have hx := h x (List.mem_cons_self ..)
        have h2 := edge_half hmet hq hx (after_lt hp ha hx)
        rw [List.map_cons, List.sum_cons, List.length_cons]
        push_cast
        linarith
    exact key _ hlt

/-- A greedy tour for the costs `c` is within `A (⌈log₂ n⌉ + 1) / 2` of every tour of a metric `d` with
`c ≤ A d`. -/
theorem greedy_ratio_near {n : Nat} {c d : Nat → Nat → K} (hmet : Metric n d) (hn : 1 ≤ n) {A : K}
    (hA : 0 < A) (hsym : ∀ i j, i < n → j < n → i ≠ j → c i j = c j i)
    (hle : ∀ i j, i < n → j < n → i ≠ j → c i j ≤ A * d i j) (h1 : n = 1 → c 0 0 ≤ 0) {p : List Nat}
    (hp : IsTour n p) (hg : Greedy n c p) {q : List Nat} (hq : IsTour n q) :
    2 * tourCost c p ≤ A * ((Nat.clog 2 n + 1 : ℕ) * tourCost d q) := by
  obtain ⟨a, t, rfl⟩ : ∃ a t, p = a :: t := by
    cases p with
    | nil => have := hp.length; simp at this; omega
    | cons a t => exact ⟨a, t, rfl⟩
  set p := a :: t with hpdef
  have ha : a < n := hp.mem.mp (by simp [hpdef])
  have hlen : p.length = n := hp.length
  rw [hpdef, tourCost_cons, ← hpdef, pathCost_after a hp.nodup]
  have hafter : ∀ v, v < n → after p a v < n := fun v hv => after_lt hp ha hv
  have hpair : ∀ x y, x < n → y < n → x ≠ y → 2 * d x y ≤ tourCost d q :=
    fun x y hx hy _ => edge_half hmet hq hx hy
  have hT : 0 ≤ tourCost d q := tour_nonneg hmet hq
  have hone : ∀ v w, v < n → w < n → p.idxOf v < p.idxOf w → c v (after p a v) ≤ c v w := by
    intro v w hv hw hlt
    have hw' : p.idxOf w < p.length := List.idxOf_lt_length_iff.mpr (hp.mem.mpr hw)
    set i := p.idxOf v with hi
    have hgi : p[i]'(by omega) = v := List.getElem_idxOf _
    have hgj : p[p.idxOf w] = w := List.getElem_idxOf _
    have hsplit : p = p.take i ++ v :: p[i + 1]'(by omega) :: p.drop (i + 2) := by
      conv_lhs => rw [← List.take_append_drop i p]
      rw [List.drop_eq_getElem_cons (by omega), hgi, List.drop_eq_getElem_cons (by omega)]
    have haft : after p a v = p[i + 1]'(by omega) := by
      unfold after
      rw [← hi, List.getElem?_eq_getElem (by simp; omega), Option.getD_some, List.getElem_append_left]
    rw [haft]
    refine (hg _ _ _ _ hsplit w hw ?_ ?_).1
    · intro hmem
      obtain ⟨k, hk, hkw⟩ := List.mem_take_iff_getElem.mp hmem
      have : p.idxOf w = k := by
        rw [← hkw]
        exact hp.nodup.idxOf_getElem _ _
      omega
    · rintro rfl
      omega
  have hmain := leave_sum hmet hq (l := fun v => c v (after p a v) / A) (by
      intro x y hx hy hxy
      have hne : p.idxOf x ≠ p.idxOf y := fun e => hxy (by
        have hx' : p.idxOf x < p.length := List.idxOf_lt_length_iff.mpr (hp.mem.mpr hx)
        have hy' : p.idxOf y < p.length := List.idxOf_lt_length_iff.mpr (hp.mem.mpr hy)
        have e1 : p[p.idxOf x] = x := List.getElem_idxOf _
        have e2 : p[p.idxOf y] = y := List.getElem_idxOf _
        rw [← e1, ← e2]
        simp only [e])
      rcases lt_or_gt_of_ne hne with h | h
      · refine (min_le_left _ _).trans ((div_le_iff₀' hA).mpr ?_)
        exact (hone x y hx hy h).trans (hle x y hx hy hxy)
      · refine (min_le_right _ _).trans ((div_le_iff₀' hA).mpr ?_)
        refine (hone y x hy hx h).trans ?_
        rw [← hsym x y hx hy hxy]
        exact hle x y hx hy hxy)
    (by
      intro v hv
      by_cases hvv : v = after p a v
      · have hn1 : n = 1 := by
          by_contra hne1
          have hv' : p.idxOf v < p.length := List.idxOf_lt_length_iff.mpr (hp.mem.mpr hv)
          have hgi : p[p.idxOf v] = v := List.getElem_idxOf _
          unfold after at hvv
          rw [List.getElem?_eq_getElem (by simp; omega), Option.getD_some] at hvv
          by_cases hlast : p.idxOf v + 1 < p.length
          · rw [List.getElem_append_left hlast] at hvv
            have := (List.Nodup.getElem_inj_iff hp.nodup).mp (hgi.trans hvv)
            omega
          · rw [List.getElem_append_right (by omega)] at hvv
            simp only [List.getElem_singleton] at hvv
            have h0 : p.idxOf v = 0 := by rw [hvv, hpdef]; simp
            omega
        have hv0 : v = 0 := by omega
        have h0 : c v (after p a v) / A ≤ 0 := by
          rw [← hvv, hv0]
          exact div_nonpos_of_nonpos_of_nonneg (h1 hn1) hA.le
        linarith
      · have h2 := hpair _ _ hv (hafter v hv) hvv
        have h3 : c v (after p a v) / A ≤ d v (after p a v) :=
          (div_le_iff₀' hA).mpr (hle _ _ hv (hafter v hv) hvv)
        linarith)
    n p hp.nodup (fun v hv => hp.mem.mp hv) hlen hn
  have hdiv : ∀ (f : Nat → K) (L : List Nat), (L.map fun v => f v / A).sum = (L.map f).sum / A := by
    intro f L
    induction L with
    | nil => simp
    | cons x t ih => rw [List.map_cons, List.map_cons, List.sum_cons, List.sum_cons, ih, add_div]
  have hsum := hdiv (fun v => c v (after p a v)) p
  rw [hsum] at hmain
  have := mul_le_mul_of_nonneg_left hmain hA.le
  rw [show A * (2 * ((p.map fun v => c v (after p a v)).sum / A)) = 2 * (p.map fun v => c v (after p a v)).sum by
    field_simp] at this
  exact this

/-- A greedy tour is within `(⌈log₂ n⌉ + 1) / 2` of every tour. -/
theorem greedy_ratio {n : Nat} {c : Nat → Nat → K} (hmet : Metric n c) (hn : 1 ≤ n) {p : List Nat}
    (hp : IsTour n p) (hg : Greedy n c p) {q : List Nat} (hq : IsTour n q) :
    2 * tourCost c p ≤ (Nat.clog 2 n + 1 : ℕ) * tourCost c q := by
  have := greedy_ratio_near hmet hn one_pos (fun i j hi hj _ => hmet.symm i j hi hj)
    (fun i j _ _ _ => (one_mul (c i j)).ge) (fun _ => (hmet.diag 0 (by omega)).le) hp hg hq
  rwa [one_mul] at this

end Walky
