import Verif.Props.Exact
import Verif.Props.FirstBest
import Verif.Props.Monotone
import Verif.Props.Threaded
import Verif.Props.StaticMpi
import Verif.Props.DynamicMpi
import Verif.Props.Christofides
import Verif.Lemmas.Renumber
import Verif.Lemmas.PythonNN

/-!
# Charges at the cities (C116)

The second instance has the cities of the first one, and every road that ends at city `i` costs `t i` more.
-/

set_option linter.unusedSectionVars false

namespace Walky.Props

open XNum Spec

variable {K : Type} [Field K] [LinearOrder K] [IsStrictOrderedRing K]

/-- the roads of `c'` are those of `c` with a charge `t i` for every road that ends at city `i` -/
def Charged (n : Nat) (t : Nat → K) (c c' : Nat → Nat → K) : Prop :=
  ∀ i j, i < n → j < n → i ≠ j → c' i j = c i j + (t i + t j)

private theorem pathCost_charged {n : Nat} {t : Nat → K} {c c' : Nat → Nat → K} (h : Charged n t c c') :
    ∀ (p : List Nat) (a : Nat), (∀ i ∈ a :: p, i < n) → (a :: p).Nodup →
      pathCost c' (a :: p) + (t a + t ((a :: p).getLast (by simp))) =
        pathCost c (a :: p) + 2 * ((a :: p).map t).sum := by
  intro p
  induction p with
  | nil => intro a _ _; simp [pathCost]; ring
  | cons b p ih =>
    intro a ha hd
    have h1 := ih b (fun i hi => ha i (List.mem_cons_of_mem _ hi)) hd.of_cons
    have hab : a ≠ b := by
      rintro rfl
      simp at hd
    have h2 := h a b (ha a (by simp)) (ha b (by simp)) hab
    simp only [pathCost, List.map_cons, List.sum_cons, List.getLast_cons_cons] at h1 ⊢
    rw [h2]
    linear_combination h1

private theorem tourCost_charged {n : Nat} {t : Nat → K} {c c' : Nat → Nat → K} (h : Charged n t c c')
    (hn : 2 ≤ n) {p : List Nat} (hp : IsTour n p) :
    tourCost c' p = tourCost c p + 2 * ((List.range n).map t).sum := by
  have hl := hp.length
  cases p with
  | nil => simp at hl; omega
  | cons a p =>
    have h1 := pathCost_charged h p a (fun i hi => hp.mem.mp hi) hp.nodup
    have hs : ((a :: p).map t).sum = ((List.range n).map t).sum := (hp.map t).sum_eq
    have hne : a :: p ≠ [] := by simp
    have h2 := h ((a :: p).getLast hne) a (hp.mem.mp (List.getLast_mem hne))
      (hp.mem.mp (by simp)) (by
        intro e
        rw [List.getLast_eq_getElem] at e
        have e : (a :: p)[(a :: p).length - 1]'(by simp) = (a :: p)[0] := e
        have := (hp.nodup.getElem_inj_iff).mp e
        omega)
    rw [tourCost_eq c _ hne, tourCost_eq c' _ hne]
    simp only [List.head_cons]
    rw [h2, ← hs]
    linear_combination h1

private theorem lexFirst_charged {n : Nat} {t : Nat → K} {c c' : Nat → Nat → K} (h : Charged n t c c')
    (hn : 2 ≤ n) {P : List Nat → Prop} {p : List Nat} (hp : LexFirst n c P p) : LexFirst n c' P p := by
  refine ⟨hp.1, hp.2.1, fun q hq hP => ?_⟩
  rw [tourCost_charged h hn hp.1, tourCost_charged h hn hq]
  rcases hp.2.2 q hq hP with a | ⟨a, b⟩
  · exact Or.inl (by linarith)
  · exact Or.inr ⟨by rw [a], b⟩

/-- **C116, exact solvers.** With charges at the cities v0, v1, v2 and v3 return the same tour as without, and its
length grows by twice the sum of the charges. -/
theorem C116_exact {m m' : Mat (XNum K)} {c c' : Nat → Nat → K} (hm : Rep m c) (hm' : Rep m' c')
    (hd : m'.dim = m.dim) {t : Nat → K} (h : Charged m.dim t c c') (hn : 2 ≤ m.dim) :
    (∃ w p, naiveSolver m = .ok (fin w, p) ∧
      naiveSolver m' = .ok (fin (w + 2 * ((List.range m.dim).map t).sum), p)) ∧
    (3 ≤ m.dim → ∃ w p, firstImprovedSolver m = .ok (fin w, p) ∧
      firstImprovedSolver m' = .ok (fin (w + 2 * ((List.range m.dim).map t).sum), p)) ∧
    (∃ w p, secondImprovedSolver m = .ok (fin w, p) ∧
      secondImprovedSolver m' = .ok (fin (w + 2 * ((List.range m.dim).map t).sum), p)) ∧
    (Nonneg m.dim c → Nonneg m.dim c' → ∃ w p, thirdImprovedSolver m = .ok (fin w, p) ∧
      thirdImprovedSolver m' = .ok (fin (w + 2 * ((List.range m.dim).map t).sum), p)) := by
  have key : ∀ {P : List Nat → Prop} {r r' : RM (Solution (XNum K))},
      (∃ p, r = .ok (fin (tourCost c p), p) ∧ LexFirst m.dim c P p) →
      (∃ p, r' = .ok (fin (tourCost c' p), p) ∧ LexFirst m.dim c' P p) →
      ∃ w p, r = .ok (fin w, p) ∧ r' = .ok (fin (w + 2 * ((List.range m.dim).map t).sum), p) := by
    rintro P r r' ⟨p, a, b⟩ ⟨p', a', b'⟩
    have e := LexFirst.unique (lexFirst_charged h hn b) b' b'.2.1 b.2.1
    subst e
    exact ⟨_, p, a, by rw [a', tourCost_charged h hn b.1]⟩
  have h2 := key (C113_v2 m c hm (by omega)) (hd ▸ C113_v2 m' c' hm' (by omega))
  refine ⟨key (C113_v0 m c hm hn) (hd ▸ C113_v0 m' c' hm' (by omega)), fun h3 =>
    key (C113_v1 m c hm h3) (hd ▸ C113_v1 m' c' hm' (by omega)), h2, fun hz hz' => ?_⟩
  rw [C113_v3 m c hm (by omega) hz (by omega), C113_v3 m' c' hm' (by omega) (by rw [hd]; exact hz')
    (by omega)]
  exact h2

/-- **C116, bounds.** If every road costs `d` more, the weight of the spanning tree and the 1-tree bound grow
by `d` for every edge. -/
theorem C116_bounds {m m' : Mat (XNum K)} {c c' : Nat → Nat → K} (hm : Rep m c) (hm' : Rep m' c')
    (hd : m'.dim = m.dim) {d : K} (h : ∀ i j, i < m.dim → j < m.dim → i ≠ j → c' i j = c i j + d)
    (hs : Symm m.dim c) (hs' : Symm m.dim c') :
    (1 ≤ m.dim → ∃ g g' w, primSeq m [] = .ok g ∧ primSeq m' [] = .ok g' ∧
      g.undirectedEdgeWeight = fin w ∧ g'.undirectedEdgeWeight = fin (w + (m.dim - 1 : Nat) * d)) ∧
    (3 ≤ m.dim → ∃ w, oneTreeLbSeq m = .ok (fin w) ∧ oneTreeLbSeq m' = .ok (fin (w + m.dim * d))) := by
  have up : ∀ i j, i < m.dim → j < m.dim → i ≠ j → c i j ≤ c' i j + -d := by
    intro i j hi hj hij
    rw [h i j hi hj hij]
    linarith
  have down : ∀ i j, i < m'.dim → j < m'.dim → i ≠ j → c' i j ≤ c i j + d := by
    intro i j hi hj hij
    rw [h i j (hd ▸ hi) (hd ▸ hj) hij]
  constructor
  · intro hn
    obtain ⟨g, g', w, w', a, a', b, b', l⟩ := C109_mst hm hm' hd up hn hs hs'
    obtain ⟨f', f, v', v, k', k, e', e, l'⟩ := C109_mst hm' hm hd.symm down (hd ▸ hn)
      (by rw [hd]; exact hs') (by rw [hd]; exact hs)
    rw [a] at k; rw [a'] at k'
    cases k; cases k'
    rw [b] at e; rw [b'] at e'
    cases e; cases e'
    rw [hd] at l'
    refine ⟨g, g', w, a, a', b, ?_⟩
    rw [b']
    exact congrArg fin (le_antisymm l' (by linarith))
  · intro hn
    obtain ⟨w, w', a, a', l⟩ := C109_one_tree hm hm' hd up hn hs hs'
    obtain ⟨v', v, k', k, l'⟩ := C109_one_tree hm' hm hd.symm down (hd ▸ hn)
      (by rw [hd]; exact hs') (by rw [hd]; exact hs)
    rw [a] at k; rw [a'] at k'
    cases k; cases k'
    rw [hd] at l'
    refine ⟨w, a, ?_⟩
    rw [a']
    have e : w' = w + m.dim * d := le_antisymm l' (by linarith)
    rw [e]

/-- **C116, nearest neighbour.** If every road costs `d` more, nearest neighbour finds the same tours. -/
theorem C116_nearest_neighbour {m m' : Mat (XNum K)} {c c' : Nat → Nat → K} (hm : Rep m c)
    (hm' : Rep m' c') (hd : m'.dim = m.dim) {d : K}
    (h : ∀ i j, i < m.dim → j < m.dim → i ≠ j → c' i j = c i j + d) (hn : 2 ≤ m.dim) :
    (∀ i, i < m.dim → ∃ w p, singleNN m i = .ok (fin w, p) ∧
      singleNN m' i = .ok (fin (w + m.dim * d), p)) ∧
    ∃ w, ∀ xs xs' : List Nat, xs.Perm (List.range m.dim) → xs'.Perm (List.range m.dim) →
      ∃ p p', nearestNeighbourSeq xs m = .ok (fin w, p) ∧
        nearestNeighbourSeq xs' m' = .ok (fin (w + m.dim * d), p') := by
  have hch : Charged m.dim (fun _ => d / 2) c c' := by
    intro i j hi hj hij
    rw [h i j hi hj hij]
    ring
  have hsum : ∀ {p}, IsTour m.dim p → tourCost c' p = tourCost c p + m.dim * d := by
    intro p hp
    rw [tourCost_charged hch hn hp]
    simp
    ring
  have hone : ∀ i, i < m.dim → ∃ w p, singleNN m i = .ok (fin w, p) ∧
      singleNN m' i = .ok (fin (w + m.dim * d), p) := by
    intro i hi
    obtain ⟨p, h1, h2, h3, h4⟩ := singleNN_exact hm hi
    obtain ⟨q, k1, k2, k3, k4⟩ := singleNN_exact hm' (i := i) (hd ▸ hi)
    rw [hd] at k2 k4
    have e : p = q := by
      refine greedy_unique h2 k2 (c := c') ?_ k4 h3 k3
      intro l x y r e z hz hzl hzx
      have hx : x < m.dim := h2.mem.mp (by rw [e]; simp)
      have hy : y < m.dim := h2.mem.mp (by rw [e]; simp)
      have hxy : x ≠ y := by
        have := h2.nodup
        rw [e] at this
        rintro rfl
        have := (List.nodup_append.mp this).2.1
        simp at this
      rw [h x y hx hy hxy, h x z hx hz (Ne.symm hzx)]
      obtain ⟨a, b⟩ := h4 l x y r e z hz hzl hzx
      exact ⟨by linarith, fun h => b (by linarith)⟩
    subst e
    exact ⟨_, p, h1, by rw [k1, hsum h2]⟩
  refine ⟨hone, ?_⟩
  obtain ⟨w, ⟨i, hi, p, h1⟩, h2, h3⟩ := C39_nearest_neighbour hm (by omega)
  obtain ⟨w', ⟨i', hi', p', h1'⟩, h2', h3'⟩ := C39_nearest_neighbour hm' (by omega)
  rw [hd] at hi' h2' h3'
  have hw : w' = w + m.dim * d := by
    apply le_antisymm
    · obtain ⟨x, q, a, b⟩ := hone i hi
      rw [h1] at a
      cases a
      exact h2' i hi _ _ b
    · obtain ⟨x, q, a, b⟩ := hone i' hi'
      rw [h1'] at b
      cases b
      have := h2 i' hi' _ _ a
      linarith
  refine ⟨w, fun xs xs' hx hx' => ?_⟩
  obtain ⟨p, a, -⟩ := h3 xs hx
  obtain ⟨p', a', -⟩ := h3' xs' hx'
  exact ⟨p, p', a, by rw [a', hw]⟩

/-- **C116, star-shaped instances.** If the length of every road is the sum of the charges at its ends, all tours
are equally long, and this is the length that is reported by all solvers: exact, threads, nearest neighbour,
Christofides, static MPI solver. -/
theorem C116_star {m : Mat (XNum K)} {c : Nat → Nat → K} (hm : Rep m c) (hn : 3 ≤ m.dim) {t : Nat → K}
    (h : ∀ i j, i < m.dim → j < m.dim → i ≠ j → c i j = t i + t j) {L : K}
    (hL : L = 2 * ((List.range m.dim).map t).sum) :
    (∀ (hash : List Nat → Nat) (r : RM (Solution (XNum K))), r ∈ [naiveSolver m, firstImprovedSolver m,
      secondImprovedSolver m, thirdImprovedSolver m, fourthImprovedSolver m, fifthImprovedSolver m,
      sixthImprovedSolver m hash] → ∃ p, r = .ok (fin L, p) ∧ IsTour m.dim p) ∧
    (∀ nT r, 1 ≤ nT → ThreadedResult m 3 nT r → r.1 = fin L ∧ IsTour m.dim r.2) ∧
    (∀ xs : List Nat, xs.Perm (List.range m.dim) →
      ∃ p, nearestNeighbourSeq xs m = .ok (fin L, p) ∧ IsTour m.dim p) ∧
    (∀ dbg r, (dbg = true → m.isMetric = true) → r.Ok →
      ∃ p, christofidesSeq dbg m r = .ok (fin L, p ++ [0]) ∧ IsTour m.dim p) ∧
    (∀ nW r, 1 ≤ nW → nW < m.dim → StaticResult m 3 nW r → ∃ p, r = .ok (fin L, p) ∧ IsTour m.dim p) := by
  have hch : Charged m.dim t (fun _ _ => 0) c := by
    intro i j hi hj hij
    rw [h i j hi hj hij, zero_add]
  have hz : ∀ p : List Nat, pathCost (fun _ _ => (0 : K)) p = 0 := by
    intro p
    induction p with
    | nil => rfl
    | cons a p ih =>
      cases p with
      | nil => rfl
      | cons b p => simpa [pathCost] using ih
  have hall : ∀ p, IsTour m.dim p → tourCost c p = L := by
    intro p hp
    rw [tourCost_charged hch (by omega) hp, hL]
    have : tourCost (fun _ _ => (0 : K)) p = 0 := by
      cases p with
      | nil => rfl
      | cons a p => exact hz _
    rw [this, zero_add]
  refine ⟨?_, ?_, ?_, ?_, ?_⟩
  · intro hash r hr
    simp only [List.mem_cons, List.not_mem_nil, or_false] at hr
    rcases hr with rfl | rfl | hr
    · obtain ⟨p, a, b⟩ := C113_v0 m c hm (by omega)
      exact ⟨p, by rw [a, hall p b.1], b.1⟩
    · obtain ⟨p, a, b⟩ := C113_v1 m c hm hn
      exact ⟨p, by rw [a, hall p b.1], b.1⟩
    · obtain ⟨p, a, b, -⟩ := C10_truthful m c hm (by omega) hash r hr
      exact ⟨p, by rw [a, hall p b], b⟩
  · intro nT r h1 hr
    obtain ⟨a, b⟩ := C19_threaded_tour_partial hm (by omega) h1 (by omega) hr
    exact ⟨by rw [b, hall _ a], a⟩
  · intro xs hx
    obtain ⟨w, -, -, k⟩ := C39_nearest_neighbour hm (by omega)
    obtain ⟨p, a, b, e⟩ := k xs hx
    exact ⟨p, by rw [a, e, hall p b], b⟩
  · intro dbg r hdbg hr
    obtain ⟨p, a, b, -⟩ := C41_christofides_seq hm (by omega) hdbg hr
    exact ⟨p, by rw [a, hall p b], b⟩
  · intro nW r h1 h2 hr
    obtain ⟨p, a, b⟩ := C23_static_few_workers_partial hm hn h1 h2 hr
    exact ⟨p, by rw [a, hall p b], b⟩

/-- **C116, three cities.** Three cities are always star-shaped: whatever the distances are, every solver reports the
sum of the three, and the 1-tree bound is the same number. -/
theorem C116_three_cities {m : Mat (XNum K)} {c : Nat → Nat → K} (hm : Rep m c) (hn : m.dim = 3)
    (hs : Symm 3 c) {L : K} (hL : L = c 0 1 + c 1 2 + c 0 2) :
    (∀ (hash : List Nat → Nat) (r : RM (Solution (XNum K))), r ∈ [naiveSolver m, firstImprovedSolver m,
      secondImprovedSolver m, thirdImprovedSolver m, fourthImprovedSolver m, fifthImprovedSolver m,
      sixthImprovedSolver m hash] → ∃ p, r = .ok (fin L, p) ∧ IsTour 3 p) ∧
    (∀ nT r, 1 ≤ nT → ThreadedResult m 3 nT r → r.1 = fin L ∧ IsTour 3 r.2) ∧
    (∀ xs : List Nat, xs.Perm (List.range 3) →
      ∃ p, nearestNeighbourSeq xs m = .ok (fin L, p) ∧ IsTour 3 p) ∧
    (∀ dbg r, (dbg = true → m.isMetric = true) → r.Ok →
      ∃ p, christofidesSeq dbg m r = .ok (fin L, p ++ [0]) ∧ IsTour 3 p) ∧
    (∀ nW r, 1 ≤ nW → nW < 3 → StaticResult m 3 nW r → ∃ p, r = .ok (fin L, p) ∧ IsTour 3 p) ∧
    oneTreeLbSeq m = .ok (fin L) := by
  have h01 := hs 0 1 (by omega) (by omega)
  have h02 := hs 0 2 (by omega) (by omega)
  have h12 := hs 1 2 (by omega) (by omega)
  let t : Nat → K := fun i => if i = 0 then (c 0 1 + c 0 2 - c 1 2) / 2 else
    if i = 1 then (c 0 1 + c 1 2 - c 0 2) / 2 else (c 0 2 + c 1 2 - c 0 1) / 2
  have ht : ∀ i j, i < m.dim → j < m.dim → i ≠ j → c i j = t i + t j := by
    intro i j hi hj hij
    rw [hn] at hi hj
    have e0 : t 0 = (c 0 1 + c 0 2 - c 1 2) / 2 := rfl
    have e1 : t 1 = (c 0 1 + c 1 2 - c 0 2) / 2 := rfl
    have e2 : t 2 = (c 0 2 + c 1 2 - c 0 1) / 2 := rfl
    interval_cases i <;> interval_cases j <;> first | exact absurd rfl hij | skip
    all_goals simp only [e0, e1, e2]
    all_goals (first | linarith)
  have hLs : L = 2 * ((List.range m.dim).map t).sum := by
    have e : (List.range m.dim).map t = [t 0, t 1, t 2] := by rw [hn]; rfl
    rw [e, hL]
    show _ = 2 * (t 0 + (t 1 + (t 2 + 0)))
    have e0 : t 0 = (c 0 1 + c 0 2 - c 1 2) / 2 := rfl
    have e1 : t 1 = (c 0 1 + c 1 2 - c 0 2) / 2 := rfl
    have e2 : t 2 = (c 0 2 + c 1 2 - c 0 1) / 2 := rfl
    rw [e0, e1, e2]
    ring
  obtain ⟨k1, k2, k3, k4, k5⟩ := C116_star hm (by omega) ht hLs
  rw [hn] at k1 k2 k3 k4 k5
  refine ⟨k1, k2, k3, k4, k5, ?_⟩
  have hsym : Symm m.dim c := by rw [hn]; exact hs
  obtain ⟨w, hw, hle⟩ := C34_one_tree_bound_partial hm hsym (by omega)
  rw [hw]
  have up : w ≤ L := by
    have := hle [0, 1, 2] (by rw [hn]; exact List.Perm.refl _)
    have e : tourCost c [0, 1, 2] = c 0 1 + (c 1 2 + (c 2 0 + 0)) := rfl
    rw [e, ← h02] at this
    rw [hL]
    linarith
  have down : L ≤ w := by
    obtain ⟨wt, w', h1, h2, h3⟩ := oneTreeLbSeq_exact hm hsym (by omega)
    rw [hw] at h2
    cases h2
    refine le_trans (le_of_eq ?_) (h3.2 (wt 0) (List.mem_map.mpr ⟨0, by simp [hn], rfl⟩))
    obtain ⟨g, E, a, b, g1, g2, -, ⟨ha, ha', hb, hb', hab⟩, -, -, g3⟩ :=
      oneTree_exact hm hsym (by omega) (v := 0) (by omega)
    have hl : E.length = 1 := by
      have := g2.count
      rw [hn] at this
      have e : (citiesExcept 3 [0]).length = 2 := rfl
      omega
    obtain ⟨⟨x, y⟩, rfl⟩ := List.length_eq_one_iff.mp hl
    obtain ⟨hx, hy, hxy⟩ := g2.ends (x, y) (by simp)
    simp only [mem_citiesExcept, List.mem_singleton, hn] at hx hy hxy
    have hwt := (h1 0 (by omega)).1
    unfold oneTreeWeight at hwt
    rw [g1, rm_bind_ok, g3.undirected (by
      intro e he
      simp only [List.cons_append, List.nil_append, List.mem_cons, List.not_mem_nil, or_false] at he
      rcases he with rfl | rfl | rfl
      · exact ⟨by omega, by omega⟩
      · exact ⟨by omega, ha⟩
      · exact ⟨by omega, hb⟩)] at hwt
    have hwt : edgeSum c ([(x, y)] ++ [(0, a), (0, b)]) = wt 0 :=
      fin.inj (Except.ok.inj hwt)
    have e : edgeSum c ([(x, y)] ++ [(0, a), (0, b)]) = c x y + (c 0 a + (c 0 b + 0)) := rfl
    rw [← hwt, e, hL]
    have hab' : c 0 a + c 0 b = c 0 1 + c 0 2 := by
      rcases (show a = 1 ∧ b = 2 ∨ a = 2 ∧ b = 1 by omega) with ⟨rfl, rfl⟩ | ⟨rfl, rfl⟩
      · rfl
      · exact add_comm _ _
    have hxy' : c x y = c 1 2 := by
      rcases (show x = 1 ∧ y = 2 ∨ x = 2 ∧ y = 1 by omega) with ⟨rfl, rfl⟩ | ⟨rfl, rfl⟩
      · rfl
      · exact h12.symm
    rw [hxy']
    linarith
  rw [le_antisymm up down]

/-- the distances `c` with a charge of `t i` for every road that ends at city `i` -/
def charge (t : Nat → ℚ) (c : Nat → Nat → ℚ) : Nat → Nat → ℚ := fun i j => c i j + (t i + t j)

/-- **C116, negation for v4 and v5.** The same charge everywhere changes their tours: with 1 for each of the six
roads v4 reports 14 instead of 11 + 6, and with 10 for each road v5 reports 74 instead of 8 + 60. -/
theorem C116_v4_v5_not :
    fourthImprovedSolver (Mat.ofFun 6 v4Short) = .ok (fin 11, [0, 3, 1, 4, 2, 5]) ∧
    fourthImprovedSolver (Mat.ofFun 6 (charge (fun _ => 1 / 2) v4Short)) =
      .ok (fin 14, [0, 3, 2, 4, 1, 5]) ∧
    fifthImprovedSolver (Mat.ofFun 6 v4Short) = .ok (fin 8, [0, 3, 2, 4, 1, 5]) ∧
    fifthImprovedSolver (Mat.ofFun 6 (charge (fun _ => 5) v4Short)) =
      .ok (fin 74, [0, 1, 3, 2, 4, 5]) := by
  refine ⟨by decide +kernel, by decide +kernel, by decide +kernel, by decide +kernel⟩

/-- **C116, negation for nearest neighbour.** A charge of 1 at one city only changes 13 into 14, not into 15, for all
shuffles of the start cities. -/
theorem C116_nearest_neighbour_not (xs xs' : List Nat) (hx : xs.Perm (List.range 4))
    (hx' : xs'.Perm (List.range 4)) : ∃ p p',
      nearestNeighbourSeq xs (Mat.ofFun 4 (nnRoad 2)) = .ok (fin 13, p) ∧
      nearestNeighbourSeq xs' (Mat.ofFun 4 (charge (fun i => if i = 0 then 1 else 0) (nnRoad 2))) =
        .ok (fin 14, p') := by
  have best : ∀ (c : Nat → Nat → ℚ) (v : ℚ) (p : List Nat),
      nearestNeighbourSeq (List.range 4) (Mat.ofFun 4 c) = .ok (fin v, p) →
      ∀ xs : List Nat, xs.Perm (List.range 4) → ∃ q,
        nearestNeighbourSeq xs (Mat.ofFun 4 c) = .ok (fin v, q) := by
    intro c v p hp xs hx
    obtain ⟨u, -, -, h⟩ := C39_nearest_neighbour (rep_ofFun 4 c) (by show 1 ≤ 4; decide)
    obtain ⟨q, a, -⟩ := h (List.range 4) (List.Perm.refl _)
    obtain ⟨q', b, -⟩ := h xs hx
    rw [hp] at a
    rw [fin.inj (congrArg Prod.fst (Except.ok.inj a))]
    exact ⟨q', b⟩
  obtain ⟨p, h⟩ := best (nnRoad 2) 13 [0, 1, 2, 3] (by decide +kernel) xs hx
  obtain ⟨p', h'⟩ := best (charge (fun i => if i = 0 then 1 else 0) (nnRoad 2)) 14 [1, 2, 0, 3] (by decide +kernel) xs' hx'
  exact ⟨p, p', h, h'⟩

/-- the charges of `charge`; v2 without and with a charge at city 2; a star-shaped instance of four cities and its
1-tree bound, which is smaller than the length of the tours -/
example : Charged 6 (fun i => if i = 2 then 7 else 0) v4Short
      (charge (fun i => if i = 2 then 7 else 0) v4Short) ∧
    secondImprovedSolver (Mat.ofFun 6 v4Short) = .ok (fin 8, [0, 3, 2, 4, 1, 5]) ∧
    secondImprovedSolver (Mat.ofFun 6 (charge (fun i => if i = 2 then 7 else 0) v4Short)) =
      .ok (fin 22, [0, 3, 2, 4, 1, 5]) ∧
    fifthImprovedSolver (Mat.ofFun 4 fun i j => ((i + j : Nat) : ℚ)) = .ok (fin 12, [0, 1, 2, 3]) ∧
    oneTreeLbSeq (Mat.ofFun 4 fun i j => ((i + j : Nat) : ℚ)) = .ok (fin 10) :=
  ⟨fun _ _ _ _ _ => rfl, by decide +kernel, by decide +kernel, by decide +kernel, by decide +kernel⟩

/-- three cities without the triangle inequality -/
example : oneTreeLbSeq (Mat.ofFun 3 (ofRowsC [[0, 1, 9], [1, 0, 2], [9, 2, 0]] : Nat → Nat → ℚ)) =
    .ok (fin 12) := by
  decide +kernel

end Walky.Props
