import Verif.Lemmas.PythonNN
import Verif.Lemmas.FixedApprox
import Verif.Lemmas.FixedGrid
import Verif.Props.NearestNeighbour

/-!
# C102: the Python reference for nearest neighbour (`/repo/utils/NN_approx.py`)
-/

namespace Walky.Props

open FloatOps XNum Spec

/-- C102. Whatever the order is in which Python iterates over a set: from every city that exists the script prints
a tour that starts there and always continues with a nearest city among those not visited, together with the cost
of that tour; for other cities it raises an exception. -/
theorem C102_any_order {iter : List Nat → List Nat} (hi : ∀ l, (iter l).Perm l) (G : Nat → Nat → Int) (n start : Nat) :
    (start < n → ∃ p k, pyNN iter G n start = .ok (p, k) ∧ IsTour n p ∧ p.head? = some start ∧
      (k : ℚ) = tourCost (fun i j => (G i j : ℚ)) p ∧
      ∀ l x y r, p = l ++ x :: y :: r → ∀ z < n, z ∉ l → z ≠ x → G x y ≤ G x z) ∧
    (n ≤ start → ∃ e, pyNN iter G n start = .error e) := by
  refine ⟨fun hs => ?_, fun hs => ⟨.explicit, by unfold pyNN; rw [if_neg (by omega)]⟩⟩
  obtain ⟨p, p1, p2, p3, p4⟩ := pyNNLoop_ok hi (tie := False) (fun h => h.elim) G (n := n) (start := start) n []
    ((List.range n).erase start) start (by simp) rfl (List.pairwise_lt_range.sublist List.erase_sublist) (by
      intro z
      rw [List.nodup_range.mem_erase_iff, List.mem_range]
      simp [and_comm]) (by simpa using hs) (by
      intro l x y r h
      have := congrArg List.length h
      simp at this
      omega) (by
      rw [List.length_erase_of_mem (by simpa using hs), List.length_range]
      omega)
  obtain ⟨k, k1, k2⟩ := pyTourCost_ok G (n := n) (by simpa using p2.length_eq) (by omega)
  refine ⟨p, k, ?_, p2, p3, k2, fun l x y r h z hz h1 h2 => (p4 l x y r h z hz h1 h2).1⟩
  unfold pyNN
  rw [if_pos hs]
  simp only [List.nil_append] at p1
  rw [p1, rm_bind_ok, k1, rm_bind_ok]
  rfl

/-- the matrix of the drawn numbers -/
theorem pyIntMatrix_spec {A : Nat → Nat → Int} {n : Nat} (hA : ∀ i j, i < n → j < n → 1 ≤ A i j ∧ A i j ≤ 9) {i j : Nat}
    (hi : i < n) (hj : j < n) : pyIntMatrix A i j = pyIntMatrix A j i ∧ pyIntMatrix A i i = 0 ∧
      (i ≠ j → 1 ≤ pyIntMatrix A i j) ∧ 0 ≤ pyIntMatrix A i j ∧ pyIntMatrix A i j ≤ 9 := by
  have h1 := hA i j hi hj
  have h2 := hA j i hj hi
  unfold pyIntMatrix
  simp only [if_true]
  by_cases hij : i = j
  · subst hij
    simp
  · have hji : j ≠ i := fun h => hij h.symm
    simp only [if_neg hij, if_neg hji]
    omega

/-- the matrix as numbers -/
def pyRows (n : Nat) (G : Nat → Nat → Int) : List (List (XNum ℚ)) :=
  (List.range n).map fun i => (List.range n).map fun j => .fin (G i j)

theorem pyRustGraph_get (n : Nat) (G : Nat → Nat → Int) {i : Nat} (hi : i < n) :
    (pyRustGraph (pyRows n G))[i]? = some ((List.range n).filterMap fun j =>
      if i ≠ j ∧ G i j ≠ 0 then some ⟨j, .fin (G i j)⟩ else none) := by
  unfold pyRustGraph pyRows
  rw [List.getElem?_map, List.getElem?_zipIdx, List.getElem?_map, List.getElem?_range hi]
  simp only [Option.map_some, Nat.zero_add]
  congr 1
  have hz : ((List.range n).map fun j => (XNum.fin (G i j : ℚ))).zipIdx =
      (List.range n).map fun j => (.fin (G i j : ℚ), j) := by
    apply List.ext_getElem?
    intro k
    rw [List.getElem?_zipIdx, List.getElem?_map, List.getElem?_map]
    rcases Nat.lt_or_ge k n with hk | hk
    · rw [List.getElem?_range hk]; simp
    · rw [List.getElem?_eq_none (by simpa using hk)]; rfl
  rw [hz, List.filterMap_map]
  refine List.filterMap_congr fun j _ => ?_
  simp only [Function.comp_apply]
  have : (!(eq (XNum.fin (G i j : ℚ)) zero)) = true ↔ G i j ≠ 0 := by
    change (!(XNum.beq (.fin (G i j : ℚ)) (.fin 0))) = true ↔ _
    simp [XNum.beq]
  simp only [this]

theorem pyRustGraph_length (n : Nat) (G : Nat → Nat → Int) : (pyRustGraph (pyRows n G)).length = n := by
  simp [pyRustGraph, pyRows]

theorem pyRustGraph_complete {n : Nat} {G : Nat → Nat → Int} (hs : ∀ i j, i < n → j < n → G i j = G j i)
    (h0 : ∀ i j, i < n → j < n → i ≠ j → G i j ≠ 0) : CompleteUndirected (pyRustGraph (pyRows n G)) := by
  have hlt : ∀ {i : Nat} {es : List (Edge (XNum ℚ))}, (pyRustGraph (pyRows n G))[i]? = some es → i < n := by
    intro i es h
    have := (List.getElem?_eq_some_iff.mp h).1
    rwa [pyRustGraph_length] at this
  have hmem : ∀ {i : Nat} {es : List (Edge (XNum ℚ))}, (pyRustGraph (pyRows n G))[i]? = some es → ∀ e ∈ es,
      e.dst < n ∧ e.cost = .fin (G i e.dst) := by
    intro i es h e he
    rw [pyRustGraph_get n G (hlt h)] at h
    rw [← Option.some.inj h] at he
    obtain ⟨j, j1, j2⟩ := List.mem_filterMap.mp he
    split at j2
    · rw [← Option.some.inj j2]
      exact ⟨by simpa using j1, rfl⟩
    · cases j2
  refine ⟨fun i es h => ?_, fun i j es fs h1 h2 e he f hf hej hfi => ?_⟩
  · have hi := hlt h
    rw [pyRustGraph_length]
    rw [pyRustGraph_get n G hi] at h
    rw [← Option.some.inj h]
    have : ((List.range n).filterMap fun j => if i ≠ j ∧ G i j ≠ 0 then some (⟨j, .fin (G i j)⟩ : Edge (XNum ℚ)) else none).map
        Edge.dst = (List.range n).filter fun j => j != i := by
      have key : ∀ l : List Nat, (∀ x ∈ l, x < n) →
          (l.filterMap fun j => if i ≠ j ∧ G i j ≠ 0 then some (⟨j, .fin (G i j)⟩ : Edge (XNum ℚ)) else none).map
            Edge.dst = l.filter fun j => j != i := by
        intro l hl
        induction l with
        | nil => rfl
        | cons a l ih =>
          have ih := ih fun x hx => hl x (List.mem_cons_of_mem _ hx)
          by_cases ha : i = a
          · subst ha
            simpa using ih
          · have h1 := h0 i a hi (hl a (by simp)) ha
            rw [List.filterMap_cons_some (b := ⟨a, .fin (G i a)⟩) (by rw [if_pos ⟨ha, h1⟩]), List.map_cons, ih,
              List.filter_cons_of_pos (by simpa using fun h => ha h.symm)]
      exact key _ fun x hx => by simpa using hx
    rw [this, List.nodup_range.erase_eq_filter]
  · obtain ⟨a1, a2⟩ := hmem h1 e he
    obtain ⟨b1, b2⟩ := hmem h2 f hf
    rw [a2, b2, hej, hfi, hs j i (hlt h2) (hlt h1)]
    exact decide_eq_true rfl

/-- C102. For the numbers that the script draws, and a set that is iterated in ascending order (as CPython does for
small numbers): walky accepts the printed graph and builds a matrix; from every start the path and the cost that
the script prints are those of `single_nearest_neighbour`, also with doubles; and `nearest_neighbour` returns the
smallest printed cost, in every order of the starts. -/
theorem C102_reference {A : Nat → Nat → Int} {n : Nat} (hA : ∀ i j, i < n → j < n → 1 ≤ A i j ∧ A i j ≤ 9)
    {iter : List Nat → List Nat} (hi : ∀ l, (iter l).Perm l) (ht : ∀ l : List Nat, l.Pairwise (· < ·) → iter l = l) :
    doConditionsHold (pyRustGraph (pyRows n (pyIntMatrix A))) = .ok true ∧
    ∃ m, naFromGraph (pyRustGraph (pyRows n (pyIntMatrix A))) = .ok m ∧ m.dim = n ∧
      (∀ start < n, ∃ p k, pyNN iter (pyIntMatrix A) n start = .ok (p, k) ∧
        singleNN m start = .ok (.fin k, p) ∧ (n ≤ 2 ^ 40 → @singleNN _ binary64.ops m start = .ok (.fin k, p))) ∧
      (1 ≤ n → ∃ best : Int, (∃ start < n, ∃ p, pyNN iter (pyIntMatrix A) n start = .ok (p, best)) ∧
        (∀ start < n, ∀ p k, pyNN iter (pyIntMatrix A) n start = .ok (p, k) → best ≤ k) ∧
        ∀ xs : List Nat, xs.Perm (List.range n) → ∃ p, nearestNeighbourSeq xs m = .ok (.fin best, p) ∧
          (n ≤ 2 ^ 40 → @nearestNeighbourSeq _ binary64.ops xs m = .ok (.fin best, p))) := by
  have hG := fun i j (h1 : i < n) (h2 : j < n) => pyIntMatrix_spec hA h1 h2
  generalize pyIntMatrix A = G at *
  have hc := pyRustGraph_complete (n := n) (G := G) (fun i j h1 h2 => (hG i j h1 h2).1) (fun i j h1 h2 h => by
    have := (hG i j h1 h2).2.2.1 h
    omega)
  obtain ⟨m, m1, m2, m3, -, m5⟩ := naFromGraph_complete hc
  rw [pyRustGraph_length] at m2 m5
  have hget : ∀ i j, i < n → j < n → m.get i j = .fin (G i j) := by
    intro i j h1 h2
    by_cases hij : i = j
    · subst hij
      rw [m3, (hG i i h1 h1).2.1]
      rfl
    · have hrow := pyRustGraph_get n G h1
      have hmem : (⟨j, .fin (G i j)⟩ : Edge (XNum ℚ)) ∈ (List.range n).filterMap fun j =>
          if i ≠ j ∧ G i j ≠ 0 then some (⟨j, .fin (G i j)⟩ : Edge (XNum ℚ)) else none := by
        refine List.mem_filterMap.mpr ⟨j, by simpa using h2, ?_⟩
        have := (hG i j h1 h2).2.2.1 hij
        rw [if_pos ⟨hij, by omega⟩]
      rw [m5 i j h1 h2 hij, edgeCost_eq hrow (hc.nodup hrow) hmem]
  have hrep : Rep m (fun i j => (G i j : ℚ)) := by
    refine ⟨fun i j h1 h2 _ => ?_, fun h => ?_⟩
    · rw [m2] at h1 h2
      exact hget i j h1 h2
    · exact hget 0 0 (by omega) (by omega)
  have hfix : FixedMat (grid 0) 9 m := by
    intro i j h1 h2
    rw [m2] at h1 h2
    rw [hget i j h1 h2]
    refine fx_fin (mem_grid.mpr ⟨G i j, by simp [pow2]⟩) ?_
    obtain ⟨-, -, -, g1, g2⟩ := hG i j h1 h2
    rw [abs_of_nonneg (by exact_mod_cast g1)]
    exact_mod_cast g2
  have hR := binary64_exactOn (q := 0) (by omega) (by omega)
  have hN : n ≤ 2 ^ 40 → (m.dim + 1 : ℚ) * 9 ≤ gridMax 0 := by
    intro h
    rw [m2]
    have h' : (n : ℚ) ≤ 1099511627776 := by exact_mod_cast h
    have : gridMax 0 = 9007199254740992 := by
      unfold gridMax pow2
      norm_num
    rw [this]
    linarith
  have hsingle : ∀ start < n, ∃ p k, pyNN iter G n start = .ok (p, k) ∧ singleNN m start = .ok (.fin k, p) := by
    intro start hs
    obtain ⟨q, q1, q2, q3, q4⟩ := singleNN_exact hrep (i := start) (by rw [m2]; exact hs)
    rw [m2] at q2 q4
    obtain ⟨p, p1, p2, p3, p4⟩ := pyNNLoop_ok hi (tie := True) (fun _ => ht) G (n := n) (start := start) n []
      ((List.range n).erase start) start (by simp) rfl (List.pairwise_lt_range.sublist List.erase_sublist) (by
        intro z
        rw [List.nodup_range.mem_erase_iff, List.mem_range]
        simp [and_comm]) (by simpa using hs) (by
        intro l x y r h
        have := congrArg List.length h
        simp at this
        omega) (by
        rw [List.length_erase_of_mem (by simpa using hs), List.length_range]
        omega)
    have hpq : p = q := greedy_unique p2 q2 (fun l x y r h z hz h1 h2 => by
      obtain ⟨a, b⟩ := p4 l x y r h z hz h1 h2
      exact ⟨by exact_mod_cast a, fun h => b trivial (by exact_mod_cast h)⟩) q4 p3 q3
    subst hpq
    obtain ⟨k, k1, k2⟩ := pyTourCost_ok G (n := n) (by simpa using p2.length_eq) (by omega)
    refine ⟨p, k, ?_, by rw [q1, k2]⟩
    unfold pyNN
    rw [if_pos hs]
    simp only [List.nil_append] at p1
    rw [p1, rm_bind_ok, k1, rm_bind_ok]
    rfl
  refine ⟨hc.accepted, m, m1, m2, fun start hs => ?_, fun hn => ?_⟩
  · obtain ⟨p, k, h1, h2⟩ := hsingle start hs
    exact ⟨p, k, h1, h2, fun h => by rw [singleNN_same hR (by norm_num) hfix (hN h), h2]⟩
  · obtain ⟨w, ⟨i, i1, p, i2⟩, w2, w3⟩ := C39_nearest_neighbour hrep (by omega)
    rw [m2] at i1 w2 w3
    obtain ⟨p', best, b1, b2⟩ := hsingle i i1
    have hw : w = best := by
      rw [i2] at b2
      exact XNum.fin.inj (Prod.mk.inj (Except.ok.inj b2)).1
    refine ⟨best, ⟨i, i1, p', b1⟩, fun s hs q k h => ?_, fun xs hxs => ?_⟩
    · obtain ⟨q', k', h1, h2⟩ := hsingle s hs
      rw [h] at h1
      have e := (Prod.mk.inj (Except.ok.inj h1)).2
      have := w2 s hs _ _ h2
      rw [hw, ← e] at this
      exact_mod_cast this
    · obtain ⟨q, q1, -⟩ := w3 xs hxs
      rw [hw] at q1
      refine ⟨q, q1, fun h => ?_⟩
      rw [← q1]
      exact nNNSeq_same hR (by norm_num) hfix (hN h) xs m.dim

namespace Ex

/-- a drawn matrix -/
def draw4 : Nat → Nat → Int := fun i j =>
  (([[4, 1, 1, 5], [1, 7, 3, 2], [1, 3, 2, 9], [5, 2, 9, 1]] : List (List Int)).getD i []).getD j 1

end Ex

/-- the hypotheses of C102, with the output for the start 0 -/
example : (∀ i j, i < 4 → j < 4 → 1 ≤ Ex.draw4 i j ∧ Ex.draw4 i j ≤ 9) ∧
    pyNN id (pyIntMatrix Ex.draw4) 4 0 = .ok ([0, 1, 3, 2], 13) := by
  refine ⟨?_, by decide +kernel⟩
  have : ∀ i < 4, ∀ j < 4, 1 ≤ Ex.draw4 i j ∧ Ex.draw4 i j ≤ 9 := by decide +kernel
  exact fun i j h1 h2 => this i h1 j h2

/-- C102. The order of the iteration matters: Python does not fix it for sets, and with another one the script prints
another path and another cost for the same numbers and the same start, which are not those of walky. -/
theorem C102_order_matters : ∃ (A : Nat → Nat → Int) (iter : List Nat → List Nat),
    (∀ i j, i < 4 → j < 4 → 1 ≤ A i j ∧ A i j ≤ 9) ∧ (∀ l, (iter l).Perm l) ∧
    pyNN iter (pyIntMatrix A) 4 0 = .ok ([0, 2, 1, 3], 11) ∧
    ∃ m, naFromGraph (pyRustGraph (pyRows 4 (pyIntMatrix A))) = .ok m ∧ singleNN m 0 = .ok (.fin 13, [0, 1, 3, 2]) := by
  have hA : ∀ i j, i < 4 → j < 4 → 1 ≤ Ex.draw4 i j ∧ Ex.draw4 i j ≤ 9 := by
    have : ∀ i < 4, ∀ j < 4, 1 ≤ Ex.draw4 i j ∧ Ex.draw4 i j ≤ 9 := by decide +kernel
    exact fun i j h1 h2 => this i h1 j h2
  refine ⟨Ex.draw4, fun l => l.reverse, hA, fun l => List.reverse_perm l, by decide +kernel, ?_⟩
  obtain ⟨-, m, m1, -, m3, -⟩ := C102_reference hA (iter := id) (fun l => List.Perm.refl l) (fun l _ => rfl)
  obtain ⟨p, k, h1, h2, -⟩ := m3 0 (by norm_num)
  have h3 : pyNN id (pyIntMatrix Ex.draw4) 4 0 = .ok ([0, 1, 3, 2], 13) := by decide +kernel
  rw [h3] at h1
  obtain ⟨rfl, rfl⟩ := Prod.mk.inj (Except.ok.inj h1)
  exact ⟨m, m1, by rw [h2]; norm_num⟩

end Walky.Props
