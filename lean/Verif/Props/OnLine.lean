import Verif.Props.ChristofidesTight
import Verif.Props.NNWorst
import Verif.Props.Ratio
import Verif.Props.ExactPartial
import Verif.Props.Robust
import Verif.Lemmas.OnLine

/-! # Property C130: cities on a line -/

namespace Walky.Props

open FloatOps XNum Spec OnLine

variable {K : Type} [Field K] [LinearOrder K] [IsStrictOrderedRing K] {x : Nat → K} {m : Mat (XNum K)} {a b : Nat}

/-- nearest neighbour from the left end -/
private theorem fromLeft (hm : Rep m (fun i j => |x i - x j|)) (ha : a < m.dim) (hb : b < m.dim)
    (hends : ∀ i, i < m.dim → x a ≤ x i ∧ x i ≤ x b) :
    ∃ r, singleNN m a = .ok (.fin (2 * (x b - x a)), a :: r) ∧ IsTour m.dim (a :: r) ∧
      (a :: r).Pairwise (fun i j => x i ≤ x j) ∧ pathCost (posCost x) (a :: r) = x b - x a := by
  obtain ⟨p, h1, h2, h3⟩ := C37_single_truthful (c := posCost x) hm ha
  cases p with
  | nil => cases h3
  | cons u r =>
    obtain rfl : u = a := by simpa using h3
    have hs := path_sorted (x := x) h2 (fun l u v r he z hz hz1 hz2 => (C38_greedy (c := posCost x) hm ha h1 he hz hz1 hz2).1)
      r [] u rfl (fun z hz => (hends z (by simpa using h2.mem_iff.mp (List.mem_cons_of_mem _ hz))).1)
    obtain ⟨k1, k2⟩ := sorted_cost r u hs
    have hlast : x ((u :: r).getLast (by simp)) = x b := by
      refine le_antisymm (hends _ ?_).2 (k2 b (h2.mem_iff.mpr (by simpa using hb)))
      simpa using h2.mem_iff.mp (List.getLast_mem (l := u :: r) (by simp))
    rw [hlast] at k1
    refine ⟨r, ?_, h2, hs, k1⟩
    rw [h1, sorted_tour hs, k1]

omit [IsStrictOrderedRing K] in
/-- the positions in the opposite direction -/
private theorem mirrored (hm : Rep m (fun i j => |x i - x j|)) : Rep m (fun i j => |(-x i) - (-x j)|) := by
  have : (fun i j => |(-x i) - (-x j)|) = fun i j => |x i - x j| := by
    funext i j
    rw [neg_sub_neg, abs_sub_comm]
  rwa [this]

/-- **C130** (tours) Cities at the positions `x` of a line, `a` the leftmost and `b` the rightmost one: no tour is shorter
than twice the distance of `a` and `b`, and there is a tour of this length. -/
theorem C130_shortest {n : Nat} (ha : a < n) (hb : b < n) (hends : ∀ i, i < n → x a ≤ x i ∧ x i ≤ x b) :
    (∀ q, IsTour n q → 2 * (x b - x a) ≤ tourCost (fun i j => |x i - x j|) q) ∧
    ∃ q, IsTour n q ∧ tourCost (fun i j => |x i - x j|) q = 2 * (x b - x a) := by
  refine ⟨fun q hq => tour_ge ha hb hq, ?_⟩
  obtain ⟨r, -, h2, h3, h4⟩ := fromLeft (m := Mat.ofFun n (fun i j => |x i - x j|)) (rep_ofFun _ _) ha hb hends
  exact ⟨a :: r, h2, by rw [← h4]; exact sorted_tour h3⟩

/-- **C130** (exact) On a line `walky exact` reports twice the distance of the ends, with a tour of this length: v0 with
two cities or more, v1 with three or more, v2, v3, v5 and (for a hash function that is injective on the prefixes) v6
always. For v5 and v6 this is not so in general (C08). -/
theorem C130_exact (hm : Rep m (fun i j => |x i - x j|)) (ha : a < m.dim) (hb : b < m.dim)
    (hends : ∀ i, i < m.dim → x a ≤ x i ∧ x i ≤ x b) :
    let Good : RM (Solution (XNum K)) → Prop := fun res => ∃ p, res = .ok (.fin (2 * (x b - x a)), p) ∧
      IsTour m.dim p ∧ tourCost (fun i j => |x i - x j|) p = 2 * (x b - x a)
    (2 ≤ m.dim → Good (naiveSolver m)) ∧ (3 ≤ m.dim → Good (firstImprovedSolver m)) ∧
    Good (secondImprovedSolver m) ∧ Good (thirdImprovedSolver m) ∧ Good (fifthImprovedSolver m) ∧
    ∀ hash : List Nat → Nat, (∀ p q : List Nat, p.Nodup → q.Nodup → (∀ i ∈ p, i < m.dim) → (∀ i ∈ q, i < m.dim) →
      hash p = hash q → p = q) → Good (sixthImprovedSolver m hash) := by
  intro Good
  have hn : 1 ≤ m.dim := by omega
  obtain ⟨hlow, q, q1, q2⟩ := C130_shortest ha hb hends
  have hmet : Metric m.dim (posCost x) := posCost_metric _
  have hnn : Nonneg m.dim (posCost x) := fun i j hi hj _ => hmet.nonneg hi hj
  have good : ∀ res, (∃ p, res = .ok (fin (tourCost (posCost x) p), p) ∧ IsShortest m.dim (posCost x) p) → Good res := by
    rintro res ⟨p, rfl, p1, p2⟩
    have : tourCost (posCost x) p = 2 * (x b - x a) := le_antisymm ((p2 q q1).trans q2.le) (hlow p p1)
    exact ⟨p, by rw [this], p1, this⟩
  have h5 : Good (fifthImprovedSolver m) := by
    obtain ⟨r, -, r1, r2, r3⟩ := fromLeft hm ha hb hends
    obtain ⟨p, h1, h2, _, h4⟩ := solveDfs_truthful (c := posCost x) hm (test5_ok hm) hn (aux := ()) trivial (test5_inf hm)
    have htour := sorted_tour r2
    rw [r3] at htour
    have hle : tourCost (posCost x) p ≤ 2 * (x b - x a) := by
      refine h4 (a :: r) _ r1 htour.le (along_test5 (c := posCost x) hm hmet.symm r1 ?_)
      intro s t he hs
      cases s with
      | nil => simp at hs
      | cons u s =>
        obtain ⟨rfl, rfl⟩ : a = u ∧ r = s ++ t := by simpa using he
        cases t with
        | nil =>
          have h0 := path_nonneg (x := x) (a :: s)
          simp only [List.append_nil] at r3
          rw [r3] at h0 ⊢
          show _ + 2 * (0 : K) ≤ _
          linarith
        | cons v t =>
          have e1 := pathCost_append (c := posCost x) (a :: s) v t
          rw [List.cons_append] at e1
          have e2 := path_ge (x := x) s a v
          rw [r3] at e1
          have e3 : pathCost (posCost x) (a :: s) ≤ pathCost (posCost x) (a :: s ++ [v]) := by
            obtain ⟨z, hz⟩ : ∃ z, z = (a :: s).getLast (by simp) := ⟨_, rfl⟩
            have hsplit : a :: s = (a :: s).dropLast ++ [z] := by
              rw [hz, List.dropLast_append_getLast]
            rw [hsplit, List.append_assoc]
            show _ ≤ pathCost (posCost x) (_ ++ [z, v])
            rw [pathCost_snoc]
            have : 0 ≤ posCost x z v := abs_nonneg _
            linarith
          have e4 := path_nonneg (x := x) (a :: s)
          simp only [List.cons_append] at e1 e3
          linarith
    have : tourCost (posCost x) p = 2 * (x b - x a) := le_antisymm hle (hlow p h2)
    exact ⟨p, by rw [← this]; exact h1, h2, this⟩
  refine ⟨fun h => good _ (C03_v0_exact_partial m _ hm h), fun h => ?_, good _ (C05_v2_exact m _ hm hn),
    good _ (C06_v3_exact m _ hm hn hnn (fun _ => abs_nonneg _)), h5, fun hash hh => ?_⟩
  · obtain ⟨p, p1, p2, -⟩ := C04_v1_exact_partial m _ hm h hmet.symm
    exact good _ ⟨p, p1, p2⟩
  · rw [C09_v6_eq_v5 m hash hh]
    exact h5

/-- **C130** (nearest neighbour) On a line nearest neighbour is optimal: started at one of the two ends, and therefore
whenever all starts are tried: for all shuffles, on several threads, and with MPI on at most as many processes as
cities. -/
theorem C130_nearest_neighbour (hm : Rep m (fun i j => |x i - x j|)) (ha : a < m.dim) (hb : b < m.dim)
    (hends : ∀ i, i < m.dim → x a ≤ x i ∧ x i ≤ x b) :
    (∃ p, singleNN m a = .ok (.fin (2 * (x b - x a)), p)) ∧ (∃ p, singleNN m b = .ok (.fin (2 * (x b - x a)), p)) ∧
    (∀ xs : List Nat, xs.Perm (List.range m.dim) →
      (∃ p, nearestNeighbourSeq xs m = .ok (.fin (2 * (x b - x a)), p) ∧ IsTour m.dim p) ∧
      ∀ shape : List (Solution (XNum K)) → RTree (Solution (XNum K)), (∀ l, (shape l).flatten = l) →
        ∃ p, nearestNeighbourPar shape xs m = .ok (.fin (2 * (x b - x a)), p) ∧ IsTour m.dim p) ∧
    ∀ (shape : Nat → List (XNum K × Nat) → RTree (XNum K × Nat)) (size : Nat),
      (∀ r l, (shape r l).flatten.Perm l) → 1 ≤ size → size ≤ m.dim →
      ∃ p, nnMpi shape size m = .ok (List.replicate size (.fin (2 * (x b - x a)), p)) ∧ IsTour m.dim p := by
  obtain ⟨ra, a1, -⟩ := fromLeft hm ha hb hends
  obtain ⟨rb, b1, -⟩ := fromLeft (x := fun i => -x i) (mirrored hm) hb ha
    (fun i hi => ⟨neg_le_neg (hends i hi).2, neg_le_neg (hends i hi).1⟩)
  have e : 2 * (-x a - -x b) = 2 * (x b - x a) := by ring
  rw [e] at b1
  obtain ⟨w, ⟨i, hi, p, hip⟩, hw, hseq⟩ := C39_nearest_neighbour (c := posCost x) hm (by omega)
  have hwD : w = 2 * (x b - x a) := by
    refine le_antisymm (hw a ha _ _ a1) ?_
    obtain ⟨p', k1, k2, -⟩ := C37_single_truthful (c := posCost x) hm hi
    rw [hip] at k1
    rw [XNum.fin.inj (Prod.mk.inj (Except.ok.inj k1)).1]
    exact tour_ge ha hb k2
  subst hwD
  refine ⟨⟨_, a1⟩, ⟨_, b1⟩, fun xs hxs => ?_, fun shape size hs h1 h2 => ?_⟩
  · obtain ⟨p', k1, k2, -⟩ := hseq xs hxs
    refine ⟨⟨p', k1, k2⟩, fun shape hs => ⟨p', ?_, k2⟩⟩
    rw [C39_nearest_neighbour_par strictWeak_olt shape hs, k1]
  · obtain ⟨w, p', k1, k2, -, k4⟩ := C40_mpi_partial (c := posCost x) hm h1 h2 shape hs
    obtain ⟨p'', k5⟩ := k4 _ (.refl _)
    obtain ⟨p₃, k6, -⟩ := hseq _ (.refl _)
    rw [k6] at k5
    rw [← XNum.fin.inj (Prod.mk.inj (Except.ok.inj k5)).1] at k1
    exact ⟨p', k1, k2⟩

/-- **C130** (spanning trees) On a line `walky lower-bound mst` and `mst-queue` report the distance of the ends, exactly
half of the length of a shortest tour. -/
theorem C130_spanning_tree (hm : Rep m (fun i j => |x i - x j|)) (ha : a < m.dim) (hb : b < m.dim)
    (hends : ∀ i, i < m.dim → x a ≤ x i ∧ x i ≤ x b) :
    (∃ t, primSeq m [] = .ok t ∧ t.undirectedEdgeWeight = .fin (x b - x a)) ∧
    (∀ (shape : Nat → List (Nat × Edge (XNum K)) → RTree (Nat × Edge (XNum K))) (update : Nat → Nat → List Nat),
      (∀ it l, (shape it l).flatten = l) → (∀ it n, (update it n).Perm (List.range n)) →
      ∃ t, primPar shape update m [] = .ok t ∧ t.undirectedEdgeWeight = .fin (x b - x a)) ∧
    ∀ peek : Nat → List (Nat × XNum K) → Option (Nat × XNum K), PeekOk peek →
      ∃ t, primQueue peek m [] = .ok t ∧ t.undirectedEdgeWeight = .fin (x b - x a) := by
  have hn : 1 ≤ m.dim := by omega
  have hmet : Metric m.dim (posCost x) := posCost_metric _
  obtain ⟨⟨w, ⟨p, p1, p2⟩, h⟩, -⟩ := C82_bounds_half (c := posCost x) hm hn hmet
  have hw : w = x b - x a := by
    refine le_antisymm ?_ ?_
    · obtain ⟨⟨t, t1, t2⟩, -⟩ := h
      obtain ⟨g, w', k1, k2, k3, -⟩ := C29_prim_minimum (c := posCost x) hm hmet.symm [] (by simp)
        (by rw [citiesExcept_nil]; simp; omega)
      rw [t1] at k1
      rw [← Except.ok.inj k1, t2] at k2
      rw [XNum.fin.inj k2]
      obtain ⟨r, -, r1, -, r3⟩ := fromLeft hm ha hb hends
      rw [← r3, ← edgesCost_pairs]
      apply k3
      rw [citiesExcept_nil]
      exact spanning_pairs r1 (r1.nodup_iff.mpr List.nodup_range) (by simp)
    · have := tour_ge (x := x) ha hb p1
      linarith
  subst hw
  exact h

/-- **C130** (Christofides) On a line, if no two cities are at the same place, `walky approx christofides` is optimal: for
all shuffles, single threaded, on several threads and with MPI. -/
theorem C130_christofides (hm : Rep m (fun i j => |x i - x j|)) (ha : a < m.dim) (hb : b < m.dim)
    (hends : ∀ i, i < m.dim → x a ≤ x i ∧ x i ≤ x b) (hn : 2 ≤ m.dim)
    (hinj : ∀ i j, i < m.dim → j < m.dim → x i = x j → i = j) {dbg : Bool} (hdbg : dbg = true → m.isMetric = true) :
    let Good : RM (Solution (XNum K)) → Prop := fun res => ∃ p, res = .ok (.fin (2 * (x b - x a)), p ++ [0]) ∧
      IsTour m.dim p ∧ tourCost (fun i j => |x i - x j|) p = 2 * (x b - x a)
    ∀ r : MatchRng, r.Ok →
      Good (christofidesSeq dbg m r) ∧
      (∀ s : ParSched (XNum K), s.Ok → (∃ res, ChristofidesPar dbg m r s res) ∧
        ∀ res, ChristofidesPar dbg m r s res → Good res) ∧
      ∀ shufs : Nat → Nat → List (Nat × Nat) → List (Nat × Nat), (∀ k i l, (shufs k i l).Perm l) →
        ∀ size, 1 ≤ size → Good (christofidesMpi dbg m r shufs size) := by
  intro Good
  have hmet : Metric m.dim (posCost x) := posCost_metric _
  have hab : a ≠ b := by
    rintro rfl
    have e : ∀ i, i < m.dim → i = a := fun i hi => hinj i a hi ha (le_antisymm (hends i hi).2 (hends i hi).1)
    have := (e 0 (by omega)).trans (e 1 (by omega)).symm
    omega
  obtain ⟨mst, E, h1, h2, h3, h4, h5⟩ := C121_path (c := posCost x) hm hn hmet.symm
  obtain ⟨⟨t, t1, t2⟩, -⟩ := C130_spanning_tree hm ha hb hends
  obtain ⟨g, w, k1, k2, -, k3, -⟩ := C29_prim_minimum (c := posCost x) hm hmet.symm [] (by simp)
    (by rw [citiesExcept_nil]; simp; omega)
  rw [h1] at t1 k1
  obtain rfl := Except.ok.inj t1
  obtain rfl := Except.ok.inj k1
  rw [h4] at t2 k2
  have hE : edgeSum (posCost x) E = x b - x a := XNum.fin.inj t2
  obtain rfl := XNum.fin.inj k2
  have hmin : ∀ F, (∀ e ∈ F, e.1 < m.dim ∧ e.2 < m.dim) → Connects F (List.range m.dim) →
      edgeSum (posCost x) E ≤ edgeSum (posCost x) F := by
    intro F hF hF'
    rw [citiesExcept_nil] at k3
    exact k3 F (fun e he => ⟨by simpa using (hF e he).1, by simpa using (hF e he).2, abs_nonneg _⟩) hF'
  have hodd := OnLine.tree_odd hinj ha hb hab hends h2 (fun e he => tree_edge hinj h2 hmin he)
  have h6 := (h5 a b hodd dbg hdbg).1
  have hlast : edgeSum (posCost x) E + posCost x a b = 2 * (x b - x a) := by
    rw [hE]
    unfold posCost
    rw [abs_sub_comm, abs_of_nonneg (sub_nonneg.mpr (hends a ha).2)]
    ring
  rw [hlast] at h6
  exact h6

/-- six cities on a line, in no order -/
def sixOnLine : Mat (XNum ℚ) := Mat.ofFun 6 fun i j => |[26, 15, 2, 6, 28, 25].getD i 0 - [26, 15, 2, 6, 28, 25].getD j 0|

/-- **C130** (negations) On a line nearest neighbour from an inner city can be longer than necessary (54 instead of 52),
and the 1-tree bound is not exact (45). -/
theorem C130_not_from_inside :
    sixOnLine.dim = 6 ∧ Rep sixOnLine (fun i j => |[26, 15, 2, 6, 28, (25 : ℚ)].getD i 0 - [26, 15, 2, 6, 28, 25].getD j 0|) ∧
    (∃ p, singleNN sixOnLine 0 = .ok (.fin 54, p)) ∧ oneTreeLbSeq sixOnLine = .ok (.fin 45) := by
  refine ⟨rfl, rep_ofFun _ _, ⟨[0, 5, 4, 1, 3, 2], by decide +kernel⟩, by decide +kernel⟩

/-- the theorems apply to these cities; the ends are 2 and 4 -/
example : (∀ i, i < 6 → ([26, 15, 2, 6, 28, 25] : List ℚ).getD 2 0 ≤ [26, 15, 2, 6, 28, 25].getD i 0 ∧
      [26, 15, 2, 6, 28, 25].getD i 0 ≤ ([26, 15, 2, 6, 28, 25] : List ℚ).getD 4 0) ∧
    (∀ i j, i < 6 → j < 6 → ([26, 15, 2, 6, 28, 25] : List ℚ).getD i 0 = [26, 15, 2, 6, 28, 25].getD j 0 → i = j) ∧
    sixOnLine.isMetric = true ∧ christofidesSeq true sixOnLine idRng = .ok (.fin 52, [0, 4, 2, 3, 1, 5, 0]) := by
  refine ⟨?_, ?_, by decide +kernel, by decide +kernel⟩
  · decide +kernel
  · have h : ∀ i, i < 6 → ∀ j, j < 6 → ([26, 15, 2, 6, 28, 25] : List ℚ).getD i 0 = [26, 15, 2, 6, 28, 25].getD j 0 →
        i = j := by decide +kernel
    exact fun i j hi hj => h i hi j hj

end Walky.Props
