import Verif.Props.Ratio
import Verif.Props.Permutation

/-! # Property C133: a road network without cycles -/

namespace Walky.Props

open FloatOps XNum Spec

variable {K : Type} [Field K] [LinearOrder K] [IsStrictOrderedRing K] {m : Mat (XNum K)} {c : Nat → Nat → K}

/-- `RoadTree c l w`: the cities `l` are connected by a network of roads without cycles of total length `w`, and `c` is the
distance along the roads. The network is built city by city: the next one is at the end of a new road from one of the
cities that are there already, and the way to every other city goes through this one. -/
inductive RoadTree (c : Nat → Nat → K) : List Nat → K → Prop
  | start (v : Nat) (h : c v v = 0) : RoadTree c [v] 0
  | road {l : List Nat} {w : K} (v p : Nat) (hl : RoadTree c l w) (hv : v ∉ l) (hp : p ∈ l)
      (h : ∀ j ∈ l, c v j = c v p + c p j) : RoadTree c (v :: l) (w + c v p)

private theorem road_tour {n : Nat} (hmet : Metric n c) {l : List Nat} {w : K} (h : RoadTree c l w) :
    (∀ i ∈ l, i < n) → ∀ q : List Nat, q.Perm l → 2 * w ≤ tourCost c q := by
  induction h with
  | start v h =>
    intro _ q hq
    rw [List.perm_singleton.mp hq]
    simp [tourCost, pathCost, h]
  | @road l w v p hl hv hp h ih =>
    intro hlt q hq
    obtain ⟨q1, q2, rfl⟩ := List.append_of_mem (hq.mem_iff.mpr (List.mem_cons_self (a := v) (l := l)))
    rw [tourCost_append_comm, List.cons_append]
    have ht : (q2 ++ q1).Perm l := by
      have h1 : (v :: (q2 ++ q1)).Perm (v :: l) := by
        refine List.Perm.trans ?_ hq
        rw [← List.cons_append]
        exact List.perm_append_comm
      exact (List.perm_cons v).mp h1
    generalize q2 ++ q1 = t at ht
    have hne : t ≠ [] := by
      rintro rfl
      rw [List.nil_perm.mp ht] at hp
      cases hp
    have hmem : ∀ i ∈ t, i ∈ l := fun i hi => ht.mem_iff.mp hi
    have key := ih (fun i hi => hlt i (by simp [hi])) t ht
    rw [tourCost_eq _ t hne] at key
    have e1 : tourCost c (v :: t) = c v (t.head hne) + pathCost c t + c (t.getLast hne) v := by
      rw [tourCost_eq _ _ (by simp)]
      cases t with
      | nil => exact absurd rfl hne
      | cons x s => simp
    have hh := hmem _ (List.head_mem hne)
    have hg := hmem _ (List.getLast_mem hne)
    have lv := hlt v (by simp)
    have lh := hlt _ (List.mem_cons_of_mem v hh)
    have lg := hlt _ (List.mem_cons_of_mem v hg)
    have lp := hlt _ (List.mem_cons_of_mem v hp)
    have f1 := h _ hh
    have f2 := h _ hg
    have f3 := hmet.tri _ _ p lg lh lp
    have f4 := hmet.symm _ _ lg lp
    have f5 := hmet.symm _ _ lg lv
    rw [e1, f5]
    linarith

omit [LinearOrder K] [IsStrictOrderedRing K] in
private theorem road_spanning {l : List Nat} {w : K} (h : RoadTree c l w) :
    ∃ E, IsSpanningTree l E ∧ edgeSum c E = w := by
  induction h with
  | start v h => exact ⟨[], ⟨by simp, fun a ha b hb => by simp at ha hb; subst ha hb; exact .refl, rfl⟩, rfl⟩
  | @road l w v p hl hv hp h ih =>
    obtain ⟨E, hE, hw⟩ := ih
    have lift : ∀ a b, Relation.ReflTransGen (Joined E) a b → Relation.ReflTransGen (Joined ((v, p) :: E)) a b := by
      intro a b hab
      induction hab with
      | refl => exact .refl
      | tail _ h2 ih => exact ih.tail (h2.imp (List.mem_cons_of_mem _) (List.mem_cons_of_mem _))
    have hvp : Joined ((v, p) :: E) v p := Or.inl (by simp)
    have hpv : Joined ((v, p) :: E) p v := Or.inr (by simp)
    refine ⟨(v, p) :: E, ⟨?_, ?_, ?_⟩, ?_⟩
    · intro e he
      rcases List.mem_cons.mp he with rfl | he
      · exact ⟨by simp, by simp [hp], fun e => hv (by simp only at e; rw [e]; exact hp)⟩
      · obtain ⟨k1, k2, k3⟩ := hE.ends e he
        exact ⟨by simp [k1], by simp [k2], k3⟩
    · intro a ha b hb
      rcases List.mem_cons.mp ha with ha | ha <;> rcases List.mem_cons.mp hb with hb | hb
      · rw [ha, hb]
      · rw [ha]
        exact (Relation.ReflTransGen.single hvp).trans (lift _ _ (hE.conn _ hp _ hb))
      · rw [hb]
        exact (lift _ _ (hE.conn _ ha _ hp)).tail hpv
      · exact lift _ _ (hE.conn _ ha _ hb)
    · have := hE.count
      simp only [List.length_cons]
      omega
    · rw [← hw]
      simp only [edgeSum, List.map_cons, List.sum_cons]
      ring

/-- **C133** (tours) If the roads between the cities form a network without cycles, no tour is shorter than twice the
total length of the roads, and there is one of this length. -/
theorem C133_shortest {n : Nat} (hn : 1 ≤ n) (hmet : Metric n c) {l : List Nat} (hl : l.Perm (List.range n)) {w : K}
    (h : RoadTree c l w) : (∀ q, IsTour n q → 2 * w ≤ tourCost c q) ∧ ∃ q, IsTour n q ∧ tourCost c q = 2 * w := by
  have hlow : ∀ q, IsTour n q → 2 * w ≤ tourCost c q := fun q hq =>
    road_tour hmet h (fun i hi => by simpa using hl.mem_iff.mp hi) q (hq.trans hl.symm)
  refine ⟨hlow, ?_⟩
  obtain ⟨E, hE, hw⟩ := road_spanning h
  have hE' : IsSpanningTree (List.range n) E :=
    ⟨fun e he => by
      obtain ⟨k1, k2, k3⟩ := hE.ends e he
      exact ⟨hl.mem_iff.mp k1, hl.mem_iff.mp k2, k3⟩,
     fun a ha b hb => hE.conn a (hl.mem_iff.mpr ha) b (hl.mem_iff.mpr hb), by rw [hE.count, hl.length_eq]⟩
  have hm : Rep (Mat.ofFun n c) c := rep_ofFun n c
  obtain ⟨⟨w', ⟨p, p1, p2⟩, ⟨t, t1, t2⟩, -⟩, -⟩ := C82_bounds_half hm (show 1 ≤ (Mat.ofFun n c).dim from hn) hmet
  obtain ⟨g, w'', k1, k2, k3, -⟩ := C29_prim_minimum hm (show Symm (Mat.ofFun n c).dim c from hmet.symm) [] (by simp)
    (by rw [citiesExcept_nil]; simp; exact Nat.ne_of_gt hn)
  rw [k1] at t1
  injection t1 with t1
  rw [← t1, k2] at t2
  injection t2 with t2
  rw [citiesExcept_nil] at k3
  have := k3 E hE'
  exact ⟨p, p1, le_antisymm (by linarith) (hlow p p1)⟩

/-- **C133** Then `walky exact` reports twice the length `w` of the roads with v0 - v3, the spanning tree bounds are `w` in all
versions, exactly half of the optimum, and the 1-tree bound is between `w` and `2 w`. -/
theorem C133_road_tree (hm : Rep m c) (hn : 3 ≤ m.dim) (hmet : Metric m.dim c) {l : List Nat}
    (hl : l.Perm (List.range m.dim)) {w : K} (h : RoadTree c l w) :
    (∀ res, res = naiveSolver m ∨ res = firstImprovedSolver m ∨ res = secondImprovedSolver m ∨ res = thirdImprovedSolver m →
      ∃ p, res = .ok (.fin (2 * w), p) ∧ IsTour m.dim p) ∧
    (∃ t, primSeq m [] = .ok t ∧ t.undirectedEdgeWeight = .fin w) ∧
    (∀ (shape : Nat → List (Nat × Edge (XNum K)) → RTree (Nat × Edge (XNum K))) (update : Nat → Nat → List Nat),
      (∀ it l, (shape it l).flatten = l) → (∀ it n, (update it n).Perm (List.range n)) →
      ∃ t, primPar shape update m [] = .ok t ∧ t.undirectedEdgeWeight = .fin w) ∧
    (∀ peek : Nat → List (Nat × XNum K) → Option (Nat × XNum K), PeekOk peek →
      ∃ t, primQueue peek m [] = .ok t ∧ t.undirectedEdgeWeight = .fin w) ∧
    ∃ w1, oneTreeLbSeq m = .ok (.fin w1) ∧ w ≤ w1 ∧ w1 ≤ 2 * w := by
  obtain ⟨hlow, q, hq1, hq2⟩ := C133_shortest (by omega) hmet hl h
  have hnn : Nonneg m.dim c := fun i j hi hj _ => hmet.nonneg hi hj
  have good : ∀ res : RM (Solution (XNum K)), (∃ p, res = .ok (fin (tourCost c p), p) ∧ IsShortest m.dim c p) →
      ∃ p, res = .ok (.fin (2 * w), p) ∧ IsTour m.dim p := by
    rintro res ⟨p, rfl, p1, p2⟩
    exact ⟨p, by rw [le_antisymm (hq2 ▸ p2 q hq1) (hlow p p1)], p1⟩
  obtain ⟨⟨w', ⟨p, p1, p2⟩, ⟨t, t1, t2⟩, hpar, hqueue⟩, hone⟩ := C82_bounds_half hm (by omega) hmet
  have hw : w' = w := by
    refine le_antisymm ?_ (by linarith [hlow p p1])
    obtain ⟨E, hE, hw⟩ := road_spanning h
    obtain ⟨g, w'', k1, k2, k3, -⟩ := C29_prim_minimum hm hmet.symm [] (by simp) (by rw [citiesExcept_nil]; simp; omega)
    rw [k1] at t1
    injection t1 with t1
    rw [← t1, k2] at t2
    injection t2 with t2
    rw [citiesExcept_nil] at k3
    rw [← t2, ← hw]
    exact k3 E ⟨fun e he => by
        obtain ⟨k1, k2, k3⟩ := hE.ends e he
        exact ⟨hl.mem_iff.mp k1, hl.mem_iff.mp k2, k3⟩,
      fun a ha b hb => hE.conn a (hl.mem_iff.mpr ha) b (hl.mem_iff.mpr hb), by rw [hE.count, hl.length_eq]⟩
  rw [hw] at t2 hpar hqueue
  refine ⟨?_, ⟨t, t1, t2⟩, hpar, hqueue, ?_⟩
  · rintro res (rfl | rfl | rfl | rfl)
    · exact good _ (C03_v0_exact_partial m c hm (by omega))
    · obtain ⟨p, p1, p2, -⟩ := C04_v1_exact_partial m c hm (by omega) hmet.symm
      exact good _ ⟨p, p1, p2⟩
    · exact good _ (C05_v2_exact m c hm (by omega))
    · exact good _ (C06_v3_exact m c hm (by omega) hnn fun h => by omega)
  · obtain ⟨w1, ⟨po, po1, po2⟩, ho, -⟩ := hone hn
    obtain ⟨w2, e1, e2⟩ := C34_one_tree_bound_partial hm hmet.symm hn
    rw [ho] at e1
    injection e1 with e1
    injection e1 with e1
    refine ⟨w1, ho, by linarith [hlow po po1], ?_⟩
    rw [e1, ← hq2]
    exact e2 q hq1

/-- five cities: 1 and 2 are connected with 0 by roads of length 1 and 2, and 3 and 4 with 1 by roads of length 3 and 4 -/
def fiveRoads (i j : Nat) : ℚ :=
  ([[0, 1, 2, 4, 5], [1, 0, 3, 3, 4], [2, 3, 0, 6, 7], [4, 3, 6, 0, 7], [5, 4, 7, 7, 0]].getD i []).getD j 0

/-- the theorems speak about this instance -/
example : RoadTree fiveRoads [4, 3, 2, 1, 0] 10 ∧ [4, 3, 2, 1, 0].Perm (List.range 5) ∧ Metric 5 fiveRoads ∧
    (let m : Mat (XNum ℚ) := Mat.ofFun 5 fiveRoads
     secondImprovedSolver m = .ok (.fin 20, [0, 1, 3, 4, 2]) ∧ oneTreeLbSeq m = .ok (.fin 15)) := by
  refine ⟨?_, by decide, ⟨?_, ?_, ?_⟩, by decide +kernel⟩
  · have h := RoadTree.road 4 1 (RoadTree.road 3 1 (RoadTree.road 2 0 (RoadTree.road 1 0
      (RoadTree.start (c := fiveRoads) 0 (by decide +kernel)) (by decide) (by decide) (by decide +kernel))
      (by decide) (by decide) (by decide +kernel)) (by decide) (by decide) (by decide +kernel)) (by decide) (by decide)
      (by decide +kernel)
    have e : 0 + fiveRoads 1 0 + fiveRoads 2 0 + fiveRoads 3 1 + fiveRoads 4 1 = 10 := by decide +kernel
    rwa [e] at h
  · have h : ∀ i < 5, fiveRoads i i = 0 := by decide +kernel
    exact fun i hi => h i hi
  · have h : ∀ i < 5, ∀ j < 5, fiveRoads i j = fiveRoads j i := by decide +kernel
    exact fun i j hi hj => h i hi j hj
  · have h : ∀ i < 5, ∀ j < 5, ∀ k < 5, fiveRoads i j ≤ fiveRoads i k + fiveRoads k j := by decide +kernel
    exact fun i j k hi hj hk => h i hi j hj k hk

end Walky.Props
