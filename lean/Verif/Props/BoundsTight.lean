import Verif.Lemmas.TwoHubs
import Verif.Props.Ratio

/-! # Property C82: the lower bounds cannot be better than half of the optimum in general -/

namespace Walky.Props

open FloatOps XNum Spec

variable {K : Type} [Field K] [LinearOrder K] [IsStrictOrderedRing K]

private theorem hubs_oneTree {n : Nat} (hn : 4 ≤ n) {v : Nat} (hv : v < n) {w : K}
    (hw : oneTreeWeight (Mat.ofFun n (hubDist K)) v = .ok (.fin w)) : w ≤ n := by
  have hm := rep_ofFun n (hubDist K)
  have hsym : Symm n (hubDist K) := (hubDist_metric n).symm
  obtain ⟨g, E, a, b, h1, h2, h3, ⟨ha, hav, hb, hbv, hab⟩, h4, h5, h6⟩ :=
    oneTree_exact hm hsym (show 3 ≤ n by omega) (show v < n from hv)
  change IsSpanningTree (citiesExcept n [v]) E at h2
  change ∀ F, IsSpanningTree (citiesExcept n [v]) F → _ at h3
  change a < n at ha
  change b < n at hb
  change ∀ j < n, _ at h4
  change ∀ j < n, _ at h5
  have hE : ∀ e ∈ E ++ [(v, a), (v, b)], e.1 < n ∧ e.2 < n := by
    intro e he
    rcases List.mem_append.mp he with he | he
    · obtain ⟨k1, k2, _⟩ := h2.ends e he
      exact ⟨(mem_citiesExcept.mp k1).1, (mem_citiesExcept.mp k2).1⟩
    · simp only [List.mem_cons, List.not_mem_nil, or_false] at he
      rcases he with rfl | rfl
      · exact ⟨hv, ha⟩
      · exact ⟨hv, hb⟩
  have hw' : w = edgeSum (hubDist K) (E ++ [(v, a), (v, b)]) := by
    unfold oneTreeWeight at hw
    rw [h1, rm_bind_ok, h6.undirected hE] at hw
    exact (XNum.fin.inj (Except.ok.inj hw)).symm
  -- a hub that is not excluded
  obtain ⟨h, hh2, hhv⟩ : ∃ h, h < 2 ∧ h ≠ v := by
    by_cases h0 : v = 0
    · exact ⟨1, by omega, by omega⟩
    · exact ⟨0, by omega, by omega⟩
  have hmem : h ∈ citiesExcept n [v] := mem_citiesExcept.mpr ⟨by omega, by simpa using hhv⟩
  have hnd := nodup_citiesExcept n [v]
  have hlen : (citiesExcept n [v]).length + 1 = n := by
    have e1 : (citiesExcept n [v]).Perm ((List.range n).erase v) := by
      rw [List.perm_ext_iff_of_nodup hnd (List.nodup_range.erase v)]
      intro x
      rw [mem_citiesExcept, List.nodup_range.mem_erase_iff, List.mem_range]
      simp [and_comm]
    have e2 := List.length_erase_of_mem (List.mem_range.mpr hv)
    rw [e1.length_eq, e2, List.length_range]
    omega
  have h7 := h3 _ (starOf_spanning hnd hmem)
  rw [starOf_cost hnd hmem hh2] at h7
  have hlenK : ((citiesExcept n [v]).length : K) + 1 = n := by exact_mod_cast hlen
  -- the two cheapest edges cost 1 each
  have hone : ∀ i j, i ≠ j → (i < 2 ∨ j < 2) → hubDist K i j = 1 := by
    intro i j h1 h2
    rw [hubDist, if_neg h1, if_pos h2]
  have hva : hubDist K v a ≤ 1 := by
    have := h4 h (by omega) hhv
    rwa [hone v h (Ne.symm hhv) (Or.inr hh2)] at this
  have hvb : hubDist K v b ≤ 1 := by
    by_cases hv2 : v < 2
    · exact (hone v b (Ne.symm hbv) (Or.inl hv2)).le
    · by_cases ha0 : a = 0
      · have := h5 1 (by omega) (by omega) (by omega)
        rwa [hone v 1 (by omega) (Or.inr (by omega))] at this
      · have := h5 0 (by omega) (by omega) (by omega)
        rwa [hone v 0 (by omega) (Or.inr (by omega))] at this
  rw [hw', edgeSum_append]
  have h8 : edgeSum (hubDist K) [(v, a), (v, b)] = hubDist K v a + hubDist K v b := by
    simp [edgeSum]
  rw [h8]
  linarith

/-- **C82 (the factor 2 is best possible)** For every `n ≥ 4` there is a metric on `n` cities with distances 1
and 2 on which the minimum spanning tree weighs at most `n - 1` and the 1-tree bound is at most `n`, in all
variants, while every tour has length at least `2n - 4`. -/
theorem C82_half_is_tight {n : Nat} (hn : 4 ≤ n) :
    ∃ (m : Mat (XNum K)) (c : Nat → Nat → K), m.dim = n ∧ Rep m c ∧ Metric m.dim c ∧
      (∀ i j, i < n → j < n → i ≠ j → c i j = 1 ∨ c i j = 2) ∧
      (∀ q, IsTour m.dim q → 2 * (n : K) - 4 ≤ tourCost c q) ∧
      (∃ w : K, w ≤ n - 1 ∧
        (∃ t, primSeq m [] = .ok t ∧ t.undirectedEdgeWeight = .fin w) ∧
        (∀ (shape : Nat → List (Nat × Edge (XNum K)) → RTree (Nat × Edge (XNum K)))
          (update : Nat → Nat → List Nat), (∀ it l, (shape it l).flatten = l) →
          (∀ it n, (update it n).Perm (List.range n)) →
          ∃ t, primPar shape update m [] = .ok t ∧ t.undirectedEdgeWeight = .fin w) ∧
        ∀ peek : Nat → List (Nat × XNum K) → Option (Nat × XNum K), PeekOk peek →
          ∃ t, primQueue peek m [] = .ok t ∧ t.undirectedEdgeWeight = .fin w) ∧
      ∃ w : K, w ≤ n ∧ oneTreeLbSeq m = .ok (.fin w) ∧
        (∀ shape : List (XNum K) → RTree (XNum K), (∀ l, (shape l).flatten = l) →
          oneTreeLbPar shape m = .ok (.fin w)) ∧
        ∀ (shape : List (XNum K) → RTree (XNum K)) (size : Nat), (∀ l, (shape l).flatten.Perm l) →
          1 ≤ size → size ≤ m.dim → oneTreeLbMpi shape size m = .ok (.fin w) := by
  have hm := rep_ofFun n (hubDist K)
  have hmet : Metric (Mat.ofFun n (hubDist K)).dim (hubDist K) := hubDist_metric n
  have hn1 : 1 ≤ (Mat.ofFun n (hubDist K)).dim := by show 1 ≤ n; omega
  have hn3 : 3 ≤ (Mat.ofFun n (hubDist K)).dim := by show 3 ≤ n; omega
  obtain ⟨⟨w, -, ⟨t, h1, h2⟩, h3, h4⟩, h5⟩ := C82_bounds_half hm hn1 hmet
  obtain ⟨w', -, k1, k2, k3⟩ := h5 hn3
  refine ⟨Mat.ofFun n (hubDist K), hubDist K, rfl, hm, hmet, ?_, fun q hq => hubs_tour (by omega) hq,
    ⟨w, ?_, ⟨t, h1, h2⟩, h3, h4⟩, ⟨w', ?_, k1, k2, k3⟩⟩
  · intro i j _ _ hij
    unfold hubDist
    rw [if_neg hij]
    split_ifs
    · exact Or.inl rfl
    · exact Or.inr rfl
  · have hce : citiesExcept (Mat.ofFun n (hubDist K)).dim [] = List.range n := citiesExcept_nil n
    obtain ⟨g, w0, a1, a2, a3, -⟩ := C29_prim_minimum hm hmet.symm [] (by simp) (by
      rw [hce]
      intro h
      have := congrArg List.length h
      simp at this
      omega)
    rw [h1] at a1
    rw [← Except.ok.inj a1, h2] at a2
    rw [hce] at a3
    have h0 : 0 ∈ List.range n := List.mem_range.mpr (by omega)
    have := a3 _ (starOf_spanning List.nodup_range h0)
    rw [starOf_cost List.nodup_range h0 (by omega), List.length_range, ← XNum.fin.inj a2] at this
    exact this
  · obtain ⟨wt, w0, b1, b2, b3⟩ := oneTreeLbSeq_exact hm hmet.symm hn3
    rw [k1] at b2
    rw [XNum.fin.inj (Except.ok.inj b2)]
    obtain ⟨v, hv, rfl⟩ := List.mem_map.mp b3.1
    have hv' : v < n := List.mem_range.mp hv
    exact hubs_oneTree hn hv' (b1 v hv').1

/-- **C82 (the factor 2 is best possible)** No factor below 2 can replace 2 in `C82_bounds_half`. -/
theorem C82_no_better_factor [Archimedean K] {r : K} (hr : r < 2) :
    ∃ (m : Mat (XNum K)) (c : Nat → Nat → K) (t : Graph (XNum K)) (w w' : K), Rep m c ∧ Metric m.dim c ∧
      primSeq m [] = .ok t ∧ t.undirectedEdgeWeight = .fin w ∧ oneTreeLbSeq m = .ok (.fin w') ∧
      ∀ q, IsTour m.dim q → r * w < tourCost c q ∧ r * w' < tourCost c q := by
  obtain ⟨N, hN⟩ := exists_nat_gt (4 / (2 - r))
  have hpos : 0 < 2 - r := by linarith
  obtain ⟨m, c, h1, h2, h3, -, h4, ⟨w, w1, ⟨t, w2, w3⟩, -⟩, w', k1, k2, -⟩ :=
    C82_half_is_tight (K := K) (n := N + 4) (by omega)
  refine ⟨m, c, t, w, w', h2, h3, w2, w3, k2, fun q hq => ?_⟩
  have hq' := h4 q hq
  have h5 : 4 < (N : K) * (2 - r) := by rwa [div_lt_iff₀ hpos] at hN
  have hw0 : 0 ≤ w ∧ 0 ≤ w' := by
    obtain ⟨⟨v, ⟨p, p1, p2⟩, ⟨t', p3, p4⟩, -⟩, p5⟩ := C82_bounds_half h2 (by omega) h3
    obtain ⟨v', ⟨p', p6, p7⟩, p8, -⟩ := p5 (by omega)
    rw [w2] at p3
    rw [← Except.ok.inj p3, w3] at p4
    rw [k2] at p8
    have e1 := XNum.fin.inj p4
    have e2 := XNum.fin.inj (Except.ok.inj p8)
    have e3 := h4 p p1
    have e4 := h4 p' p6
    push_cast at e3 e4
    have : (0 : K) ≤ N := Nat.cast_nonneg N
    constructor <;> linarith
  have key : ∀ x : K, 0 ≤ x → x ≤ ((N + 4 : ℕ) : K) → r * x < tourCost c q := by
    intro x h0 hx
    push_cast at hx hq'
    have hN0 : (0 : K) ≤ N := Nat.cast_nonneg N
    by_cases hr0 : r ≤ 0
    · have := mul_nonpos_of_nonpos_of_nonneg hr0 h0
      by_cases hNz : (0 : K) < N
      · linarith
      · have : (N : K) = 0 := le_antisymm (not_lt.mp hNz) hN0
        rw [this] at h5
        linarith
    · have := mul_le_mul_of_nonneg_left hx (not_le.mp hr0).le
      nlinarith
  exact ⟨key w hw0.1 (by push_cast at w1 ⊢; linarith), key w' hw0.2 k1⟩

/-- six cities: the spanning tree weighs 5, the 1-tree bound is 6, and every tour has length at least 8 -/
example : (primSeq (Mat.ofFun 6 (hubDist ℚ)) []).map Graph.undirectedEdgeWeight = .ok (.fin 5) ∧
    oneTreeLbSeq (Mat.ofFun 6 (hubDist ℚ)) = .ok (.fin 6) ∧
    tourCost (hubDist ℚ) [0, 2, 3, 1, 4, 5] = 8 := by decide +kernel

end Walky.Props
