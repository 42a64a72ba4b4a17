import Verif.Lemmas.NearMetric

/-! # Two hubs: instances on which the lower bounds are about half of the optimum -/

namespace Walky

open FloatOps XNum Spec

variable {K : Type} [Field K] [LinearOrder K] [IsStrictOrderedRing K]

/-- two hubs (0 and 1) at distance 1 from all cities; the other distances are 2 -/
def hubDist (K : Type) [Field K] (i j : Nat) : K := if i = j then 0 else if i < 2 ∨ j < 2 then 1 else 2

/-- a lower bound for half of the two steps of a tour at a city: 0 for the hubs, 1 for the others -/
def hubOff (K : Type) [Field K] (i : Nat) : K := if i < 2 then 0 else 1

theorem hubDist_metric (n : Nat) : Metric n (hubDist K) := by
  refine ⟨fun i _ => if_pos rfl, fun i j _ _ => ?_, fun i j k _ _ _ => ?_⟩
  · simp only [hubDist, eq_comm, or_comm]
  · by_cases hij : i = j
    · rw [hubDist, if_pos hij]
      have h : ∀ a b, (0 : K) ≤ hubDist K a b := by
        intro a b
        unfold hubDist
        split_ifs <;> norm_num
      linarith [h i k, h k j]
    · by_cases hik : i = k
      · subst hik
        rw [show hubDist K i i = 0 from if_pos rfl, zero_add]
      · by_cases hkj : k = j
        · subst hkj
          rw [show hubDist K k k = 0 from if_pos rfl, add_zero]
        · have h1 : ∀ a b, a ≠ b → (1 : K) ≤ hubDist K a b := by
            intro a b hab
            unfold hubDist
            rw [if_neg hab]
            split_ifs <;> norm_num
          have h2 : hubDist K i j ≤ 2 := by
            unfold hubDist
            split_ifs <;> norm_num
          linarith [h1 i k hik, h1 k j hkj]

theorem hubOff_le {i j : Nat} (h : i ≠ j) : hubOff K i + hubOff K j ≤ hubDist K i j := by
  unfold hubOff hubDist
  rw [if_neg h]
  by_cases h1 : i < 2 <;> by_cases h2 : j < 2 <;> simp [h1, h2]
  norm_num

omit [LinearOrder K] [IsStrictOrderedRing K] in
theorem pathCost_sum (f : Nat → K) (a : Nat) (t : List Nat) (x : Nat) :
    pathCost (fun i j => f i + f j) (a :: t ++ [x]) = f a + 2 * (t.map f).sum + f x := by
  induction t generalizing a with
  | nil => simp
  | cons b t ih =>
    have h := ih b
    rw [List.cons_append] at h
    rw [List.cons_append, List.cons_append, pathCost_cons₂, h, List.map_cons, List.sum_cons]
    ring

omit [LinearOrder K] [IsStrictOrderedRing K] in
/-- every city of a tour is the end of two steps -/
theorem tourCost_sum (f : Nat → K) (p : List Nat) :
    tourCost (fun i j => f i + f j) p = 2 * (p.map f).sum := by
  cases p with
  | nil => simp [tourCost]
  | cons a t =>
    rw [tourCost_cons, pathCost_sum, List.map_cons, List.sum_cons]
    ring

theorem hubs_tour {n : Nat} (hn : 2 ≤ n) {p : List Nat} (hp : IsTour n p) :
    2 * (n : K) - 4 ≤ tourCost (hubDist K) p := by
  have h1 : tourCost (fun i j => hubOff K i + hubOff K j) p ≤ tourCost (hubDist K) p := by
    rw [← edgeSum_tourEdges, ← edgeSum_tourEdges]
    refine List.sum_le_sum fun e he => ?_
    exact hubOff_le (tourEdges_ne hn hp e he).2.2
  rw [tourCost_sum, (hp.map (hubOff K)).sum_eq] at h1
  have h2 : ((List.range n).map (hubOff K)).sum = (n : K) - 2 := by
    obtain ⟨k, rfl⟩ := Nat.exists_eq_add_of_le hn
    rw [List.range_add, List.map_append, List.sum_append, List.map_map]
    have : (List.range k).map (hubOff K ∘ fun x => 2 + x) = (List.range k).map fun _ => 1 := by
      apply List.map_congr_left
      intro x _
      show hubOff K (2 + x) = 1
      exact if_neg (by omega)
    rw [this]
    simp [hubOff, List.range_succ]
  rw [h2] at h1
  linarith

/-- the star with centre `h` -/
def starOf (h : Nat) (U : List Nat) : List (Nat × Nat) := (U.erase h).map fun x => (h, x)

theorem starOf_spanning {U : List Nat} (hU : U.Nodup) {h : Nat} (hh : h ∈ U) :
    IsSpanningTree U (starOf h U) := by
  refine ⟨?_, ?_, ?_⟩
  · intro e he
    obtain ⟨x, hx, rfl⟩ := List.mem_map.mp he
    rw [hU.mem_erase_iff] at hx
    exact ⟨hh, hx.2, Ne.symm hx.1⟩
  · have h0 : ∀ v ∈ U, Relation.ReflTransGen (Joined (starOf h U)) h v := by
      intro v hv
      by_cases hvh : v = h
      · subst hvh; exact .refl
      · refine .single (Or.inl (List.mem_map.mpr ⟨v, ?_, rfl⟩))
        rw [hU.mem_erase_iff]
        exact ⟨hvh, hv⟩
    have hsym : Std.Symm (Joined (starOf h U)) := ⟨fun a b h => h.symm⟩
    intro a ha b hb
    exact (Relation.ReflTransGen.stdSymm.symm _ _ (h0 a ha)).trans (h0 b hb)
  · unfold starOf
    rw [List.length_map, List.length_erase_of_mem hh]
    have := List.length_pos_of_mem hh
    omega

omit [LinearOrder K] [IsStrictOrderedRing K] in
theorem starOf_cost {U : List Nat} (hU : U.Nodup) {h : Nat} (hh : h ∈ U) (h2 : h < 2) :
    edgeSum (hubDist K) (starOf h U) = (U.length : K) - 1 := by
  unfold edgeSum starOf
  have h1 : ((U.erase h).map fun x => (h, x)).map (fun e => hubDist K e.1 e.2) =
      (U.erase h).map fun _ => (1 : K) := by
    rw [List.map_map]
    apply List.map_congr_left
    intro x hx
    rw [hU.mem_erase_iff] at hx
    show hubDist K h x = 1
    rw [hubDist, if_neg (Ne.symm hx.1), if_pos (Or.inl h2)]
  rw [h1]
  have h3 := List.length_pos_of_mem hh
  simp only [List.map_const', List.sum_replicate, nsmul_eq_mul, mul_one]
  rw [List.length_erase_of_mem hh, Nat.cast_sub h3, Nat.cast_one]

end Walky
