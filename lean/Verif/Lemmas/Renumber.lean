import Verif.Lemmas.Cost
import Verif.Lemmas.Tree
import Verif.Lemmas.NearestNeighbour
import Mathlib.Data.Fintype.EquivFin

/-! # Helper lemmas: renumbering the cities -/

set_option linter.unusedSectionVars false

namespace Walky

open Spec

/-- `f` gives every city another number: city `i` of the second instance is city `f i` of the first -/
structure Spec.Renumber (n : Nat) (f : Nat → Nat) : Prop where
  lt : ∀ i, i < n → f i < n
  inj : ∀ i j, i < n → j < n → f i = f j → i = j

theorem Spec.Renumber.inverse {n : Nat} {f : Nat → Nat} (h : Renumber n f) :
    ∃ g, Renumber n g ∧ (∀ i, i < n → f (g i) = i) ∧ ∀ i, i < n → g (f i) = i := by
  have hs : ∀ j, ∃ i, j < n → i < n ∧ f i = j := by
    intro j
    by_cases hj : j < n
    · let F : Fin n → Fin n := fun i => ⟨f i, h.lt i i.2⟩
      have hF : Function.Injective F := by
        intro a b e
        have : f a = f b := congrArg Fin.val e
        exact Fin.ext (h.inj a b a.2 b.2 this)
      obtain ⟨i, hi⟩ := (Finite.injective_iff_surjective.mp hF) ⟨j, hj⟩
      exact ⟨i, fun _ => ⟨i.2, congrArg Fin.val hi⟩⟩
    · exact ⟨0, fun h => absurd h hj⟩
  choose g hg using hs
  refine ⟨g, ⟨fun i hi => (hg i hi).1, ?_⟩, fun i hi => (hg i hi).2, fun i hi => ?_⟩
  · intro i j hi hj e
    rw [← (hg i hi).2, ← (hg j hj).2, e]
  · exact h.inj _ _ (hg (f i) (h.lt i hi)).1 hi (hg (f i) (h.lt i hi)).2

theorem Spec.Renumber.tour {n : Nat} {f : Nat → Nat} (h : Renumber n f) {p : List Nat}
    (hp : IsTour n p) : IsTour n (p.map f) := by
  refine isTour_of_nodup (List.Nodup.map_on ?_ hp.nodup) ?_ (by simp [hp.length])
  · exact fun i hi j hj e => h.inj i j (hp.mem.mp hi) (hp.mem.mp hj) e
  · intro i hi
    rw [List.mem_map] at hi
    obtain ⟨j, hj, rfl⟩ := hi
    exact h.lt j (hp.mem.mp hj)

section
variable {K : Type} [Field K] [LinearOrder K] [IsStrictOrderedRing K]

theorem pathCost_renumber {n : Nat} {f : Nat → Nat} {c c' : Nat → Nat → K}
    (hc : ∀ i j, i < n → j < n → c' i j = c (f i) (f j)) : ∀ {p : List Nat}, (∀ i ∈ p, i < n) →
    pathCost c (p.map f) = pathCost c' p := by
  intro p
  induction p with
  | nil => intro _; rfl
  | cons a p ih =>
    intro hp
    cases p with
    | nil => rfl
    | cons b p =>
      have := ih (fun i hi => hp i (by simp [hi]))
      simp only [List.map_cons] at this ⊢
      rw [pathCost, pathCost, this, hc a b (hp a (by simp)) (hp b (by simp))]

theorem tourCost_renumber {n : Nat} {f : Nat → Nat} {c c' : Nat → Nat → K}
    (hc : ∀ i j, i < n → j < n → c' i j = c (f i) (f j)) {p : List Nat} (hp : IsTour n p) :
    tourCost c (p.map f) = tourCost c' p := by
  cases p with
  | nil => rfl
  | cons a p =>
    have := pathCost_renumber hc (p := a :: p ++ [a]) (by
      intro i hi
      rw [List.mem_append, List.mem_singleton] at hi
      rcases hi with hi | rfl
      · exact hp.mem.mp hi
      · exact hp.mem.mp (by simp))
    simpa [tourCost] using this

/-- the other direction -/
theorem renumber_back {n : Nat} {f g : Nat → Nat} {c c' : Nat → Nat → K}
    (hc : ∀ i j, i < n → j < n → c' i j = c (f i) (f j)) (hg : Renumber n g)
    (hfg : ∀ i, i < n → f (g i) = i) : ∀ i j, i < n → j < n → c i j = c' (g i) (g j) := by
  intro i j hi hj
  rw [hc _ _ (hg.lt i hi) (hg.lt j hj), hfg i hi, hfg j hj]

theorem shortest_renumber {n : Nat} {f : Nat → Nat} (hf : Renumber n f) {c c' : Nat → Nat → K}
    (hc : ∀ i j, i < n → j < n → c' i j = c (f i) (f j)) {p p' : List Nat}
    (hp : IsShortest n c p) (hp' : IsShortest n c' p') :
    tourCost c p = tourCost c' p' ∧ IsShortest n c (p'.map f) := by
  have h1 : ∀ q, IsTour n q → tourCost c p ≤ tourCost c' q := by
    intro q hq
    rw [← tourCost_renumber hc hq]
    exact hp.2 _ (hf.tour hq)
  obtain ⟨g, hg, hfg, -⟩ := hf.inverse
  have h2 : tourCost c' p' ≤ tourCost c p := by
    rw [← tourCost_renumber (renumber_back hc hg hfg) hp.1]
    exact hp'.2 _ (hg.tour hp.1)
  have h3 := le_antisymm (h1 p' hp'.1) h2
  refine ⟨h3, hf.tour hp'.1, fun q hq => ?_⟩
  rw [tourCost_renumber hc hp'.1, ← h3]
  exact hp.2 q hq

theorem edgeSum_renumber {n : Nat} {f : Nat → Nat} {c c' : Nat → Nat → K}
    (hc : ∀ i j, i < n → j < n → c' i j = c (f i) (f j)) {E : List (Nat × Nat)}
    (hE : ∀ e ∈ E, e.1 < n ∧ e.2 < n) :
    edgeSum c (E.map fun e => (f e.1, f e.2)) = edgeSum c' E := by
  unfold edgeSum
  rw [List.map_map]
  congr 1
  apply List.map_congr_left
  intro e he
  exact (hc _ _ (hE e he).1 (hE e he).2).symm

theorem citiesExcept_renumber {n : Nat} {f : Nat → Nat} (hf : Renumber n f) {ex : List Nat}
    (hex : ∀ v ∈ ex, v < n) : ((citiesExcept n ex).map f).Perm (citiesExcept n (ex.map f)) := by
  rw [List.perm_ext_iff_of_nodup]
  · intro i
    rw [List.mem_map, mem_citiesExcept]
    constructor
    · rintro ⟨j, hj, rfl⟩
      obtain ⟨h1, h2⟩ := mem_citiesExcept.mp hj
      refine ⟨hf.lt j h1, fun h => h2 ?_⟩
      rw [List.mem_map] at h
      obtain ⟨k, hk, e⟩ := h
      rw [← hf.inj k j (hex k hk) h1 e]
      exact hk
    · rintro ⟨h1, h2⟩
      obtain ⟨g, hg, hfg, -⟩ := hf.inverse
      refine ⟨g i, mem_citiesExcept.mpr ⟨hg.lt i h1, fun h => h2 ?_⟩, hfg i h1⟩
      rw [← hfg i h1]
      exact List.mem_map_of_mem h
  · refine List.Nodup.map_on ?_ (nodup_citiesExcept n ex)
    intro i hi j hj e
    exact hf.inj i j (mem_citiesExcept.mp hi).1 (mem_citiesExcept.mp hj).1 e
  · exact nodup_citiesExcept _ _

theorem tree_renumber {n : Nat} {f : Nat → Nat} (hf : Renumber n f) {ex : List Nat}
    (hex : ∀ v ∈ ex, v < n) {E : List (Nat × Nat)} (hE : IsSpanningTree (citiesExcept n ex) E) :
    IsSpanningTree (citiesExcept n (ex.map f)) (E.map fun e => (f e.1, f e.2)) := by
  have hp := citiesExcept_renumber hf hex
  have hlt : ∀ i ∈ citiesExcept n ex, i < n := fun i hi => (mem_citiesExcept.mp hi).1
  refine ⟨?_, ?_, ?_⟩
  · intro e he
    rw [List.mem_map] at he
    obtain ⟨e, he, rfl⟩ := he
    obtain ⟨h1, h2, h3⟩ := hE.ends e he
    exact ⟨hp.subset (List.mem_map_of_mem h1), hp.subset (List.mem_map_of_mem h2),
      fun h => h3 (hf.inj _ _ (hlt _ h1) (hlt _ h2) h)⟩
  · intro a ha b hb
    have ha' := hp.symm.subset ha
    have hb' := hp.symm.subset hb
    rw [List.mem_map] at ha' hb'
    obtain ⟨a, ha', rfl⟩ := ha'
    obtain ⟨b, hb', rfl⟩ := hb'
    refine Relation.ReflTransGen.lift (p := Joined (E.map fun e => (f e.1, f e.2))) f ?_ _ _
      (hE.conn a ha' b hb')
    rintro x y (h | h)
    · exact Or.inl (List.mem_map_of_mem (f := fun e : Nat × Nat => (f e.1, f e.2)) h)
    · exact Or.inr (List.mem_map_of_mem (f := fun e : Nat × Nat => (f e.1, f e.2)) h)
  · rw [List.length_map, hE.count, ← hp.length_eq, List.length_map]

/-- minimum spanning trees have the same weight -/
theorem mst_renumber {n : Nat} {f : Nat → Nat} (hf : Renumber n f) {c c' : Nat → Nat → K}
    (hc : ∀ i j, i < n → j < n → c' i j = c (f i) (f j)) {ex : List Nat}
    (hex : ∀ v ∈ ex, v < n) {E E' : List (Nat × Nat)}
    (hE : IsSpanningTree (citiesExcept n (ex.map f)) E)
    (hmin : ∀ F, IsSpanningTree (citiesExcept n (ex.map f)) F → edgeSum c E ≤ edgeSum c F)
    (hE' : IsSpanningTree (citiesExcept n ex) E')
    (hmin' : ∀ F, IsSpanningTree (citiesExcept n ex) F → edgeSum c' E' ≤ edgeSum c' F) :
    edgeSum c E = edgeSum c' E' := by
  have hlt : ∀ {ex : List Nat} {E : List (Nat × Nat)}, IsSpanningTree (citiesExcept n ex) E →
      ∀ e ∈ E, e.1 < n ∧ e.2 < n := by
    intro ex E h e he
    exact ⟨(mem_citiesExcept.mp (h.ends e he).1).1, (mem_citiesExcept.mp (h.ends e he).2.1).1⟩
  obtain ⟨g, hg, hfg, hgf⟩ := hf.inverse
  apply le_antisymm
  · rw [← edgeSum_renumber hc (hlt hE')]
    exact hmin _ (tree_renumber hf hex hE')
  · rw [← edgeSum_renumber (renumber_back hc hg hfg) (hlt hE)]
    apply hmin'
    have := tree_renumber hg (ex := ex.map f) (by
      intro v hv
      rw [List.mem_map] at hv
      obtain ⟨u, hu, rfl⟩ := hv
      exact hf.lt u (hex u hu)) hE
    have e : (ex.map f).map g = ex := by
      rw [List.map_map]
      conv_rhs => rw [← List.map_id ex]
      apply List.map_congr_left
      intro v hv
      exact hgf v (hex v hv)
    rwa [e] at this

/-- two smallest numbers -/
theorem two_smallest {n : Nat} {f : Nat → Nat} (hf : Renumber n f) {c c' : Nat → Nat → K}
    (hc : ∀ i j, i < n → j < n → c' i j = c (f i) (f j)) {v : Nat} (hv : v < n) {a b a' b' : Nat}
    (h2 : ∀ j < n, j ≠ f v → c (f v) a ≤ c (f v) j)
    (h3 : ∀ j < n, j ≠ f v → j ≠ a → c (f v) b ≤ c (f v) j)
    (h1' : a' < n ∧ a' ≠ v ∧ b' < n ∧ b' ≠ v ∧ a' ≠ b') :
    c (f v) a + c (f v) b ≤ c' v a' + c' v b' := by
  obtain ⟨ha, hav, hb, hbv, hab⟩ := h1'
  rw [hc v a' hv ha, hc v b' hv hb]
  have na : f a' ≠ f v := fun e => hav (hf.inj _ _ ha hv e)
  have nb : f b' ≠ f v := fun e => hbv (hf.inj _ _ hb hv e)
  have nab : f a' ≠ f b' := fun e => hab (hf.inj _ _ ha hb e)
  have la := hf.lt a' ha
  have lb := hf.lt b' hb
  by_cases e : f a' = a
  · have := h3 (f b') lb nb (fun h => nab (e.trans h.symm))
    rw [e]
    linarith
  · have i1 := h3 (f a') la na e
    have i2 := h2 (f b') lb nb
    linarith

/-- greedy tours are renumbered, if no two distances from a city are equal -/
theorem greedy_renumber {n : Nat} {f : Nat → Nat} (hf : Renumber n f) {c c' : Nat → Nat → K}
    (hc : ∀ i j, i < n → j < n → c' i j = c (f i) (f j))
    (hd : ∀ i j k, i < n → j < n → k < n → i ≠ j → i ≠ k → j ≠ k → c i j ≠ c i k) {p : List Nat}
    (hp : IsTour n p) (hG : Greedy n c' p) : Greedy n c (p.map f) := by
  intro l x y r he z hz hzl hzx
  obtain ⟨g, hg, hfg, -⟩ := hf.inverse
  rw [List.map_eq_append_iff] at he
  obtain ⟨l', t, rfl, rfl, ht⟩ := he
  rw [List.map_eq_cons_iff] at ht
  obtain ⟨x, t, rfl, rfl, ht⟩ := ht
  rw [List.map_eq_cons_iff] at ht
  obtain ⟨y, r, rfl, rfl, rfl⟩ := ht
  have hx : x < n := hp.mem.mp (by simp)
  have hy : y < n := hp.mem.mp (by simp)
  have hxy : x ≠ y := by
    have hnd := hp.nodup
    rw [List.nodup_append] at hnd
    have := (List.nodup_cons.mp hnd.2.1).1
    rintro rfl
    exact this (by simp)
  have key := hG l' x y r rfl (g z) (hg.lt z hz) (by
    intro h
    apply hzl
    rw [← hfg z hz]
    exact List.mem_map_of_mem h) (by
    rintro rfl
    exact hzx (hfg z hz).symm)
  rw [hc x y hx hy, hc x (g z) hx (hg.lt z hz), hfg z hz] at key
  refine ⟨key.1, fun h => ?_⟩
  by_contra hlt
  have hne : f y ≠ z := by
    rintro rfl
    exact hlt le_rfl
  have hfx : f x ≠ f y := fun e => hxy (hf.inj _ _ hx hy e)
  exact hd (f x) (f y) z (hf.lt x hx) (hf.lt y hy) hz hfx (Ne.symm hzx) hne (le_antisymm key.1 h)

end

end Walky
