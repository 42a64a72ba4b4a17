import Verif.Lemmas.Bounds

/-! # Helper lemmas: spanning trees of the specification and Prim's run -/

set_option linter.unusedSectionVars false

namespace Walky

open FloatOps XNum Spec

variable {K : Type} [Field K] [LinearOrder K] [IsStrictOrderedRing K]

theorem conn_iff {F : List (Nat × Nat)} {a x : Nat} :
    Conn F [a] x ↔ Relation.ReflTransGen (Joined F) x a := by
  constructor
  · intro h
    induction h with
    | base h => simp at h; subst h; exact .refl
    | step e _ ih => exact .head e ih
  · intro h
    induction h using Relation.ReflTransGen.head_induction_on with
    | refl => exact .base (by simp)
    | head e _ ih => exact .step e ih

theorem mem_citiesExcept {n : Nat} {ex : List Nat} {i : Nat} :
    i ∈ citiesExcept n ex ↔ i < n ∧ i ∉ ex := by
  simp [citiesExcept]

theorem nodup_citiesExcept (n : Nat) (ex : List Nat) : (citiesExcept n ex).Nodup :=
  List.nodup_range.filter _

theorem joined_swap {E : List (Nat × Nat)} {a b : Nat} :
    Joined (E.map Prod.swap) a b ↔ Joined E a b := by
  unfold Joined
  simp only [List.mem_map, Prod.exists]
  constructor
  · rintro (⟨x, y, h, e⟩ | ⟨x, y, h, e⟩) <;> cases e
    · exact Or.inr h
    · exact Or.inl h
  · rintro (h | h)
    · exact Or.inr ⟨_, _, h, rfl⟩
    · exact Or.inl ⟨_, _, h, rfl⟩

theorem length_citiesExcept_start {n : Nat} {ex : List Nat} {start : Nat} (h1 : start < n)
    (h2 : start ∉ ex) : (remaining n ex [start]).length + 1 = (citiesExcept n ex).length := by
  have := remaining_length_cons (S := []) h1 h2 (by simp)
  rw [this]
  congr 1
  unfold remaining citiesExcept
  apply List.filter_congr
  intro i _
  simp

theorem PrimRun.spanning {c : Nat → Nat → K} {n : Nat} {ex : List Nat} {start : Nat}
    {P : List (Nat × Nat)} (hs : start < n) (hse : start ∉ ex)
    (h : PrimRun c (fun j => j < n ∧ j ∉ ex) [start] P) :
    IsSpanningTree (citiesExcept n ex) (P.map Prod.swap) := by
  have hmem := h.mem (by simpa using ⟨hs, hse⟩)
  refine ⟨?_, ?_, ?_⟩
  · intro e he
    obtain ⟨p, hp, rfl⟩ := List.mem_map.mp he
    obtain ⟨h1, h2, h3⟩ := hmem p hp
    simp only [mem_citiesExcept]
    exact ⟨h2, h1, h3.symm⟩
  · intro a ha b hb
    rw [mem_citiesExcept] at ha hb
    have ca := conn_iff.mp (h.conn a ha)
    have cb := conn_iff.mp ((h.conn b hb).symm)
    have : Joined (P.map Prod.swap) = Joined P := by
      funext x y; exact propext joined_swap
    rw [this]
    exact ca.trans cb
  · rw [List.length_map, h.length, length_citiesExcept_start hs hse]

theorem PrimRun.min_spec {c : Nat → Nat → K} {n : Nat} {ex : List Nat} {start : Nat}
    {P : List (Nat × Nat)} (hs : start < n) (hse : start ∉ ex) (hsym : Symm n c)
    (h : PrimRun c (fun j => j < n ∧ j ∉ ex) [start] P) (F : List (Nat × Nat))
    (hF : ∀ e ∈ F, e.1 ∈ citiesExcept n ex ∧ e.2 ∈ citiesExcept n ex)
    (hc : Connects F (citiesExcept n ex))
    (hlen : F.length + 1 = (citiesExcept n ex).length ∨ ∀ e ∈ F, 0 ≤ c e.1 e.2) :
    edgesCost c P ≤ edgeSum c F := by
  refine h.min (fun i j hi hj => hsym i j hi.1 hj.1) (by simpa using ⟨hs, hse⟩) F ?_ ?_ ?_
  · intro e he
    simpa [mem_citiesExcept] using hF e he
  · intro j hj
    exact conn_iff.mpr (hc j (mem_citiesExcept.mpr hj) start (mem_citiesExcept.mpr ⟨hs, hse⟩))
  · refine hlen.imp_left fun h0 => ?_
    have h1 := h.length
    have h2 := length_citiesExcept_start hs hse
    omega

theorem edgesAt_append (c : Nat → Nat → K) (E F : List (Nat × Nat)) (i : Nat) :
    edgesAt c (E ++ F) i = edgesAt c E i ++ edgesAt c F i := by
  simp [edgesAt]

theorem graphOf_treeGraph (c : Nat → Nat → K) (n : Nat) (P : List (Nat × Nat))
    (hP : ∀ p ∈ P, p.1 ≠ p.2) : GraphOf n c (P.map Prod.swap) (treeGraph c n P) := by
  refine ⟨by simp, ?_⟩
  intro i hi
  induction P using List.reverseRecOn with
  | nil => simp [treeGraph, edgesAt, hi]
  | append_singleton P p ih =>
    have hp := hP p (by simp)
    rw [treeGraph_snoc, List.getElem?_modify, List.getElem?_modify,
      ih (fun q hq => hP q (by simp [hq])), List.map_append, edgesAt_append]
    by_cases h1 : p.1 = i
    · have h2 : p.2 ≠ i := fun h => hp (h1.trans h.symm)
      simp [h1, h2, edgesAt]
    · by_cases h2 : p.2 = i
      · simp [h1, h2, edgesAt]
      · simp [h1, h2, edgesAt]

theorem edgeSum_swap (c : Nat → Nat → K) (P : List (Nat × Nat)) :
    edgeSum c (P.map Prod.swap) = (P.map fun p => c p.2 p.1).sum := by
  simp [edgeSum, Function.comp_def]

/-- weight of a graph that holds the edges `E` -/
theorem finG_treeGraph_weight (c : Nat → Nat → K) (n : Nat) (P : List (Nat × Nat))
    (hP : ∀ p ∈ P, p.1 < n ∧ p.2 < n) :
    (treeGraph c n P).undirectedEdgeWeight = fin (edgeSum c (P.map Prod.swap)) := by
  unfold Graph.undirectedEdgeWeight
  rw [directedEdgeWeight_fin _ (finG_treeGraph _ _ _), wsum_treeGraph c n P hP, edgeSum_swap]
  simp

end Walky
