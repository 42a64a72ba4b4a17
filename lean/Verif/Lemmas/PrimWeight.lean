import Verif.Lemmas.PrimExact

/-! # Helper lemmas: the graph returned by Prim and its weight -/

set_option linter.unusedSectionVars false

namespace Walky

open FloatOps XNum

variable {K : Type} [Field K] [LinearOrder K] [IsStrictOrderedRing K]

/-- finite part -/
def XNum.toK : XNum K → K
  | .fin x => x
  | _ => 0

theorem sum_fin (l : List (XNum K)) (h : ∀ x ∈ l, ∃ a, x = fin a) :
    FloatOps.sum l = fin (l.map toK).sum := by
  unfold FloatOps.sum
  suffices H : ∀ (acc : K), l.foldl FloatOps.add (fin acc) = fin (acc + (l.map toK).sum) by
    have := H 0
    simpa using this
  induction l with
  | nil => intro acc; simp
  | cons x t ih =>
    intro acc
    obtain ⟨a, rfl⟩ := h x (by simp)
    rw [List.foldl_cons, XNum.add_fin, ih (fun y hy => h y (by simp [hy]))]
    simp only [List.map_cons, List.sum_cons, toK]
    rw [add_assoc]

/-- all edge costs are finite -/
def FinG (g : Graph (XNum K)) : Prop := ∀ v ∈ g, ∀ e ∈ v, ∃ a, Edge.cost e = fin a

/-- sum over all directed edges -/
def wsum (g : Graph (XNum K)) : K := (g.map fun v => (v.map fun e => toK e.cost).sum).sum

theorem directedEdgeWeight_fin (g : Graph (XNum K)) (h : FinG g) :
    g.directedEdgeWeight = fin (wsum g) := by
  unfold Graph.directedEdgeWeight
  have h1 : ∀ v ∈ g, FloatOps.sum (v.map Edge.cost) = fin ((v.map fun e => toK e.cost).sum) := by
    intro v hv
    rw [sum_fin]
    · simp [Function.comp_def]
    · intro x hx
      obtain ⟨e, he, rfl⟩ := List.mem_map.mp hx
      exact h v hv e he
  rw [sum_fin]
  · unfold wsum
    rw [List.map_map]
    congr 2
    apply List.map_congr_left
    intro v hv
    simp [h1 v hv, toK]
  · intro x hx
    obtain ⟨v, hv, rfl⟩ := List.mem_map.mp hx
    exact ⟨_, h1 v hv⟩

theorem wsum_modify (g : Graph (XNum K)) (i : Nat) (e : Edge (XNum K)) (h : i < g.length) :
    wsum (g.modify i (· ++ [e])) = wsum g + toK e.cost := by
  induction g generalizing i with
  | nil => simp at h
  | cons v t ih =>
    cases i with
    | zero => simp [wsum]; ring
    | succ i =>
      have := ih i (by simpa using h)
      simp only [wsum, List.modify_succ_cons, List.map_cons, List.sum_cons] at this ⊢
      rw [this]; ring

theorem mem_modify {β : Type} {g : List (List β)} {i : Nat} {e : β} {v : List β}
    (h : v ∈ g.modify i (· ++ [e])) : v ∈ g ∨ ∃ w ∈ g, v = w ++ [e] := by
  rw [List.mem_iff_getElem?] at h
  obtain ⟨j, hj⟩ := h
  rw [List.getElem?_modify] at hj
  cases hg : g[j]? with
  | none => simp [hg] at hj
  | some w =>
    have hw : w ∈ g := List.mem_of_getElem? hg
    simp only [hg, Option.map_eq_map, Option.map_some, Option.some.injEq] at hj
    split at hj
    · right; exact ⟨w, hw, hj.symm⟩
    · left; rw [← hj]; exact hw

theorem FinG.modify {g : Graph (XNum K)} (h : FinG g) (i : Nat) {e : Edge (XNum K)} {x : K}
    (he : e.cost = fin x) : FinG (g.modify i (· ++ [e])) := by
  intro v hv e' he'
  rcases mem_modify hv with h1 | ⟨w, hw, rfl⟩
  · exact h v h1 e' he'
  · rcases List.mem_append.mp he' with h2 | h2
    · exact h w hw e' h2
    · simp at h2; rw [h2]; exact ⟨x, he⟩

/-- the adjacency lists of the edges `P` -/
def treeGraph (c : Nat → Nat → K) (N : Nat) (P : List (Nat × Nat)) : Graph (XNum K) :=
  P.foldl (fun adj p => (adj.modify p.1 (· ++ [⟨p.2, fin (c p.2 p.1)⟩])).modify p.2
    (· ++ [⟨p.1, fin (c p.2 p.1)⟩])) (List.replicate N [])

theorem treeGraph_snoc (c : Nat → Nat → K) (N : Nat) (P : List (Nat × Nat)) (p : Nat × Nat) :
    treeGraph c N (P ++ [p]) = ((treeGraph c N P).modify p.1
      (· ++ [⟨p.2, fin (c p.2 p.1)⟩])).modify p.2 (· ++ [⟨p.1, fin (c p.2 p.1)⟩]) := by
  simp [treeGraph]

@[simp] theorem length_treeGraph (c : Nat → Nat → K) (N : Nat) (P : List (Nat × Nat)) :
    (treeGraph c N P).length = N := by
  induction P using List.reverseRecOn with
  | nil => simp [treeGraph]
  | append_singleton P p ih => rw [treeGraph_snoc]; simp [ih]

theorem finG_treeGraph (c : Nat → Nat → K) (N : Nat) (P : List (Nat × Nat)) :
    FinG (treeGraph c N P) := by
  induction P using List.reverseRecOn with
  | nil =>
    intro v hv e he
    simp only [treeGraph, List.foldl_nil] at hv
    rw [List.eq_of_mem_replicate hv] at he
    simp at he
  | append_singleton P p ih =>
    rw [treeGraph_snoc]
    exact (ih.modify _ rfl).modify _ rfl

/-- edges of the adjacency lists -/
theorem mem_treeGraph (c : Nat → Nat → K) (N : Nat) (P : List (Nat × Nat))
    (hP : ∀ p ∈ P, p.1 ≠ p.2) (i : Nat) (e : Edge (XNum K)) :
    (∃ v, (treeGraph c N P)[i]? = some v ∧ e ∈ v) ↔
      i < N ∧ ∃ p ∈ P, (i = p.1 ∧ e = ⟨p.2, fin (c p.2 p.1)⟩) ∨
        (i = p.2 ∧ e = ⟨p.1, fin (c p.2 p.1)⟩) := by
  induction P using List.reverseRecOn with
  | nil =>
    simp only [treeGraph, List.foldl_nil, List.not_mem_nil, false_and, exists_false, and_false,
      iff_false]
    rintro ⟨v, hv, he⟩
    rw [List.getElem?_replicate] at hv
    split at hv
    · simp at hv; subst hv; simp at he
    · simp at hv
  | append_singleton P p ih =>
    have ih := ih (fun q hq => hP q (by simp [hq]))
    have hp := hP p (by simp)
    rw [treeGraph_snoc, List.getElem?_modify, List.getElem?_modify]
    by_cases hi : i < N
    · have hlen : i < (treeGraph c N P).length := by simpa using hi
      have hg := List.getElem?_eq_getElem hlen
      rw [hg] at ih ⊢
      simp only [Option.some.injEq, exists_eq_left'] at ih
      by_cases h1 : p.1 = i
      · have h2 : p.2 ≠ i := fun h => hp (h1.trans h.symm)
        simp only [h1, h2, if_true, if_false, Option.map_eq_map, Option.map_some,
          Option.some.injEq, exists_eq_left', List.mem_append, List.mem_singleton, hi, true_and] at ih ⊢
        rw [ih]
        constructor
        · rintro (⟨q, hq, h⟩ | h)
          · exact ⟨q, Or.inl hq, h⟩
          · refine ⟨p, Or.inr rfl, Or.inl ⟨h1.symm, ?_⟩⟩
            rw [h, h1]
        · rintro ⟨q, hq | hq, h⟩
          · exact Or.inl ⟨q, hq, h⟩
          · subst hq
            rcases h with h | h
            · right; rw [h.2, h1]
            · exact absurd h.1.symm h2
      · by_cases h2 : p.2 = i
        · simp only [h1, h2, if_true, if_false, Option.map_eq_map, Option.map_some,
            Option.some.injEq, exists_eq_left', List.mem_append, List.mem_singleton, hi, true_and] at ih ⊢
          rw [ih]
          constructor
          · rintro (⟨q, hq, h⟩ | h)
            · exact ⟨q, Or.inl hq, h⟩
            · refine ⟨p, Or.inr rfl, Or.inr ⟨h2.symm, ?_⟩⟩
              rw [h, h2]
          · rintro ⟨q, hq | hq, h⟩
            · exact Or.inl ⟨q, hq, h⟩
            · subst hq
              rcases h with h | h
              · exact absurd h.1.symm h1
              · right; rw [h.2, h2]
        · simp only [h1, h2, if_false, Option.map_eq_map, Option.map_some,
            Option.some.injEq, exists_eq_left', List.mem_append, List.mem_singleton, hi, true_and] at ih ⊢
          simp only [ih]
          constructor
          · rintro ⟨q, hq, h⟩
            exact ⟨q, Or.inl hq, h⟩
          · rintro ⟨q, hq | hq, h⟩
            · exact ⟨q, hq, h⟩
            · subst hq
              rcases h with h | h
              · exact absurd h.1.symm h1
              · exact absurd h.1.symm h2
    · have hlen : (treeGraph c N P)[i]? = none := by
        rw [List.getElem?_eq_none_iff]; simp; omega
      rw [hlen]
      simp [hi]

theorem wsum_treeGraph (c : Nat → Nat → K) (N : Nat) (P : List (Nat × Nat))
    (hP : ∀ p ∈ P, p.1 < N ∧ p.2 < N) :
    wsum (treeGraph c N P) = 2 * (P.map fun p => c p.2 p.1).sum := by
  induction P using List.reverseRecOn with
  | nil => simp [treeGraph, wsum]
  | append_singleton P p ih =>
    have hp := hP p (by simp)
    rw [treeGraph_snoc, wsum_modify _ _ _ (by simpa using hp.2), wsum_modify _ _ _ (by simpa using hp.1),
      ih (fun q hq => hP q (by simp [hq]))]
    simp only [toK, List.map_append, List.sum_append, List.map_cons, List.map_nil, List.sum_cons,
      List.sum_nil]
    ring

/-- number of directed edges -/
theorem count_treeGraph (c : Nat → Nat → K) (N : Nat) (P : List (Nat × Nat))
    (hP : ∀ p ∈ P, p.1 < N ∧ p.2 < N) :
    ((treeGraph c N P).map List.length).sum = 2 * P.length := by
  have hmod : ∀ (g : Graph (XNum K)) (i : Nat) (e : Edge (XNum K)), i < g.length →
      ((g.modify i (· ++ [e])).map List.length).sum = (g.map List.length).sum + 1 := by
    intro g
    induction g with
    | nil => intro i e h; simp at h
    | cons v t ih =>
      intro i e h
      cases i with
      | zero => simp; omega
      | succ i =>
        have := ih i e (by simpa using h)
        simp only [List.modify_succ_cons, List.map_cons, List.sum_cons] at this ⊢
        omega
  induction P using List.reverseRecOn with
  | nil => simp [treeGraph]
  | append_singleton P p ih =>
    have hp := hP p (by simp)
    rw [treeGraph_snoc, hmod _ _ _ (by simpa using hp.2), hmod _ _ _ (by simpa using hp.1),
      ih (fun q hq => hP q (by simp [hq]))]
    simp; omega

/-- modifications below the last entry commute with `dropLast` -/
theorem treeGraph_dropLast (c : Nat → Nat → K) (n : Nat) (P : List (Nat × Nat))
    (hP : ∀ p ∈ P, p.1 < n ∧ p.2 < n) :
    (treeGraph c (n + 1) P).dropLast = treeGraph c n P := by
  have hmod : ∀ (g : Graph (XNum K)) (i : Nat) (f : List (Edge (XNum K)) → List (Edge (XNum K))),
      i + 1 < g.length → (g.modify i f).dropLast = g.dropLast.modify i f := by
    intro g i f h
    apply List.ext_getElem?
    intro j
    rw [List.getElem?_dropLast, List.getElem?_modify, List.getElem?_modify, List.getElem?_dropLast]
    by_cases hij : i = j
    · subst hij
      simp only [List.length_modify, if_true]
      split <;> simp
    · simp [hij]
  induction P using List.reverseRecOn with
  | nil =>
    simp only [treeGraph, List.foldl_nil]
    rw [List.replicate_succ', List.dropLast_concat]
  | append_singleton P p ih =>
    have hp := hP p (by simp)
    rw [treeGraph_snoc, treeGraph_snoc, hmod _ _ _ (by simp; omega), hmod _ _ _ (by simp; omega),
      ih (fun q hq => hP q (by simp [hq]))]

/-- Summary: the graph returned by the sequential Prim. -/
theorem primSeq_exact {m : Mat (XNum K)} {c : Nat → Nat → K} (hm : Rep m c) (ex : List Nat)
    (hex : ∀ v ∈ ex, v < m.dim) :
    ((∀ i < m.dim, i ∈ ex) ∧ primSeq m ex = .ok []) ∨
    ∃ start P, start < m.dim ∧ start ∉ ex ∧
      PrimRun c (fun j => j < m.dim ∧ j ∉ ex) [start] P ∧
      primSeq m ex = .ok (treeGraph c m.dim P) ∧
      (∀ p ∈ P, (p.1 < m.dim ∧ p.1 ∉ ex) ∧ (p.2 < m.dim ∧ p.2 ∉ ex) ∧ p.1 ≠ p.2) := by
  obtain ⟨start, h1, h2, h3⟩ := primSeq_eq m ex (by simp) (fun v hv => (hex v hv).le)
  by_cases hn : m.dim ≤ start
  · left
    refine ⟨fun i hi => h2 i (by omega), ?_⟩
    rw [h3, if_pos hn]
  · right
    rw [if_neg hn] at h3
    have hs : start < m.dim := by omega
    obtain ⟨P, p1, p2, p3⟩ := primPicks_eq hm hs h1 hex
    have hmem := p2.mem (by simpa using ⟨hs, h1⟩)
    refine ⟨start, P.map pairOf, hs, h1, p2, ?_, hmem⟩
    rw [h3, p1]
    congr 1
    rw [← treeGraph_dropLast c m.dim _ (fun p hp => ⟨(hmem p hp).1.1, (hmem p hp).2.1.1⟩)]
    congr 1
    rw [List.foldl_cons]
    have : addPick start (List.replicate (m.dim + 1) []) (start, (⟨start, fin 0⟩ : Edge (XNum K)))
        = List.replicate (m.dim + 1) [] := by simp [addPick]
    rw [this]
    unfold treeGraph
    rw [List.foldl_map]
    clear this p1 p2 hmem h3
    generalize List.replicate (m.dim + 1) ([] : List (Edge (XNum K))) = g
    induction P generalizing g with
    | nil => rfl
    | cons q P ih =>
      obtain ⟨_, q1, q2⟩ := p3 q (by simp)
      rw [List.foldl_cons, List.foldl_cons]
      have : addPick start g q = (g.modify (pairOf q).1 (· ++ [⟨(pairOf q).2,
          fin (c (pairOf q).2 (pairOf q).1)⟩])).modify (pairOf q).2
          (· ++ [⟨(pairOf q).1, fin (c (pairOf q).2 (pairOf q).1)⟩]) := by
        unfold addPick pairOf
        simp only [ne_eq, q1, not_false_eq_true, if_true]
        rw [← q2]
      rw [this]
      exact ih (fun p hp => p3 p (by simp [hp])) _

/-- the weight of Prim's graph -/
theorem edgesCost_swap (c : Nat → Nat → K) {n : Nat} {ex : List Nat} {P : List (Nat × Nat)}
    (hsym : ∀ i j, i < n → j < n → c i j = c j i)
    (hmem : ∀ p ∈ P, (p.1 < n ∧ p.1 ∉ ex) ∧ (p.2 < n ∧ p.2 ∉ ex) ∧ p.1 ≠ p.2) :
    (P.map fun p => c p.2 p.1).sum = edgesCost c P := by
  unfold edgesCost
  congr 1
  apply List.map_congr_left
  intro p hp
  exact hsym _ _ (hmem p hp).2.1.1 (hmem p hp).1.1

end Walky
