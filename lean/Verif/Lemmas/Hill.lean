import Verif.Lemmas.Bounds

/-! # Helper lemmas: tours that v4 never prunes -/

set_option linter.unusedSectionVars false

namespace Walky

open FloatOps Spec XNum

variable {K : Type} [Field K] [LinearOrder K] [IsStrictOrderedRing K]

/-- first increasing, then decreasing -/
def Hill (t : List Nat) : Prop :=
  ∃ l x r, t = l ++ x :: r ∧ (l ++ [x]).Pairwise (· < ·) ∧ (x :: r).Pairwise (· > ·)

theorem Hill.tail {a : Nat} {t : List Nat} (h : Hill (a :: t)) (ht : t ≠ []) : Hill t := by
  obtain ⟨l, x, r, e, h1, h2⟩ := h
  cases l with
  | nil =>
    simp only [List.nil_append, List.cons.injEq] at e
    obtain ⟨rfl, rfl⟩ := e
    cases t with
    | nil => exact absurd rfl ht
    | cons y s =>
      refine ⟨[], y, s, rfl, by simp, ?_⟩
      exact (List.pairwise_cons.mp h2).2
  | cons b l =>
    simp only [List.cons_append, List.cons.injEq] at e
    obtain ⟨rfl, rfl⟩ := e
    refine ⟨l, x, r, rfl, ?_, h2⟩
    rw [List.cons_append] at h1
    exact (List.pairwise_cons.mp h1).2

theorem Hill.suffix {s t : List Nat} (h : Hill (s ++ t)) (ht : t ≠ []) : Hill t := by
  induction s with
  | nil => exact h
  | cons a s ih => exact ih (h.tail (by simp [ht]))

theorem pairs_map_fst (t : List Nat) : (pairs t).map Prod.fst = t.dropLast := by
  induction t with
  | nil => rfl
  | cons a t ih =>
    cases t with
    | nil => rfl
    | cons b t => rw [pairs_cons₂, List.map_cons, ih]; rfl

theorem pairs_map_snd (t : List Nat) : (pairs t).map Prod.snd = t.tail := by
  induction t with
  | nil => rfl
  | cons a t ih =>
    cases t with
    | nil => rfl
    | cons b t => rw [pairs_cons₂, List.map_cons, ih]; rfl

theorem pairs_rel {R : Nat → Nat → Prop} {t : List Nat} (h : t.Pairwise R) {e : Nat × Nat}
    (he : e ∈ pairs t) : R e.1 e.2 := by
  induction t with
  | nil => simp [pairs] at he
  | cons a t ih =>
    cases t with
    | nil => simp [pairs] at he
    | cons b t =>
      rw [pairs_cons₂] at he
      rw [List.pairwise_cons] at h
      rcases List.mem_cons.mp he with h1 | h1
      · subst h1; exact h.1 b (by simp)
      · exact ih h.2 h1

/-- On a hill the bound of v4 is at most the length of the path. -/
theorem nnOfRemaining_le_hill {m : Mat (XNum K)} {c : Nat → Nat → K} (hm : Rep m c)
    (hsym : Symm m.dim c) {p t : List Nat} (hnd : t.Nodup)
    (ht : ∀ j, j ∈ t ↔ j < m.dim ∧ j ∉ p) (hh : Hill t) :
    ∃ x, nnOfRemaining m p = fin x ∧ x ≤ pathCost c t := by
  obtain ⟨l, x, r, rfl, h1, h2⟩ := hh
  have hl : ∀ a ∈ l, a < x := by
    intro a ha
    exact (List.pairwise_append.mp h1).2.2 a ha x (by simp)
  have hr : ∀ a ∈ r, a < x := fun a ha => (List.pairwise_cons.mp h2).1 a ha
  have hswap : ∀ e ∈ (pairs (x :: r)).map Prod.swap, e.1 < e.2 ∧ e.1 ∈ x :: r ∧ e.2 ∈ x :: r := by
    intro e he
    obtain ⟨f, hf, rfl⟩ := List.mem_map.mp he
    exact ⟨pairs_rel h2 hf, (mem_pairs hf).2, (mem_pairs hf).1⟩
  have key := nnOfRemaining_le hm p (pairs (l ++ [x]) ++ (pairs (x :: r)).map Prod.swap) x
    ?_ ?_ ?_
  · obtain ⟨y, hy, hle⟩ := key
    refine ⟨y, hy, hle.trans (le_of_eq ?_)⟩
    rw [pathCost_append, ← edgesCost_pairs, ← edgesCost_pairs]
    unfold edgesCost
    rw [List.map_append, List.sum_append, List.map_map]
    congr 2
    apply List.map_congr_left
    intro e he
    have hm1 := (ht e.1).mp (List.mem_append_right _ (mem_pairs he).1)
    have hm2 := (ht e.2).mp (List.mem_append_right _ (mem_pairs he).2)
    exact hsym _ _ hm2.1 hm1.1
  · have e1 : ((pairs (l ++ [x]) ++ (pairs (x :: r)).map Prod.swap).map Prod.fst) = l ++ r := by
      rw [List.map_append, pairs_map_fst, List.map_map]
      have : (Prod.fst ∘ Prod.swap : Nat × Nat → Nat) = Prod.snd := rfl
      rw [this, pairs_map_snd]
      simp
    rw [e1]
    have hp : (l ++ r ++ [x]).Perm (l ++ x :: r) := by
      rw [List.append_assoc]
      exact List.Perm.append_left l (List.perm_append_singleton x r)
    refine hp.trans ?_
    rw [List.perm_ext_iff_of_nodup hnd (List.nodup_range.filter _)]
    intro j
    rw [ht]
    simp
  · intro e he
    rcases List.mem_append.mp he with he | he
    · have := (ht e.2).mp (by
        have := (mem_pairs he).2
        simp only [List.mem_append, List.mem_cons] at this ⊢
        tauto)
      exact ⟨pairs_rel h1 he, this⟩
    · obtain ⟨a1, _, a3⟩ := hswap e he
      have := (ht e.2).mp (List.mem_append_right _ a3)
      exact ⟨a1, this⟩
  · intro j hj hjn
    by_contra hjp
    have := (ht j).mpr ⟨hjn, hjp⟩
    simp only [List.mem_append, List.mem_cons] at this
    rcases this with h | h | h
    · have := hl j h; omega
    · omega
    · have := hr j h; omega

/-- `test4` follows a tour whose part after the second city is a hill. -/
theorem along_test4 {m : Mat (XNum K)} {c : Nat → Nat → K} (hm : Rep m c) (hsym : Symm m.dim c)
    (hc : Nonneg m.dim c) {a b : Nat} {t : List Nat} (hq : IsTour m.dim (a :: b :: t))
    (hh : t = [] ∨ Hill t) : Along c (test4 m) (fun _ => True) [] (a :: b :: t) := by
  rintro p ⟨s, hs⟩ _ h2 _ best _ hb hle
  refine ⟨(), ?_⟩
  have hq' : IsTour m.dim (p ++ s) := hs ▸ hq
  have hclose := closing_nonneg hc (by
    intro h1
    have := hq.length
    simp at this
    omega) hq'
  have hbound : ∃ x, nnOfRemaining m p = fin x ∧ pathCost c p + x ≤ tourCost c (p ++ s) := by
    obtain ⟨r1, r2⟩ := rest_of_tour hq'
    by_cases hnil : s = []
    · subst hnil
      refine ⟨0, ?_, ?_⟩
      · unfold nnOfRemaining
        refine foldl_inv _ (fun _ b => b = fin 0) _ _ rfl ?_
        rintro done i rest b hl rfl
        have hi : i ∈ List.range m.dim := by rw [hl]; simp
        have : i ∈ p := by
          have := hq'.mem.mpr (by simpa using hi)
          simpa using this
        simp [this]
      · simpa using hclose
    · have hh' : Hill s := by
        rcases p with _ | ⟨a', _ | ⟨b', p⟩⟩
        · simp at h2
        · simp at h2
        · simp only [List.cons_append, List.cons.injEq] at hs
          obtain ⟨_, _, rfl⟩ := hs
          rcases hh with h | h
          · simp [hnil] at h
          · exact h.suffix hnil
      obtain ⟨x, hx, hx'⟩ := nnOfRemaining_le_hill hm hsym r1 r2 hh'
      refine ⟨x, hx, ?_⟩
      cases s with
      | nil => exact absurd rfl hnil
      | cons y s =>
        have hpos : pathCost c p ≤ pathCost c (p ++ [y]) :=
          pathCost_prefix_le hc (validPre_prefix hq' ⟨s, by simp⟩) ⟨[y], rfl⟩
        rw [pathCost_append] at hclose
        linarith
  obtain ⟨x, hx, hx'⟩ := hbound
  have : FloatOps.le (fin (pathCost c p + x)) best = true := by
    refine le_trans' ?_ hle
    rw [← hs]
    simpa using hx'
  simp [test4, hx, this]

end Walky
