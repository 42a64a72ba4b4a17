import Verif.Lemmas.Euler

/-! # Helper lemmas: shortcutting a walk, `is_hamiltonian_cycle` -/

set_option linter.unusedSectionVars false
set_option linter.unusedSimpArgs false

namespace Walky

open FloatOps Spec

/-- first occurrences of the entries that are not in `seen` -/
def firstOcc : List Nat → List Nat → List Nat
  | _, [] => []
  | seen, a :: t => if a ∈ seen then firstOcc seen t else a :: firstOcc (a :: seen) t

theorem firstOcc_congr {s s' : List Nat} : ∀ (l : List Nat), (∀ x, x ∈ s ↔ x ∈ s') →
    firstOcc s l = firstOcc s' l := by
  intro l
  induction l generalizing s s' with
  | nil => intro _; rfl
  | cons a t ih =>
    intro h
    simp only [firstOcc, h a]
    rw [ih h, ih (s := a :: s) (s' := a :: s') (by intro x; simp [h x])]

theorem mem_firstOcc {s l : List Nat} {x : Nat} : x ∈ firstOcc s l ↔ x ∈ l ∧ x ∉ s := by
  induction l generalizing s with
  | nil => simp [firstOcc]
  | cons a t ih =>
    simp only [firstOcc]
    split
    · rename_i h
      rw [ih]
      constructor
      · rintro ⟨h1, h2⟩; exact ⟨by simp [h1], h2⟩
      · rintro ⟨h1, h2⟩
        rcases List.mem_cons.mp h1 with rfl | h1
        · exact absurd h h2
        · exact ⟨h1, h2⟩
    · rename_i h
      rw [List.mem_cons, ih]
      simp only [List.mem_cons, not_or]
      constructor
      · rintro (rfl | ⟨h1, h2, h3⟩)
        · exact ⟨Or.inl rfl, h⟩
        · exact ⟨Or.inr h1, h3⟩
      · rintro ⟨rfl | h1, h2⟩
        · exact Or.inl rfl
        · by_cases e : x = a
          · exact Or.inl e
          · exact Or.inr ⟨h1, e, h2⟩

theorem firstOcc_sorted (s l : List Nat) :
    (firstOcc s l).Pairwise fun a b => l.idxOf a < l.idxOf b := by
  induction l generalizing s with
  | nil => simp [firstOcc]
  | cons a t ih =>
    have key : ∀ s', a ∈ s' → (firstOcc s' t).Pairwise fun x y => (a :: t).idxOf x < (a :: t).idxOf y := by
      intro s' ha
      refine (ih s').imp_of_mem ?_
      intro x y hx hy hxy
      have h1 : a ≠ x := fun h => (mem_firstOcc.mp hx).2 (h ▸ ha)
      have h2 : a ≠ y := fun h => (mem_firstOcc.mp hy).2 (h ▸ ha)
      rw [List.idxOf_cons_ne _ h1, List.idxOf_cons_ne _ h2]
      omega
    simp only [firstOcc]
    split
    · rename_i h; exact key s h
    · refine List.pairwise_cons.mpr ⟨?_, key _ (by simp)⟩
      intro b hb
      have h2 : a ≠ b := fun h => (mem_firstOcc.mp hb).2 (by simp [h])
      rw [List.idxOf_cons_self, List.idxOf_cons_ne _ h2]
      omega

theorem firstOcc_nodup (s l : List Nat) : (firstOcc s l).Nodup :=
  (firstOcc_sorted s l).imp (by rintro a b h rfl; omega)

theorem firstOcc_sublist (s l : List Nat) : (firstOcc s l).Sublist l := by
  induction l generalizing s with
  | nil => exact .slnil
  | cons a t ih =>
    simp only [firstOcc]
    split
    · exact (ih s).cons a
    · exact (ih _).cons_cons a

theorem firstOcc_append (s l r : List Nat) : firstOcc s (l ++ r) = firstOcc s l ++ firstOcc (s ++ l) r := by
  induction l generalizing s with
  | nil => simp [firstOcc]
  | cons a t ih =>
    simp only [List.cons_append, firstOcc]
    split
    · rename_i h
      rw [ih, firstOcc_congr (s := s ++ t) (s' := s ++ a :: t) r]
      intro x
      simp only [List.mem_append, List.mem_cons]
      constructor
      · tauto
      · rintro (h | rfl | h) <;> tauto
    · rw [ih, List.cons_append, List.cons_append, firstOcc_congr (s := a :: (s ++ t)) (s' := s ++ a :: t) r]
      intro x
      simp only [List.cons_append, List.mem_append, List.mem_cons]
      tauto

theorem firstVisits_ok {n : Nat} : ∀ (walk : List Nat) (visited : List Bool) (seen : List Nat),
    visited.length = n → (∀ x < n, visited[x]? = some (decide (x ∈ seen))) → (∀ x ∈ walk, x < n) →
    ∃ flags, firstVisits visited walk = .ok flags ∧
      (walk.zip flags).filterMap (fun x => if x.2 then some x.1 else none) = firstOcc seen walk := by
  intro walk
  induction walk with
  | nil => intro visited seen _ _ _; exact ⟨[], rfl, rfl⟩
  | cons a t ih =>
    intro visited seen hl hv hw
    have ha := hv a (hw a (by simp))
    simp only [firstVisits, idx_ok ha, rm_bind_ok, firstOcc]
    by_cases hs : a ∈ seen
    · obtain ⟨flags, h1, h2⟩ := ih visited seen hl hv (fun x hx => hw x (by simp [hx]))
      refine ⟨false :: flags, ?_, ?_⟩
      · simp [hs, h1]
      · simpa [hs] using h2
    · obtain ⟨flags, h1, h2⟩ := ih (visited.set a true) (a :: seen) (by simpa using hl) (by
        intro x hx
        by_cases e : a = x
        · subst e
          rw [List.getElem?_set_self (by omega)]
          simp
        · rw [List.getElem?_set_ne e, hv x hx]
          simp [Ne.symm e]) (fun x hx => hw x (by simp [hx]))
      refine ⟨true :: flags, ?_, ?_⟩
      · simp [hs, h1]
      · simpa [hs] using h2

theorem hamiltonian_ok {n : Nat} {a : Nat} {t : List Nat} (h : ∀ x ∈ a :: t, x < n) :
    hamiltonianFromEulerian n (a :: t) = .ok (firstOcc [] (a :: t) ++ [a]) := by
  obtain ⟨flags, h1, h2⟩ := firstVisits_ok (n := n) (a :: t) (List.replicate n false) [] (by simp) (by
    intro x hx
    simp [hx]) h
  unfold hamiltonianFromEulerian
  simp only [h1, rm_bind_ok, h2]
  simp [firstOcc, unwrapO]

/-- the closed walk after shortcutting is a part of the closed walk -/
theorem shortcut_sublist {a : Nat} {W : List Nat} (h : W.head? = some a) :
    (firstOcc [] (W ++ [a]) ++ [a]).Sublist (W ++ [a]) := by
  have ha : a ∈ W := List.mem_of_head? h
  rw [firstOcc_append]
  have : firstOcc ([] ++ W) [a] = [] := by simp [firstOcc, ha]
  rw [this, List.append_nil]
  exact (firstOcc_sublist [] W).append (List.Sublist.refl _)

section cost
variable {K : Type} [Field K] [LinearOrder K] [IsStrictOrderedRing K]

theorem Spec.Metric.nonneg {n : Nat} {c : Nat → Nat → K} (h : Metric n c) {i j : Nat} (hi : i < n) (hj : j < n) :
    0 ≤ c i j := by
  have h1 := h.tri i i j hi hi hj
  rw [h.diag i hi, h.symm j i hj hi] at h1
  linarith

theorem pathCost_sublist {n : Nat} {c : Nat → Nat → K} (h : Metric n c) {s l : List Nat} (hs : s.Sublist l) :
    ∀ a < n, (∀ x ∈ l, x < n) → pathCost c (a :: s) ≤ pathCost c (a :: l) := by
  induction hs with
  | slnil => intro a _ _; exact le_refl _
  | @cons s l x hs ih =>
    intro a ha hl
    have hx : x < n := hl x (by simp)
    have h1 := ih x hx (fun y hy => hl y (by simp [hy]))
    have h2 : pathCost c (a :: s) ≤ c a x + pathCost c (x :: s) := by
      cases s with
      | nil =>
        simp only [pathCost_one, add_zero]
        exact h.nonneg ha hx
      | cons y s =>
        have hy : y < n := hl y (by simp [hs.subset (List.mem_cons_self (a := y) (l := s))])
        simp only [pathCost_cons₂]
        have := h.tri a y x ha hy hx
        linarith
    simp only [pathCost_cons₂]
    linarith
  | @cons_cons s l x hs ih =>
    intro a ha hl
    simp only [pathCost_cons₂]
    have := ih x (hl x (by simp)) (fun y hy => hl y (by simp [hy]))
    linarith

/-- Leaving out vertices of a walk does not make it longer. -/
theorem pathCost_shortcut {n : Nat} {c : Nat → Nat → K} (h : Metric n c) {s l : List Nat}
    (hs : s.Sublist l) (hl : ∀ x ∈ l, x < n) : pathCost c s ≤ pathCost c l := by
  have nn : ∀ (l : List Nat), (∀ x ∈ l, x < n) → 0 ≤ pathCost c l := by
    intro l
    induction l with
    | nil => intro _; exact le_refl _
    | cons a t ih =>
      intro hl
      cases t with
      | nil => exact le_refl _
      | cons b t =>
        simp only [pathCost_cons₂]
        have := ih (fun x hx => hl x (by simp only [List.mem_cons] at hx ⊢; tauto))
        have := h.nonneg (hl a (by simp)) (hl b (by simp))
        linarith
  induction hs with
  | slnil => exact le_refl _
  | @cons s l x hs ih =>
    refine (ih (fun y hy => hl y (by simp [hy]))).trans ?_
    cases l with
    | nil => exact le_refl _
    | cons b t =>
      simp only [pathCost_cons₂]
      have := h.nonneg (hl x (by simp)) (hl b (by simp))
      linarith
  | @cons_cons s l x hs ih =>
    exact pathCost_sublist h hs x (hl x (by simp)) (fun y hy => hl y (by simp [hy]))

end cost

/-! ## `is_hamiltonian_cycle` -/

theorem used_counts {n : Nat} (path : List Nat) (h : ∀ x ∈ path, x < n) :
    path.foldl (fun used u => used.modify u (· + 1)) (List.replicate n 0) =
      (List.range n).map fun i => path.count i := by
  have := foldl_inv (fun (used : List Nat) (u : Nat) => used.modify u (· + 1))
    (fun done used => used = (List.range n).map fun i => done.count i) path (List.replicate n 0)
    (by simp) (by
      intro done i rest used hl hu
      subst hu
      have hi : i < n := h i (by rw [hl]; simp)
      apply List.ext_getElem?
      intro k
      rw [List.getElem?_modify]
      by_cases hk : k < n
      · simp only [List.getElem?_map, List.getElem?_range hk, Option.map_some, List.count_append,
          List.count_singleton]
        by_cases e : i = k
        · simp [e]
        · simp [e]
      · have : ((List.range n).map fun i => done.count i)[k]? = none := by simp; omega
        rw [this]
        simp
        omega)
  exact this

theorem twice_fold (l : List Nat) : ∀ (ok seen : Bool),
    (l.foldl (fun (st : Bool × Bool) k =>
      if k = 2 then (st.1 && !st.2, true) else (st.1 && (k == 1), st.2)) (ok, seen)).1 =
    (ok && l.all (fun k => k == 1 || k == 2) && decide (l.count 2 + (if seen then 1 else 0) ≤ 1 ∨
      l.count 2 = 0)) := by
  induction l with
  | nil => intro ok seen; simp
  | cons a t ih =>
    intro ok seen
    rw [List.foldl_cons]
    by_cases h2 : a = 2
    · subst h2
      simp only [if_true]
      rw [ih]
      cases ok <;> cases seen <;> simp
    · rw [if_neg h2, ih]
      have h3 : (a == 2) = false := by simpa using h2
      simp only [List.all_cons, h3, Bool.or_false, List.count_cons, Bool.false_eq_true, if_false,
        Nat.add_zero]
      cases ok <;> simp [Bool.and_assoc]

theorem isHamiltonianCycle_iff (path : List Nat) (n : Nat) : isHamiltonianCycle path n = true ↔
    (∀ x ∈ path, x < n) ∧ (∀ i < n, path.count i = 1 ∨ path.count i = 2) ∧
      ((List.range n).map fun i => path.count i).count 2 ≤ 1 := by
  unfold isHamiltonianCycle
  by_cases h : ∀ x ∈ path, x < n
  · rw [if_neg (by simpa using h)]
    simp only [used_counts path h, twice_fold]
    simp only [Bool.true_and, Bool.and_eq_true, List.all_map, List.all_eq_true, List.mem_range,
      Function.comp, Bool.or_eq_true, beq_iff_eq, decide_eq_true_eq, Bool.false_eq_true, if_false,
      Nat.add_zero]
    constructor
    · rintro ⟨h1, h2⟩; exact ⟨h, h1, by omega⟩
    · rintro ⟨_, h1, h2⟩; exact ⟨h1, by omega⟩
  · rw [if_pos (by simpa using h)]
    simp only [Bool.false_eq_true, false_iff]
    tauto

theorem count_map_le_one {n : Nat} {f : Nat → Nat} {v : Nat} :
    ((List.range n).map f).count v ≤ 1 ↔ ∀ i < n, ∀ j < n, f i = v → f j = v → i = j := by
  induction n with
  | zero => simp
  | succ n ih =>
    rw [List.range_succ, List.map_append, List.count_append]
    simp only [List.map_cons, List.map_nil, List.count_singleton, beq_iff_eq]
    by_cases hn : f n = v
    · rw [if_pos hn]
      constructor
      · intro h i hi j hj h1 h2
        have h0 : ((List.range n).map f).count v = 0 := by omega
        rw [List.count_eq_zero] at h0
        have hlt : ∀ k < n, f k ≠ v := by
          intro k hk e
          exact h0 (List.mem_map.mpr ⟨k, by simpa using hk, e⟩)
        have : i = n := by
          by_contra hne; exact hlt i (by omega) h1
        have : j = n := by
          by_contra hne; exact hlt j (by omega) h2
        omega
      · intro h
        have : ((List.range n).map f).count v = 0 := by
          rw [List.count_eq_zero]
          intro hm
          obtain ⟨k, hk, e⟩ := List.mem_map.mp hm
          have hk : k < n := by simpa using hk
          have := h k (by omega) n (by omega) e hn
          omega
        omega
    · rw [if_neg hn, Nat.add_zero, ih]
      constructor
      · intro h i hi j hj h1 h2
        have : i ≠ n := by rintro rfl; exact hn h1
        have : j ≠ n := by rintro rfl; exact hn h2
        exact h i (by omega) j (by omega) h1 h2
      · intro h i hi j hj
        exact h i (by omega) j (by omega)

theorem isHamiltonianCycle_closed {n : Nat} {a : Nat} {W : List Nat} (hW : a ∈ W) :
    isHamiltonianCycle (W ++ [a]) n = true ↔ IsTour n W := by
  rw [isHamiltonianCycle_iff, count_map_le_one]
  have hcount : ∀ i, (W ++ [a]).count i = W.count i + if i = a then 1 else 0 := by
    intro i
    rw [List.count_append, List.count_singleton]
    by_cases h : i = a
    · simp [h]
    · simp [h, Ne.symm h]
  constructor
  · rintro ⟨h1, h2, h3⟩
    have ha : a < n := h1 a (by simp)
    have hca : (W ++ [a]).count a = 2 := by
      have := List.one_le_count_iff.mpr hW
      have h := hcount a
      rw [if_pos rfl] at h
      rcases h2 a ha with h' | h' <;> omega
    have hone : ∀ i < n, W.count i = 1 := by
      intro i hi
      by_cases e : i = a
      · subst e
        have h := hcount i
        rw [if_pos rfl] at h
        omega
      · have h := hcount i
        rw [if_neg e] at h
        rcases h2 i hi with h' | h'
        · omega
        · exact absurd (h3 i hi a ha h' hca) e
    unfold IsTour
    rw [List.perm_iff_count]
    intro i
    by_cases hi : i < n
    · rw [hone i hi, List.count_eq_one_of_mem List.nodup_range (by simpa using hi)]
    · rw [List.count_eq_zero_of_not_mem, List.count_eq_zero_of_not_mem (by simpa using hi)]
      intro hm
      exact hi (h1 i (by simp [hm]))
  · intro h
    have hone : ∀ i < n, W.count i = 1 := fun i hi =>
      List.count_eq_one_of_mem h.nodup (h.mem.mpr hi)
    refine ⟨?_, ?_, ?_⟩
    · intro x hx
      rcases List.mem_append.mp hx with hx | hx
      · exact h.mem.mp hx
      · simp only [List.mem_singleton] at hx
        subst hx
        exact h.mem.mp hW
    · intro i hi
      rw [hcount, hone i hi]
      split <;> simp
    · intro i hi j hj h1 h2
      rw [hcount, hone i hi] at h1
      rw [hcount, hone j hj] at h2
      split at h1 <;> split at h2 <;> omega

end Walky
