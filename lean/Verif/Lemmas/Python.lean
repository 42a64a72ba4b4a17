import Verif.Model.Python
import Verif.Lemmas.Points64
import Verif.Lemmas.Shortcut
import Verif.Lemmas.NearMetric
import Verif.Rep

/-! # Lemmas: the Python generators -/

namespace Walky

open FloatOps XNum Spec

section
variable {α : Type} [FloatOps α]

/-- the entry of the matrix in row `i` and column `j` -/
def pyEntry (norm : α × α → α) (points : List (α × α)) (i j : Nat) : α :=
  match points[i]?, points[j]? with
  | some p, some q => if i < j then pyDistance norm p q else if j < i then pyDistance norm q p else zero
  | _, _ => zero

/-- one write of `create_matrix` -/
def pyWrite (norm : α × α → α) (points : List (α × α)) (M : Nat → Nat → α) (w : Nat × Nat) : Nat → Nat → α :=
  match points[w.1]?, points[w.2]? with
  | some p, some q => writeBoth M w.1 w.2 (pyDistance norm p q)
  | _, _ => M

theorem pyWrites (norm : α × α → α) (points : List (α × α)) (ws : List (Nat × Nat))
    (h : ∀ w ∈ ws, w.1 < w.2 ∧ w.2 < points.length) (M : Nat → Nat → α) (a b : Nat) :
    ws.foldl (pyWrite norm points) M a b =
      if (a, b) ∈ ws ∨ (b, a) ∈ ws then pyEntry norm points a b else M a b := by
  induction ws generalizing M with
  | nil => simp
  | cons w ws ih =>
    rw [List.foldl_cons, ih fun w hw => h w (by simp [hw])]
    by_cases hm : (a, b) ∈ ws ∨ (b, a) ∈ ws
    · rw [if_pos hm, if_pos]
      rcases hm with hm | hm <;> simp [hm]
    · rw [if_neg hm]
      obtain ⟨h1, h2⟩ := h w (by simp)
      rw [not_or] at hm
      obtain ⟨i, j⟩ := w
      simp only at h1 h2
      unfold pyWrite
      simp only [List.getElem?_eq_getElem h2, List.getElem?_eq_getElem (h1.trans h2), writeBoth]
      by_cases hab : (a = i ∧ b = j) ∨ (a = j ∧ b = i)
      · rw [if_pos hab, if_pos]
        · unfold pyEntry
          rcases hab with ⟨rfl, rfl⟩ | ⟨rfl, rfl⟩
          · simp only [List.getElem?_eq_getElem h2, List.getElem?_eq_getElem (h1.trans h2), if_pos h1]
          · simp only [List.getElem?_eq_getElem h2, List.getElem?_eq_getElem (h1.trans h2), if_pos h1,
              if_neg (lt_asymm h1)]
        · rcases hab with ⟨rfl, rfl⟩ | ⟨rfl, rfl⟩ <;> simp
      · rw [if_neg hab, if_neg]
        simp only [List.mem_cons, Prod.mk.injEq, hm.1, hm.2, or_false]
        rintro (⟨rfl, rfl⟩ | ⟨rfl, rfl⟩)
        · exact hab (Or.inl ⟨rfl, rfl⟩)
        · exact hab (Or.inr ⟨rfl, rfl⟩)

theorem createMatrix_eq (norm : α × α → α) (points : List (α × α)) :
    createMatrix norm points = (List.range points.length).map fun i => (List.range points.length).map fun j =>
      pyEntry norm points i j := by
  have e : createMatrix norm points = (List.range points.length).map fun i => (List.range points.length).map fun j =>
      ((List.range points.length).flatMap fun i =>
        (List.range' (i + 1) (points.length - (i + 1))).map fun j => (i, j)).foldl (pyWrite norm points)
        (fun _ _ => (zero : α)) i j := by
    rw [List.foldl_flatMap]
    simp only [List.foldl_map]
    rfl
  rw [e]
  refine List.map_congr_left fun i hi => List.map_congr_left fun j hj => ?_
  rw [List.mem_range] at hi hj
  have hmem : ∀ a b : Nat, (a, b) ∈ ((List.range points.length).flatMap fun i =>
      (List.range' (i + 1) (points.length - (i + 1))).map fun j => (i, j)) ↔ a < b ∧ b < points.length := by
    intro a b
    simp only [List.mem_flatMap, List.mem_range, List.mem_map, List.mem_range'_1, Prod.mk.injEq]
    constructor
    · rintro ⟨i, h1, j, h2, rfl, rfl⟩
      omega
    · intro h
      exact ⟨a, by omega, b, by omega, rfl, rfl⟩
  rw [pyWrites norm points _ (fun w hw => (hmem w.1 w.2).mp hw)]
  split
  · rfl
  · rename_i h
    rw [hmem, hmem] at h
    have : i = j := by omega
    obtain rfl := this
    unfold pyEntry
    rw [List.getElem?_eq_getElem hi]
    simp

/-- a principal minor is the matrix of the first points -/
theorem principalMinor_eq (norm : α × α → α) (points : List (α × α)) {k : Nat} (hk : k ≤ points.length) :
    principalMinor (createMatrix norm points) k = createMatrix norm (points.take k) := by
  rw [createMatrix_eq, createMatrix_eq, List.length_take, Nat.min_eq_left hk]
  unfold principalMinor
  rw [← List.map_take, List.take_range, Nat.min_eq_left hk, List.map_map]
  refine List.map_congr_left fun i hi => ?_
  rw [List.mem_range] at hi
  simp only [Function.comp_apply]
  rw [← List.map_take, List.take_range, Nat.min_eq_left hk]
  refine List.map_congr_left fun j hj => ?_
  rw [List.mem_range] at hj
  unfold pyEntry
  rw [List.getElem?_take_of_lt hi, List.getElem?_take_of_lt hj]

/-- the files of a benchmark -/
theorem benchmarkFiles_eq (norm : α × α → α) (fmt : α → List Char) (points : List (α × α)) (l : Nat) :
    benchmarkFiles norm fmt points l =
      (List.range' l (points.length - l) ++ [points.length]).map fun k =>
        (k, pyXml fmt (createMatrix norm (points.take k))) := by
  unfold benchmarkFiles
  simp only [List.map_append, List.map_map, List.map_cons, List.map_nil, List.take_length]
  congr 1
  refine List.map_congr_left fun k hk => ?_
  rw [List.mem_range'_1] at hk
  simp only [Function.comp_apply]
  rw [principalMinor_eq norm points (by omega)]

end

/-- leaving out the last cities does not make a shortest tour longer -/
theorem shortest_mono {n k : Nat} (hk : k ≤ n) {d : Nat → Nat → ℝ} (hd : Metric n d) {p q : List Nat}
    (hp : IsShortest k d p) (hq : IsTour n q) : tourCost d p ≤ tourCost d q := by
  rcases Nat.eq_zero_or_pos k with rfl | h0
  · have : p = [] := List.perm_nil.mp hp.1
    rw [this]
    rcases Nat.lt_or_ge n 2 with h | h
    · have hn : n = 0 ∨ n = 1 := by omega
      rcases hn with rfl | rfl
      · rw [show q = [] from List.perm_nil.mp hq]
      · rw [show q = [0] from List.perm_singleton.mp hq]
        simp [tourCost, hd.diag 0 (by omega)]
    · exact tourCost_metric_nonneg hd h hq
  obtain ⟨l, r, rfl⟩ := List.append_of_mem (hq.mem_iff.mpr (List.mem_range.mpr (by omega : 0 < n)))
  have hq' : IsTour n (0 :: r ++ l) := by
    refine List.Perm.trans ?_ hq
    exact (List.perm_append_comm).symm
  rw [tourCost_append_comm]
  have ht : IsTour k (((0 :: r ++ l)).filter (· < k)) := by
    refine (hq'.filter _).trans ?_
    refine (List.perm_ext_iff_of_nodup (List.nodup_range.filter _) List.nodup_range).mpr fun x => ?_
    simp only [List.mem_filter, List.mem_range, decide_eq_true_eq]
    omega
  refine (hp.2 _ ht).trans ?_
  rw [List.cons_append, List.filter_cons_of_pos (by simpa using h0)]
  show pathCost d (0 :: ((r ++ l).filter (· < k) ++ [0])) ≤ pathCost d (0 :: ((r ++ l) ++ [0]))
  refine pathCost_sublist hd ?_ 0 (by omega) ?_
  · exact List.filter_sublist.append (List.Sublist.refl _)
  · intro x hx
    rcases List.mem_append.mp hx with h | h
    · exact List.mem_range.mp (hq'.mem_iff.mp (by simp [h] : x ∈ 0 :: r ++ l))
    · simp at h; omega

end Walky
