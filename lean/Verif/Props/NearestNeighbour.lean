import Verif.Lemmas.NearestNeighbour
import Verif.Examples

/-! # Properties C37–C40: nearest neighbour -/

namespace Walky.Props

open FloatOps Spec

variable {K : Type} [Field K] [LinearOrder K] [IsStrictOrderedRing K]

/-- **C37** `single_nearest_neighbour(graph, index)` terminates without panicking and returns a tour
starting at `index` with its length. -/
theorem C37_single_truthful {m : Mat (XNum K)} {c : Nat → Nat → K} (hm : Rep m c) {i : Nat}
    (hi : i < m.dim) :
    ∃ p, singleNN m i = .ok (.fin (tourCost c p), p) ∧ IsTour m.dim p ∧ p.head? = some i := by
  obtain ⟨p, h1, h2, h3, _⟩ := singleNN_exact hm hi
  exact ⟨p, h1, h2, h3⟩

/-- **C38** Each city `y` of the returned path is nearest to its predecessor `x` among all cities
not visited before (and the one with the lowest number among the nearest). -/
theorem C38_greedy {m : Mat (XNum K)} {c : Nat → Nat → K} (hm : Rep m c) {i : Nat}
    (hi : i < m.dim) {w : XNum K} {p : List Nat} (h : singleNN m i = .ok (w, p))
    {l r : List Nat} {x y : Nat} (hp : p = l ++ x :: y :: r) {z : Nat} (hz : z < m.dim)
    (hz1 : z ∉ l) (hz2 : z ≠ x) : c x y ≤ c x z ∧ (c x z = c x y → y ≤ z) := by
  obtain ⟨p', h1, _, _, h4⟩ := singleNN_exact hm hi
  rw [h1] at h
  injection h with h
  injection h with _ h
  subst h
  obtain ⟨a, b⟩ := h4 l x y r hp z hz hz1 hz2
  exact ⟨a, fun e => b e.le⟩

/-- the hypotheses of C37 and C38: the path on the example matrix, with a choice left -/
example : Rep Ex.m4 Ex.c4 ∧ 2 < Ex.m4.dim := ⟨Ex.rep4, by decide⟩
example : ∃ w x y z t, singleNN Ex.m4 2 = .ok (w, [] ++ x :: y :: [z, t]) ∧ z < Ex.m4.dim ∧ z ∉ [] ∧
    z ≠ x := by
  obtain ⟨p, h1, h2, _⟩ := C37_single_truthful Ex.rep4 (i := 2) (by decide)
  have hl : p.length = 4 := h2.length
  obtain ⟨x, y, z, t, rfl⟩ : ∃ x y z t, p = [x, y, z, t] := by
    match p, hl with
    | [x, y, z, t], _ => exact ⟨x, y, z, t, rfl⟩
  have hn : [x, y, z, t].Nodup := h2.nodup_iff.mpr List.nodup_range
  refine ⟨_, x, y, z, t, h1, ?_, by simp, ?_⟩
  · have : z ∈ List.range Ex.m4.dim := h2.subset (by simp)
    simpa using this
  · simp at hn
    exact fun e => hn.1.2.1 e.symm

/-- the solution of every start -/
theorem singles {m : Mat (XNum K)} {c : Nat → Nat → K} (hm : Rep m c) :
    ∃ s : Nat → K × List Nat, ∀ i < m.dim, singleNN m i = .ok (.fin (s i).1, (s i).2) ∧
      IsTour m.dim (s i).2 ∧ (s i).1 = tourCost c (s i).2 := by
  have : ∀ i : Nat, ∃ s : K × List Nat, i < m.dim → singleNN m i = .ok (.fin s.1, s.2) ∧
      IsTour m.dim s.2 ∧ s.1 = tourCost c s.2 := by
    intro i
    by_cases hi : i < m.dim
    · obtain ⟨p, h1, h2, _⟩ := C37_single_truthful hm hi
      exact ⟨(tourCost c p, p), fun _ => ⟨h1, h2, rfl⟩⟩
    · exact ⟨(0, []), fun h => absurd h hi⟩
  choose s hs using this
  exact ⟨s, hs⟩

/-- the best of a non-empty list of starts -/
theorem best_of_starts {m : Mat (XNum K)} {c : Nat → Nat → K} (hm : Rep m c) {xs : List Nat}
    (hne : xs ≠ []) (hxs : ∀ i ∈ xs, i < m.dim) :
    ∃ sols w p, xs.mapM (singleNN m) = .ok sols ∧ minByFirst solLt sols = some (.fin w, p) ∧
      IsTour m.dim p ∧ w = tourCost c p ∧ (∃ i ∈ xs, singleNN m i = .ok (.fin w, p)) ∧
      ∀ i ∈ xs, ∀ w' p', singleNN m i = .ok (.fin w', p') → w ≤ w' := by
  obtain ⟨s, hs⟩ := singles hm
  have hmap : xs.mapM (singleNN m) = .ok ((xs.map s).map fun s => (XNum.fin s.1, s.2)) := by
    rw [mapM_ok (g := fun i => (XNum.fin (s i).1, (s i).2)) (fun i hi => (hs i (hxs i hi)).1)]
    simp
  obtain ⟨w, p, h1, h2, h3⟩ := minByFirst_sols (l := xs.map s) (by simpa using hne)
  obtain ⟨i, hi, hip⟩ := List.mem_map.mp h2
  have hsi := hs i (hxs i hi)
  rw [hip] at hsi
  refine ⟨_, w, p, hmap, h1, hsi.2.1, hsi.2.2, ⟨i, hi, hsi.1⟩, ?_⟩
  intro j hj w' p' hw'
  rw [(hs j (hxs j hj)).1] at hw'
  injection hw' with hw'
  injection hw' with hw' _
  injection hw' with hw'
  rw [← hw']
  exact h3.2 _ (List.mem_map.mpr ⟨_, List.mem_map.mpr ⟨j, hj, rfl⟩, rfl⟩)

/-- **C39** For every outcome `xs` of the shuffle, `n_nearest_neighbour` returns the tour of one
of the `n` starts drawn, and none of these starts gives a shorter one. -/
theorem C39_n_nearest_neighbour {m : Mat (XNum K)} {c : Nat → Nat → K} (hm : Rep m c)
    {xs : List Nat} (hxs : xs.Perm (List.range m.dim)) {n : Nat} (h1 : 1 ≤ n) (h2 : n ≤ m.dim) :
    ∃ w p, nNNSeq xs m n = .ok (.fin w, p) ∧ IsTour m.dim p ∧ w = tourCost c p ∧
      (xs.take n).length = n ∧ (∃ i ∈ xs.take n, singleNN m i = .ok (.fin w, p)) ∧
      ∀ i ∈ xs.take n, ∀ w' p', singleNN m i = .ok (.fin w', p') → w ≤ w' := by
  have hlen : xs.length = m.dim := by simpa using hxs.length_eq
  obtain ⟨sols, w, p, k1, k2, k3, k4, k5, k6⟩ := best_of_starts hm (xs := xs.take n)
    (by
      intro h
      have := congrArg List.length h
      simp only [List.length_take, List.length_nil] at this
      omega)
    (fun i hi => by simpa using hxs.subset (List.mem_of_mem_take hi))
  refine ⟨w, p, ?_, k3, k4, by simp; omega, k5, k6⟩
  unfold nNNSeq nRandomNumbers
  rw [if_neg (by omega), if_neg (by omega), k1, rm_bind_ok, k2]
  rfl

/-- **C39, full search** For every outcome of the shuffle, `nearest_neighbour` returns the minimum
over all starts; in particular the cost does not depend on the shuffle. -/
theorem C39_nearest_neighbour {m : Mat (XNum K)} {c : Nat → Nat → K} (hm : Rep m c)
    (hn : 1 ≤ m.dim) : ∃ w, (∃ i < m.dim, ∃ p, singleNN m i = .ok (.fin w, p)) ∧
      (∀ i < m.dim, ∀ w' p, singleNN m i = .ok (.fin w', p) → w ≤ w') ∧
      ∀ xs : List Nat, xs.Perm (List.range m.dim) →
        ∃ p, nearestNeighbourSeq xs m = .ok (.fin w, p) ∧ IsTour m.dim p ∧ w = tourCost c p := by
  have key : ∀ xs : List Nat, xs.Perm (List.range m.dim) → ∃ w p,
      nearestNeighbourSeq xs m = .ok (.fin w, p) ∧ IsTour m.dim p ∧ w = tourCost c p ∧
      (∃ i < m.dim, singleNN m i = .ok (.fin w, p)) ∧
      ∀ i < m.dim, ∀ w' p', singleNN m i = .ok (.fin w', p') → w ≤ w' := by
    intro xs hxs
    have hlen : xs.length = m.dim := by simpa using hxs.length_eq
    obtain ⟨w, p, h1, h2, h3, _, ⟨i, h4, h5⟩, h6⟩ := C39_n_nearest_neighbour hm hxs hn le_rfl
    rw [← hlen, List.take_length] at h4 h6
    refine ⟨w, p, h1, h2, h3, ⟨i, by simpa using hxs.subset h4, h5⟩, ?_⟩
    intro j hj
    exact h6 j (hxs.mem_iff.mpr (by simpa using hj))
  obtain ⟨w, p, _, _, _, ⟨i, h1, h2⟩, h3⟩ := key (List.range m.dim) (List.Perm.refl _)
  refine ⟨w, ⟨i, h1, p, h2⟩, fun j hj w' p' => h3 j hj w' p', ?_⟩
  intro xs hxs
  obtain ⟨w', p', k1, k2, k3, ⟨j, k4, k5⟩, k6⟩ := key xs hxs
  have e : w' = w := le_antisymm (k6 i h1 _ _ h2) (h3 j k4 _ _ k5)
  exact ⟨p', e ▸ k1, k2, e ▸ k3⟩

/-- **C39, rayon** For the same shuffle and in every arithmetic with a consistent order, the
parallel version returns exactly the sequential result, for every reduction tree. -/
theorem C39_par_eq_seq {α : Type} [FloatOps α] (ho : StrictWeak (olt : α → α → Bool))
    (shape : List (Solution α) → RTree (Solution α)) (hshape : ∀ l, (shape l).flatten = l)
    (xs : List Nat) (m : Mat α) (n : Nat) : nNNPar shape xs m n = nNNSeq xs m n := by
  unfold nNNPar nNNSeq
  split
  · rfl
  split
  · rfl
  congr 1
  funext sols
  rw [RTree.minBy_eq (strictWeak_solLt ho), hshape]

/-- **C39, rayon, full search** The parallel `nearest_neighbour` tries every start as well: it returns
the sequential result for the same shuffle. -/
theorem C39_nearest_neighbour_par {α : Type} [FloatOps α] (ho : StrictWeak (olt : α → α → Bool))
    (shape : List (Solution α) → RTree (Solution α)) (hshape : ∀ l, (shape l).flatten = l)
    (xs : List Nat) (m : Mat α) : nearestNeighbourPar shape xs m = nearestNeighbourSeq xs m :=
  C39_par_eq_seq ho shape hshape xs m m.dim

/-- the hypotheses of C39, C40 -/
example : Rep Ex.m4 Ex.c4 ∧ 1 ≤ Ex.m4.dim ∧ [2, 0, 3, 1].Perm (List.range Ex.m4.dim) ∧
    StrictWeak (olt : XNum ℚ → XNum ℚ → Bool) ∧
    ∀ l : List (Solution (XNum ℚ)), (l.foldr (fun x t => RTree.node (.leaf x) t) .empty).flatten = l := by
  refine ⟨Ex.rep4, by decide, by decide, strictWeak_olt, ?_⟩
  intro l
  induction l with
  | nil => rfl
  | cons a l ih => simp [RTree.flatten, ih]

/-- **C40 (partial)** For every world size up to the number of cities and every order and tree in
which each rank's all-reduce combines the contributions, all ranks return the same tour, truthfully
priced, with the cost of the sequential version. Missing: larger worlds, which panic
(`C40_too_many_ranks`). -/
theorem C40_mpi_partial {m : Mat (XNum K)} {c : Nat → Nat → K} (hm : Rep m c) {size : Nat}
    (h1 : 1 ≤ size) (h2 : size ≤ m.dim)
    (shape : Nat → List (XNum K × Nat) → RTree (XNum K × Nat))
    (hshape : ∀ r l, (shape r l).flatten.Perm l) :
    ∃ w p, nnMpi shape size m = .ok (List.replicate size (.fin w, p)) ∧ IsTour m.dim p ∧
      w = tourCost c p ∧ ∀ xs : List Nat, xs.Perm (List.range m.dim) →
        ∃ p', nearestNeighbourSeq xs m = .ok (.fin w, p') := by
  have hloc : ∀ r : Nat, ∃ s : K × List Nat, r < size → nnLocal m size r = .ok (.fin s.1, s.2) ∧
      IsTour m.dim s.2 ∧ s.1 = tourCost c s.2 ∧
      (∃ i < m.dim, singleNN m i = .ok (.fin s.1, s.2)) ∧
      ∀ i ∈ nnChunk m.dim size r, ∀ w' p', singleNN m i = .ok (.fin w', p') → s.1 ≤ w' := by
    intro r
    by_cases hr : r < size
    · obtain ⟨sols, w, p, k1, k2, k3, k4, ⟨i, k5, k5'⟩, k6⟩ := best_of_starts hm
        (nnChunk_ne_nil (r := r) h1 h2) (fun i hi => nnChunk_lt hr hi)
      refine ⟨(w, p), fun _ => ⟨?_, k3, k4, ⟨i, nnChunk_lt hr k5, k5'⟩, k6⟩⟩
      unfold nnLocal
      rw [k1, rm_bind_ok, k2]
      rfl
    · exact ⟨(0, []), fun h => absurd h hr⟩
  choose s hs using hloc
  have hmap : (List.range size).mapM (nnLocal m size) =
      .ok ((List.range size).map fun r => (XNum.fin (s r).1, (s r).2)) :=
    mapM_ok (fun r hr => (hs r (by simpa using hr)).1)
  have hcontrib : (((List.range size).map fun r => (XNum.fin (s r).1, (s r).2)).map Prod.fst).zip
      (List.range size) = (List.range size).map fun r => (XNum.fin (s r).1, r) := by
    rw [List.map_map, List.zip_map_left]
    rw [List.zip_eq_zipWith, List.zipWith_self, List.map_map]
    rfl
  -- every rank obtains the lexicographic minimum
  have hred : ∀ r, ∃ j < size, (shape r ((List.range size).map fun r => (XNum.fin (s r).1, r))).reduce
      costRankOp = some (.fin (s j).1, j) ∧
      ∀ i < size, (s j).1 < (s i).1 ∨ (s j).1 = (s i).1 ∧ j ≤ i := by
    intro r
    have hp := hshape r ((List.range size).map fun r => (XNum.fin (s r).1, r))
    obtain ⟨x, e1, e2, e3⟩ := costRank_reduce _ (fun x hx => by
        have := hp.subset hx
        obtain ⟨j, _, rfl⟩ := List.mem_map.mp this
        exact ⟨_, rfl⟩)
      (fun h0 => by
        rw [h0] at hp
        have := hp.length_eq
        simp at this
        omega)
    obtain ⟨j, hj, rfl⟩ := List.mem_map.mp (hp.subset e2)
    refine ⟨j, by simpa using hj, e1, ?_⟩
    intro i hi
    obtain ⟨v, u, d1, d2, d3⟩ := e3 (.fin (s i).1, i)
      (hp.mem_iff.mpr (List.mem_map.mpr ⟨i, by simpa using hi, rfl⟩))
    injection d1 with d1
    injection d2 with d2
    rw [d1, d2]
    exact d3
  obtain ⟨j, hj, _, hmin⟩ := hred 0
  have hall : ∀ r, (shape r ((List.range size).map fun r => (XNum.fin (s r).1, r))).reduce
      costRankOp = some (.fin (s j).1, j) := by
    intro r
    obtain ⟨j', hj', e, hmin'⟩ := hred r
    have : j' = j := by
      rcases hmin j' hj' with a | ⟨a, a'⟩ <;> rcases hmin' j hj with b | ⟨b, b'⟩
      · exact absurd (a.trans b) (lt_irrefl _)
      · exact absurd a (not_lt.mpr b.le)
      · exact absurd b (not_lt.mpr a.le)
      · omega
    rw [e, this]
  have hrs : (List.range size).mapM (fun r => unwrapO ((shape r ((List.range size).map fun r =>
      (XNum.fin (s r).1, r))).reduce costRankOp)) =
      .ok (List.replicate size (XNum.fin (s j).1, j)) := by
    rw [mapM_ok (g := fun _ => (XNum.fin (s j).1, j)) (fun r _ => by rw [hall r]; rfl)]
    rw [List.map_const']
    simp
  refine ⟨(s j).1, (s j).2, ?_, (hs j hj).2.1, (hs j hj).2.2.1, ?_⟩
  · unfold nnMpi
    rw [hmap]
    simp only [rm_bind_ok]
    rw [hcontrib, hrs]
    simp only [rm_bind_ok]
    obtain ⟨k, rfl⟩ : ∃ k, size = k + 1 := ⟨size - 1, by omega⟩
    simp only [List.replicate_succ]
    rw [if_pos (by simp), idx_ok (a := (XNum.fin (s j).1, (s j).2)) (by simp [hj])]
    simp
  · intro xs hxs
    obtain ⟨w, ⟨i, hi, p, hip⟩, hw, hseq⟩ := C39_nearest_neighbour hm (by omega)
    obtain ⟨p', hp', _⟩ := hseq xs hxs
    have : w = (s j).1 := by
      obtain ⟨i', hi', hip'⟩ := (hs j hj).2.2.2.1
      refine le_antisymm (hw i' hi' _ _ hip') ?_
      obtain ⟨r, hr, hir⟩ := mem_nnChunk h1 hi
      have h3 := (hs r hr).2.2.2.2 i hir _ _ hip
      rcases hmin r hr with a | ⟨a, _⟩
      · exact a.le.trans h3
      · exact a.le.trans h3
    exact ⟨p', this ▸ hp'⟩

/-- **C40 (negation for large worlds)** With more ranks than cities, rank 0 has an empty chunk and
the job panics, in every arithmetic. -/
theorem C40_too_many_ranks {α : Type} [FloatOps α]
    (shape : Nat → List (α × Nat) → RTree (α × Nat)) (m : Mat α) {size : Nat} (h : m.dim < size) :
    ∃ e, nnMpi shape size m = .error e := by
  have h0 : m.dim / size = 0 := Nat.div_eq_of_lt h
  have hloc : nnLocal m size 0 = .error .unwrap := by
    have : nnChunk m.dim size 0 = [] := by
      unfold nnChunk
      rw [h0]
      simp only [List.range'_eq_nil_iff]
      rw [if_neg (by rintro ⟨a, b⟩; rw [show size = 1 by omega] at b; exact b (Nat.mod_one _))]
    unfold nnLocal
    rw [this]
    rfl
  obtain ⟨e, he⟩ := mapM_err (l := List.range size) (a := 0) (by simp; omega) hloc
  exact ⟨e, by unfold nnMpi; rw [he]; rfl⟩

/-- 5 ranks for 4 cities -/
example : Ex.m4.dim < 5 := by decide

end Walky.Props
