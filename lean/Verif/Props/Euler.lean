import Verif.Lemmas.Christofides

/-! # Properties C46–C49: multigraph, Euler walk, shortcuts -/

namespace Walky.Props

open FloatOps XNum Spec

variable {K : Type} [Field K] [LinearOrder K] [IsStrictOrderedRing K]

omit [IsStrictOrderedRing K] in
/-- **C46 (SEQ)** For a spanning tree `E` and any list `M` of edges between cities, the multigraph
stores for every pair of cities the number of tree edges plus the number of matching edges between
them. -/
theorem C46_fill_seq {m : Mat (XNum K)} {c : Nat → Nat → K} {E M : List (Nat × Nat)}
    {mst : Graph (XNum K)} (hE : IsSpanningTree (List.range m.dim) E) (hG : GraphOf m.dim c E mst)
    (hM : ∀ e ∈ M, e.1 < m.dim ∧ e.2 < m.dim) :
    ∃ g, fillSeq m mst M = .ok g ∧ g.dim = m.dim ∧ ∀ i j, i < m.dim → j < m.dim →
      g.times i j = multiplicity E i j + multiplicity M i j := by
  have hn : 1 ≤ m.dim := by have := hE.count; rw [List.length_range] at this; omega
  obtain ⟨g, h1, h2, h3⟩ := fillSeq_ok rfl hG.adjOf (spanning_valid hE) hM
  refine ⟨g, h1, h2, fun i j hi hj => ?_⟩
  show g.times i j = und E i j + und M i j
  by_cases hJ : Joined E i j
  · rw [(h3 i j hi hj).1 hJ, (spanning_und hn hE i j).1 hJ]
  · rw [(h3 i j hi hj).2 hJ, (spanning_und hn hE i j).2 hJ, Nat.zero_add]

omit [IsStrictOrderedRing K] in
/-- **C46 (PAR, partial)** The same holds for every possible result of the parallel version, for every
order of the columns and every interleaving of the unsynchronised increments, if no edge is repeated
in the matching; and there is a result. -/
theorem C46_fill_par_partial {m : Mat (XNum K)} {c : Nat → Nat → K} {E M : List (Nat × Nat)}
    {mst : Graph (XNum K)} (hE : IsSpanningTree (List.range m.dim) E) (hG : GraphOf m.dim c E mst)
    (hM : NoRepeat M) {order : List Nat} (ho : order.Perm (List.range m.dim)) :
    (∃ g, FillPar order m mst M g) ∧
    ∀ g, FillPar order m mst M g → g.dim = m.dim ∧ ∀ i j, i < m.dim → j < m.dim →
      g.times i j = multiplicity E i j + multiplicity M i j := by
  have hn : 1 ≤ m.dim := by have := hE.count; rw [List.length_range] at this; omega
  refine ⟨?_, ?_⟩
  · obtain ⟨g0, a1, _⟩ := fillMstPar_ok rfl hG.adjOf (spanning_valid hE) ho
    obtain ⟨g, hg⟩ := fillMatchingPar_exists g0 M
    exact ⟨g, g0, a1, hg⟩
  · intro g hg
    obtain ⟨h2, h3⟩ := fillPar_ok rfl hG.adjOf (spanning_valid hE) hM ho hg
    refine ⟨h2, fun i j hi hj => ?_⟩
    show g.times i j = und E i j + und M i j
    by_cases hJ : Joined E i j
    · rw [(h3 i j hi hj).1 hJ, (spanning_und hn hE i j).1 hJ]
    · rw [(h3 i j hi hj).2 hJ, (spanning_und hn hE i j).2 hJ, Nat.zero_add]

/-- the tree of Prim's algorithm satisfies the hypotheses of C46, here with a matching that repeats a
tree edge -/
example : (∃ mst E, primSeq Ex.m4 [] = .ok mst ∧ IsSpanningTree (List.range Ex.m4.dim) E ∧
      GraphOf Ex.m4.dim Ex.c4 E mst) ∧
    (∀ e ∈ [(0, 1), (2, 3)], e.1 < Ex.m4.dim ∧ e.2 < Ex.m4.dim) ∧ NoRepeat [(0, 1), (2, 3)] := by
  refine ⟨?_, by decide, ?_⟩
  · obtain ⟨mst, E, h1, h2, h3, _⟩ := prim_tree Ex.rep4 (by decide)
    exact ⟨mst, E, h1, h2, h3⟩
  · simp [NoRepeat]

/-- **C46 (negation for PAR with a repeated edge)** Two closures for the same edge can both read the
old multiplicity, and then one increment is lost. -/
theorem C46_lost_update : ∃ (m : Mat (XNum ℚ)) (c : Nat → Nat → ℚ) (E M : List (Nat × Nat))
    (mst : Graph (XNum ℚ)) (g : MGraph (XNum ℚ)), IsSpanningTree (List.range m.dim) E ∧
    GraphOf m.dim c E mst ∧ (∀ e ∈ M, e.1 < m.dim ∧ e.2 < m.dim) ∧
    FillPar (List.range m.dim) m mst M g ∧
    g.times 0 1 < multiplicity E 0 1 + multiplicity M 0 1 ∧ g.times 1 0 ≠ g.times 0 1 := by
  let m : Mat (XNum ℚ) := Mat.ofFun 2 fun _ _ => 1
  let mst : Graph (XNum ℚ) := [[⟨1, fin 1⟩], [⟨0, fin 1⟩]]
  let g0 : MGraph (XNum ℚ) := ((emptyMulti m).put 1 0 (fin 1, 1)).put 0 1 (fin 1, 1)
  let M : List (Nat × Nat) := [(0, 1), (0, 1)]
  have hE : IsSpanningTree (List.range m.dim) [(0, 1)] := by
    refine ⟨by simp [m, Mat.ofFun], ?_, rfl⟩
    intro a ha b hb
    have ha : a < 2 := by simpa [m, Mat.ofFun] using ha
    have hb : b < 2 := by simpa [m, Mat.ofFun] using hb
    interval_cases a <;> interval_cases b
    · exact .refl
    · exact .single (Or.inl (by simp))
    · exact .single (Or.inr (by simp))
    · exact .refl
  have hG : GraphOf m.dim (fun _ _ => (1 : ℚ)) [(0, 1)] mst := by
    refine ⟨rfl, ?_⟩
    intro i hi
    have hi : i < 2 := hi
    interval_cases i <;> rfl
  have hfill : fillMstPar (List.range m.dim) (emptyMulti m) mst = .ok g0 := rfl
  refine ⟨m, fun _ _ => 1, [(0, 1)], M, mst, (raceRun g0 M [0, 1, 0, 1, 1, 1, 0, 0]).g, hE, hG,
    by decide, ⟨g0, hfill, raceRun_ok (by decide +kernel)⟩, ?_, ?_⟩
  · decide +kernel
  · decide +kernel

/-- **C47** On every connected multigraph with symmetric multiplicities and even degrees (a loop
counts twice at its vertex) `eulerian_cycle_from_multigraph` terminates in every build and returns a
closed walk from vertex 0 that uses every edge exactly as often as its multiplicity. -/
theorem C47_euler {α : Type} [FloatOps α] {g : MGraph α} (h0 : 0 < g.dim)
    (hs : ∀ i j, i < g.dim → j < g.dim → g.times i j = g.times j i)
    (hd : ∀ i, i < g.dim → Even (g.times i i))
    (he : ∀ i, i < g.dim → Even ((List.range g.dim).map fun j => g.times i j).sum)
    (hc : ∀ j, j < g.dim →
      Relation.ReflTransGen (fun a b => a < g.dim ∧ b < g.dim ∧ g.times a b ≠ 0) 0 j) :
    ∃ walk, (∀ dbg, eulerianCycle dbg g = .ok walk) ∧ walk.head? = some 0 ∧ walk.getLast? = some 0 ∧
      (∀ x, x ∈ walk ↔ x < g.dim) ∧ ∀ i j, i < g.dim → j < g.dim →
        multiplicity (walk.zip walk.tail) i j = g.times i j := by
  have he' : ∀ i, i < g.dim → Even (g.rowSum i) := by
    intro i hi
    have := he i hi
    rw [sum_map_range] at this
    exact this
  obtain ⟨walk, h1, h2, h3, h4, h5⟩ := eulerianCycle_even true hs hd h0 hc he'
  refine ⟨walk, fun dbg => ?_, h3, h4, h2, h5⟩
  exact eulerianCycle_build h1 dbg

/-- a multigraph with a double edge, a loop and a triangle -/
def exMulti : MGraph (XNum ℚ) :=
  ⟨4, fun i j => (fin 1, (([[0, 1, 1, 2], [1, 0, 1, 0], [1, 1, 2, 0], [2, 0, 0, 0]] : List (List Nat))[i]?.bind
    (·[j]?)).getD 0)⟩

example : 0 < exMulti.dim ∧
    (∀ i j, i < exMulti.dim → j < exMulti.dim → exMulti.times i j = exMulti.times j i) ∧
    (∀ i, i < exMulti.dim → Even (exMulti.times i i)) ∧
    (∀ i, i < exMulti.dim → Even ((List.range exMulti.dim).map fun j => exMulti.times i j).sum) ∧
    (∀ j, j < exMulti.dim → Relation.ReflTransGen
      (fun a b => a < exMulti.dim ∧ b < exMulti.dim ∧ exMulti.times a b ≠ 0) 0 j) := by
  refine ⟨by decide, ?_, ?_, ?_, ?_⟩
  · intro i j (hi : i < 4) (hj : j < 4)
    interval_cases i <;> interval_cases j <;> rfl
  · intro i (hi : i < 4)
    interval_cases i <;> decide
  · intro i (hi : i < 4)
    interval_cases i <;> decide
  · intro j (hj : j < 4)
    interval_cases j
    · exact .refl
    · exact .single (by decide)
    · exact .single (by decide)
    · exact .single (by decide)

/-- and what is computed for it -/
example : eulerianCycle true exMulti = .ok [0, 1, 2, 2, 0, 3, 0] := by
  decide +kernel

/-- two vertices; the two entries of the edge between them differ, as after a lost increment -/
def exAsym : MGraph (XNum ℚ) :=
  ⟨2, fun i j => (fin 1, if i = 0 ∧ j = 1 then 1 else if i = 1 ∧ j = 0 then 2 else 0)⟩

private def IsAsym (g : MGraph (XNum ℚ)) (x y : Nat) : Prop :=
  g.dim = 2 ∧ g.times 0 0 = 0 ∧ g.times 0 1 = x ∧ g.times 1 0 = y ∧ g.times 1 1 = 0

private theorem setTimes_times {α : Type} (g : MGraph α) (i j k a b : Nat) :
    (g.setTimes i j k).times a b = if a = i ∧ b = j then k else g.times a b := by
  unfold MGraph.setTimes MGraph.put MGraph.times
  dsimp only
  split_ifs <;> rfl

/-- subtraction in release builds -/
private def wrapSub (z : Nat) : Nat := if z = 0 then 2 ^ 64 - 1 else z - 1

private theorem decr_false (z : Nat) : decr false z = .ok (wrapSub z) := by
  unfold decr wrapSub
  by_cases h : z = 0
  · rw [if_pos h, if_pos h]; rfl
  · rw [if_neg h, if_neg h]

private theorem dec_false {g : MGraph (XNum ℚ)} (hg : g.dim = 2) {a b z : Nat} (ha : a < 2) (hb : b < 2)
    (hz : g.times a b = z) : g.dec false a b = .ok (g.setTimes a b (wrapSub z)) := by
  unfold MGraph.dec
  rw [if_pos ⟨by omega, by omega⟩, hz, decr_false]
  rfl

/-- one round of the walk between the two vertices -/
private theorem asym_step {g : MGraph (XNum ℚ)} {x y v : Nat} {d : List Nat} (hg : IsAsym g x y)
    (hd : d.length = 2) (hv : v < 2) (h : if v = 0 then x ≠ 0 else y ≠ 0) (fuel : Nat) (cycle : List Nat) :
    ∃ g' d', IsAsym g' (wrapSub x) (wrapSub y) ∧ d'.length = 2 ∧
      findCycleLoop false (fuel + 1) g d v cycle = findCycleLoop false fuel g' d' (1 - v) (cycle ++ [1 - v]) := by
  obtain ⟨g0, g1, g2, g3, g4⟩ := hg
  obtain ⟨d0, d1, rfl⟩ : ∃ a b, d = [a, b] := by
    match d, hd with
    | [a, b], _ => exact ⟨a, b, rfl⟩
  have hr : List.range 2 = [0, 1] := rfl
  have hv' : v = 0 ∨ v = 1 := by omega
  rcases hv' with rfl | rfl
  · have hf : [0, 1].find? (fun j => g.times 0 j != 0) = some 1 := by
      simp [g1, g2]; simpa using h
    refine ⟨(g.setTimes 0 1 (wrapSub x)).setTimes 1 0 (wrapSub y), [wrapSub d0, wrapSub d1],
      ⟨g0, ?_, ?_, ?_, ?_⟩, rfl, ?_⟩
    · simp [setTimes_times, g1]
    · simp [setTimes_times]
    · simp [setTimes_times]
    · simp [setTimes_times, g4]
    · rw [findCycleLoop, if_pos (by omega), g0, hr, hf]
      dsimp only
      rw [dec_false g0 (by omega) (by omega) g2, rm_bind_ok,
        dec_false (g := g.setTimes 0 1 (wrapSub x)) g0 (by omega) (by omega)
          (by rw [setTimes_times, if_neg (by omega), g3]), rm_bind_ok]
      show (do let d ← decr false d0; _) = _
      rw [decr_false, rm_bind_ok]
      show (do let d ← decr false d1; _) = _
      rw [decr_false, rm_bind_ok]
      rfl
  · have hf : [0, 1].find? (fun j => g.times 1 j != 0) = some 0 := by
      simp [g3]; simpa using h
    refine ⟨(g.setTimes 1 0 (wrapSub y)).setTimes 0 1 (wrapSub x), [wrapSub d0, wrapSub d1],
      ⟨g0, ?_, ?_, ?_, ?_⟩, rfl, ?_⟩
    · simp [setTimes_times, g1]
    · simp [setTimes_times]
    · simp [setTimes_times]
    · simp [setTimes_times, g4]
    · rw [findCycleLoop, if_pos (by omega), g0, hr, hf]
      dsimp only
      rw [dec_false g0 (by omega) (by omega) g3, rm_bind_ok,
        dec_false (g := g.setTimes 1 0 (wrapSub y)) g0 (by omega) (by omega)
          (by rw [setTimes_times, if_neg (by omega), g2]), rm_bind_ok]
      show (do let d ← decr false d1; _) = _
      rw [decr_false, rm_bind_ok]
      show (do let d ← decr false d0; _) = _
      rw [decr_false, rm_bind_ok]
      rfl

/-- the walk goes on as long as the counters are large -/
private theorem asym_forever (fuel : Nat) : ∀ (g : MGraph (XNum ℚ)) (x y : Nat) (d : List Nat) (v : Nat)
    (cycle : List Nat), IsAsym g x y → d.length = 2 → v < 2 → fuel ≤ x → fuel ≤ y →
    findCycleLoop false fuel g d v cycle = .error .fuel := by
  induction fuel with
  | zero => intros; rfl
  | succ fuel ih =>
    intro g x y d v cycle hg hd hv hx hy
    obtain ⟨g', d', h1, h2, h3⟩ := asym_step hg hd hv (by split <;> omega) fuel cycle
    rw [h3]
    refine ih g' _ _ d' _ _ h1 h2 (by omega) ?_ ?_
    · rw [wrapSub, if_neg (by omega)]; omega
    · rw [wrapSub, if_neg (by omega)]; omega

/-- **C47 (why multiplicities have to be symmetric)** If an increment has been lost, so that the two entries of
an edge are 1 and 2, a debug build panics. In a release build the counters wrap around, and the walk goes to
and fro between the two vertices until the memory is exhausted: no number of rounds below `2^60` is enough. -/
theorem C47_asymmetric : exAsym.times 0 1 = 1 ∧ exAsym.times 1 0 = 2 ∧
    eulerianCycle true exAsym = .error .assert ∧ eulerianCycle false exAsym = .error .fuel ∧
    ∀ fuel ≤ vecLimit, findCycleLoop false fuel exAsym (multiDegrees exAsym) 0 [0] = .error .fuel := by
  have hA : IsAsym exAsym 1 2 := ⟨rfl, rfl, rfl, rfl, rfl⟩
  have key : ∀ fuel, fuel ≤ vecLimit + 3 →
      findCycleLoop false fuel exAsym (multiDegrees exAsym) 0 [0] = .error .fuel := by
    intro fuel hf
    match fuel, hf with
    | 0, _ => rfl
    | 1, _ => rfl
    | 2, _ => rfl
    | f + 3, hf =>
      obtain ⟨g1, d1, a1, a2, a3⟩ := asym_step hA (d := multiDegrees exAsym) rfl (v := 0) (by omega) (by simp) (f + 2) [0]
      obtain ⟨g2, d2, b1, b2, b3⟩ := asym_step a1 a2 (v := 1) (by omega) (by decide) (f + 1) [0, 1]
      obtain ⟨g3, d3, c1, c2, c3⟩ := asym_step b1 b2 (v := 0) (by omega) (by decide) f [0, 1, 0]
      rw [a3]
      refine b3.trans (c3.trans (asym_forever f g3 _ _ d3 _ _ c1 c2 (by omega) ?_ ?_))
      · have : wrapSub (wrapSub (wrapSub 1)) = 2 ^ 64 - 2 := by decide
        rw [this]
        unfold vecLimit at hf
        omega
      · have : wrapSub (wrapSub (wrapSub 2)) = 2 ^ 64 - 1 := by decide
        rw [this]
        unfold vecLimit at hf
        omega
  refine ⟨rfl, rfl, by decide +kernel, ?_, fun fuel hf => key fuel (by omega)⟩
  have hsum : (multiDegrees exAsym).sum = 3 := by decide
  have h := key (vecLimit + 3) le_rfl
  have hopen : findOpen (multiDegrees exAsym) [0] 0 = .ok (some (0, 0)) := by decide
  unfold eulerianCycle
  rw [hsum, eulerLoop, hopen, rm_bind_ok]
  dsimp only
  unfold findCycle
  rw [hsum, h]
  rfl

/-- **C48 (partial)** For every non-empty walk over valid vertices, the shortcut walk is `k ++ [a]`
where `a` is the first vertex of the walk and `k` holds every vertex of the walk exactly once, in the
order of the first visits. On metric graphs it is not longer than the walk closed to `a`; in
particular it is not longer than the walk itself, if that is already closed. -/
theorem C48_shortcut_partial {n : Nat} {walk : List Nat} {a : Nat} (ha : walk.head? = some a)
    (hv : ∀ x ∈ walk, x < n) :
    ∃ k, hamiltonianFromEulerian n walk = .ok (k ++ [a]) ∧ k.Nodup ∧ (∀ x, x ∈ k ↔ x ∈ walk) ∧
      k.Pairwise (fun x y => walk.idxOf x < walk.idxOf y) ∧ k.head? = some a ∧
      ∀ c : Nat → Nat → K, Metric n c → pathCost c (k ++ [a]) ≤ pathCost c (walk ++ [a]) ∧
        (walk.getLast? = some a → pathCost c (k ++ [a]) ≤ pathCost c walk) := by
  obtain ⟨t, rfl⟩ : ∃ t, walk = a :: t := by
    cases walk with
    | nil => simp at ha
    | cons x t => simp at ha; exact ⟨t, by rw [ha]⟩
  refine ⟨_, hamiltonian_ok hv, firstOcc_nodup _ _, fun x => by simp [mem_firstOcc], ?_, by simp [firstOcc], ?_⟩
  · exact firstOcc_sorted _ _
  · intro c hc
    refine ⟨?_, ?_⟩
    · apply pathCost_shortcut hc ((firstOcc_sublist _ _).append (List.Sublist.refl _))
      intro x hx
      rcases List.mem_append.mp hx with hx | hx
      · exact hv x hx
      · simp at hx; subst hx; exact hv _ (by simp)
    · intro hl
      have := tourCost_firstOcc hc ha hl hv
      have e : tourCost c (firstOcc [] (a :: t)) = pathCost c (firstOcc [] (a :: t) ++ [a]) := by
        simp [firstOcc, tourCost]
      rw [← e]
      exact this

example : hamiltonianFromEulerian 4 [0, 1, 0, 3, 2, 3, 0] = .ok [0, 1, 3, 2, 0] ∧ Metric 4 Ex.c4 ∧
    ([0, 1, 0, 3, 2, 3, 0] : List Nat).getLast? = some 0 := ⟨by decide, Ex.metric4, by decide⟩

/-- **C48 (negation for open walks)** An open walk is closed, and so can become longer. -/
theorem C48_open_walk : ∃ (c : Nat → Nat → ℚ) (walk r : List Nat), Metric 4 c ∧ (∀ x ∈ walk, x < 4) ∧
    hamiltonianFromEulerian 4 walk = .ok r ∧ pathCost c walk < pathCost c r :=
  ⟨Ex.c4, [0, 1], [0, 1, 0], Ex.metric4, by decide, by decide, by decide +kernel⟩

/-- **C49** For every closed walk, `is_hamiltonian_cycle` is true exactly when the walk without its
last entry visits every vertex exactly once. -/
theorem C49_is_hamiltonian_cycle (n : Nat) {walk : List Nat} (hlen : 2 ≤ walk.length)
    (hclosed : walk.head? = walk.getLast?) :
    isHamiltonianCycle walk n = true ↔ IsTour n walk.dropLast := by
  have hne : walk ≠ [] := by rintro rfl; simp at hlen
  have e : walk = walk.dropLast ++ [walk.getLast hne] := (List.dropLast_append_getLast hne).symm
  have hmem : walk.getLast hne ∈ walk.dropLast := by
    have h1 : walk.head? = some (walk.getLast hne) := by
      rw [hclosed, List.getLast?_eq_some_getLast hne]
    cases walk with
    | nil => exact absurd rfl hne
    | cons x t =>
      cases t with
      | nil => simp at hlen
      | cons y t =>
        simp only [List.head?_cons, Option.some.injEq] at h1
        rw [← h1]
        simp
  conv_lhs => rw [e]
  exact isHamiltonianCycle_closed hmem

/-- both answers occur for closed walks -/
example : isHamiltonianCycle [0, 2, 1, 0] 3 = true ∧ isHamiltonianCycle [0, 1, 1, 0] 3 = false ∧
    isHamiltonianCycle [0, 1, 2, 0] 4 = false := by decide

end Walky.Props
