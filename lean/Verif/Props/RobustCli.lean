import Verif.Lemmas.TotalTree
import Verif.Lemmas.TotalChristofides
import Verif.Props.DoubleCli
import Verif.Props.Robust

/-!
# C100: unusual numbers on the command line

The arithmetic rounds in an arbitrary way; costs may be negative, infinite or so large that sums overflow.
-/

namespace Walky.Props

open FloatOps Spec

section lawfree
variable {α : Type} [FloatOps α]

/-- what a search without panic returns: nothing at all, the starting value of v0 and v1, or a tour with a
cost that is smaller than something -/
private def Res (m : Mat α) (r : Solution α) : Prop :=
  (r.2 = [] ∧ r.1 = inf) ∨ (IsTour m.dim r.2 ∧ (r.1 = inf ∨ ∃ y, r.1 <ᶠ y))

private theorem res_of_anySol {m : Mat α} {r : Solution α} (h : AnySol m r) : Res m r := by
  rcases h with rfl | h
  · exact Or.inl ⟨rfl, rfl⟩
  · exact Or.inr ⟨h.1, Or.inr h.2⟩

private theorem naive_total (m : Mat α) : ∃ r, naiveSolver m = .ok r ∧ Res m r := by
  obtain ⟨l, l1, l2, l3⟩ := run_nextPermutation (List.range m.dim)
  have hlen : l.length < m.dim.factorial + 1 := by
    have h1 := length_le_factorial (l := l) (a := List.range m.dim) (l2.imp (fun h => ne_of_lt h))
      (fun c hc => ((l3 c).mp hc).1)
    simp at h1
    omega
  obtain ⟨r, h1, h2⟩ := permLoop_total (m := m) l1 (fun p hp => evaluateCircle_total (fun i hi => by
      have := (((l3 p).mp hp).1.mem_iff).mp hi
      simpa using this)) (m.dim.factorial + 1) (inf, List.range m.dim) hlen
  refine ⟨r, h1, Or.inr ?_⟩
  rcases h2 with rfl | ⟨h2, -, h3⟩
  · exact ⟨List.Perm.refl _, Or.inl rfl⟩
  · exact ⟨((l3 _).mp h2).1, Or.inr h3⟩

private theorem first_total (m : Mat α) (hn : 1 ≤ m.dim) : ∃ r, firstImprovedSolver m = .ok r ∧ Res m r := by
  obtain ⟨k, hk⟩ : ∃ k, m.dim = k + 1 := ⟨m.dim - 1, by omega⟩
  have hrange : List.range m.dim = 0 :: (List.range k).map (· + 1) := by
    rw [hk, List.range_succ_eq_map]
  generalize ht : (List.range k).map (· + 1) = t0 at hrange
  obtain ⟨l, l1, l2, l3⟩ := run_nextPermutation t0
  have htour : ∀ t, t.Perm t0 → IsTour m.dim (0 :: t) := by
    intro t h
    unfold IsTour
    rw [hrange]
    exact h.cons 0
  have hlen0 : t0.length = k := by rw [← ht]; simp
  have hlen : (l.map (0 :: ·)).length < m.dim.factorial + 1 := by
    have h1 := length_le_factorial (l := l) (a := t0) (l2.imp (fun h => ne_of_lt h))
      (fun c hc => ((l3 c).mp hc).1)
    have h2 : k.factorial ≤ m.dim.factorial := Nat.factorial_le (by omega)
    rw [hlen0] at h1
    rw [List.length_map]
    omega
  obtain ⟨r, h1, h2⟩ := permLoop_total (m := m) (run_tail 0 l1) (fun p hp => by
      obtain ⟨t, h1, rfl⟩ := List.mem_map.mp hp
      exact evaluateCircle_total (fun i hi => (htour t ((l3 t).mp h1).1).mem.mp hi))
    (m.dim.factorial + 1) (inf, List.range m.dim) hlen
  refine ⟨r, ?_, Or.inr ?_⟩
  · unfold firstImprovedSolver
    rw [hrange] at h1 ⊢
    exact h1
  rcases h2 with rfl | ⟨h2, -, h3⟩
  · exact ⟨List.Perm.refl _, Or.inl rfl⟩
  · obtain ⟨t, h1, h4⟩ := List.mem_map.mp h2
    exact ⟨h4 ▸ htour t ((l3 t).mp h1).1, Or.inr h3⟩

private theorem dfs_total (m : Mat α) (hn : 1 ≤ m.dim) (hinf : eq (inf : α) inf = true)
    (hash : List Nat → Nat) (r : RM (Solution α))
    (hr : r = secondImprovedSolver m ∨ r = thirdImprovedSolver m ∨ r = fourthImprovedSolver m ∨
      r = fifthImprovedSolver m ∨ r = sixthImprovedSolver m hash) : ∃ s, r = .ok s ∧ AnySol m s := by
  have main : ∀ {σ : Type} (test : PruneTest σ α) (aux : σ),
      (∀ a p x b, ValidPre m.dim p → ∃ go a', test a p x b = .ok (go, a')) →
      ∃ s, solveDfs m test aux = .ok s ∧ AnySol m s := by
    intro σ test aux ht
    obtain ⟨r, h1, _, h2⟩ := dfs_shape m test (fun _ => True) (fun _ _ => True) (fun x _ => ∃ y, x <ᶠ y)
      (fun a p x b _ hp _ => by
        obtain ⟨go, a', h⟩ := ht a p x b hp
        exact ⟨go, a', h, trivial⟩)
      (fun _ _ _ _ => trivial) (fun _ _ _ _ _ _ => ⟨trivial, trivial⟩)
      (fun _ _ _ _ _ _ _ _ _ h => ⟨_, h⟩) hn (m.dim + 1) [] zero ((inf, []), aux)
      (validPre_nil _) (by simp) trivial trivial
    refine ⟨r.1, ?_, ?_⟩
    · unfold solveDfs; rw [h1]; rfl
    · rcases h2 with h2 | h2
      · left; rw [h2]
      · exact Or.inr h2
  rcases hr with rfl | rfl | rfl | rfl | rfl
  · exact main _ _ (fun _ _ _ _ _ => ⟨_, _, rfl⟩)
  · exact main _ _ (fun _ _ _ _ _ => ⟨_, _, rfl⟩)
  · exact main _ _ (fun _ _ _ _ _ => ⟨_, _, rfl⟩)
  · refine main _ _ (fun _ p _ _ hp => ?_)
    obtain ⟨x, hx⟩ := mstBound_total m hinf hp
    exact ⟨_, _, by unfold test5; rw [hx]; rfl⟩
  · refine main _ _ (fun a p _ _ hp => ?_)
    obtain ⟨x, hx⟩ := mstBound_total m hinf hp
    unfold test6
    rw [hx]
    simp only [rm_bind_ok]
    cases a.lookup (hash p) with
    | some v => exact ⟨_, _, rfl⟩
    | none => exact ⟨_, _, rfl⟩

/-- **C100** (threads) In every arithmetic in which infinity equals itself, on every matrix, with
`1 ≤ nT < dim` threads: the threads start; the number of steps is bounded; in no reachable state the next
step of a thread panics; and there is an execution in which all threads finish. -/
theorem C100_threads (m : Mat α) (hinf : eq (inf : α) inf = true) {nT : Nat} (h1 : 1 ≤ nT) (h2 : nT < m.dim) :
    ∃ s0 L, initThreads m 3 nT = .ok s0 ∧ s0.threads.length = nT ∧
      (∃ n s, Steps (TSys.step m) n s0 s ∧ s.final) ∧
      ∀ n s, Steps (TSys.step m) n s0 s → n ≤ L ∧
        (∀ (i : Nat) t, s.threads[i]? = some t → t.done = false → ∃ s', TSys.stepOf m i s s') ∧
        (s.best = (inf, []) ∨ (IsTour m.dim s.best.2 ∧ ∃ y, s.best.1 <ᶠ y)) := by
  have hS : ∀ pre, ValidPre m.dim pre → ∃ r, searchPrefix m pre = .ok r ∧ AnySol m r := fun pre hp =>
    searchPrefix_total m (fun p hp => mstBound_total m hinf hp) (by omega) hp
  obtain ⟨s0, e1, e2⟩ := init_total (m := m) (k := 3) h1 (two_le_cube h1 h2)
  refine ⟨s0, s0.measure m.dim (hiV m.dim nT), e1, e2.len,
    final_total hS (hi_lt h1 h2) _ s0 s0 0 le_rfl e2 (.refl _), ?_⟩
  intro n s hs
  obtain ⟨a1, a2⟩ := steps_total hS (hi_lt h1 h2) e2 hs
  refine ⟨by omega, ?_, a1.best⟩
  intro i t ht hdn
  obtain ⟨t', b, b1, -⟩ := stepOf_total hS (hi_lt h1 h2) a1 ht hdn
  exact ⟨_, t, t', b, ht, hdn, b1, rfl⟩

private theorem threaded_total (m : Mat α) (hn : 1 ≤ m.dim) (hinf : eq (inf : α) inf = true) {nT : Nat}
    (h1 : 1 ≤ nT) : (∃ r, ThreadedResult m 3 nT r) ∧ ∀ r, ThreadedResult m 3 nT r → AnySol m r := by
  unfold ThreadedResult
  by_cases hd : m.dim ≤ nT
  · simp only [hd, if_true]
    obtain ⟨s, k1, k2⟩ := dfs_total m hn hinf (fun _ => 0) _ (Or.inr (Or.inr (Or.inr (Or.inl rfl))))
    refine ⟨⟨s, k1⟩, ?_⟩
    intro r hr
    rw [k1] at hr
    cases hr
    exact k2
  · simp only [hd, if_false]
    obtain ⟨s0, L, e1, -, ⟨n, s, k1, k2⟩, e2⟩ := C100_threads m hinf h1 (by omega)
    refine ⟨⟨s.best, s0, n, s, e1, k1, k2, rfl⟩, ?_⟩
    rintro r ⟨s0', n', s', a1, a2, a3, rfl⟩
    rw [e1] at a1
    cases a1
    exact (e2 _ _ a2).2.2

end lawfree

open XNum

variable {K : Type} [Field K] [LinearOrder K] [IsStrictOrderedRing K] {R : Rounding K}

omit [IsStrictOrderedRing K] in
private theorem not_nan {x : XNum K} (h : x = .inf ∨ ∃ y, @FloatOps.lt _ R.ops x y = true) : x ≠ .nan := by
  rintro rfl
  rcases h with h | ⟨y, h⟩
  · cases h
  · cases y <;> cases h

omit [IsStrictOrderedRing K] in
/-- **C100** (exact) Every accepted instance with at least one city – any numbers as costs, any rounding,
edges from a vertex to itself allowed: `walky exact` without MPI always has an outcome, and every outcome is a
number, that is not NaN, and either a tour of all cities or nothing – then the number is infinity. -/
theorem C100_exact {g : Graph (XNum K)} (hacc : @doConditionsHold _ R.ops g = .ok true) (hn : 1 ≤ g.length)
    {env : Env (XNum K)} (henv : env.Ok) (a : ExactAlgorithm) (p : Parallelism) :
    (∃ out, @Runs _ R.ops env g (.exact a p) out) ∧
    ∀ out, @Runs _ R.ops env g (.exact a p) out →
      ∃ x q, out = .ok [.bestCost x, .bestPermutation q] ∧ x ≠ .nan ∧
        ((q = [] ∧ x = .inf) ∨ IsTour g.length q) := by
  obtain ⟨m, hm, hdim⟩ := @instance_total _ R.ops g hacc
  have hres : ∀ r : Solution (XNum K), @Res _ R.ops m r →
      r.1 ≠ .nan ∧ ((r.2 = [] ∧ r.1 = .inf) ∨ IsTour g.length r.2) := by
    intro r h
    rw [← hdim]
    rcases h with ⟨h1, h2⟩ | ⟨h1, h2⟩
    · exact ⟨not_nan (R := R) (Or.inl h2), Or.inl ⟨h1, h2⟩⟩
    · exact ⟨not_nan (R := R) h2, Or.inr h1⟩
  simp only [Runs, ExactRun, hm]
  cases p with
  | singleThreaded =>
    refine ⟨⟨_, rfl⟩, ?_⟩
    rintro out rfl
    have key : ∀ s : RM (Solution (XNum K)), (∃ r, s = .ok r ∧ @Res _ R.ops m r) →
        ∃ x q, (fun r : Solution (XNum K) => [Line.bestCost r.1, Line.bestPermutation r.2]) <$> s =
          .ok [.bestCost x, .bestPermutation q] ∧ x ≠ .nan ∧ ((q = [] ∧ x = .inf) ∨ IsTour g.length q) := by
      rintro s ⟨r, rfl, h⟩
      exact ⟨r.1, r.2, rfl, hres r h⟩
    have hd := @dfs_total _ R.ops m (by omega) rfl env.hash
    refine key _ ?_
    cases a with
    | v0 => exact @naive_total _ R.ops m
    | v1 => exact @first_total _ R.ops m (by omega)
    | v2 => obtain ⟨s, k1, k2⟩ := hd _ (Or.inl rfl); exact ⟨s, k1, @res_of_anySol _ R.ops m s k2⟩
    | v3 => obtain ⟨s, k1, k2⟩ := hd _ (Or.inr (Or.inl rfl)); exact ⟨s, k1, @res_of_anySol _ R.ops m s k2⟩
    | v4 =>
      obtain ⟨s, k1, k2⟩ := hd _ (Or.inr (Or.inr (Or.inl rfl)))
      exact ⟨s, k1, @res_of_anySol _ R.ops m s k2⟩
    | v5 =>
      obtain ⟨s, k1, k2⟩ := hd _ (Or.inr (Or.inr (Or.inr (Or.inl rfl))))
      exact ⟨s, k1, @res_of_anySol _ R.ops m s k2⟩
    | v6 =>
      obtain ⟨s, k1, k2⟩ := hd _ (Or.inr (Or.inr (Or.inr (Or.inr rfl))))
      exact ⟨s, k1, @res_of_anySol _ R.ops m s k2⟩
  | multiThreaded =>
    obtain ⟨⟨r, h1⟩, h2⟩ := @threaded_total _ R.ops m (by omega) rfl _ henv.cpus
    refine ⟨⟨_, r, h1, rfl⟩, ?_⟩
    rintro out ⟨r', h, rfl⟩
    exact ⟨r'.1, r'.2, rfl, hres r' (@res_of_anySol _ R.ops m r' (h2 r' h))⟩

/-- **C100** (minimum spanning tree) Every accepted instance, any numbers as costs, any rounding:
`walky lower-bound mst` (both modes) and `mst-queue` print one number. -/
theorem C100_mst {g : Graph (XNum K)} (hacc : @doConditionsHold _ R.ops g = .ok true)
    {env : Env (XNum K)} (henv : env.Ok) (p : Parallelism) {a : LowerBoundAlgorithm} (ha : a ≠ .oneTree)
    (out : RM (List (Line (XNum K)))) (hout : @Runs _ R.ops env g (.lowerBound a p) out) :
    ∃ x, out = .ok [.mstBound x] := by
  obtain ⟨m, hm, hdim⟩ := @instance_total _ R.ops g hacc
  have hm' : ∀ f : Mat (XNum K) → RM (List (Line (XNum K))),
      (do let m ← @naFromGraph _ R.ops (← @parseChecked _ R.ops g); f m) = f m := by
    intro f
    have e : @parseChecked _ R.ops g = .ok g := by
      unfold parseChecked
      rw [hacc]
      rfl
    rw [e, rm_bind_ok] at hm ⊢
    rw [hm, rm_bind_ok]
  obtain ⟨t, ht⟩ : ∃ t, @primSeq _ R.ops m [] = .ok t := by
    obtain ⟨s, -, -, h⟩ := @primSeq_eq _ R.ops m [] rfl (by simp)
    exact ⟨_, h⟩
  simp only [Runs, lowerBoundRun] at hout
  rw [hm'] at hout
  subst hout
  cases a with
  | oneTree => exact absurd rfl ha
  | mst =>
    cases p with
    | singleThreaded =>
      simp only [ht, rm_bind_ok]
      exact ⟨_, rfl⟩
    | multiThreaded =>
      have : @primPar _ R.ops env.sched.shape env.sched.update m [] = .ok t := by
        rw [primPar_same, C30_par_eq_seq strictWeak_olt _ _ henv.sched.shape henv.sched.update,
          ← primSeq_same (R := R)]
        exact ht
      simp only [this, rm_bind_ok]
      exact ⟨_, rfl⟩
  | mstQueue =>
    obtain ⟨t, ht⟩ := @primQueue_total _ R.ops m rfl env.peek
      (fun it l hl => henv.peek.some_of_ne it l hl) (fun it l x hx => henv.peek.mem it l x hx)
    simp only [ht, rm_bind_ok]
    exact ⟨_, rfl⟩

omit [IsStrictOrderedRing K] in
/-- **C100** (not a number) An accepted instance without edges from a vertex to itself has no cost that is
not a number. -/
theorem C100_no_nan {g : Graph (XNum K)} (hacc : @doConditionsHold _ R.ops g = .ok true) (hl : NoLoop g) :
    ∀ es ∈ g, ∀ e ∈ es, e.cost ≠ .nan := by
  intro es hes e he hc
  obtain ⟨i, hi⟩ := List.mem_iff_getElem?.mp hes
  have hil : i < g.length := (List.getElem?_eq_some_iff.mp hi).1
  have h := (@doConditionsHold_iff _ R.ops g).mp hacc
  obtain ⟨hd, h3⟩ := (h i es hi).2.2 e he
  have hcomp := complete_of_accepted (g := g) hacc hl
  have hg := List.getElem?_eq_getElem hd
  have hmem := (hcomp.mem hg).mpr ⟨hil, (hl i es hi e he).symm⟩
  obtain ⟨f, hf, hfi⟩ := List.mem_map.mp hmem
  obtain ⟨f', hf'⟩ : ∃ f', (g[e.dst]).find? (fun f => f.dst == i) = some f' := by
    cases hfind : (g[e.dst]).find? (fun f => f.dst == i) with
    | some f' => exact ⟨f', rfl⟩
    | none =>
      have := List.find?_eq_none.mp hfind f hf
      simp [hfi] at this
  have := h3 _ f' hg hf'
  rw [hc] at this
  cases h : f'.cost <;> rw [h] at this <;> cases this

omit [IsStrictOrderedRing K] in
/-- the matrix of an accepted instance -/
private theorem entries {g : Graph (XNum K)} (hacc : @doConditionsHold _ R.ops g = .ok true) :
    ∃ m, (do @naFromGraph _ R.ops (← @parseChecked _ R.ops g)) = .ok m ∧ m.dim = g.length ∧
      (∀ P : XNum K → Prop, P (.fin 0) → P .inf → (∀ es ∈ g, ∀ e ∈ es, P e.cost) →
        ∀ i j, i < m.dim → j < m.dim → P (m.get i j)) ∧
      (NoLoop g → (∀ (i : Nat) (es : List (Edge (XNum K))), g[i]? = some es → ∀ e ∈ es, m.get i e.dst = e.cost) ∧
        (∀ i, m.get i i = .fin 0) ∧
        ∀ i j, i < m.dim → j < m.dim → i ≠ j → ∃ es ∈ g, ∃ e ∈ es, m.get i j = e.cost) := by
  obtain ⟨m, hm, hdim⟩ := @instance_total _ R.ops g hacc
  have hm1 : naFromGraph g = .ok m := by
    have hpg : @parseChecked _ R.ops g = .ok g := by
      unfold parseChecked
      rw [hacc]
      rfl
    rw [hpg, rm_bind_ok] at hm
    exact hm
  refine ⟨m, hm, hdim, fun P h0 h1 hP => (naFromGraph_pred h0 h1 hP hm1).2, ?_⟩
  intro hl
  have hcomp := complete_of_accepted (g := g) hacc hl
  obtain ⟨m', a1, a2, a3, a4, -⟩ := naFromGraph_complete hcomp
  rw [hm1] at a1
  cases a1
  refine ⟨a4, a3, ?_⟩
  intro i j hi hj hij
  rw [hdim] at hi hj
  have hg := List.getElem?_eq_getElem hi
  obtain ⟨e, he, hej⟩ := List.mem_map.mp ((hcomp.mem hg).mpr ⟨hj, hij.symm⟩)
  refine ⟨_, List.getElem_mem hi, e, he, ?_⟩
  rw [← hej]
  exact a4 i _ hg e he

/-- **C100** (1-tree) Every accepted instance with at least two cities whose costs are infinite or not negative,
any rounding that does not change the sign (for example double precision, `signed64`):
`walky lower-bound one-tree` prints one number, which is infinite or not negative, with both options. -/
theorem C100_one_tree_partial (hR : R.Signed) {g : Graph (XNum K)} (hacc : @doConditionsHold _ R.ops g = .ok true)
    (hn : 2 ≤ g.length) (hc : ∀ es ∈ g, ∀ e ∈ es, e.cost = .inf ∨ ∃ v, e.cost = .fin v ∧ 0 ≤ v)
    {env : Env (XNum K)} (henv : env.Ok) (p : Parallelism) (out : RM (List (Line (XNum K))))
    (hout : @Runs _ R.ops env g (.lowerBound .oneTree p) out) :
    ∃ x, out = .ok [.oneTreeBound x] ∧ (x = .inf ∨ ∃ v, x = .fin v ∧ 0 ≤ v) := by
  obtain ⟨m, hm, hdim, hP, -⟩ := entries hacc
  obtain ⟨⟨w, h1, h2⟩, w', h3, h4⟩ := oneTreeLb_pos hR (hP Pos pos_good.zero pos_good.inf hc) (by omega)
    henv.oneTreeShape
  have e : @parseChecked _ R.ops g = .ok g := by
    unfold parseChecked
    rw [hacc]
    rfl
  rw [e, rm_bind_ok] at hm
  simp only [Runs, lowerBoundRun, e, hm, rm_bind_ok] at hout
  subst hout
  cases p with
  | singleThreaded => rw [h1]; exact ⟨w, rfl, h2⟩
  | multiThreaded => rw [h3]; exact ⟨w', rfl, h4⟩

/-- the lines of the optional lower bound of an approximation, if it is not the 1-tree bound -/
private theorem bound_lines {g : Graph (XNum K)} (hacc : @doConditionsHold _ R.ops g = .ok true)
    {env : Env (XNum K)} (henv : env.Ok) (p : Parallelism) {lb : Option LowerBoundAlgorithm}
    (hlb : lb ≠ some .oneTree) (l : List (Line (XNum K))) :
    ∃ l', @withBound _ R.ops env g p lb (.ok l) = .ok (l ++ l') ∧
      ((lb = none ∧ l' = []) ∨ (lb ≠ none ∧ ∃ y, l' = [.mstBound y])) := by
  cases lb with
  | none => exact ⟨[], by simp [withBound], Or.inl ⟨rfl, rfl⟩⟩
  | some a =>
    obtain ⟨y, hy⟩ := C100_mst hacc henv p (a := a) (fun h => hlb (by rw [h])) _ rfl
    exact ⟨[.mstBound y], by simp [withBound, hy], Or.inr ⟨by simp, y, rfl⟩⟩

/-- **C100** (nearest neighbour) Every accepted instance with at least one city, without edges from a vertex to
itself, no cost being infinity (minus infinity is allowed), any rounding: every outcome of
`walky approx nearest-neighbour` is a number and a tour of all cities, followed by the bound if one was asked
for. (The 1-tree bound is excluded; see `C100_one_tree_partial`.) -/
theorem C100_nearest_neighbour_partial {g : Graph (XNum K)} (hacc : @doConditionsHold _ R.ops g = .ok true)
    (hl : NoLoop g) (hn : 1 ≤ g.length) (hc : ∀ es ∈ g, ∀ e ∈ es, e.cost ≠ .inf)
    {env : Env (XNum K)} (henv : env.Ok) (p : Parallelism) {lb : Option LowerBoundAlgorithm}
    (hlb : lb ≠ some .oneTree) (out : RM (List (Line (XNum K))))
    (hout : @Runs _ R.ops env g (.approx .nearestNeighbour p lb) out) :
    ∃ x q l', out = .ok ([.nnWeight x, .nnTour q] ++ l') ∧ IsTour g.length q ∧
      ((lb = none ∧ l' = []) ∨ (lb ≠ none ∧ ∃ y, l' = [.mstBound y])) := by
  obtain ⟨m, hm, hdim, -, hE⟩ := entries hacc
  have hlt : ∀ x < m.dim, ∀ y < m.dim, x ≠ y → @FloatOps.lt _ R.ops (m.get x y) (@FloatOps.inf _ R.ops) = true := by
    intro x hx y hy hxy
    obtain ⟨es, hes, e, he, h⟩ := (hE hl).2.2 x y hx hy hxy
    have h1 := hc es hes e he
    have h2 := C100_no_nan hacc hl es hes e he
    rw [h]
    cases hce : e.cost with
    | nan => exact absurd hce h2
    | inf => exact absurd hce h1
    | ninf => rfl
    | fin v => rfl
  obtain ⟨⟨r, h1, h2⟩, r', h3, h4⟩ := @nearestNeighbour_total _ R.ops m (by omega) hlt (env.starts m.dim)
    (henv.starts _) env.nnShape henv.nnShape
  simp only [Runs, ApproxRun, hm] at hout
  obtain ⟨res, hres, rfl⟩ := hout
  rw [hdim] at h2 h4
  cases p with
  | singleThreaded =>
    simp only [h1] at hres
    subst hres
    obtain ⟨l', k1, k2⟩ := bound_lines hacc henv .singleThreaded hlb [.nnWeight r.1, .nnTour r.2]
    exact ⟨r.1, r.2, l', k1, h2, k2⟩
  | multiThreaded =>
    simp only [h3] at hres
    subst hres
    obtain ⟨l', k1, k2⟩ := bound_lines hacc henv .multiThreaded hlb [.nnWeight r'.1, .nnTour r'.2]
    exact ⟨r'.1, r'.2, l', k1, h4, k2⟩

/-- **C100** (Christofides) Every accepted instance with at least one city, any numbers as costs, any rounding, on
a single thread:
* in a release build every outcome is a number, followed by the bound if one was asked for;
* if all costs are finite and there is no edge from a vertex to itself – in a debug build only if the matrix
  passes the test for metrics – the number is the sum, in this arithmetic, of the costs along a tour of all
  cities that starts at city 0.
(The 1-tree bound is excluded; see `C100_one_tree_partial`.) -/
theorem C100_christofides_partial {g : Graph (XNum K)} (hacc : @doConditionsHold _ R.ops g = .ok true)
    (hn : 1 ≤ g.length) {env : Env (XNum K)} (henv : env.Ok) {lb : Option LowerBoundAlgorithm}
    (hlb : lb ≠ some .oneTree) (out : RM (List (Line (XNum K))))
    (hout : @Runs _ R.ops env g (.approx .christofides .singleThreaded lb) out) :
    (env.dbg = false → ∃ x l', out = .ok (.christofidesWeight x :: l') ∧
      ((lb = none ∧ l' = []) ∨ (lb ≠ none ∧ ∃ y, l' = [.mstBound y]))) ∧
    (NoLoop g → (∀ es ∈ g, ∀ e ∈ es, ∃ v, e.cost = .fin v) →
      (env.dbg = true → ∀ m, (do @naFromGraph _ R.ops (← @parseChecked _ R.ops g)) = .ok m →
        @Mat.isMetric _ R.ops m = true) →
      ∃ (d : Nat → Nat → XNum K) (q : List Nat) (l' : List (Line (XNum K))),
        (∀ (i : Nat) (es : List (Edge (XNum K))), g[i]? = some es → ∀ e ∈ es, d i e.dst = e.cost) ∧
        (∀ i, d i i = .fin 0) ∧
        IsTour g.length q ∧ q.head? = some 0 ∧
        out = .ok (.christofidesWeight
          (@FloatOps.sum _ R.ops ((q.zip (q.tail ++ [0])).map fun e => d e.1 e.2)) :: l') ∧
        ((lb = none ∧ l' = []) ∨ (lb ≠ none ∧ ∃ y, l' = [.mstBound y]))) := by
  obtain ⟨m, hm, hdim, -, hE⟩ := entries hacc
  simp only [Runs, ApproxRun, hm] at hout
  obtain ⟨res, hres, rfl⟩ := hout
  constructor
  · intro hd
    obtain ⟨p, h1, -⟩ := @christofidesSeq_total _ R.ops m rfl (by omega) env.rng henv.rng
    rw [hd, h1] at hres
    subst hres
    obtain ⟨l', k1, k2⟩ := bound_lines hacc henv .singleThreaded hlb
      [.christofidesWeight (@FloatOps.sum _ R.ops ((pairs (p ++ [0])).map fun e => m.get e.1 e.2))]
    exact ⟨_, l', k1, k2⟩
  · intro hl hc hdbg
    obtain ⟨e1, e2, e3⟩ := hE hl
    have hval : ∀ i j, ∃ v, i < m.dim → j < m.dim → m.get i j = .fin v := by
      intro i j
      by_cases hij : i = j
      · exact ⟨0, fun _ _ => by rw [hij]; exact e2 j⟩
      by_cases h : i < m.dim ∧ j < m.dim
      · obtain ⟨es, hes, e, he, k⟩ := e3 i j h.1 h.2 hij
        obtain ⟨v, hv⟩ := hc es hes e he
        exact ⟨v, fun _ _ => by rw [k, hv]⟩
      · exact ⟨0, fun a b => absurd ⟨a, b⟩ h⟩
    choose c hcv using hval
    have hrep : Rep m c :=
      ⟨fun i j hi hj _ => hcv i j hi hj, fun h => hcv 0 0 (by omega) (by omega)⟩
    obtain ⟨p, h1, h2, h3⟩ := christofidesSeq_finite (R := R) hrep (by omega) henv.rng
      (fun h => hdbg h m hm)
    rw [h1] at hres
    subst hres
    obtain ⟨l', k1, k2⟩ := bound_lines hacc henv .singleThreaded hlb
      [.christofidesWeight (@FloatOps.sum _ R.ops ((pairs (p ++ [0])).map fun e => m.get e.1 e.2))]
    refine ⟨m.get, p, l', e1, e2, hdim ▸ h2, h3, ?_, k2⟩
    have : pairs (p ++ [0]) = p.zip (p.tail ++ [0]) := by
      cases p with
      | nil => cases h3
      | cons a t =>
        have := List.zip_append (l₁ := a :: t) (l₂ := t ++ [0]) (r₁ := [0]) (r₂ := []) (by simp)
        simpa [pairs] using this
    rw [← this]
    exact k1

omit [IsStrictOrderedRing K] in
/-- **C100** (outcomes) Every command without MPI has an outcome on every accepted instance with at least one
city, any numbers as costs, any rounding: nothing waits forever in all executions. -/
theorem C100_outcome {g : Graph (XNum K)} (hacc : @doConditionsHold _ R.ops g = .ok true) (hn : 1 ≤ g.length)
    {env : Env (XNum K)} (henv : env.Ok) (cmd : Command) : ∃ out, @Runs _ R.ops env g cmd out := by
  cases cmd with
  | exact a p => exact (C100_exact hacc hn henv a p).1
  | lowerBound a p => exact ⟨_, rfl⟩
  | approx a p lb =>
    simp only [Runs, ApproxRun]
    split
    · exact ⟨_, rfl⟩
    · rename_i m hm
      cases a with
      | nearestNeighbour => cases p <;> exact ⟨_, _, rfl, rfl⟩
      | christofides =>
        cases p with
        | singleThreaded => exact ⟨_, _, rfl, rfl⟩
        | multiThreaded =>
          suffices h : ∃ res, @ChristofidesPar _ R.ops env.dbg m env.rng env.sched res by
            obtain ⟨res, h⟩ := h
            exact ⟨_, res, h, rfl⟩
          unfold ChristofidesPar ChristofidesGenericPar
          split
          · exact ⟨_, rfl⟩
          split
          · exact ⟨_, rfl⟩
          split
          · exact ⟨_, rfl⟩
          rename_i matching _
          split
          · exact ⟨_, rfl⟩
          rename_i g0 _
          obtain ⟨g', hg'⟩ := fillMatchingPar_exists g0 matching
          exact ⟨_, g', hg', rfl⟩

/-! ## Examples and negations -/

/-- three cities; the costs of the edges 0-1, 0-2 and 1-2 -/
def tri (a b c : XNum ℚ) : Graph (XNum ℚ) :=
  [[⟨1, a⟩, ⟨2, b⟩], [⟨0, a⟩, ⟨2, c⟩], [⟨0, b⟩, ⟨1, c⟩]]

theorem tri_noLoop (a b c : XNum ℚ) : NoLoop (tri a b c) := by
  intro i es hi e he
  match i, hi with
  | 0, hi => simp [tri] at hi; subst hi; simp at he; rcases he with rfl | rfl <;> simp
  | 1, hi => simp [tri] at hi; subst hi; simp at he; rcases he with rfl | rfl <;> simp
  | 2, hi => simp [tri] at hi; subst hi; simp at he; rcases he with rfl | rfl <;> simp
  | _ + 3, hi => simp [tri] at hi

/-- the hypotheses of `C100_exact`, `C100_mst`, `C100_one_tree_partial`, `C100_nearest_neighbour_partial`
and `C100_christofides_partial` can be satisfied, with infinite costs where they are allowed -/
example : doConditionsHold (tri .inf .ninf (.fin (-3))) = .ok true ∧ env1.Ok ∧
    doConditionsHold (tri .inf (.fin 0) .inf) = .ok true ∧ binary64.Signed ∧
    doConditionsHold (tri (.fin 1) .ninf (.fin (-3))) = .ok true :=
  ⟨by decide +kernel, env1_ok, by decide +kernel, signed64, by decide +kernel⟩

/-- **C100 (negation, 1-tree)** With a cost of minus infinity and a cost of infinity `walky lower-bound one-tree`
panics. -/
theorem C100_one_tree_panics : doConditionsHold (tri .ninf .inf .inf) = .ok true ∧
    @Runs _ binary64.ops env1 (tri .ninf .inf .inf) (.lowerBound .oneTree .singleThreaded) (.error .unwrap) := by
  have h : ((do @naFromGraph _ binary64.ops (← @parseChecked _ binary64.ops (tri .ninf .inf .inf))) >>=
      @oneTreeLbSeq _ binary64.ops) = .error .unwrap := by decide +kernel
  refine ⟨by decide +kernel, ?_⟩
  simp only [Runs, lowerBoundRun]
  rw [bind_assoc] at h
  cases hp : @parseChecked _ binary64.ops (tri .ninf .inf .inf) with
  | error e => rw [hp] at h; cases h; rfl
  | ok g =>
    rw [hp] at h
    simp only [rm_bind_ok] at h ⊢
    cases hm : @naFromGraph _ binary64.ops g with
    | error e => rw [hm] at h; cases h; rfl
    | ok m =>
      rw [hm] at h
      simp only [rm_bind_ok] at h ⊢
      rw [h]
      rfl

/-- **C100 (negation, nearest neighbour)** If all edges of a city are infinite `walky approx nearest-neighbour`
panics. -/
theorem C100_nearest_neighbour_panics : doConditionsHold (tri .inf .inf (.fin 1)) = .ok true ∧
    @Runs _ binary64.ops env1 (tri .inf .inf (.fin 1)) (.approx .nearestNeighbour .singleThreaded none)
      (.error .explicit) := by
  have h1 : ((do @naFromGraph _ binary64.ops (← @parseChecked _ binary64.ops (tri .inf .inf (.fin 1)))) >>=
      fun m => @nearestNeighbourSeq _ binary64.ops (List.range m.dim) m) = .error .explicit := by decide +kernel
  have h2 : ∃ m, (do @naFromGraph _ binary64.ops (← @parseChecked _ binary64.ops (tri .inf .inf (.fin 1)))) = .ok m :=
    (@instance_total _ binary64.ops _ (by decide +kernel)).imp fun _ h => h.1
  refine ⟨by decide +kernel, ?_⟩
  obtain ⟨m, hm⟩ := h2
  simp only [Runs, ApproxRun, hm]
  rw [hm, rm_bind_ok] at h1
  exact ⟨_, h1.symm, rfl⟩

/-- **C100 (negation, Christofides)** Every tour of this instance is infinite; `walky exact v3` finds none. A release
build of `walky approx christofides` prints 2. -/
theorem C100_christofides_wrong : doConditionsHold (tri (.fin 1) .inf .inf) = .ok true ∧ env1.dbg = false ∧
    @Runs _ binary64.ops env1 (tri (.fin 1) .inf .inf)
      (.approx .christofides .singleThreaded none) (.ok [.christofidesWeight (.fin 2)]) ∧
    @Runs _ binary64.ops env1 (tri (.fin 1) .inf .inf) (.exact .v3 .singleThreaded)
      (.ok [.bestCost .inf, .bestPermutation []]) := by
  have h1 : ((do @naFromGraph _ binary64.ops (← @parseChecked _ binary64.ops (tri (.fin 1) .inf .inf))) >>=
      fun m => @christofidesSeq _ binary64.ops false m env1.rng) = .ok (.fin 2, [0, 1, 0]) := by decide +kernel
  have h3 : ((do @naFromGraph _ binary64.ops (← @parseChecked _ binary64.ops (tri (.fin 1) .inf .inf))) >>=
      fun m => @thirdImprovedSolver _ binary64.ops m) = .ok (.inf, []) := by decide +kernel
  have h2 : ∃ m, (do @naFromGraph _ binary64.ops (← @parseChecked _ binary64.ops (tri (.fin 1) .inf .inf))) = .ok m :=
    (@instance_total _ binary64.ops _ (by decide +kernel)).imp fun _ h => h.1
  refine ⟨by decide +kernel, rfl, ?_, ?_⟩
  · obtain ⟨m, hm⟩ := h2
    simp only [Runs, ApproxRun, hm]
    rw [hm, rm_bind_ok] at h1
    exact ⟨_, h1.symm, rfl⟩
  · obtain ⟨m, hm⟩ := h2
    simp only [Runs, ExactRun, hm]
    rw [hm, rm_bind_ok] at h3
    rw [h3]
    rfl

end Walky.Props
