import Verif.Props.ChristofidesTight
import Verif.Props.Threaded
import Verif.Props.StaticMpi
import Verif.Props.DynamicMpi
import Verif.Props.OneTree
import Verif.Props.NearestNeighbour
import Verif.Props.Permutation
import Verif.Props.Cli
import Verif.Lemmas.CliLines

/-! # Property C131: three cities -/

namespace Walky.Props

open FloatOps XNum Spec

variable {K : Type} [Field K] [LinearOrder K] [IsStrictOrderedRing K] {m : Mat (XNum K)} {c : Nat → Nat → K}

/-- the length of the triangle -/
def perimeter (c : Nat → Nat → K) : K := c 0 1 + c 1 2 + c 0 2

omit [LinearOrder K] [IsStrictOrderedRing K] in
/-- **C131** (tours) With three cities and symmetric distances all tours have the same length. -/
theorem C131_tours (hsym : Symm 3 c) {q : List Nat} (hq : IsTour 3 q) : tourCost c q = perimeter c := by
  have h10 := hsym 1 0 (by omega) (by omega)
  have h20 := hsym 2 0 (by omega) (by omega)
  have h21 := hsym 2 1 (by omega) (by omega)
  have hlen : q.length = 3 := by simpa using hq.length_eq
  match q, hlen with
  | [i, j, k], _ =>
    have hmem : ∀ v ∈ [i, j, k], v < 3 := fun v hv => by simpa using hq.mem_iff.mp hv
    have hnd : [i, j, k].Nodup := hq.nodup_iff.mpr List.nodup_range
    have hi := hmem i (by simp)
    have hj := hmem j (by simp)
    have hk := hmem k (by simp)
    simp only [List.nodup_cons, List.mem_cons, List.not_mem_nil, or_false, not_or] at hnd
    obtain ⟨⟨h1, h2⟩, h3, -⟩ := hnd
    have key : tourCost c [i, j, k] = c i j + (c j k + c k i) := by simp [tourCost, pathCost]
    rw [key]
    unfold perimeter
    interval_cases i <;> interval_cases j <;> first | (exact absurd rfl h1) | skip
    all_goals interval_cases k <;> first | (exact absurd rfl h2) | (exact absurd rfl h3) | skip
    all_goals simp only [h10, h20, h21]; ring

omit [LinearOrder K] [IsStrictOrderedRing K] in
private theorem tree3 {E : List (Nat × Nat)} (h : IsSpanningTree (List.range 3) E) :
    (oddDegree 3 E).length = 2 ∧ ∀ c : Nat → Nat → K, Symm 3 c →
      edgeSum c E = c 0 1 + c 1 2 ∨ edgeSum c E = c 1 2 + c 0 2 ∨ edgeSum c E = c 0 1 + c 0 2 := by
  have hlen : E.length = 2 := by
    have := h.count
    simp at this
    omega
  match E, hlen with
  | [(i, j), (k, l)], _ =>
    have h1 := h.ends (i, j) (by simp)
    have h2 := h.ends (k, l) (by simp)
    simp only [List.mem_range] at h1 h2
    obtain ⟨hi, hj, hij⟩ := h1
    obtain ⟨hk, hl, hkl⟩ := h2
    have hu := (spanning_und (by omega) h i j).1 (Or.inl (by simp))
    clear h
    interval_cases i <;> interval_cases j <;> first | (exact absurd rfl hij) | skip
    all_goals interval_cases k <;> interval_cases l <;> first | (exact absurd rfl hkl) | skip
    all_goals first
      | (exfalso; revert hu; decide)
      | (refine ⟨by decide, fun c hs => ?_⟩
         have h10 := hs 1 0 (by omega) (by omega)
         have h20 := hs 2 0 (by omega) (by omega)
         have h21 := hs 2 1 (by omega) (by omega)
         first
         | (refine Or.inl ?_
            simp only [edgeSum, List.map_cons, List.map_nil, List.sum_cons, List.sum_nil, h10, h20, h21]; ring1)
         | (refine Or.inr (Or.inl ?_)
            simp only [edgeSum, List.map_cons, List.map_nil, List.sum_cons, List.sum_nil, h10, h20, h21]; ring1)
         | (refine Or.inr (Or.inr ?_)
            simp only [edgeSum, List.map_cons, List.map_nil, List.sum_cons, List.sum_nil, h10, h20]; ring1))

/-- **C131** (exact) With three cities `walky exact` reports the length of the triangle: v0 to v6, on any number of
threads and for every schedule, and v0 with MPI on two or three processes. -/
theorem C131_exact (hm : Rep m c) (hn : m.dim = 3) (hsym : Symm 3 c) :
    let Good : RM (Solution (XNum K)) → Prop := fun res => ∃ p, res = .ok (.fin (perimeter c), p) ∧ IsTour 3 p
    Good (naiveSolver m) ∧ Good (firstImprovedSolver m) ∧ Good (secondImprovedSolver m) ∧
    Good (thirdImprovedSolver m) ∧ Good (fourthImprovedSolver m) ∧ Good (fifthImprovedSolver m) ∧
    (∀ hash, Good (sixthImprovedSolver m hash)) ∧
    (∀ nT, 1 ≤ nT → (∃ r, ThreadedResult m 3 nT r) ∧ ∀ r, ThreadedResult m 3 nT r → Good (.ok r)) ∧
    ∀ nW r, 1 ≤ nW → nW ≤ 2 → StaticResult m 3 nW r → Good r := by
  intro Good
  have good : ∀ res, (∃ p, res = .ok (fin (tourCost c p), p) ∧ IsTour m.dim p) → Good res := by
    rintro res ⟨p, rfl, hp⟩
    rw [hn] at hp
    exact ⟨p, by rw [C131_tours hsym hp], hp⟩
  have h10 : ∀ hash r, _ → Good r := fun hash r hr => by
    obtain ⟨p, p1, p2, -⟩ := C10_truthful m c hm (by omega) hash r hr
    exact good r ⟨p, p1, p2⟩
  refine ⟨?_, ?_, h10 (fun _ => 0) _ (by simp), h10 (fun _ => 0) _ (by simp), h10 (fun _ => 0) _ (by simp),
    h10 (fun _ => 0) _ (by simp), fun hash => h10 hash _ (by simp), fun nT h1 => ⟨C17_result_exists hm (by omega) h1,
    fun r hr => ?_⟩, fun nW r h1 h2 hr => good r (C23_static_few_workers_partial hm (by omega) h1 (by omega) hr)⟩
  · obtain ⟨p, p1, p2⟩ := C03_v0_exact_partial m c hm (by omega)
    exact good _ ⟨p, p1, p2.1⟩
  · obtain ⟨p, p1, p2, -⟩ := C04_v1_exact_partial m c hm (by omega) (hn ▸ hsym)
    exact good _ ⟨p, p1, p2.1⟩
  · obtain ⟨k1, k2⟩ := C19_threaded_tour_partial hm (by omega) h1 (by omega) hr
    exact good _ ⟨r.2, by rw [← k2], k1⟩

/-- **C131** (approximations) With three cities nearest neighbour, from every start and in every mode (MPI: up to three
processes), and christofides, for all shuffles and in every mode, report the length of the triangle. -/
theorem C131_approx (hm : Rep m c) (hn : m.dim = 3) (hsym : Symm 3 c) :
    let Good : RM (Solution (XNum K)) → Prop := fun res => ∃ p, res = .ok (.fin (perimeter c), p) ∧ IsTour 3 p
    let Closed : RM (Solution (XNum K)) → Prop := fun res => ∃ p, res = .ok (.fin (perimeter c), p ++ [0]) ∧ IsTour 3 p
    (∀ i < 3, Good (singleNN m i)) ∧
    (∀ xs : List Nat, xs.Perm (List.range 3) → Good (nearestNeighbourSeq xs m) ∧
      ∀ shape : List (Solution (XNum K)) → RTree (Solution (XNum K)), (∀ l, (shape l).flatten = l) →
        Good (nearestNeighbourPar shape xs m)) ∧
    (∀ (shape : Nat → List (XNum K × Nat) → RTree (XNum K × Nat)) (size : Nat),
      (∀ r l, (shape r l).flatten.Perm l) → 1 ≤ size → size ≤ 3 →
      ∃ p, nnMpi shape size m = .ok (List.replicate size (.fin (perimeter c), p)) ∧ IsTour 3 p) ∧
    ∀ (dbg : Bool), (dbg = true → m.isMetric = true) → ∀ r : MatchRng, r.Ok →
      Closed (christofidesSeq dbg m r) ∧
      (∀ s : ParSched (XNum K), s.Ok → (∃ res, ChristofidesPar dbg m r s res) ∧
        ∀ res, ChristofidesPar dbg m r s res → Closed res) ∧
      ∀ shufs : Nat → Nat → List (Nat × Nat) → List (Nat × Nat), (∀ k i l, (shufs k i l).Perm l) →
        ∀ size, 1 ≤ size → Closed (christofidesMpi dbg m r shufs size) := by
  intro Good Closed
  refine ⟨fun i hi => ?_, fun xs hxs => ?_, fun shape size hs h1 h2 => ?_, fun dbg hdbg r hr => ?_⟩
  · obtain ⟨p, p1, p2, -⟩ := C37_single_truthful hm (i := i) (by omega)
    rw [hn] at p2
    exact ⟨p, by rw [p1, C131_tours hsym p2], p2⟩
  · obtain ⟨w, -, -, hseq⟩ := C39_nearest_neighbour hm (by omega)
    obtain ⟨p, p1, p2, rfl⟩ := hseq xs (by rw [hn]; exact hxs)
    rw [hn] at p2
    rw [C131_tours hsym p2] at p1
    refine ⟨⟨p, p1, p2⟩, fun shape hs => ⟨p, ?_, p2⟩⟩
    rw [C39_nearest_neighbour_par strictWeak_olt shape hs, p1]
  · obtain ⟨w, p, p1, p2, rfl, -⟩ := C40_mpi_partial hm h1 (by omega) shape hs
    rw [hn] at p2
    rw [C131_tours hsym p2] at p1
    exact ⟨p, p1, p2⟩
  · obtain ⟨mst, E, -, k2, -, -, k5⟩ := C121_path hm (by omega) (hn ▸ hsym)
    rw [hn] at k2 k5
    obtain ⟨u, v, huv⟩ : ∃ u v, oddDegree 3 E = [u, v] := by
      have := (tree3 (K := K) k2).1
      match oddDegree 3 E, this with
      | [u, v], _ => exact ⟨u, v, rfl⟩
    have key := (k5 u v (by rw [huv]) dbg hdbg).1 r hr
    have conv : ∀ res, (∃ p, res = .ok (.fin (edgeSum c E + c u v), p ++ [0]) ∧ IsTour 3 p ∧
        tourCost c p = edgeSum c E + c u v) → Closed res := by
      rintro res ⟨p, p1, p2, p3⟩
      rw [← p3, C131_tours hsym p2] at p1
      exact ⟨p, p1, p2⟩
    exact ⟨conv _ key.1, fun s hs => ⟨(key.2.1 s hs).1, fun res hres => conv _ ((key.2.1 s hs).2 res hres)⟩,
      fun shufs hsh size h1 => conv _ (key.2.2 shufs hsh size h1)⟩

/-- **C131** (bounds) With three cities the 1-tree bound is the length of the triangle, in every mode (MPI: up to three
processes), and the spanning tree has this length without the longest side. -/
theorem C131_bounds (hm : Rep m c) (hn : m.dim = 3) (hsym : Symm 3 c) :
    oneTreeLbSeq m = .ok (.fin (perimeter c)) ∧
    (∀ shape : List (XNum K) → RTree (XNum K), (∀ l, (shape l).flatten = l) →
      oneTreeLbPar shape m = .ok (.fin (perimeter c))) ∧
    (∀ (shape : List (XNum K) → RTree (XNum K)) (size : Nat), (∀ l, (shape l).flatten.Perm l) →
      1 ≤ size → size ≤ 3 → oneTreeLbMpi shape size m = .ok (.fin (perimeter c))) ∧
    ∃ t, primSeq m [] = .ok t ∧ t.undirectedEdgeWeight = .fin (perimeter c - max (max (c 0 1) (c 1 2)) (c 0 2)) := by
  have hsym' : Symm m.dim c := hn ▸ hsym
  have hw : ∀ v < m.dim, oneTreeWeight m v = .ok (fin (perimeter c)) := by
    intro v hv
    obtain ⟨g, E, a, b, h1, h2, h3, ⟨ha, hav, hb, hbv, hab⟩, h4, h5, h6⟩ := oneTree_exact hm hsym' (by omega) hv
    have hE : ∀ e ∈ E ++ [(v, a), (v, b)], e.1 < m.dim ∧ e.2 < m.dim := by
      intro e he
      rcases List.mem_append.mp he with he | he
      · obtain ⟨k1, k2, _⟩ := h2.ends e he
        exact ⟨(mem_citiesExcept.mp k1).1, (mem_citiesExcept.mp k2).1⟩
      · simp only [List.mem_cons, List.not_mem_nil, or_false] at he
        rcases he with rfl | rfl
        · exact ⟨hv, ha⟩
        · exact ⟨hv, hb⟩
    have hlen : E.length = 1 := by
      have := h2.count
      rw [hn] at this hv
      have h : (citiesExcept 3 [v]).length = 2 := by interval_cases v <;> rfl
      omega
    have hval : edgeSum c (E ++ [(v, a), (v, b)]) = perimeter c := by
      match E, hlen with
      | [(i, j)], _ =>
        obtain ⟨k1, k2, hij⟩ := h2.ends (i, j) (by simp)
        rw [mem_citiesExcept] at k1 k2
        simp only [List.mem_singleton] at k1 k2
        rw [hn] at k1 k2 ha hb hv
        obtain ⟨hi, hiv⟩ := k1
        obtain ⟨hj, hjv⟩ := k2
        simp only at hij hi hj hiv hjv
        have h10 := hsym 1 0 (by omega) (by omega)
        have h20 := hsym 2 0 (by omega) (by omega)
        have h21 := hsym 2 1 (by omega) (by omega)
        clear h1 h2 h3 h4 h5 h6 hE
        simp only [edgeSum, List.cons_append, List.nil_append, List.map_cons, List.map_nil, List.sum_cons, List.sum_nil,
          perimeter]
        interval_cases v <;> interval_cases a <;> first | (exact absurd rfl hav) | skip
        all_goals interval_cases b <;> first | (exact absurd rfl hbv) | (exact absurd rfl hab) | skip
        all_goals interval_cases i <;> first | (exact absurd rfl hiv) | skip
        all_goals interval_cases j <;> first | (exact absurd rfl hjv) | (exact absurd rfl hij) | skip
        all_goals (try simp only [h10, h20, h21]); ring
    unfold oneTreeWeight
    rw [h1, rm_bind_ok, h6.undirected hE, hval]
    rfl
  have hseq : oneTreeLbSeq m = .ok (.fin (perimeter c)) := by
    obtain ⟨wt, w, k1, k2, k3⟩ := oneTreeLbSeq_exact hm hsym' (by omega)
    obtain ⟨v, hv, rfl⟩ := List.mem_map.mp k3.1
    have h := (k1 v (by simpa using hv)).1
    rw [hw v (by simpa using hv)] at h
    rw [k2, ← XNum.fin.inj (Except.ok.inj h)]
  refine ⟨hseq, fun shape hs => by rw [C35_par_eq_seq strictWeak_olt shape hs, hseq], fun shape size hs h1 h2 => by
    rw [C35_mpi_partial hm hsym' (by omega) h1 (by omega) shape hs, hseq], ?_⟩
  obtain ⟨g, w, k1, k2, k3, -, F, k4, k5⟩ := C29_prim_minimum hm hsym' [] (by simp)
    (by rw [citiesExcept_nil, hn]; decide)
  rw [citiesExcept_nil, hn] at k3 k4
  refine ⟨g, k1, ?_⟩
  rw [k2]
  congr 1
  have span : ∀ i j k, [i, j, k].Perm (List.range 3) → w ≤ c i j + c j k := by
    intro i j k hp
    have := k3 (pairs [i, j, k]) (spanning_pairs hp (hp.nodup_iff.mpr List.nodup_range) (by simp))
    simpa [pairs, edgeSum] using this
  have s1 := span 0 1 2 (by decide)
  have s2 := span 1 2 0 (by decide)
  have s3 := span 1 0 2 (by decide)
  rw [hsym 2 0 (by omega) (by omega)] at s2
  rw [hsym 1 0 (by omega) (by omega)] at s3
  have hF := (tree3 (K := K) k4).2 c hsym
  rw [← k5] at hF
  unfold perimeter
  rcases max_cases (max (c 0 1) (c 1 2)) (c 0 2) with ⟨e, h⟩ | ⟨e, h⟩ <;>
    rcases max_cases (c 0 1) (c 1 2) with ⟨e', h'⟩ | ⟨e', h'⟩ <;> rw [e] <;> rw [e'] at h <;> (try rw [e']) <;>
    rcases hF with hF | hF | hF <;> linarith

/-- **C131** (negation) v1 with MPI has no result with three cities: the worker with the first prefix panics. -/
theorem C131_no_result {α : Type} [FloatOps α] (m : Mat α) (hn : m.dim = 3) {nW : Nat} (h1 : 1 ≤ nW)
    (r : RM (Solution α)) : ¬ DynamicResult m nW r :=
  C25_small_no_result m (by omega) h1 r

/-- what a line says about three cities -/
def SaysPerimeter (c : Nat → Nat → K) (l : Line (XNum K)) : Prop :=
  (∀ x, l = .nnWeight x ∨ l = .christofidesWeight x ∨ l = .oneTreeBound x → x = .fin (perimeter c)) ∧
  ∀ x, l = .mstBound x → x = .fin (perimeter c - max (max (c 0 1) (c 1 2)) (c 0 2))

/-- **C131** (the program) Every accepted instance of three cities and every command without MPI: `walky exact` prints the
length of the triangle, and so does every other line with a number, except for the spanning tree bounds, which lack
the longest side. In release builds every command can be completed. -/
theorem C131_program {g : Graph (XNum K)} (hacc : doConditionsHold g = .ok true) (hl : NoLoop g) (hc : NonnegCosts g)
    (hn : g.length = 3) :
    ∃ c : Nat → Nat → K, Symm 3 c ∧
      (∀ (i : Nat) (es : List (Edge (XNum K))), g[i]? = some es → ∀ e ∈ es, e.cost = .fin (c i e.dst)) ∧
      ∀ env : Env (XNum K), env.Ok →
        (∀ a p out, Runs env g (.exact a p) out →
          ∃ q, out = .ok [.bestCost (.fin (perimeter c)), .bestPermutation q] ∧ IsTour 3 q) ∧
        (∀ cmd lines, Runs env g cmd (.ok lines) → ∀ l ∈ lines, SaysPerimeter c l) ∧
        (env.dbg = false → ∀ p lb out, Runs env g (.approx .christofides p lb) out → ∃ lines, out = .ok lines) := by
  obtain ⟨m, c, hm0, hdim, hm, hsym, -, hcost⟩ := instance_matrix hacc hl hc (by omega)
  rw [hn] at hdim
  rw [hdim] at hsym
  obtain ⟨e0, e1, e2, e3, e4, e5, e6, e7, -⟩ := C131_exact hm hdim hsym
  obtain ⟨-, a2, -, a4⟩ := C131_approx hm hdim hsym
  obtain ⟨b1, b2, -, t, b4, b5⟩ := C131_bounds hm hdim hsym
  refine ⟨c, hsym, hcost, fun env he => ⟨fun a p out hrun => ?_, fun cmd lines hrun => ?_, fun hd p lb out hrun => ?_⟩⟩
  · simp only [Runs, ExactRun, hm0] at hrun
    cases p with
    | singleThreaded =>
      have key : ∀ res : RM (Solution (XNum K)), (∃ p, res = .ok (.fin (perimeter c), p) ∧ IsTour 3 p) →
          out = (fun r : Solution (XNum K) => [Line.bestCost r.1, Line.bestPermutation r.2]) <$> res →
          ∃ q, out = .ok [.bestCost (.fin (perimeter c)), .bestPermutation q] ∧ IsTour 3 q := by
        rintro res ⟨q, rfl, hq⟩ rfl
        exact ⟨q, rfl, hq⟩
      cases a
      · exact key _ e0 hrun
      · exact key _ e1 hrun
      · exact key _ e2 hrun
      · exact key _ e3 hrun
      · exact key _ e4 hrun
      · exact key _ e5 hrun
      · exact key _ (e6 env.hash) hrun
    | multiThreaded =>
      obtain ⟨r, hr, rfl⟩ := hrun
      obtain ⟨q, hq1, hq2⟩ := (e7 _ he.cpus).2 r hr
      injection hq1 with hq1
      rw [hq1]
      exact ⟨q, rfl, hq2⟩
  · have num : ∀ (w : XNum K) {f : XNum K → Line (XNum K)}, w = .fin (perimeter c) →
        (f = .nnWeight ∨ f = .christofidesWeight ∨ f = .oneTreeBound) → SaysPerimeter c (f w) := by
      rintro w f rfl (rfl | rfl | rfl) <;> refine ⟨fun x hx => ?_, fun x hx => by cases hx⟩ <;>
        rcases hx with hx | hx | hx <;> cases hx <;> rfl
    have none : ∀ l : Line (XNum K), (∀ x, l ≠ .nnWeight x ∧ l ≠ .christofidesWeight x ∧ l ≠ .oneTreeBound x ∧
        l ≠ .mstBound x) → SaysPerimeter c l := by
      refine fun l h => ⟨fun x hx => ?_, fun x hx => absurd hx (h x).2.2.2⟩
      rcases hx with hx | hx | hx
      · exact absurd hx (h x).1
      · exact absurd hx (h x).2.1
      · exact absurd hx (h x).2.2.1
    refine run_lines hm0 (fun x => none _ (by simp)) (fun x => none _ (by simp)) (fun x => none _ (by simp)) ?_ ?_ ?_ ?_ hrun
    · intro w hw
      refine num w ?_ (.inr (.inr rfl))
      rcases hw with hw | hw
      · rw [b1] at hw
        exact (Except.ok.inj hw).symm
      · rw [b2 _ he.oneTreeShape] at hw
        exact (Except.ok.inj hw).symm
    · intro t' ht'
      have : t'.undirectedEdgeWeight = .fin (perimeter c - max (max (c 0 1) (c 1 2)) (c 0 2)) := by
        rcases ht' with h | h | h
        · rw [b4] at h
          rw [← Except.ok.inj h, b5]
        · rw [C30_par_eq_seq strictWeak_olt _ _ he.sched.shape he.sched.update, b4] at h
          rw [← Except.ok.inj h, b5]
        · obtain ⟨t1, t2, f1, f2, -, f3⟩ := C31_queue_weight_partial hm (hdim ▸ hsym) he.peek [] (by simp)
          rw [f1] at h
          rw [b4] at f2
          rw [← Except.ok.inj h, f3, ← Except.ok.inj f2, b5]
      rw [this]
      refine ⟨fun x hx => ?_, fun x hx => ?_⟩
      · rcases hx with hx | hx | hx <;> cases hx
      · injection hx with hx
        exact hx.symm
    · intro r hr
      refine num r.1 ?_ (.inl rfl)
      have hx : (env.starts m.dim).Perm (List.range 3) := hdim ▸ he.starts m.dim
      obtain ⟨⟨p, p1, -⟩, hpar⟩ := a2 _ hx
      rcases hr with hr | hr
      · rw [p1] at hr
        rw [← Except.ok.inj hr]
      · obtain ⟨p', p1', -⟩ := hpar _ he.nnShape
        rw [p1'] at hr
        rw [← Except.ok.inj hr]
    · intro r hr
      refine num r.1 ?_ (.inr (.inl rfl))
      rcases hr with hr | ⟨-, hr⟩
      · obtain ⟨⟨p, p1, -⟩, -⟩ := a4 env.dbg (seq_isMetric hr) env.rng he.rng
        rw [p1] at hr
        rw [← Except.ok.inj hr]
      · cases hd : env.dbg with
        | false =>
          rw [hd] at hr
          obtain ⟨-, hpar, -⟩ := a4 false (by simp) env.rng he.rng
          obtain ⟨p, p1, -⟩ := (hpar _ he.sched).2 _ hr
          rw [Except.ok.inj p1]
        | true =>
          obtain ⟨p, p1, p2, -⟩ := C41_christofides_par_returned_partial hm (by omega) he.rng he.sched (.inl hd) hr
          rw [hdim] at p2
          rw [p1, C131_tours hsym p2]
  · have hlb : ∀ a, ∃ l, lowerBoundRun env g a p = .ok l := by
      intro a
      have hstart : ∀ f : Mat (XNum K) → RM (List (Line (XNum K))),
          (do let m ← naFromGraph (← parseChecked g); f m) = f m := by
        intro f
        obtain ⟨g', k1, k2⟩ := rm_bind_eq_ok hm0
        rw [k1, rm_bind_ok, k2, rm_bind_ok]
      unfold lowerBoundRun
      rw [hstart]
      cases a <;> cases p
      · exact ⟨_, by rw [b1]; rfl⟩
      · exact ⟨_, by rw [b2 _ he.oneTreeShape]; rfl⟩
      · exact ⟨_, by rw [b4]; rfl⟩
      · exact ⟨_, by rw [C30_par_eq_seq strictWeak_olt _ _ he.sched.shape he.sched.update, b4]; rfl⟩
      all_goals
        obtain ⟨t1, t2, f1, -⟩ := C31_queue_weight_partial hm (hdim ▸ hsym) he.peek [] (by simp)
        exact ⟨_, by rw [f1]; rfl⟩
    have hwith : ∀ r : Solution (XNum K), ∃ lines, withBound env g p lb
        ((fun r : Solution (XNum K) => [Line.christofidesWeight r.1]) <$> (.ok r : RM (Solution (XNum K)))) = .ok lines := by
      intro r
      cases lb with
      | none => exact ⟨_, rfl⟩
      | some a =>
        obtain ⟨l, hl⟩ := hlb a
        exact ⟨_ ++ l, by simp only [withBound, hl]; rfl⟩
    simp only [Runs, ApproxRun, hm0, hd] at hrun
    obtain ⟨res, k1, k2⟩ := hrun
    obtain ⟨⟨q, q1, -⟩, hpar, -⟩ := a4 false (by simp) env.rng he.rng
    obtain ⟨r, hr⟩ : ∃ r, res = .ok r := by
      cases p with
      | singleThreaded => exact ⟨_, k1.trans q1⟩
      | multiThreaded =>
        obtain ⟨q', q1', -⟩ := (hpar _ he.sched).2 _ k1
        exact ⟨_, q1'⟩
    rw [hr] at k2
    rw [k2]
    exact hwith r

/-- three cities with distances 3, 4 and 9, not a metric -/
def nine (i j : Nat) : ℚ := if i = j then 0 else [3, 9, 4].getD (i + j - 1) 0

/-- the theorems speak about this instance; all numbers are 16, the spanning tree has 7 -/
example : (let m : Mat (XNum ℚ) := Mat.ofFun 3 nine
    m.dim = 3 ∧ m.isMetric = false ∧ perimeter nine = 16 ∧
      naiveSolver m = .ok (.fin 16, [0, 2, 1]) ∧ oneTreeLbSeq m = .ok (.fin 16) ∧
      (primSeq m [] >>= fun t => .ok t.undirectedEdgeWeight) = .ok (.fin 7) ∧
      christofidesSeq false m idRng = .ok (.fin 16, [0, 1, 2, 0])) ∧
    Rep (Mat.ofFun 3 nine) nine ∧ Symm 3 nine :=
  ⟨by decide +kernel, rep_ofFun _ _, fun i j _ _ => by simp only [nine, eq_comm, Nat.add_comm]⟩

/-- the same as a file with edges -/
def nineGraph : Graph (XNum ℚ) := [[⟨1, .fin 3⟩, ⟨2, .fin 9⟩], [⟨0, .fin 3⟩, ⟨2, .fin 4⟩], [⟨0, .fin 9⟩, ⟨1, .fin 4⟩]]

/-- the hypotheses of `C131_program` -/
example : doConditionsHold nineGraph = .ok true ∧ NoLoop nineGraph ∧ NonnegCosts nineGraph ∧ nineGraph.length = 3 ∧ env1.Ok ∧
    lowerBoundRun env1 nineGraph .mst .singleThreaded = .ok [.mstBound (.fin 7)] := by
  have h : ∀ i < 3, ∀ e ∈ (nineGraph[i]?).getD [], e.dst ≠ i ∧ (e.cost = .fin 3 ∨ e.cost = .fin 4 ∨ e.cost = .fin 9) := by
    decide +kernel
  have h' : ∀ (i : Nat) (es : List (Edge (XNum ℚ))), nineGraph[i]? = some es → ∀ e ∈ es, _ := fun i es hi e he =>
    h i (List.getElem?_eq_some_iff.mp hi).1 e (by rw [hi]; exact he)
  refine ⟨by decide +kernel, fun i es hi e he => (h' i es hi e he).1, fun i es hi e he => ?_, rfl, env1_ok, ?_⟩
  · rcases (h' i es hi e he).2 with e | e | e
    · exact ⟨3, e, by norm_num⟩
    · exact ⟨4, e, by norm_num⟩
    · exact ⟨9, e, by norm_num⟩
  · have key : (match lowerBoundRun env1 nineGraph .mst .singleThreaded with
        | .ok [.mstBound x] => decide (x = .fin 7)
        | _ => false) = true := by decide +kernel
    split at key
    · rename_i x hx
      rw [hx, of_decide_eq_true key]
    · cases key

end Walky.Props
