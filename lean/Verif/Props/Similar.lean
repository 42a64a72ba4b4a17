import Verif.Props.ThreeCities
import Verif.Props.Christofides
import Verif.Props.Mst
import Verif.Props.CliMpi
import Verif.Lemmas.NearMetric

/-! # Property C132: distances of similar size -/

namespace Walky.Props

open FloatOps XNum Spec

variable {K : Type} [Field K] [LinearOrder K] [IsStrictOrderedRing K] {m : Mat (XNum K)} {c : Nat → Nat → K} {a b : K}

/-- all distances between different cities are at least `a` and at most `b` -/
def Between (n : Nat) (c : Nat → Nat → K) (a b : K) : Prop :=
  ∀ i j, i < n → j < n → i ≠ j → a ≤ c i j ∧ c i j ≤ b

private theorem edgeSum_between {n : Nat} (h : Between n c a b) : ∀ {E : List (Nat × Nat)},
    (∀ e ∈ E, e.1 < n ∧ e.2 < n ∧ e.1 ≠ e.2) → E.length * a ≤ edgeSum c E ∧ edgeSum c E ≤ E.length * b
  | [], _ => by simp [edgeSum]
  | e :: E, he => by
    obtain ⟨h1, h2⟩ := edgeSum_between h (E := E) fun x hx => he x (by simp [hx])
    obtain ⟨k1, k2, k3⟩ := he e (by simp)
    obtain ⟨h3, h4⟩ := h _ _ k1 k2 k3
    simp only [edgeSum, List.map_cons, List.sum_cons, List.length_cons] at h1 h2 ⊢
    push_cast
    constructor <;> linarith

/-- **C132** (tours) Every tour of `n` cities is at least `n a` and at most `n b` long. -/
theorem C132_tours {n : Nat} (hn : 2 ≤ n) (h : Between n c a b) {q : List Nat} (hq : IsTour n q) :
    n * a ≤ tourCost c q ∧ tourCost c q ≤ n * b := by
  have hlen : (tourEdges q).length = n := by
    have hl : q.length = n := by simpa using hq.length_eq
    match q, hl with
    | [], hl => simp at hl; omega
    | x :: t, hl => simpa [tourEdges, pairs] using hl
  have := edgeSum_between h (tourEdges_ne hn hq)
  rwa [edgeSum_tourEdges, hlen] at this

/-- the cost is between `n a` and `n b`, and at most `n (b - a)` above the length of any tour -/
def Near (n : Nat) (c : Nat → Nat → K) (a b w : K) : Prop :=
  n * a ≤ w ∧ w ≤ n * b ∧ ∀ q, IsTour n q → w ≤ tourCost c q + n * (b - a)

private theorem near_tour {n : Nat} (hn : 2 ≤ n) (h : Between n c a b) {p : List Nat} (hp : IsTour n p) :
    Near n c a b (tourCost c p) := by
  obtain ⟨h1, h2⟩ := C132_tours hn h hp
  refine ⟨h1, h2, fun q hq => ?_⟩
  have := (C132_tours hn h hq).1
  rw [mul_sub]
  linarith

/-- **C132** (exact) Whatever `walky exact` reports is between `n a` and `n b`, also where v4 - v6 and several threads do
not find a shortest tour. -/
theorem C132_exact (hm : Rep m c) (hn : 3 ≤ m.dim) (hsym : Symm m.dim c) (h : Between m.dim c a b) :
    let Good : RM (Solution (XNum K)) → Prop := fun res => ∃ w p, res = .ok (.fin w, p) ∧ Near m.dim c a b w
    Good (naiveSolver m) ∧ Good (firstImprovedSolver m) ∧ Good (secondImprovedSolver m) ∧
    Good (thirdImprovedSolver m) ∧ Good (fourthImprovedSolver m) ∧ Good (fifthImprovedSolver m) ∧
    (∀ hash, Good (sixthImprovedSolver m hash)) ∧
    (∀ nT, 1 ≤ nT → (∃ r, ThreadedResult m 3 nT r) ∧ ∀ r, ThreadedResult m 3 nT r → Good (.ok r)) ∧
    (∀ nW r, 1 ≤ nW → nW < m.dim → StaticResult m 3 nW r → Good r) ∧
    (4 ≤ m.dim → 0 ≤ a → ∀ nW n (s : DSys (XNum K)), 1 ≤ nW → Steps (DStep m) n (initDynamic nW) s → s.final →
      ∃ w, s.winner.1 = .fin w ∧ Near m.dim c a b w) := by
  intro Good
  have good : ∀ res, (∃ p, res = .ok (fin (tourCost c p), p) ∧ IsTour m.dim p) → Good res := by
    rintro res ⟨p, rfl, hp⟩
    exact ⟨_, p, rfl, near_tour (by omega) h hp⟩
  have h10 : ∀ hash r, _ → Good r := fun hash r hr => by
    obtain ⟨p, p1, p2, -⟩ := C10_truthful m c hm (by omega) hash r hr
    exact good r ⟨p, p1, p2⟩
  refine ⟨?_, ?_, h10 (fun _ => 0) _ (by simp), h10 (fun _ => 0) _ (by simp), h10 (fun _ => 0) _ (by simp),
    h10 (fun _ => 0) _ (by simp), fun hash => h10 hash _ (by simp), fun nT h1 => ⟨C17_result_exists hm (by omega) h1,
    fun r hr => ?_⟩, fun nW r h1 h2 hr => good r (C23_static_few_workers_partial hm hn h1 h2 hr), ?_⟩
  · obtain ⟨p, p1, p2⟩ := C03_v0_exact_partial m c hm (by omega)
    exact good _ ⟨p, p1, p2.1⟩
  · obtain ⟨p, p1, p2, -⟩ := C04_v1_exact_partial m c hm (by omega) hsym
    exact good _ ⟨p, p1, p2.1⟩
  · obtain ⟨k1, k2⟩ := C19_threaded_tour_partial hm (by omega) h1 (by omega) hr
    exact good _ ⟨r.2, by rw [← k2], k1⟩
  · intro h4 ha nW n s h1 hs hf
    obtain ⟨p, p1, p2, -⟩ := C61_dynamic_quality hm h4 hsym (fun i j hi hj hij => ha.trans (h i j hi hj hij).1) h1 hs hf
    exact ⟨_, p1, near_tour (by omega) h p2⟩

/-- **C132** (approximations) The same for nearest neighbour, from every start and in every mode (MPI: up to `n`
processes), and for christofides, whatever the shuffles do to the matching; on several threads if the matching repeats no edge
or in a debug build. -/
theorem C132_approx (hm : Rep m c) (hn : 2 ≤ m.dim) (h : Between m.dim c a b) :
    let Good : RM (Solution (XNum K)) → Prop := fun res => ∃ w p, res = .ok (.fin w, p) ∧ Near m.dim c a b w
    (∀ i < m.dim, Good (singleNN m i)) ∧
    (∀ xs : List Nat, xs.Perm (List.range m.dim) → Good (nearestNeighbourSeq xs m) ∧
      ∀ shape : List (Solution (XNum K)) → RTree (Solution (XNum K)), (∀ l, (shape l).flatten = l) →
        Good (nearestNeighbourPar shape xs m)) ∧
    (∀ (shape : Nat → List (XNum K × Nat) → RTree (XNum K × Nat)) (size : Nat),
      (∀ r l, (shape r l).flatten.Perm l) → 1 ≤ size → size ≤ m.dim →
      ∃ w p, nnMpi shape size m = .ok (List.replicate size (.fin w, p)) ∧ Near m.dim c a b w) ∧
    ∀ (dbg : Bool), ∀ r : MatchRng, r.Ok →
      (∀ s : ParSched (XNum K), s.Ok → Harmless dbg m r → ∀ sol, ChristofidesPar dbg m r s (.ok sol) → Good (.ok sol)) ∧
      ((dbg = true → m.isMetric = true) → Good (christofidesSeq dbg m r) ∧
        ∀ shufs : Nat → Nat → List (Nat × Nat) → List (Nat × Nat), (∀ k i l, (shufs k i l).Perm l) →
          ∀ size, 1 ≤ size → Good (christofidesMpi dbg m r shufs size)) := by
  intro Good
  refine ⟨fun i hi => ?_, fun xs hxs => ?_, fun shape size hs h1 h2 => ?_, fun dbg r hr =>
    ⟨fun s hs hh sol hsol => ?_, fun hdbg => ⟨?_, fun shufs hsh size h1 => ?_⟩⟩⟩
  · obtain ⟨p, p1, p2, -⟩ := C37_single_truthful hm hi
    exact ⟨_, p, p1, near_tour hn h p2⟩
  · obtain ⟨w, -, -, hseq⟩ := C39_nearest_neighbour hm (by omega)
    obtain ⟨p, p1, p2, rfl⟩ := hseq xs hxs
    refine ⟨⟨_, p, p1, near_tour hn h p2⟩, fun shape hs => ⟨_, p, ?_, near_tour hn h p2⟩⟩
    rw [C39_nearest_neighbour_par strictWeak_olt shape hs, p1]
  · obtain ⟨w, p, p1, p2, rfl, -⟩ := C40_mpi_partial hm h1 h2 shape hs
    exact ⟨_, p, p1, near_tour hn h p2⟩
  · obtain ⟨p, rfl, p2, -⟩ := C41_christofides_par_returned_partial hm (by omega) hr hs hh hsol
    exact ⟨_, _, rfl, near_tour hn h p2⟩
  · obtain ⟨p, p1, p2, -⟩ := C41_christofides_seq hm (by omega) hdbg hr
    exact ⟨_, _, p1, near_tour hn h p2⟩
  · obtain ⟨p, p1, p2, -⟩ := C62_christofides_mpi_partial hm hn hdbg hr hsh h1
    exact ⟨_, _, p1, near_tour hn h p2⟩

/-- **C132** (bounds) The 1-tree bound is between `n a` and `n b`, the spanning tree bounds between `(n - 1) a` and
`(n - 1) b`, in all versions and modes. -/
theorem C132_bounds (hm : Rep m c) (hn : 3 ≤ m.dim) (hsym : Symm m.dim c) (h : Between m.dim c a b) :
    (∃ w, (m.dim * a ≤ w ∧ w ≤ m.dim * b) ∧ oneTreeLbSeq m = .ok (.fin w) ∧
      (∀ shape : List (XNum K) → RTree (XNum K), (∀ l, (shape l).flatten = l) → oneTreeLbPar shape m = .ok (.fin w)) ∧
      ∀ (shape : List (XNum K) → RTree (XNum K)) (size : Nat), (∀ l, (shape l).flatten.Perm l) →
        1 ≤ size → size ≤ m.dim → oneTreeLbMpi shape size m = .ok (.fin w)) ∧
    ∃ w, ((m.dim - 1) * a ≤ w ∧ w ≤ (m.dim - 1) * b) ∧
      (∃ t, primSeq m [] = .ok t ∧ t.undirectedEdgeWeight = .fin w) ∧
      (∀ (shape : Nat → List (Nat × Edge (XNum K)) → RTree (Nat × Edge (XNum K))) (update : Nat → Nat → List Nat),
        (∀ it l, (shape it l).flatten = l) → (∀ it n, (update it n).Perm (List.range n)) →
        ∃ t, primPar shape update m [] = .ok t ∧ t.undirectedEdgeWeight = .fin w) ∧
      ∀ peek : Nat → List (Nat × XNum K) → Option (Nat × XNum K), PeekOk peek →
        ∃ t, primQueue peek m [] = .ok t ∧ t.undirectedEdgeWeight = .fin w := by
  constructor
  · have hw : ∀ v < m.dim, ∃ w, oneTreeWeight m v = .ok (fin w) ∧ m.dim * a ≤ w ∧ w ≤ m.dim * b := by
      intro v hv
      obtain ⟨g, E, x, y, h1, h2, h3, ⟨hx, hxv, hy, hyv, hxy⟩, h4, h5, h6⟩ := oneTree_exact hm hsym hn hv
      have hE : ∀ e ∈ E ++ [(v, x), (v, y)], e.1 < m.dim ∧ e.2 < m.dim ∧ e.1 ≠ e.2 := by
        intro e he
        rcases List.mem_append.mp he with he | he
        · obtain ⟨k1, k2, k3⟩ := h2.ends e he
          exact ⟨(mem_citiesExcept.mp k1).1, (mem_citiesExcept.mp k2).1, k3⟩
        · simp only [List.mem_cons, List.not_mem_nil, or_false] at he
          rcases he with rfl | rfl
          · exact ⟨hv, hx, Ne.symm hxv⟩
          · exact ⟨hv, hy, Ne.symm hyv⟩
      have hlen : (E ++ [(v, x), (v, y)]).length = m.dim := by
        have hp : (v :: citiesExcept m.dim [v]).Perm (List.range m.dim) := by
          have hnd : (v :: citiesExcept m.dim [v]).Nodup := List.nodup_cons.mpr
            ⟨by simp [mem_citiesExcept], by unfold citiesExcept; exact List.Nodup.filter _ List.nodup_range⟩
          rw [List.perm_ext_iff_of_nodup hnd List.nodup_range]
          intro u
          rw [List.mem_cons, mem_citiesExcept, List.mem_range, List.mem_singleton]
          constructor
          · rintro (rfl | ⟨h, -⟩)
            · exact hv
            · exact h
          · intro h
            by_cases e : u = v
            · exact Or.inl e
            · exact Or.inr ⟨h, e⟩
        have := hp.length_eq
        have := h2.count
        simp only [List.length_cons, List.length_range, List.length_append, List.length_nil] at *
        omega
      have key := edgeSum_between h hE
      rw [hlen] at key
      refine ⟨_, ?_, key⟩
      unfold oneTreeWeight
      rw [h1, rm_bind_ok, h6.undirected fun e he => ⟨(hE e he).1, (hE e he).2.1⟩]
      rfl
    obtain ⟨wt, w, k1, k2, k3⟩ := oneTreeLbSeq_exact hm hsym hn
    obtain ⟨v, hv, hvw⟩ := List.mem_map.mp k3.1
    obtain ⟨w', e1, e2⟩ := hw v (by simpa using hv)
    rw [(k1 v (by simpa using hv)).1] at e1
    have : wt v = w' := XNum.fin.inj (Except.ok.inj e1)
    rw [← this, hvw] at e2
    exact ⟨w, e2, k2, fun shape hs => by rw [C35_par_eq_seq strictWeak_olt shape hs, k2], fun shape size hs h1 h2 => by
      rw [C35_mpi_partial hm hsym hn h1 h2 shape hs, k2]⟩
  · obtain ⟨g, w, k1, k2, k3, -, F, k4, k5⟩ := C29_prim_minimum hm hsym [] (by simp)
      (by rw [citiesExcept_nil]; simp; omega)
    rw [citiesExcept_nil] at k4
    have hF := edgeSum_between h (E := F) fun e he => by
      obtain ⟨f1, f2, f3⟩ := k4.ends e he
      exact ⟨List.mem_range.mp f1, List.mem_range.mp f2, f3⟩
    have hlen : (F.length : K) = m.dim - 1 := by
      have := k4.count
      rw [List.length_range] at this
      rw [← this]
      push_cast
      ring
    rw [hlen, ← k5] at hF
    refine ⟨w, hF, ⟨g, k1, k2⟩, fun shape update hs hu => ⟨g, ?_, k2⟩, fun peek hp => ?_⟩
    · rw [C30_par_eq_seq strictWeak_olt shape update hs hu, k1]
    · obtain ⟨t, t', e1, e2, -, e3⟩ := C31_queue_weight_partial hm hsym hp [] (by simp)
      rw [k1] at e2
      injection e2 with e2
      exact ⟨t, e1, by rw [e3, ← e2, k2]⟩

/-- **C132** (factor) If the distances are positive, everything `walky` reports as the length of a tour is at most `b / a` times
the optimum, whether or not they are a metric. -/
theorem C132_factor {n : Nat} (hn : 2 ≤ n) (h : Between n c a b) (ha : 0 < a) {w : K} (hw : Near n c a b w) {q : List Nat}
    (hq : IsTour n q) : w ≤ b / a * tourCost c q := by
  obtain ⟨h1, -⟩ := C132_tours hn h hq
  have hab : a ≤ b := (h 0 1 (by omega) (by omega) (by omega)).1.trans (h 0 1 (by omega) (by omega) (by omega)).2
  calc w ≤ n * b := hw.2.1
    _ = b / a * (n * a) := by field_simp
    _ ≤ b / a * tourCost c q := mul_le_mul_of_nonneg_left h1 (div_nonneg (ha.le.trans hab) ha.le)

omit [IsStrictOrderedRing K] in
/-- **C132** (equal distances) If all distances are equal, every such length is `n a`. -/
theorem C132_equal {n : Nat} {w : K} (hw : Near n c a a w) : w = n * a := le_antisymm hw.2.1 hw.1

/-- what a line says about `n` cities with distances between `a` and `b` -/
def SaysBetween (n : Nat) (a b : K) (l : Line (XNum K)) : Prop :=
  (∀ x, l = .nnWeight x ∨ l = .christofidesWeight x ∨ l = .oneTreeBound x → ∃ w, x = .fin w ∧ n * a ≤ w ∧ w ≤ n * b) ∧
  ∀ x, l = .mstBound x → ∃ w, x = .fin w ∧ (n - 1) * a ≤ w ∧ w ≤ (n - 1) * b

/-- **C132** (the program) Every accepted instance whose edges have costs between `a` and `b`, every command: what
`walky exact` without MPI prints is between `n a` and `n b` and at most `n (b - a)` above the optimum, and every other line with a number is in its
range, with and without MPI, except that lengths of Christofides tours in release builds with several threads are only considered if the matching
repeats no edge (`Trusted`). -/
theorem C132_program {g : Graph (XNum K)} (hacc : doConditionsHold g = .ok true) (hl : NoLoop g) (hn : 3 ≤ g.length)
    (ha : 0 ≤ a) (hc : ∀ (i : Nat) (es : List (Edge (XNum K))), g[i]? = some es → ∀ e ∈ es,
      ∃ x, e.cost = .fin x ∧ a ≤ x ∧ x ≤ b) :
    ∃ c : Nat → Nat → K,
      (∀ (i : Nat) (es : List (Edge (XNum K))), g[i]? = some es → ∀ e ∈ es, e.cost = .fin (c i e.dst)) ∧
      (∀ env : Env (XNum K), env.Ok →
        (∀ alg p out, Runs env g (.exact alg p) out →
          ∃ w q, out = .ok [.bestCost (.fin w), .bestPermutation q] ∧ Near g.length c a b w) ∧
        ∀ cmd lines, Runs env g cmd (.ok lines) → ∀ l ∈ lines, Trusted env g cmd l → SaysBetween g.length a b l) ∧
      ∀ env : MpiEnv (XNum K), env.Ok → ∀ cmd outs, MpiRuns env g cmd outs → ∀ o ∈ outs, ∀ l ∈ o.lines,
        SaysBetween g.length a b l := by
  obtain ⟨m, c, hm0, hdim, hm, hsym, -, hcost⟩ := instance_matrix hacc hl (fun i es hi e he => by
    obtain ⟨x, h1, h2, -⟩ := hc i es hi e he
    exact ⟨x, h1, ha.trans h2⟩) hn
  have hcomp := complete_of_accepted hacc hl
  have h : Between m.dim c a b := by
    rw [hdim]
    intro i j hi hj hij
    have hg := List.getElem?_eq_getElem hi
    obtain ⟨e, he, hej⟩ := List.mem_map.mp ((hcomp.mem hg).mpr ⟨hj, hij.symm⟩)
    obtain ⟨x, h1, h2⟩ := hc i _ hg e he
    rw [hcost i _ hg e he, hej] at h1
    rw [XNum.fin.inj h1]
    exact h2
  refine ⟨c, hcost, ?_⟩
  rw [← hdim] at hn ⊢
  obtain ⟨e0, e1, e2, e3, e4, e5, e6, e7, -⟩ := C132_exact hm hn hsym h
  obtain ⟨-, a2, a3, a4⟩ := C132_approx hm (by omega) h
  obtain ⟨⟨wo, wo1, b1, b2, b3⟩, wt, wt1, ⟨t, b4, b5⟩, b6, b7⟩ := C132_bounds hm hn hsym h
  have num : ∀ (x : XNum K) (w : K) {f : XNum K → Line (XNum K)}, x = .fin w → m.dim * a ≤ w ∧ w ≤ m.dim * b →
      (f = .nnWeight ∨ f = .christofidesWeight ∨ f = .oneTreeBound) → SaysBetween m.dim a b (f x) := by
    rintro x w f rfl hw (rfl | rfl | rfl) <;> refine ⟨fun x hx => ?_, fun x hx => by cases hx⟩ <;>
      rcases hx with hx | hx | hx <;> cases hx <;> exact ⟨w, rfl, hw⟩
  have none : ∀ l : Line (XNum K), (∀ x, l ≠ .nnWeight x ∧ l ≠ .christofidesWeight x ∧ l ≠ .oneTreeBound x ∧
      l ≠ .mstBound x) → SaysBetween m.dim a b l := by
    refine fun l h => ⟨fun x hx => ?_, fun x hx => absurd hx (h x).2.2.2⟩
    rcases hx with hx | hx | hx
    · exact absurd hx (h x).1
    · exact absurd hx (h x).2.1
    · exact absurd hx (h x).2.2.1
  have mst : SaysBetween m.dim a b (.mstBound (.fin wt)) := by
    refine ⟨fun x hx => ?_, fun x hx => ?_⟩
    · rcases hx with hx | hx | hx <;> cases hx
    · injection hx with hx
      exact ⟨wt, hx.symm, wt1⟩
  refine ⟨fun env he => ⟨fun alg p out hrun => ?_, fun cmd lines hrun => ?_⟩, fun env he cmd outs hrun => ?_⟩
  · simp only [Runs, ExactRun, hm0] at hrun
    cases p with
    | singleThreaded =>
      have key : ∀ res : RM (Solution (XNum K)), (∃ w p, res = .ok (.fin w, p) ∧ Near m.dim c a b w) →
          out = (fun r : Solution (XNum K) => [Line.bestCost r.1, Line.bestPermutation r.2]) <$> res →
          ∃ w q, out = .ok [.bestCost (.fin w), .bestPermutation q] ∧ Near m.dim c a b w := by
        rintro res ⟨w, q, rfl, hq⟩ rfl
        exact ⟨w, q, rfl, hq⟩
      cases alg
      · exact key _ e0 hrun
      · exact key _ e1 hrun
      · exact key _ e2 hrun
      · exact key _ e3 hrun
      · exact key _ e4 hrun
      · exact key _ e5 hrun
      · exact key _ (e6 env.hash) hrun
    | multiThreaded =>
      obtain ⟨r, hr, rfl⟩ := hrun
      obtain ⟨w, q, hq1, hq2⟩ := (e7 _ he.cpus).2 r hr
      injection hq1 with hq1
      rw [hq1]
      exact ⟨w, q, rfl, hq2⟩
  · refine run_lines hm0 (fun x _ => none _ (by simp)) (fun x _ => none _ (by simp)) (fun x _ => none _ (by simp))
      ?_ ?_ ?_ ?_ hrun
    · intro w hw _
      refine num w wo ?_ wo1 (.inr (.inr rfl))
      rcases hw with hw | hw
      · rw [b1] at hw
        exact (Except.ok.inj hw).symm
      · rw [b2 _ he.oneTreeShape] at hw
        exact (Except.ok.inj hw).symm
    · intro t' ht' _
      have : t'.undirectedEdgeWeight = .fin wt := by
        rcases ht' with h | h | h
        · rw [b4] at h
          rw [← Except.ok.inj h, b5]
        · obtain ⟨t1, f1, f2⟩ := b6 _ _ he.sched.shape he.sched.update
          rw [f1] at h
          rw [← Except.ok.inj h, f2]
        · obtain ⟨t1, f1, f2⟩ := b7 _ he.peek
          rw [f1] at h
          rw [← Except.ok.inj h, f2]
      rw [this]
      exact mst
    · intro r hr _
      obtain ⟨⟨w, p, p1, p2⟩, hpar⟩ := a2 _ (he.starts m.dim)
      rcases hr with hr | hr
      · rw [p1] at hr
        exact num r.1 w (by rw [← Except.ok.inj hr]) ⟨p2.1, p2.2.1⟩ (.inl rfl)
      · obtain ⟨w', p', p1', p2'⟩ := hpar _ he.nnShape
        rw [p1'] at hr
        exact num r.1 w' (by rw [← Except.ok.inj hr]) ⟨p2'.1, p2'.2.1⟩ (.inl rfl)
    · intro r hr hsafe
      obtain ⟨hpar, hseq⟩ := a4 env.dbg env.rng he.rng
      rcases hr with hr | ⟨⟨lb, rfl⟩, hr⟩
      · obtain ⟨⟨w, p, p1, p2⟩, -⟩ := hseq (seq_isMetric hr)
        rw [p1] at hr
        exact num r.1 w (by rw [← Except.ok.inj hr]) ⟨p2.1, p2.2.1⟩ (.inr (.inl rfl))
      · obtain ⟨w, p, p1, p2⟩ := hpar _ he.sched (hsafe ⟨_, rfl⟩ m hm0) _ hr
        exact num r.1 w (by rw [Except.ok.inj p1]) ⟨p2.1, p2.2.1⟩ (.inr (.inl rfl))
  · refine mpi_lines hm0 (fun x => none _ (by simp)) (fun x => none _ (by simp)) (fun x => none _ (by simp)) ?_ ?_ ?_ ?_ hrun
    · intro w hw
      have hs : env.size ≤ m.dim := by
        by_contra hlt
        obtain ⟨e, he'⟩ := C35_mpi_too_many_ranks env.oneTreeShape m (not_le.mp hlt)
        rw [he'] at hw
        cases hw
      rw [b3 _ _ he.oneTreeShape he.size hs] at hw
      exact num w wo (Except.ok.inj hw).symm wo1 (.inr (.inr rfl))
    · intro t' ht'
      have : t'.undirectedEdgeWeight = .fin wt := by
        rcases ht' with h | ⟨r, h⟩
        · rw [b4] at h
          rw [← Except.ok.inj h, b5]
        · obtain ⟨t1, f1, f2⟩ := b7 _ (he.peek r)
          rw [f1] at h
          rw [← Except.ok.inj h, f2]
      rw [this]
      exact mst
    · intro rs hrs r hr
      have hs : env.size ≤ m.dim := by
        by_contra hlt
        obtain ⟨e, he'⟩ := C40_too_many_ranks env.nnShape m (not_le.mp hlt)
        rw [he'] at hrs
        cases hrs
      obtain ⟨w, p, p1, p2⟩ := a3 _ _ he.nnShape he.size hs
      rw [p1] at hrs
      rw [← Except.ok.inj hrs] at hr
      exact num r.1 w (by rw [List.eq_of_mem_replicate hr]) ⟨p2.1, p2.2.1⟩ (.inl rfl)
    · intro r hr
      obtain ⟨w, p, p1, p2⟩ := ((a4 env.dbg env.rng he.rng).2 (mpi_isMetric hr)).2 _ he.shufs _ he.size
      rw [p1] at hr
      exact num r.1 w (by rw [← Except.ok.inj hr]) ⟨p2.1, p2.2.1⟩ (.inr (.inl rfl))

/-- the hypotheses of `C132_program`: six cities with distances 10 and 11 -/
example : doConditionsHold six = .ok true ∧ NoLoop six ∧ 3 ≤ six.length ∧
    ∀ (i : Nat) (es : List (Edge (XNum ℚ))), six[i]? = some es → ∀ e ∈ es, ∃ x, e.cost = .fin x ∧ 10 ≤ x ∧ x ≤ 11 := by
  refine ⟨by decide +kernel, six_noLoop, by decide, fun i es hi e he => ?_⟩
  have h : ∀ i < 6, ∀ e ∈ (six[i]?).getD [], e.cost = .fin 10 ∨ e.cost = .fin 11 := by decide +kernel
  rcases h i (List.getElem?_eq_some_iff.mp hi).1 e (by rw [hi]; exact he) with e | e
  · exact ⟨10, e, by norm_num⟩
  · exact ⟨11, e, by norm_num⟩

/-- distances 2 and 3, here as on a circle of five cities: neighbours have distance 3 -/
def pentagon (i j : Nat) : ℚ := if i = j then 0 else if (i + 1) % 5 = j ∨ (j + 1) % 5 = i then 3 else 2

/-- the theorems speak about this instance: the tour along the star has length 10, the others are longer -/
example : Between 5 pentagon 2 3 ∧ Rep (Mat.ofFun 5 pentagon) pentagon ∧ Symm 5 pentagon ∧
    tourCost pentagon [0, 1, 2, 3, 4] = 15 ∧
    (let m : Mat (XNum ℚ) := Mat.ofFun 5 pentagon
     secondImprovedSolver m = .ok (.fin 10, [0, 2, 4, 1, 3]) ∧ oneTreeLbSeq m = .ok (.fin 10)) := by
  refine ⟨?_, rep_ofFun _ _, ?_, by decide +kernel, by decide +kernel⟩
  · have h : ∀ i < 5, ∀ j < 5, i ≠ j → 2 ≤ pentagon i j ∧ pentagon i j ≤ 3 := by decide +kernel
    exact fun i j hi hj => h i hi j hj
  · have h : ∀ i < 5, ∀ j < 5, pentagon i j = pentagon j i := by decide +kernel
    exact fun i j hi hj => h i hi j hj

end Walky.Props
