import Verif.Lemmas.FixedPrim
import Verif.Lemmas.Christofides
import Verif.Lemmas.Threaded
import Verif.Model.Cli

/-!
# Lemmas: two cities

All algorithms on two cities, for every arithmetic in which the few operations that they use have the expected
results (`TwoNum`).
-/

set_option linter.unusedSimpArgs false
set_option linter.unusedSectionVars false

namespace Walky

open FloatOps

variable {α : Type} [FloatOps α]

/-- a matrix of two cities -/
structure Two (m : Mat α) (x : α) : Prop where
  dim : m.dim = 2
  g00 : m.get 0 0 = zero
  g01 : m.get 0 1 = x
  g10 : m.get 1 0 = x
  g11 : m.get 1 1 = zero

/-- what has to be known about the numbers `0`, `x`, `y = 2 x` and infinity -/
structure TwoNum (x y : α) : Prop where
  zz : zero +ᶠ zero = (zero : α)
  zx : zero +ᶠ x = x
  xz : x +ᶠ zero = x
  xx : x +ᶠ x = y
  half : half y = x
  xi : (x <ᶠ inf) = true
  yi : (y <ᶠ inf) = true
  yy : (y <ᶠ y) = false
  xx' : (x <ᶠ x) = false
  xle : (x ≤ᶠ inf) = true
  oz : olt zero (inf : α) = true
  oz' : olt (inf : α) zero = false
  ox : olt x (inf : α) = true
  ox' : olt (inf : α) x = false
  oii : olt (inf : α) (inf : α) = false
  oyy : olt y y = false
  zi : (zero <ᶠ (inf:α)) = true
  ez : eq zero (inf : α) = false
  ei : eq (inf : α) (inf : α) = true
  ex : eq x (inf : α) = false
  xz' : (x <ᶠ zero) = false
  ii : inf +ᶠ inf = (inf : α)
  zi' : zero +ᶠ inf = (inf : α)
  ixp : inf +ᶠ x = (inf : α)
  xip : x +ᶠ inf = (inf : α)
  hi : FloatOps.half (inf : α) = inf
  ili : ((inf : α) <ᶠ inf) = false

variable {m : Mat α} {x y : α}

theorem two_order {xs : List Nat} (hx : xs.Perm [0, 1]) : xs = [0, 1] ∨ xs = [1, 0] := by
  have hl := hx.length_eq
  match xs, hl with
  | [a, b], _ =>
    have ha : a ∈ [0, 1] := hx.mem_iff.mp (by simp)
    have hb : b ∈ [0, 1] := hx.mem_iff.mp (by simp)
    have hn : [a, b].Nodup := hx.nodup_iff.mpr (by simp)
    simp at ha hb hn
    rcases ha with rfl | rfl <;> rcases hb with rfl | rfl <;> simp_all

section
variable (h : TwoNum x y) (hm : Two m x)
include h hm

theorem two_v0 : naiveSolver m = .ok (y, [1, 0]) := by
  have e : m.evaluateCircle [1, 0] = .ok y := by
    simp [Mat.evaluateCircle, Mat.evaluatePath, Mat.entry, unwrapO, hm.dim, hm.g01, hm.g10, h.zx, h.xx]
  unfold naiveSolver
  rw [hm.dim]
  show permLoop m nextPermutation (2+1) [0, 1] (inf, [0,1]) = _
  simp [permLoop, nextPermutation, findPivot, findSucc, swapAt, idx, e, h.yi]

theorem two_v1 : firstImprovedSolver m = .ok (inf, [0, 1]) := by
  unfold firstImprovedSolver
  rw [hm.dim]
  show permLoop m nextPermutationTail (2+1) [0, 1] (inf, [0,1]) = _
  simp [permLoop, nextPermutationTail, nextPermutation, findPivot, findSucc, swapAt, idx]

theorem two_dfs {σ : Type} (test : PruneTest σ α) (aux : σ)
   (h1 : ∃ a, test aux [0, 1] x inf = .ok (true, a))
   (h2 : ∀ a, ∃ b a', test a [1, 0] x y = .ok (b, a')) :
    solveDfs m test aux = .ok (y, [0, 1]) := by
  obtain ⟨a, h1⟩ := h1
  obtain ⟨b, a', h2⟩ := h2 a
  unfold solveDfs
  rw [hm.dim]
  have e : List.range 2 = [0,1] := rfl
  cases b <;>
  simp [dfs, hm.dim, e, idx, Mat.entry, unwrapO, hm.g01, hm.g10, h.zx, h.xx, h1, h2, h.yi, h.yy]

theorem two_prim : primSeq m [] = .ok [[⟨1, x⟩], [⟨0, x⟩]] := by
  have e : List.range 2 = [0,1] := rfl
  cases e' : (zero <ᶠ x : Bool) <;>
  simp [e', h.xz', primSeq, primGeneric, hm.dim, firstNotExcluded, vecOps, primLoop, Dist.setCost, Dist.markUsed, Dist.find,
    Dist.updateInOrder, Dist.relax, Dist.candidates, Dist.candLt, minByFirst, primPush, Graph.pushEdge, e, hm.g01, hm.g10, hm.g00, hm.g11, 
    h.oz, h.oz', h.ox, h.ox', h.oii, h.ez, h.ei, h.ex, h.xi,  h.zi, List.replicate_succ, List.modify_succ_cons]

theorem two_prim_two (p : List Nat) (hp : p = [0, 1] ∨ p = [1, 0]) : primSeq m p = .ok [] := by
  rcases hp with rfl | rfl <;> simp [primSeq, primGeneric, hm.dim, firstNotExcluded]

theorem two_mst : Graph.undirectedEdgeWeight ([[⟨1, x⟩], [⟨0, x⟩]] : Graph α) = x := by
  simp [Graph.undirectedEdgeWeight, Graph.directedEdgeWeight, FloatOps.sum, h.zx, h.xz, h.xx, h.half]

theorem two_v2 : secondImprovedSolver m = .ok (y, [0, 1]) :=
  two_dfs h hm _ _ ⟨(), rfl⟩ fun _ => ⟨_, _, rfl⟩

theorem two_v3 : thirdImprovedSolver m = .ok (y, [0, 1]) :=
  two_dfs h hm _ _ ⟨(), by simp [test3, h.xle]⟩ fun _ => ⟨_, _, rfl⟩

theorem two_v4 : fourthImprovedSolver m = .ok (y, [0, 1]) :=
  two_dfs h hm _ _ ⟨(), by
    have e : List.range 2 = [0,1] := rfl
    simp [test4, nnOfRemaining, hm.dim, e, h.xz, h.xle]⟩ fun _ => ⟨_, _, rfl⟩

theorem two_bound (p : List Nat) (hp : p = [0, 1] ∨ p = [1, 0]) : mstBound m p = .ok zero := by
  simp [mstBound, two_prim_two h hm p hp, Graph.directedEdgeWeight, FloatOps.sum]

theorem two_v5 : fifthImprovedSolver m = .ok (y, [0, 1]) :=
  two_dfs h hm _ _ ⟨(), by simp [test5, two_bound h hm, h.xz, h.xle]⟩ fun _ => ⟨(x +ᶠ zero ≤ᶠ y), (), by
    simp [test5, two_bound h hm]⟩

theorem two_v6 (hash : List Nat → Nat) : sixthImprovedSolver m hash = .ok (y, [0, 1]) :=
  two_dfs h hm _ _ ⟨[(hash [0, 1], zero)], by simp [test6, two_bound h hm, h.xz, h.xle]⟩ fun a => by
    cases e : a.lookup (hash [1, 0]) with
    | none => exact ⟨(x +ᶠ zero ≤ᶠ y), _, by simp [test6, two_bound h hm, e]; rfl⟩
    | some v => exact ⟨(x +ᶠ v ≤ᶠ y), _, by simp [test6, two_bound h hm, e]; rfl⟩

theorem two_single : singleNN m 0 = .ok (y, [0, 1]) ∧ singleNN m 1 = .ok (y, [1, 0]) := by
  have e : List.range 2 = [0,1] := rfl
  constructor <;>
  simp [singleNN, nnLoop, hm.dim, e, nnScanStep, idx, Mat.entry, List.replicate_succ, hm.g01, hm.g10, h.xi, h.zx, h.xx]

theorem two_nn (xs : List Nat) (hx : xs.Perm (List.range 2)) : ∃ s, (s = [0, 1] ∨ s = [1, 0]) ∧ s.head? = xs.head? ∧ 
    nearestNeighbourSeq xs m = .ok (y, s) := by
  have e : List.range 2 = [0,1] := rfl
  have h0 : singleNN m 0 = .ok (y, [0, 1]) := by
    simp [singleNN, nnLoop, hm.dim, e, nnScanStep, idx, Mat.entry, List.replicate_succ, hm.g01, hm.g10, h.xi, h.zx, h.xx]
  have h1 : singleNN m 1 = .ok (y, [1, 0]) := by
    simp [singleNN, nnLoop, hm.dim, e, nnScanStep, idx, Mat.entry, List.replicate_succ, hm.g01, hm.g10, h.xi, h.zx, h.xx]
  rcases two_order hx with rfl | rfl
  · refine ⟨_, Or.inl rfl, rfl, ?_⟩
    simp [nearestNeighbourSeq, nNNSeq, hm.dim, nRandomNumbers, h0, h1, minByFirst, unwrapO, solLt, h.oyy]
  · refine ⟨_, Or.inr rfl, rfl, ?_⟩
    simp [nearestNeighbourSeq, nNNSeq, hm.dim, nRandomNumbers, h0, h1, minByFirst, unwrapO, solLt, h.oyy]

theorem two_peek {peek : Nat → List (Nat × α) → Option (Nat × α)}
    (h1 : ∀ it l, l ≠ [] → ∃ x, peek it l = some x) (h2 : ∀ it l x, peek it l = some x → x ∈ l)
    (h3 : ∀ it l x, peek it l = some x → ∀ y ∈ l, olt y.2 x.2 = false) :
    ∃ g, primQueue peek m [] = .ok g ∧ g = [[⟨1, x⟩], [⟨0, x⟩]] := by
  have e : List.range 2 = [0,1] := rfl
  have e3 : List.range 3 = [0,1,2] := rfl
  have p0 : peek 0 [(0, zero), (1, inf), (2, inf)] = some (0, zero) := by
    obtain ⟨a, ha⟩ := h1 0 [(0, zero), (1, inf), (2, inf)] (by simp)
    have hm := h2 _ _ _ ha
    have hz := h3 _ _ _ ha (0, zero) (by simp)
    simp only [List.mem_cons, List.not_mem_nil, or_false] at hm
    rcases hm with rfl | rfl | rfl
    · exact ha
    · rw [h.oz] at hz; cases hz
    · rw [h.oz] at hz; cases hz
  have p1 : peek 1 [(1, x), (2, inf)] = some (1, x) := by
    obtain ⟨a, ha⟩ := h1 1 [(1, x), (2, inf)] (by simp)
    have hm := h2 _ _ _ ha
    have hz := h3 _ _ _ ha (1, x) (by simp)
    simp only [List.mem_cons, List.not_mem_nil, or_false] at hm
    rcases hm with rfl | rfl
    · exact ha
    · rw [h.ox] at hz; cases hz
  have p2 : peek 2 [(2, inf)] = some (2, inf) := by
    obtain ⟨a, ha⟩ := h1 2 [(2, inf)] (by simp)
    have hm := h2 _ _ _ ha
    simp only [List.mem_cons, List.not_mem_nil, or_false] at hm
    rw [ha, hm]
  refine ⟨_, ?_, rfl⟩
  simp [primQueue, primGeneric, hm.dim, firstNotExcluded, pqOps, primLoop, PQ.relax, idx, e, e3, p0, p1, p2,
    primPush, Graph.pushEdge, hm.g01, hm.g10, hm.g00, hm.g11, h.oz, h.oz', h.ox, h.ox', h.oii, h.ez, h.ei, h.ex, h.xi,
    h.zi, h.xle, List.replicate_succ]

theorem two_weights : oneTreeWeight m 0 = .ok inf ∧ oneTreeWeight m 1 = .ok inf := by
  have e : List.range 2 = [0,1] := rfl
  have p0 : primSeq m [0] = .ok [[], []] := by
    cases e' : (zero <ᶠ x : Bool) <;>
    simp [e', h.xz', primSeq, primGeneric, hm.dim, firstNotExcluded, vecOps, primLoop, Dist.setCost, Dist.markUsed,
      Dist.find, Dist.updateInOrder, Dist.relax, Dist.candidates, Dist.candLt, minByFirst, primPush, Graph.pushEdge, e,
      hm.g01, hm.g10, hm.g00, hm.g11, h.oz, h.oz', h.ox, h.ox', h.oii, h.ez, h.ei, h.ex, h.xi, h.zi,
      List.replicate_succ]
  have p1 : primSeq m [1] = .ok [[], []] := by
    cases e' : (zero <ᶠ x : Bool) <;>
    simp [e', h.xz', primSeq, primGeneric, hm.dim, firstNotExcluded, vecOps, primLoop, Dist.setCost, Dist.markUsed,
      Dist.find, Dist.updateInOrder, Dist.relax, Dist.candidates, Dist.candLt, minByFirst, primPush, Graph.pushEdge, e,
      hm.g01, hm.g10, hm.g00, hm.g11, h.oz, h.oz', h.ox, h.ox', h.oii, h.ez, h.ei, h.ex, h.xi, h.zi,
      List.replicate_succ]
  have w0 : oneTreeWeight m 0 = .ok inf := by
    simp [oneTreeWeight, oneTree, hm.dim, p0, e, twoMinStep, hm.g01, h.xi, Graph.addUndirectedEdge, Graph.pushEdge,
      Graph.undirectedEdgeWeight, Graph.directedEdgeWeight, FloatOps.sum, h.zx, h.xip, h.ii, h.zi', h.ixp, h.hi]
  have w1 : oneTreeWeight m 1 = .ok inf := by
    simp [oneTreeWeight, oneTree, hm.dim, p1, e, twoMinStep, hm.g10, h.xi, Graph.addUndirectedEdge, Graph.pushEdge,
      Graph.undirectedEdgeWeight, Graph.directedEdgeWeight, FloatOps.sum, h.zx, h.xip, h.ii, h.zi', h.ixp, h.hi]
  exact ⟨w0, w1⟩

theorem two_one_tree : oneTreeLbSeq m = .ok inf := by
  have e : List.range 2 = [0,1] := rfl
  obtain ⟨w0, w1⟩ := two_weights h hm
  simp [oneTreeLbSeq, hm.dim, e, w0, w1, maxByL, maxPartial, isNaN, h.ei, h.ili, unwrapO]

theorem two_tail (dbg : Bool) {g : MGraph α} (hd : g.dim = 2) (h00 : g.times 0 0 = 0) (h01 : g.times 0 1 = 2)
    (h10 : g.times 1 0 = 2) (h11 : g.times 1 1 = 0) : christofidesTail dbg m g = .ok (y, [0, 1, 0]) := by
  have e : List.range 2 = [0,1] := rfl
  have hdeg : multiDegrees g = [2, 2] := by simp [multiDegrees, hd, e, h00, h01, h10, h11]
  obtain ⟨f, hf⟩ : ∃ f, vecLimit + ([2, 2] : List Nat).sum = f + 3 := ⟨vecLimit + 1, rfl⟩
  have he : eulerianCycle dbg g = .ok [0, 1, 0] := by
    have hh : ∀ i j, g.times i j = (g.cell i j).2 := fun _ _ => rfl
    rw [hh] at h00 h01 h10 h11
    unfold eulerianCycle
    rw [hdeg, hf]
    simp only [eulerLoop, findOpen, findCycle]
    simp [idx, hf, findCycleLoop, hd, e, MGraph.times, h00, h01, h10, h11, MGraph.dec, MGraph.setTimes, MGraph.put, decr,
      findOpen]
  unfold christofidesTail
  rw [he, hm.dim]
  simp [hamiltonianFromEulerian, firstVisits, idx, List.replicate_succ, unwrapO, Mat.entry, hm.dim, hm.g01, hm.g10,
    isHamiltonianCycle, FloatOps.sum, h.zx, h.xx]

omit h hm in
theorem two_adj : AdjOf 2 [(0, 1)] ([[⟨1, x⟩], [⟨0, x⟩]] : Graph α) := by
  refine ⟨rfl, fun i hi => ?_⟩
  have : i = 0 ∨ i = 1 := by omega
  rcases this with rfl | rfl
  · refine ⟨_, rfl, fun j => ?_, by simp [flattenEdges]⟩
    simp [Spec.Joined, eq_comm]
  · refine ⟨_, rfl, fun j => ?_, by simp [flattenEdges]⟩
    simp [Spec.Joined, eq_comm]

theorem two_multi (dbg : Bool) {M : List (Nat × Nat)} (hM : M = [(0, 1)] ∨ M = [(1, 0)]) {g : MGraph α}
    (hd : g.dim = 2) (hg : ∀ i j, i < 2 → j < 2 → (Spec.Joined [(0, 1)] i j → g.times i j = 1 + und M i j) ∧
      (¬ Spec.Joined [(0, 1)] i j → g.times i j = und M i j)) : christofidesTail dbg m g = .ok (y, [0, 1, 0]) := by
  refine two_tail h hm dbg hd ?_ ?_ ?_ ?_
  · rw [(hg 0 0 (by omega) (by omega)).2 (by simp [Spec.Joined])]
    rcases hM with rfl | rfl <;> rfl
  · rw [(hg 0 1 (by omega) (by omega)).1 (by simp [Spec.Joined])]
    rcases hM with rfl | rfl <;> rfl
  · rw [(hg 1 0 (by omega) (by omega)).1 (by simp [Spec.Joined])]
    rcases hM with rfl | rfl <;> rfl
  · rw [(hg 1 1 (by omega) (by omega)).2 (by simp [Spec.Joined])]
    rcases hM with rfl | rfl <;> rfl

omit h hm in
theorem two_odd : oddVertices ([[⟨1, x⟩], [⟨0, x⟩]] : Graph α) = [0, 1] := rfl

omit h hm in
theorem two_pairs {r : MatchRng} (hr : r.Ok) : pairUp (r.vertices [0, 1]) = [(0, 1)] ∨
    pairUp (r.vertices [0, 1]) = [(1, 0)] := by
  rcases two_order (hr.vertices [0, 1]) with e | e <;> rw [e]
  · exact Or.inl rfl
  · exact Or.inr rfl

theorem two_christofides {dbg : Bool} (hdbg : dbg = true → m.isMetric = true) {r : MatchRng} (hr : r.Ok) :
    christofidesSeq dbg m r = .ok (y, [0, 1, 0]) := by
  have hb : (dbg && !m.isMetric) = false := by
    cases dbg
    · rfl
    · simp [hdbg rfl]
  have hp := two_pairs hr
  obtain ⟨g, a1, a2, a3⟩ := fillSeq_ok hm.dim (two_adj (x := x)) (M := pairUp (r.vertices [0, 1]))
    (by intro e he; simp at he; subst he; simp) (by
      rcases hp with e | e <;> rw [e] <;> · intro e he; simp at he; subst he; simp)
  have hi : computeApproxMatching r [[⟨1, x⟩], [⟨0, x⟩]] m = .ok (pairUp (r.vertices [0, 1])) := by
    unfold computeApproxMatching approxMatchingSeq improveMatching
    rw [two_odd, if_pos]
    rcases hp with e | e <;> simp [e]
  unfold christofidesSeq christofidesGeneric
  rw [hb, two_prim h hm]
  simp only [Bool.false_eq_true, if_false, rm_bind_ok, hi, a1]
  exact two_multi h hm dbg hp a2 a3

omit h hm in
theorem foldlM_id {β γ : Type} (f : β → γ → RM β) (b : β) (hf : ∀ c, f b c = .ok b) :
    ∀ l : List γ, l.foldlM f b = .ok b := by
  intro l
  induction l with
  | nil => rfl
  | cons c l ih => rw [List.foldlM_cons, hf, rm_bind_ok, ih]

theorem two_christofides_par {dbg : Bool} (hdbg : dbg = true → m.isMetric = true) {r : MatchRng} (hr : r.Ok)
    (ho : StrictWeak (olt : α → α → Bool)) {s : ParSched α} (hs : s.Ok) (res : RM (Solution α)) :
    ChristofidesPar dbg m r s res ↔ res = .ok (y, [0, 1, 0]) := by
  have hb : (dbg && !m.isMetric) = false := by
    cases dbg
    · rfl
    · simp [hdbg rfl]
  have hp := two_pairs hr
  have hV : Valid 2 [(0, 1)] := by intro e he; simp at he; subst he; simp
  have hi : computeApproxMatchingPar r s.chunks [[⟨1, x⟩], [⟨0, x⟩]] m = .ok (pairUp (r.vertices [0, 1])) := by
    unfold computeApproxMatchingPar approxMatchingPar parImproveMatching
    rw [two_odd]
    refine foldlM_id _ _ (fun k => ?_) _
    obtain ⟨e, he⟩ : ∃ e, pairUp (r.vertices [0, 1]) = [e] := by
      rcases hp with e | e <;> exact ⟨_, e⟩
    rw [he, List.perm_singleton.mp (hr.edges k [e])]
    have := hs.chunks k 0
    rw [List.range_zero, List.perm_nil] at this
    rw [show ([e] : List (Nat × Nat)).length / 2 = 0 by simp, this]
    rfl
  obtain ⟨g0, a1, a2, a3⟩ := fillMstPar_ok hm.dim (two_adj (x := x)) hV (hs.columns 2)
  have hN : Spec.NoRepeat (pairUp (r.vertices [0, 1])) := by
    rcases hp with e | e <;> rw [e] <;> simp [Spec.NoRepeat]
  have hiff : ChristofidesPar dbg m r s res ↔
      ∃ g, FillMatchingPar g0 (pairUp (r.vertices [0, 1])) g ∧ res = christofidesTail dbg m g := by
    unfold ChristofidesPar ChristofidesGenericPar
    rw [hb, Props.C30_par_eq_seq ho s.shape s.update hs.shape hs.update, two_prim h hm]
    simp only [Bool.false_eq_true, if_false, hi, hm.dim]
    rw [show min ([[⟨1, x⟩], [⟨0, x⟩]] : Graph α).length 2 = 2 from rfl, a1]
  rw [hiff]
  have key : ∀ g, FillMatchingPar g0 (pairUp (r.vertices [0, 1])) g →
      christofidesTail dbg m g = .ok (y, [0, 1, 0]) := by
    intro g hg
    obtain ⟨b1, b2⟩ := fillPar_ok hm.dim (two_adj (x := x)) hV hN (hs.columns 2) ⟨g0, a1, hg⟩
    exact two_multi h hm dbg hp b1 b2
  constructor
  · rintro ⟨g, hg, rfl⟩
    exact key g hg
  · rintro rfl
    obtain ⟨g, hg⟩ := fillMatchingPar_exists g0 (pairUp (r.vertices [0, 1]))
    exact ⟨g, hg, (key g hg).symm⟩

omit h in
theorem two_threaded {r : Solution α} (hr : ThreadedResult m 3 1 r) : r = (inf, []) := by
  unfold ThreadedResult at hr
  rw [if_neg (by rw [hm.dim]; omega)] at hr
  obtain ⟨s0, n, s, h0, hst, -, rfl⟩ := hr
  suffices ∃ t, s.threads = [t] ∧ t.pending = none ∧ ValidDigits 2 t.digits ∧ t.digits.length = 3 ∧ s.best = (inf, []) by
    obtain ⟨t, -, -, -, -, e⟩ := this
    exact e
  induction hst with
  | refl =>
    unfold initThreads at h0
    rw [hm.dim] at h0
    have hs : splitChunks 3 2 1 0 = .ok ([0, 0, 0], [1, 1, 1]) := by decide +kernel
    have e : List.range 1 = [0] := rfl
    simp [e, hs] at h0
    subst h0
    refine ⟨_, rfl, rfl, ?_, rfl, rfl⟩
    intro d hd
    simp at hd
    omega
  | tail _ hstep ih =>
    obtain ⟨t, e1, e2, e3, e4, e5⟩ := ih h0
    obtain ⟨i, t0, t', b, k1, k2, k3, rfl⟩ := hstep
    rw [e1] at k1
    have hi : i = 0 := by
      by_contra hne
      rw [List.getElem?_eq_none (by simp; omega)] at k1
      cases k1
    subst hi
    simp at k1
    subst k1
    obtain ⟨l, l1, l2, l3⟩ := getNextValue_ok e3
    have hu : isUnique l = false := by
      rw [Bool.eq_false_iff]
      intro hc
      have h1 : ValidPre 2 l := ⟨isUnique_iff.mp hc, l2⟩
      have := h1.length_le
      omega
    unfold threadStep at k3
    rw [e2, hm.dim] at k3
    simp only at k3
    rcases l3 with ⟨-, l3, -⟩ | ⟨-, l3⟩
    · rw [l3] at k3
      simp only [rm_bind_ok, hu] at k3
      split at k3
      · obtain ⟨rfl, rfl⟩ := Prod.mk.inj (Except.ok.inj k3)
        exact ⟨_, by rw [e1]; rfl, rfl, l2, by rw [l1, e4], e5⟩
      · obtain ⟨rfl, rfl⟩ := Prod.mk.inj (Except.ok.inj k3)
        exact ⟨_, by rw [e1]; rfl, rfl, l2, by rw [l1, e4], e5⟩
    · rw [l3] at k3
      obtain ⟨rfl, rfl⟩ := Prod.mk.inj (Except.ok.inj k3)
      exact ⟨_, by rw [e1]; rfl, rfl, l2, by rw [l1, e4], e5⟩
/-! ## Processes -/

omit h hm in
theorem reduce_const {β : Type} {f : β → β → β} {c : β} (hf : f c c = c) : ∀ t : RTree β, (∀ b ∈ t.flatten, b = c) →
    t.reduce f = if t.flatten = [] then none else some c := by
  intro t
  induction t with
  | empty => intro _; rfl
  | leaf b => intro hb; simp [RTree.reduce, RTree.flatten, hb b (by simp [RTree.flatten])]
  | node l r ihl ihr =>
    intro hb
    simp only [RTree.flatten, List.mem_append] at hb
    simp only [RTree.reduce, RTree.flatten, ihl fun b h => hb b (Or.inl h), ihr fun b h => hb b (Or.inr h)]
    by_cases h1 : l.flatten = [] <;> by_cases h2 : r.flatten = [] <;> simp [h1, h2, combineO, hf]

theorem two_one_tree_mpi {shape : List α → RTree α} (hs : ∀ l, (shape l).flatten.Perm l) {size : Nat}
    (h1 : 1 ≤ size) : oneTreeLbMpi shape size m = if size ≤ 2 then .ok inf else .error .unwrap := by
  obtain ⟨w0, w1⟩ := two_weights h hm
  have e : List.range 2 = [0,1] := rfl
  have e1 : List.range 1 = [0] := rfl
  have hred : ∀ l : List α, l ≠ [] → (∀ b ∈ l, b = inf) → (shape l).reduce mpiMax = some inf := by
    intro l hl hb
    rw [reduce_const (c := inf) (by simp [mpiMax]) (shape l) fun b hb' => hb b ((hs l).subset hb'), if_neg]
    intro he
    have := (hs l).length_eq
    rw [he] at this
    exact hl (List.length_eq_zero_iff.mp this.symm)
  unfold oneTreeLbMpi
  by_cases hle : size ≤ 2
  · rw [if_pos hle]
    have : size = 1 ∨ size = 2 := by omega
    rcases this with rfl | rfl
    · have hl : oneTreeLocal m 1 0 = .ok inf := by
        simp [oneTreeLocal, stepBy, hm.dim, e, Nat.mod_one, w0, w1, maxByL, maxPartial, isNaN, h.ei, h.ili, unwrapO]
      simp [e1, hl, hred [inf] (by simp) (by simp), unwrapO]
    · have hl0 : oneTreeLocal m 2 0 = .ok inf := by
        simp [oneTreeLocal, stepBy, hm.dim, e, w0, w1, maxByL, maxPartial, isNaN, h.ei, h.ili, unwrapO]
      have hl1 : oneTreeLocal m 2 1 = .ok inf := by
        simp [oneTreeLocal, stepBy, hm.dim, e, w0, w1, maxByL, maxPartial, isNaN, h.ei, h.ili, unwrapO]
      simp [e, hl0, hl1, hred [inf, inf] (by simp) (by simp), unwrapO]
  · rw [if_neg hle]
    obtain ⟨k, rfl⟩ : ∃ k, size = 3 + k := ⟨size - 3, by omega⟩
    have hmod : 1 % (3 + k) = 1 := Nat.mod_eq_of_lt (by omega)
    have l0 : oneTreeLocal m (3 + k) 0 = .ok inf := by
      simp [hmod, List.filter_cons, oneTreeLocal, stepBy, hm.dim, e, w0, w1, maxByL, maxPartial, isNaN, h.ei, h.ili, unwrapO]
    have l1 : oneTreeLocal m (3 + k) 1 = .ok inf := by
      simp [oneTreeLocal, stepBy, hm.dim, e, w0, w1, maxByL, maxPartial, isNaN, h.ei, h.ili, unwrapO]
    have l2 : oneTreeLocal m (3 + k) 2 = .error .unwrap := by
      simp [oneTreeLocal, stepBy, hm.dim, e, w0, w1, maxByL, maxPartial, isNaN, h.ei, h.ili, unwrapO]
    rw [List.range_add, List.range_succ_eq_map]
    simp [e, l0, l1, l2]

theorem two_nn_mpi (hyy : eq y y = true) {shape : Nat → List (α × Nat) → RTree (α × Nat)}
    (hs : ∀ r l, (shape r l).flatten.Perm l) {size : Nat} (h1 : 1 ≤ size) :
    nnMpi shape size m = if size ≤ 2 then .ok (List.replicate size (y, [0, 1])) else .error .unwrap := by
  obtain ⟨s0, s1⟩ := two_single h hm
  have e : List.range 2 = [0,1] := rfl
  have e1 : List.range 1 = [0] := rfl
  unfold nnMpi
  by_cases hle : size ≤ 2
  · rw [if_pos hle]
    have : size = 1 ∨ size = 2 := by omega
    rcases this with rfl | rfl
    · have hl : nnLocal m 1 0 = .ok (y, [0, 1]) := by
        simp [nnLocal, nnChunk, hm.dim, Nat.mod_one, List.range', s0, s1, minByFirst, solLt, h.oyy, unwrapO]
      have hr : ∀ r, (shape r [(y, 0)]).reduce costRankOp = some (y, 0) := by
        intro r
        have hp := hs r [(y, 0)]
        rw [reduce_const (c := (y, 0)) (by simp [costRankOp]) _ fun b hb => by simpa using hp.subset hb, if_neg]
        intro he
        have := hp.length_eq
        rw [he] at this
        cases this
      simp [e1, hl, hr, unwrapO, idx]
    · have hl0 : nnLocal m 2 0 = .ok (y, [0, 1]) := by
        simp [nnLocal, nnChunk, hm.dim, List.range', s0, s1, minByFirst, solLt, h.oyy, unwrapO]
      have hl1 : nnLocal m 2 1 = .ok (y, [1, 0]) := by
        simp [nnLocal, nnChunk, hm.dim, List.range', s0, s1, minByFirst, solLt, h.oyy, unwrapO]
      have c00 : costRankOp (y, 0) (y, 0) = (y, 0) := by simp [costRankOp]
      have c01 : costRankOp (y, 0) (y, 1) = (y, 0) := by simp [costRankOp, h.yy, hyy]
      have c10 : costRankOp (y, 1) (y, 0) = (y, 0) := by simp [costRankOp, h.yy, hyy]
      have c11 : costRankOp (y, 1) (y, 1) = (y, 1) := by simp [costRankOp]
      have key : ∀ t : RTree (α × Nat), (∀ b ∈ t.flatten, b = (y, 0) ∨ b = (y, 1)) → (t.flatten = [] ∧
          t.reduce costRankOp = none) ∨ ((y, 0) ∈ t.flatten ∧ t.reduce costRankOp = some (y, 0)) ∨
          ((y, 0) ∉ t.flatten ∧ t.reduce costRankOp = some (y, 1)) := by
        intro t
        induction t with
        | empty => intro _; exact Or.inl ⟨rfl, rfl⟩
        | leaf b =>
          intro hb
          rcases hb b (by simp [RTree.flatten]) with rfl | rfl
          · exact Or.inr (Or.inl ⟨by simp [RTree.flatten], rfl⟩)
          · exact Or.inr (Or.inr ⟨by simp [RTree.flatten], rfl⟩)
        | node l r ihl ihr =>
          intro hb
          simp only [RTree.flatten, List.mem_append] at hb
          have a := ihl fun b h => hb b (Or.inl h)
          have c := ihr fun b h => hb b (Or.inr h)
          simp only [RTree.flatten, RTree.reduce]
          rcases a with ⟨a1, a2⟩ | ⟨a1, a2⟩ | ⟨a1, a2⟩ <;> rcases c with ⟨b1, b2⟩ | ⟨b1, b2⟩ | ⟨b1, b2⟩ <;>
            simp [a1, a2, b1, b2, combineO, c00, c01, c10, c11]
      have hr : ∀ r, (shape r [(y, 0), (y, 1)]).reduce costRankOp = some (y, 0) := by
        intro r
        have hp := hs r [(y, 0), (y, 1)]
        have hm0 : (y, 0) ∈ (shape r [(y, 0), (y, 1)]).flatten := hp.symm.subset (by simp)
        rcases key _ fun b hb => by simpa using hp.subset hb with ⟨a, -⟩ | ⟨-, a⟩ | ⟨a, -⟩
        · rw [a] at hm0
          cases hm0
        · exact a
        · exact absurd hm0 a
      simp [e, hl0, hl1, hr, unwrapO, idx, List.replicate_succ]
  · rw [if_neg hle]
    obtain ⟨k, rfl⟩ : ∃ k, size = k + 1 := ⟨size - 1, by omega⟩
    have l0 : nnLocal m (k + 1) 0 = .error .unwrap := by
      have hc : nnChunk m.dim (k + 1) 0 = [] := by
        unfold nnChunk
        have h3 : ¬ (0 = k + 1 - 1 ∧ 2 % (k + 1) ≠ 0) := by omega
        simp only [hm.dim, Nat.div_eq_of_lt (show 2 < k + 1 by omega), if_neg h3]
        rfl
      unfold nnLocal
      rw [hc]
      rfl
    rw [List.range_succ_eq_map]
    simp [l0]

theorem two_christofides_mpi {dbg : Bool} (hdbg : dbg = true → m.isMetric = true) {r : MatchRng} (hr : r.Ok)
    (shufs : Nat → Nat → List (Nat × Nat) → List (Nat × Nat)) {size : Nat} (h1 : 1 ≤ size) :
    christofidesMpi dbg m r shufs size = .ok (y, [0, 1, 0]) := by
  have hi : computeApproxMatchingMpi r shufs size [[⟨1, x⟩], [⟨0, x⟩]] m =
      computeApproxMatching r [[⟨1, x⟩], [⟨0, x⟩]] m := by
    have hp := two_pairs hr
    have hi : computeApproxMatching r [[⟨1, x⟩], [⟨0, x⟩]] m = .ok (pairUp (r.vertices [0, 1])) := by
      unfold computeApproxMatching approxMatchingSeq improveMatching
      rw [two_odd, if_pos]
      rcases hp with e | e <;> simp [e]
    rw [hi]
    obtain ⟨a, b, e, hc⟩ : ∃ a b, pairUp (r.vertices [0, 1]) = [(a, b)] ∧ matchingCost m [(a, b)] = .ok x := by
      rcases hp with e | e
      · exact ⟨_, _, e, by simp [matchingCost, Mat.entry, hm.dim, hm.g01, FloatOps.sum, h.zx]⟩
      · exact ⟨_, _, e, by simp [matchingCost, Mat.entry, hm.dim, hm.g10, FloatOps.sum, h.zx]⟩
    obtain ⟨k, rfl⟩ : ∃ k, size = k + 1 := ⟨size - 1, by omega⟩
    unfold computeApproxMatchingMpi mpiImproveMatching
    rw [two_odd, e]
    have himp : ∀ k t, improveMatching m (shufs k) t [(a, b)] = .ok [(a, b)] := by
      intro k t
      unfold improveMatching
      rw [if_pos (by simp)]
    have hbest : ∀ l : List Nat, mpiBest (x, [(a, b)]) (l.map fun _ => (x, [(a, b)])) = (x, [(a, b)]) := by
      intro l
      induction l with
      | nil => rfl
      | cons _ l ih => rw [List.map_cons, mpiBest, List.foldl_cons, ite_self]; exact ih
    rw [mapM_ok (g := fun _ => (x, [(a, b)])) (fun k _ => by simp [himp, hc])]
    rw [List.range_succ_eq_map]
    simp only [List.isEmpty_cons, Bool.false_eq_true, if_false, rm_bind_ok, List.map_cons, hbest]
    simp [flattenEdges, pairUp, unwrapO]
  have hseq := two_christofides h hm hdbg hr
  unfold christofidesSeq christofidesGeneric at hseq
  unfold christofidesMpi christofidesGeneric
  rw [two_prim h hm] at hseq ⊢
  simp only [rm_bind_ok] at hseq ⊢
  rw [hi]
  exact hseq

end
theorem two_isMetric {α : Type} [FloatOps α] {m : Mat α} {x y : α} (n : TwoNum x y) (hm : Two m x)
    (k0 : ((zero +ᶠ tol) <ᶠ (zero : α)) = false) (kx : ((x +ᶠ tol) <ᶠ x) = false)
    (k2 : ((y +ᶠ tol) <ᶠ (zero : α)) = false) : m.isMetric = true := by
  have e : List.range 2 = [0, 1] := rfl
  unfold Mat.isMetric
  rw [hm.dim, e]
  simp only [List.all_cons, List.all_nil, List.drop_zero, List.drop_succ_cons, hm.g00, hm.g01, hm.g10, hm.g11,
    n.zz, n.zx, n.xz, n.xx, k0, kx, k2, Bool.not_false, Bool.and_true]

theorem two_dim {α : Type} [FloatOps α] {m : Mat α} {x : α} (hm : Two m x) : m.dim = 2 := hm.dim

end Walky
