import Verif.Lemmas.Par
import Verif.Lemmas.Queue
import Verif.Lemmas.Eval
import Verif.Examples

/-! # Properties C28–C32: minimum spanning trees -/

namespace Walky.Props

open FloatOps Spec

variable {K : Type} [Field K] [LinearOrder K] [IsStrictOrderedRing K]

/-- **C28** `prim_with_excluded_node_single_threaded` returns adjacency lists of a spanning tree of
the cities that are not excluded: there is a spanning tree `E` of exactly these cities whose edges,
with their matrix costs, are stored at both ends and nothing else is stored (so excluded vertices
are isolated). If everything is excluded, the result is the empty graph. -/
theorem C28_prim_spanning_tree {m : Mat (XNum K)} {c : Nat → Nat → K} (hm : Rep m c)
    (ex : List Nat) (hex : ∀ v ∈ ex, v < m.dim) :
    (citiesExcept m.dim ex = [] → primSeq m ex = .ok []) ∧
    (citiesExcept m.dim ex ≠ [] → ∃ g E, primSeq m ex = .ok g ∧
      IsSpanningTree (citiesExcept m.dim ex) E ∧ GraphOf m.dim c E g) := by
  rcases primSeq_exact hm ex hex with ⟨h1, h2⟩ | ⟨start, P, h1, h2, h3, h4, h5⟩
  · refine ⟨fun _ => h2, fun h => absurd ?_ h⟩
    rw [List.eq_nil_iff_forall_not_mem]
    intro i hi
    rw [mem_citiesExcept] at hi
    exact hi.2 (h1 i hi.1)
  · refine ⟨fun h => ?_, fun _ => ⟨_, _, h4, h3.spanning h1 h2, graphOf_treeGraph c _ P
      (fun p hp => (h5 p hp).2.2)⟩⟩
    have : start ∈ citiesExcept m.dim ex := mem_citiesExcept.mpr ⟨h1, h2⟩
    rw [h] at this
    simp at this

/-- the hypotheses of C28 with an excluded city -/
example : Rep Ex.m4 Ex.c4 ∧ (∀ v ∈ [1], v < Ex.m4.dim) ∧ citiesExcept Ex.m4.dim [1] = [0, 2, 3] :=
  ⟨Ex.rep4, by decide, by decide⟩

/-- **C29** The undirected weight of the tree returned by Prim is at most the cost of every edge
set that connects the same cities: of every spanning tree, whatever the signs of the costs, and of
every connected edge set with non-negative costs. -/
theorem C29_prim_minimum {m : Mat (XNum K)} {c : Nat → Nat → K} (hm : Rep m c)
    (hsym : Symm m.dim c) (ex : List Nat) (hex : ∀ v ∈ ex, v < m.dim)
    (hne : citiesExcept m.dim ex ≠ []) :
    ∃ g w, primSeq m ex = .ok g ∧ g.undirectedEdgeWeight = .fin w ∧
      (∀ F, IsSpanningTree (citiesExcept m.dim ex) F → w ≤ edgeSum c F) ∧
      (∀ F, (∀ e ∈ F, e.1 ∈ citiesExcept m.dim ex ∧ e.2 ∈ citiesExcept m.dim ex ∧
          0 ≤ c e.1 e.2) → Connects F (citiesExcept m.dim ex) → w ≤ edgeSum c F) ∧
      ∃ F, IsSpanningTree (citiesExcept m.dim ex) F ∧ w = edgeSum c F := by
  rcases primSeq_exact hm ex hex with ⟨h1, h2⟩ | ⟨start, P, h1, h2, h3, h4, h5⟩
  · refine absurd ?_ hne
    rw [List.eq_nil_iff_forall_not_mem]
    intro i hi
    rw [mem_citiesExcept] at hi
    exact hi.2 (h1 i hi.1)
  · have hw : edgeSum c (P.map Prod.swap) = edgesCost c P := by
      rw [edgeSum_swap]
      exact edgesCost_swap c hsym h5
    refine ⟨_, _, h4, finG_treeGraph_weight c _ P (fun p hp => ⟨(h5 p hp).1.1, (h5 p hp).2.1.1⟩),
      ?_, ?_, _, h3.spanning h1 h2, rfl⟩
    · intro F hF
      rw [hw]
      exact h3.min_spec h1 h2 hsym F (fun e he => ⟨(hF.ends e he).1, (hF.ends e he).2.1⟩) hF.conn
        (Or.inl hF.count)
    · intro F hF hc
      rw [hw]
      exact h3.min_spec h1 h2 hsym F (fun e he => ⟨(hF e he).1, (hF e he).2.1⟩) hc
        (Or.inr fun e he => (hF e he).2.2)

/-- the hypotheses of C29, and a competing tree -/
example : Rep Ex.m4 Ex.c4 ∧ Symm Ex.m4.dim Ex.c4 ∧ citiesExcept Ex.m4.dim [] ≠ [] ∧
    IsSpanningTree (citiesExcept Ex.m4.dim []) [(0, 1), (0, 2), (0, 3)] := by
  refine ⟨Ex.rep4, Ex.symm4, by decide, by decide, ?_, by decide⟩
  intro a ha b hb
  have h0 : ∀ x ∈ citiesExcept Ex.m4.dim [],
      Relation.ReflTransGen (Joined [(0, 1), (0, 2), (0, 3)]) x 0 ∧
      Relation.ReflTransGen (Joined [(0, 1), (0, 2), (0, 3)]) 0 x := by
    intro x hx
    have : x = 0 ∨ x = 1 ∨ x = 2 ∨ x = 3 := by
      have : x < 4 := (mem_citiesExcept.mp hx).1
      omega
    rcases this with h | h | h | h <;> subst h
    · exact ⟨.refl, .refl⟩
    all_goals exact ⟨.single (by simp [Joined]), .single (by simp [Joined])⟩
  exact (h0 a ha).1.trans (h0 b hb).2

omit [IsStrictOrderedRing K] in
/-- **C30** The multi-threaded Prim returns exactly the graph of the single-threaded one (same
edges, same order, same panics), for every way rayon splits the minimum search and every order of
the per-vertex updates; in every arithmetic whose `OrderedFloat` comparison is consistent. -/
theorem C30_par_eq_seq {α : Type} [FloatOps α] (ho : StrictWeak (olt : α → α → Bool))
    (shape : Nat → List (Nat × Edge α) → RTree (Nat × Edge α)) (order : Nat → Nat → List Nat)
    (hshape : ∀ it l, (shape it l).flatten = l)
    (horder : ∀ it n, (order it n).Perm (List.range n)) (m : Mat α) (ex : List Nat) :
    primPar shape order m ex = primSeq m ex := by
  unfold primPar primSeq
  rw [parOps_eq ho shape order hshape horder]

omit [IsStrictOrderedRing K] in
/-- The hypothesis of C30 holds in the exact arithmetic with NaN and infinities. -/
theorem C30_order_exact : StrictWeak (olt : XNum K → XNum K → Bool) := strictWeak_olt

/-- a non-trivial split and update order for C30: halves, and updates from the back -/
example : ∃ (shape : List Nat → RTree Nat), (∀ l, (shape l).flatten = l) ∧
    (List.range 5).reverse.Perm (List.range 5) ∧ (shape [3, 1]) ≠ (shape [3]) := by
  refine ⟨fun l => l.foldr (fun x t => .node (.node .empty (.leaf x)) t) .empty, ?_,
    List.reverse_perm _, by simp⟩
  intro l
  induction l with
  | nil => rfl
  | cons a t ih => simpa [RTree.flatten] using ih

/-- **C31 (partial)** The priority-queue Prim terminates without panicking and the *weight* of its
graph is the weight of the single-threaded variant, for every tie-breaking of the heap.
Missing: the edges of the graph join the wrong vertices, see `C31_queue_wrong_edges`. -/
theorem C31_queue_weight_partial {m : Mat (XNum K)} {c : Nat → Nat → K} (hm : Rep m c)
    (hsym : Symm m.dim c) {peek : Nat → List (Nat × XNum K) → Option (Nat × XNum K)}
    (hpk : PeekOk peek) (ex : List Nat) (hex : ∀ v ∈ ex, v < m.dim) :
    ∃ g g', primQueue peek m ex = .ok g ∧ primSeq m ex = .ok g' ∧ g.length = g'.length ∧
      g.undirectedEdgeWeight = g'.undirectedEdgeWeight := by
  rcases primSeq_exact hm ex hex with ⟨h1, h2⟩ | ⟨start, P, h1, h2, h3, h4, h5⟩ <;>
    rcases primQueue_exact hm hpk ex hex with ⟨k1, k2⟩ | ⟨start', P', g, k1, k2, k3, k4, k5, k6⟩
  · exact ⟨[], [], k2, h2, rfl, rfl⟩
  · exact absurd (h1 _ k1) k2
  · exact absurd (k1 _ h1) h2
  · refine ⟨g, _, k4, h4, by simp [k5], ?_⟩
    rw [k6, finG_treeGraph_weight c _ P (fun p hp => ⟨(h5 p hp).1.1, (h5 p hp).2.1.1⟩)]
    have hmem' := k3.mem (by simpa using ⟨k1, k2⟩)
    have hw : edgeSum c (P.map Prod.swap) = edgesCost c P := by
      rw [edgeSum_swap]; exact edgesCost_swap c hsym h5
    have hw' : edgeSum c (P'.map Prod.swap) = edgesCost c P' := by
      rw [edgeSum_swap]; exact edgesCost_swap c hsym hmem'
    have sp := h3.spanning h1 h2
    have sp' := k3.spanning k1 k2
    have a := h3.min_spec h1 h2 hsym _ (fun e he => ⟨(sp'.ends e he).1, (sp'.ends e he).2.1⟩)
      sp'.conn (Or.inl sp'.count)
    have b := k3.min_spec k1 k2 hsym _ (fun e he => ⟨(sp.ends e he).1, (sp.ends e he).2.1⟩)
      sp.conn (Or.inl sp.count)
    rw [← hw] at a
    rw [← hw'] at b
    rw [_root_.le_antisymm a b]

omit [IsStrictOrderedRing K] in
/-- The heap that always returns the first of the smallest entries fulfils the contract. -/
theorem peekOk_first : PeekOk (fun _ l => minByFirst (fun a b => olt a.2 b.2) l :
    Nat → List (Nat × XNum K) → Option (Nat × XNum K)) := by
  refine ⟨fun _ l h => minByFirst_isSome h, fun _ l x h => minByFirst_mem h, ?_⟩
  intro _ l x h y hy
  have ho : StrictWeak (fun a b : Nat × XNum K => olt a.2 b.2) :=
    ⟨fun a b c => strictWeak_olt.trans a.2 b.2 c.2, fun a b c => strictWeak_olt.negtrans a.2 b.2 c.2⟩
  have hirr : ∀ a : XNum K, olt a a = false := by
    intro a
    cases a <;> simp [olt, isNaN, FloatOps.lt, FloatOps.eq, XNum.lt, XNum.beq]
  have hasym : ∀ a b : Nat × XNum K, olt a.2 b.2 = true → olt b.2 a.2 = false := by
    intro a b hab
    by_contra hba
    have hba : olt b.2 a.2 = true := by simpa using hba
    have := ho.trans a b a hab hba
    simp only [hirr] at this
    cases this
  cases l with
  | nil => simp at hy
  | cons a t =>
    simp only [minByFirst, Option.some.injEq] at h
    subst h
    have := foldl_inv (fun best (y : Nat × XNum K) => if olt y.2 best.2 then y else best)
      (fun done b => ∀ y ∈ a :: done, olt y.2 b.2 = false) t a (by simp [hirr]) (by
        intro done i rest b hl hb y hy
        have hy' : y ∈ a :: done ∨ y = i := by
          simp only [List.mem_cons, List.mem_append, List.not_mem_nil, or_false] at hy ⊢
          tauto
        split
        · rename_i hib
          rcases hy' with h | h
          · exact ho.negtrans y b i (hb y h) (hasym _ _ hib)
          · rw [h]; exact hirr _
        · rename_i hib
          rcases hy' with h | h
          · exact hb y h
          · rw [h]; simpa using hib)
    exact this y hy

/-- three cities on a line -/
def line3 : Mat (XNum ℚ) := Mat.ofRowsFin [[0, 1, 2], [1, 0, 3], [2, 3, 0]]

/-- **C31 (negation of the second half)** On the symmetric matrix with costs 1, 2, 3 the queue
variant (with the heap of `peekOk_first`) stores an edge between cities 1 and 2 with cost 2, although the matrix entry is 3; the sequential variant connects 0 and 2. -/
theorem C31_queue_wrong_edges :
    (primQueue (fun _ l => minByFirst (fun a b => olt a.2 b.2) l) line3 [] =
      .ok [[⟨1, .fin 1⟩], [⟨0, .fin 1⟩, ⟨2, .fin 2⟩], [⟨1, .fin 2⟩]]) ∧
    line3.get 1 2 = .fin 3 ∧
    primSeq line3 [] = .ok [[⟨1, .fin 1⟩, ⟨2, .fin 2⟩], [⟨0, .fin 1⟩], [⟨0, .fin 2⟩]] := by
  refine ⟨by decide +kernel, by decide +kernel, by decide +kernel⟩

/-- **C32** The MST weight (the number printed by `walky lower-bound mst`) is at most the length
of every tour. -/
theorem C32_mst_lower_bound {m : Mat (XNum K)} {c : Nat → Nat → K} (hm : Rep m c)
    (hsym : Symm m.dim c) (hnn : Nonneg m.dim c) (hd : m.dim = 1 → 0 ≤ c 0 0) (hn : 1 ≤ m.dim) :
    ∃ g w, primSeq m [] = .ok g ∧ g.undirectedEdgeWeight = .fin w ∧
      ∀ q, IsTour m.dim q → w ≤ tourCost c q := by
  have hne : citiesExcept m.dim [] ≠ [] := by
    intro h
    have : 0 ∈ citiesExcept m.dim [] := mem_citiesExcept.mpr ⟨hn, by simp⟩
    rw [h] at this
    simp at this
  obtain ⟨g, w, h1, h2, _, h3, _⟩ := C29_prim_minimum hm hsym [] (by simp) hne
  refine ⟨g, w, h1, h2, ?_⟩
  intro q hq
  have hp : w ≤ pathCost c q := by
    rw [← edgesCost_pairs]
    refine h3 _ ?_ ?_
    · intro e he
      obtain ⟨a, b⟩ := mem_pairs he
      rw [hq.mem] at a b
      refine ⟨mem_citiesExcept.mpr ⟨a, by simp⟩, mem_citiesExcept.mpr ⟨b, by simp⟩, ?_⟩
      exact hnn _ _ a b (pairs_ne hq.nodup he)
    · intro a ha b hb
      rw [mem_citiesExcept] at ha hb
      exact conn_iff.mp (conn_pairs (hq.mem.mpr hb.1) (hq.mem.mpr ha.1))
  exact hp.trans (closing_nonneg hnn hd hq)

/-- the hypotheses of C32 -/
example : Rep Ex.m4 Ex.c4 ∧ Symm Ex.m4.dim Ex.c4 ∧ Nonneg Ex.m4.dim Ex.c4 ∧ 1 ≤ Ex.m4.dim :=
  ⟨Ex.rep4, Ex.symm4, Ex.nonneg4, by decide⟩

end Walky.Props
