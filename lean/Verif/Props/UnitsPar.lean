import Verif.Props.Units
import Verif.Props.Mst
import Verif.Props.OneTree
import Verif.Props.NearestNeighbour
import Verif.Lemmas.FloatHomMpi

/-!
# The unit of the distances: several threads and several processes (C108)
-/

set_option linter.unusedSectionVars false

namespace Walky

open FloatOps

variable {K : Type} [Field K] [LinearOrder K] [IsStrictOrderedRing K]

namespace Props

open XNum Spec

variable {s : K} {m m' : Mat (XNum K)}

private theorem sol_back (hs : 0 < s) (r : Solution (XNum K)) : inUnitSol s (inUnitSol s⁻¹ r) = r := by
  obtain ⟨w, p⟩ := r
  refine Prod.ext ?_ rfl
  cases w with
  | fin x => exact congrArg XNum.fin (mul_inv_cancel_left₀ hs.ne' x)
  | nan => rfl
  | inf => rfl
  | ninf => rfl

private theorem res_back (hs : 0 < s) (r : RM (Solution (XNum K))) :
    (r.map (inUnitSol s⁻¹)).map (inUnitSol s) = r := by
  cases r with
  | error e => rfl
  | ok a => exact congrArg Except.ok (sol_back hs a)

private theorem zero_le_negOne : (zero ≤ᶠ (negOne : XNum K)) = false := by
  show decide ((0 : K) ≤ -1) = false
  exact decide_eq_false (not_le.mpr (neg_one_lt_zero))

/-- **C108, exact solvers on several processes.** The possible outcomes of the static and of the dynamic
MPI solver are the same tours with converted lengths, and the same failures, for every number of
workers. The constant -1 in the messages of the static solver is not converted. -/
theorem C108_mpi_exact (h : OtherUnit s m m') (pl nw : Nat) (r' : RM (Solution (XNum K))) :
    (StaticResult m' pl nw r' ↔ ∃ r, StaticResult m pl nw r ∧ r' = r.map (inUnitSol s)) ∧
    (DynamicResult m' nw r' ↔ ∃ r, DynamicResult m nw r ∧ r' = r.map (inUnitSol s)) := by
  have hb := otherUnit_back h
  refine ⟨⟨fun hr => ⟨r'.map (inUnitSol s⁻¹), ?_, (res_back h.pos r').symm⟩, ?_⟩,
    ⟨fun hr => ⟨r'.map (inUnitSol s⁻¹), ?_, (res_back h.pos r').symm⟩, ?_⟩⟩
  · rw [unit_mapW hb]
    exact (inUnit_hom hb.pos).staticResult zero_le_negOne zero_le_negOne hr
  · rintro ⟨r, hr, rfl⟩
    rw [unit_mapW h]
    exact (inUnit_hom h.pos).staticResult zero_le_negOne zero_le_negOne hr
  · rw [unit_mapW hb]
    exact (inUnit_hom hb.pos).dynamicResult hr
  · rintro ⟨r, hr, rfl⟩
    rw [unit_mapW h]
    exact (inUnit_hom h.pos).dynamicResult hr

/-- **C108, lower bounds and nearest neighbour on several threads.** For all splits of the work, which
may be different in the two runs. -/
theorem C108_par (h : OtherUnit s m m') (ex xs : List Nat) (n : Nat)
    (shape shape' : Nat → List (Nat × Edge (XNum K)) → RTree (Nat × Edge (XNum K)))
    (order order' : Nat → Nat → List Nat)
    (hs : ∀ it l, (shape it l).flatten = l) (hs' : ∀ it l, (shape' it l).flatten = l)
    (ho : ∀ it n, (order it n).Perm (List.range n)) (ho' : ∀ it n, (order' it n).Perm (List.range n))
    (st st' : List (XNum K) → RTree (XNum K)) (ht : ∀ l, (st l).flatten = l) (ht' : ∀ l, (st' l).flatten = l)
    (sn sn' : List (Solution (XNum K)) → RTree (Solution (XNum K)))
    (hn : ∀ l, (sn l).flatten = l) (hn' : ∀ l, (sn' l).flatten = l) :
    primPar shape' order' m' ex =
      (primPar shape order m ex).map (List.map (List.map fun e => ⟨e.dst, inUnit s e.cost⟩)) ∧
    oneTreeLbPar st' m' = (oneTreeLbPar st m).map (inUnit s) ∧
    nNNPar sn' xs m' n = (nNNPar sn xs m n).map (inUnitSol s) := by
  rw [C30_par_eq_seq C30_order_exact shape order hs ho, C30_par_eq_seq C30_order_exact shape' order' hs' ho',
    C35_par_eq_seq C30_order_exact st ht, C35_par_eq_seq C30_order_exact st' ht',
    C39_par_eq_seq C30_order_exact sn hn, C39_par_eq_seq C30_order_exact sn' hn']
  exact ⟨(C108_bounds h ex).1, (C108_bounds h ex).2.2, (C108_nearest_neighbour h).2 xs n⟩

/-- **C108, 1-tree bound and nearest neighbour on several processes.** If MPI combines the contributions
of the ranks in the same way in both runs, every rank obtains the same tour and the converted length,
and the root the converted bound, for every number of ranks. -/
theorem C108_mpi (h : OtherUnit s m m') (size : Nat)
    {shape shape' : Nat → List (XNum K × Nat) → RTree (XNum K × Nat)}
    (hs : ∀ r l, shape' r (l.map fun x => (inUnit s x.1, x.2)) =
      (shape r l).mapT fun x => (inUnit s x.1, x.2))
    {st st' : List (XNum K) → RTree (XNum K)} (ht : ∀ l, st' (l.map (inUnit s)) = (st l).mapT (inUnit s)) :
    nnMpi shape' size m' = (nnMpi shape size m).map (List.map (inUnitSol s)) ∧
    oneTreeLbMpi st' size m' = (oneTreeLbMpi st size m).map (inUnit s) := by
  have H := inUnit_hom h.pos
  rw [unit_mapW h]
  exact ⟨H.nnMpi hs size m, H.oneTreeLbMpi ht size m⟩

/-- **C108, Christofides on several processes.** With the same shuffles on every rank: same tour,
converted length. -/
theorem C108_christofides_mpi (h : OtherUnit s m m') (r : MatchRng)
    (shufs : Nat → Nat → List (Nat × Nat) → List (Nat × Nat)) (size : Nat) {dbg : Bool}
    (hd : dbg = true → m'.isMetric = m.isMetric) :
    christofidesMpi dbg m' r shufs size = (christofidesMpi dbg m r shufs size).map (inUnitSol s) := by
  have H := inUnit_hom h.pos
  rw [unit_mapW h] at hd ⊢
  exact H.christofidesMpi dbg m r shufs size hd

/-- **C108, Christofides on several threads.** With the same shuffles and the same order of the chunks
and columns the possible outcomes are the same tours with converted lengths, and the same failures —
whatever the data race does. -/
theorem C108_christofides_par (h : OtherUnit s m m') (r : MatchRng) {p : ParSched (XNum K)} (hp : p.Ok)
    {dbg : Bool} (hd : dbg = true → m'.isMetric = m.isMetric) (res' : RM (Solution (XNum K))) :
    ChristofidesPar dbg m' r p res' ↔ ∃ res, ChristofidesPar dbg m r p res ∧ res' = res.map (inUnitSol s) := by
  have hq := fun m : Mat (XNum K) =>
    C30_par_eq_seq C30_order_exact p.shape p.update hp.shape hp.update m []
  constructor
  · intro hr
    refine ⟨res'.map (inUnitSol s⁻¹), ?_, (res_back h.pos res').symm⟩
    have hb := otherUnit_back h
    rw [unit_mapW hb] at hd ⊢
    exact (inUnit_hom hb.pos).christofidesPar (hq _) (hq _) rfl rfl (fun e => (hd e).symm) hr
  · rintro ⟨res, hr, rfl⟩
    rw [unit_mapW h] at hd ⊢
    exact (inUnit_hom h.pos).christofidesPar (hq _) (hq _) rfl rfl hd hr

/-- the items one after the other -/
private def comb {β : Type} : List β → RTree β
  | [] => .empty
  | x :: t => .node (.leaf x) (comb t)

private theorem comb_map {β γ : Type} (f : β → γ) (l : List β) : comb (l.map f) = (comb l).mapT f := by
  induction l with
  | nil => rfl
  | cons x t ih =>
    rw [List.map_cons]
    show RTree.node _ (comb (t.map f)) = _
    rw [ih]
    rfl

/-- the hypotheses of `C108_mpi`: contributions combined in the order of the ranks; kilometres and metres
with two ranks -/
example : ∃ m' w p, OtherUnit (1000 : ℚ) Ex.m4 m' ∧
    nnMpi (fun _ => comb) 2 Ex.m4 = .ok [(fin w, p), (fin w, p)] ∧
    nnMpi (fun _ => comb) 2 m' = .ok [(fin (1000 * w), p), (fin (1000 * w), p)] ∧ 0 < w ∧
    (∀ l, comb (l.map fun x : XNum ℚ × Nat => (inUnit 1000 x.1, x.2)) =
      (comb l).mapT fun x => (inUnit 1000 x.1, x.2)) := by
  refine ⟨⟨4, fun i j => inUnit 1000 (Ex.m4.get i j)⟩, 10, [0, 1, 3, 2],
    ⟨by decide, rfl, fun _ _ => rfl⟩, ?_, ?_, by decide, comb_map _⟩
  · decide +kernel
  · decide +kernel

end Props

end Walky
