import Verif.Lemmas.FloatHom
import Verif.Model.Mpi

/-!
# Helper lemmas: maps that preserve the arithmetic, several threads and processes

The parallel programs commute with maps that preserve the arithmetic, as the sequential ones do
(`FloatHom.lean`). The message `-1` with which a worker of the static solver says that it has finished
is not a distance: it is the same in both runs.
-/

set_option linter.unusedSectionVars false

namespace Walky

open FloatOps

variable {α β : Type} [FloatOps α] [FloatOps β]

/-- all items of a reduction tree changed by `f` -/
def RTree.mapT {σ τ : Type} (f : σ → τ) : RTree σ → RTree τ
  | .empty => .empty
  | .leaf x => .leaf (f x)
  | .node l r => .node (l.mapT f) (r.mapT f)

theorem RTree.flatten_mapT {σ τ : Type} (f : σ → τ) (t : RTree σ) :
    (t.mapT f).flatten = t.flatten.map f := by
  induction t with
  | empty => rfl
  | leaf x => rfl
  | node l r hl hr => simp only [RTree.mapT, RTree.flatten, hl, hr, List.map_append]

theorem RTree.reduce_mapT {σ τ : Type} {φ : σ → τ} {f : σ → σ → σ} {g : τ → τ → τ}
    (h : ∀ a b, g (φ a) (φ b) = φ (f a b)) (t : RTree σ) :
    (t.mapT φ).reduce g = (t.reduce f).map φ := by
  induction t with
  | empty => rfl
  | leaf x => rfl
  | node l r hl hr =>
    simp only [RTree.mapT, RTree.reduce, hl, hr]
    cases l.reduce f <;> cases r.reduce f <;> simp [combineO, h]

private theorem bindOk {σ τ : Type} {x : RM σ} {f : σ → RM τ} {r : τ} (h : (x >>= f) = .ok r) :
    ∃ a, x = .ok a ∧ f a = .ok r := by
  cases x with
  | error e => cases h
  | ok a => exact ⟨a, rfl, h⟩

theorem Steps.map_sim {σ τ : Type} {R : σ → σ → Prop} {R' : τ → τ → Prop} (f : σ → τ)
    (h : ∀ s t, R s t → R' (f s) (f t)) {n : Nat} {s t : σ} (hs : Steps R n s t) :
    Steps R' n (f s) (f t) := by
  induction hs with
  | refl => exact .refl _
  | tail _ hst ih => exact .tail ih (h _ _ hst)

theorem Steps.rel_sim {σ τ : Type} {R : σ → σ → Prop} {R' : τ → τ → Prop} {S : σ → τ → Prop}
    (h : ∀ s t s', S s s' → R s t → ∃ t', S t t' ∧ R' s' t') {n : Nat} {s t : σ} {s' : τ}
    (h0 : S s s') (hs : Steps R n s t) : ∃ t', S t t' ∧ Steps R' n s' t' := by
  induction hs with
  | refl => exact ⟨s', h0, .refl _⟩
  | tail _ hst ih =>
    obtain ⟨t', h1, h2⟩ := ih h0
    obtain ⟨u', h3, h4⟩ := h _ _ _ h1 hst
    exact ⟨u', h3, .tail h2 h4⟩

namespace FloatHom

variable {φ : α → β} (H : FloatHom φ)

include H

/-! ## Nearest neighbour and 1-trees -/

theorem nnLocal (m : Mat α) (size rank : Nat) :
    Walky.nnLocal (m.mapW φ) size rank = (Walky.nnLocal m size rank).map (solMap φ) := by
  unfold Walky.nnLocal
  rw [show (m.mapW φ).dim = m.dim from rfl, mapM_hom (H.singleNN m)]
  refine rmMap_bind fun ls => ?_
  rw [minByFirst_map (lt := solLt) (lt' := solLt) (f := solMap φ) (fun a b => H.olt _ _)]
  exact unwrapO_map _ _

/-- the cost in a message changed by `φ` -/
def msgMap (φ : α → β) (x : α × Nat) : β × Nat := (φ x.1, x.2)

theorem costRankOp (x y : α × Nat) :
    Walky.costRankOp (msgMap φ x) (msgMap φ y) = msgMap φ (Walky.costRankOp x y) := by
  unfold Walky.costRankOp
  have h1 : ((msgMap φ x).1 <ᶠ (msgMap φ y).1) = (x.1 <ᶠ y.1) := H.lt _ _
  rw [h1, ← apply_ite (msgMap φ)]
  have h2 : ∀ z : α × Nat, FloatOps.eq (msgMap φ x).1 (msgMap φ z).1 = FloatOps.eq x.1 z.1 :=
    fun z => H.eq _ _
  simp only [h2]
  exact (apply_ite (msgMap φ) _ _ _).symm

theorem nnMpi {shape : Nat → List (α × Nat) → RTree (α × Nat)}
    {shape' : Nat → List (β × Nat) → RTree (β × Nat)}
    (hs : ∀ r l, shape' r (l.map (msgMap φ)) = (shape r l).mapT (msgMap φ)) (size : Nat) (m : Mat α) :
    Walky.nnMpi shape' size (m.mapW φ) = (Walky.nnMpi shape size m).map (List.map (solMap φ)) := by
  unfold Walky.nnMpi
  rw [mapM_hom (H.nnLocal m size)]
  refine rmMap_bind fun ls => ?_
  have hz : ((ls.map (solMap φ)).map Prod.fst).zip (List.range size) =
      ((ls.map Prod.fst).zip (List.range size)).map (msgMap φ) := by
    rw [List.map_map, List.zip_map_left, List.zip_map_left, List.map_map]
    rfl
  simp only [hz]
  rw [mapM_hom (φ := msgMap φ) (f := fun r =>
    unwrapO ((shape r ((ls.map Prod.fst).zip (List.range size))).reduce Walky.costRankOp))]
  · refine rmMap_bind fun rs => ?_
    cases rs with
    | nil => rfl
    | cons r0 t =>
      show (if ((r0 :: t).map (msgMap φ)).all (fun r => decide (r.2 = r0.2)) then _ else _) = _
      rw [List.all_map]
      show (if (r0 :: t).all (fun r => decide (r.2 = r0.2)) then _ else _) =
        Except.map _ (if (r0 :: t).all (fun r => decide (r.2 = r0.2)) then _ else _)
      split
      · show (idx (ls.map (solMap φ)) r0.2 >>= _) = _
        rw [idx_map]
        refine rmMap_bind fun w => ?_
        show Except.ok _ = Except.ok _
        rw [List.map_map, List.map_map]
        rfl
      · rfl
  · intro r
    rw [hs, RTree.reduce_mapT (H.costRankOp)]
    exact unwrapO_map _ _

theorem oneTreeWeight (m : Mat α) (x : Nat) :
    Walky.oneTreeWeight (m.mapW φ) x = (Walky.oneTreeWeight m x).map φ := by
  unfold Walky.oneTreeWeight
  rw [H.oneTree]
  exact rmMap_bind fun g => congrArg _ (H.undirectedEdgeWeight g)

theorem maxByL (ws : List α) : Walky.maxByL (ws.map φ) = (Walky.maxByL ws).map (Option.map φ) := by
  cases ws with
  | nil => rfl
  | cons x t =>
    show (List.foldlM maxPartial (φ x) (t.map φ) >>= _) = _
    rw [foldlM_hom_list (φ := φ) (ψ := φ) (f := maxPartial)]
    · exact rmMap_bind fun r => rfl
    · intro s a
      unfold maxPartial
      rw [H.isNaN, H.isNaN, H.lt]
      split
      · rfl
      · split <;> rfl

theorem oneTreeLbMpi {shape : List α → RTree α} {shape' : List β → RTree β}
    (hs : ∀ l, shape' (l.map φ) = (shape l).mapT φ) (size : Nat) (m : Mat α) :
    Walky.oneTreeLbMpi shape' size (m.mapW φ) = (Walky.oneTreeLbMpi shape size m).map φ := by
  unfold Walky.oneTreeLbMpi
  rw [mapM_hom (φ := φ) (f := oneTreeLocal m size)]
  · refine rmMap_bind fun ls => ?_
    rw [hs, RTree.reduce_mapT (f := mpiMax) (φ := φ)]
    · exact unwrapO_map _ _
    · intro a b
      unfold mpiMax
      rw [H.lt]
      split <;> rfl
  · intro r
    unfold oneTreeLocal
    rw [show (m.mapW φ).dim = m.dim from rfl, mapM_hom (H.oneTreeWeight m)]
    refine rmMap_bind fun ws => ?_
    rw [H.maxByL]
    exact rmMap_bind fun r => unwrapO_map φ r

/-! ## Christofides -/

theorem mpiImproveMatching (m : Mat α) (shufs : Nat → Nat → List (Nat × Nat) → List (Nat × Nat))
    (size tries : Nat) (l : List (Nat × Nat)) :
    Walky.mpiImproveMatching (m.mapW φ) shufs size tries l =
      Walky.mpiImproveMatching m shufs size tries l := by
  have hid : ∀ x : RM (List (List (Nat × Nat))), x = x.map id := fun x => by cases x <;> rfl
  conv_rhs => rw [hid (Walky.mpiImproveMatching m shufs size tries l)]
  unfold Walky.mpiImproveMatching
  cases l.isEmpty with
  | true => rfl
  | false =>
    show ((List.range size).mapM _ >>= _) = Except.map _ ((List.range size).mapM _ >>= _)
    rw [mapM_hom (φ := fun x : α × List (Nat × Nat) => (φ x.1, x.2)) (f := fun k => do
      let l' ← Walky.improveMatching m (shufs k) tries l
      let cost ← matchingCost m l'
      if k ≠ 0 ∧ l'.isEmpty then .error .index
      else return (cost, l'))]
    · refine rmMap_bind fun ls => ?_
      cases ls with
      | nil => rfl
      | cons root others =>
        show Except.ok _ = Except.ok _
        have hb : mpiBest (φ root.1, root.2) (others.map fun x => (φ x.1, x.2)) =
            (φ (mpiBest root others).1, (mpiBest root others).2) := by
          unfold mpiBest
          refine foldl_hom' (φ := fun x : α × List (Nat × Nat) => (φ x.1, x.2)) ?_ others root
          intro s a
          simp only [H.lt]
          split <;> rfl
        show Except.ok (List.map (fun _ => pairUp (flattenEdges (mpiBest (φ root.1, root.2)
          (others.map fun x => (φ x.1, x.2))).2)) (List.range size)) = _
        rw [hb]
        rfl
    · intro k
      rw [H.improveMatching]
      refine rmMap_bind_id fun l' => ?_
      unfold matchingCost
      rw [mapM_hom (φ := φ) (f := fun e : Nat × Nat => m.entry e.1 e.2) (fun e => entry φ m e.1 e.2)]
      cases List.mapM (fun e : Nat × Nat => m.entry e.1 e.2) l' with
      | error e => rfl
      | ok cs =>
        show (if k ≠ 0 ∧ l'.isEmpty then _ else Except.ok (FloatOps.sum (cs.map φ), l')) =
          Except.map _ (if k ≠ 0 ∧ l'.isEmpty then _ else Except.ok (FloatOps.sum cs, l'))
        rw [H.sum]
        split <;> rfl

theorem christofidesMpi (dbg : Bool) (m : Mat α) (r : MatchRng)
    (shufs : Nat → Nat → List (Nat × Nat) → List (Nat × Nat)) (size : Nat)
    (h : dbg = true → (m.mapW φ).isMetric = m.isMetric) :
    Walky.christofidesMpi dbg (m.mapW φ) r shufs size =
      (Walky.christofidesMpi dbg m r shufs size).map (solMap φ) := by
  unfold Walky.christofidesMpi christofidesGeneric
  have hc : (dbg && !(m.mapW φ).isMetric) = (dbg && !m.isMetric) := by
    cases dbg with
    | false => rfl
    | true => rw [h rfl]
  rw [hc]
  split
  · rfl
  · rw [H.primSeq]
    refine rmMap_bind fun g => ?_
    unfold computeApproxMatchingMpi
    rw [oddVertices, H.mpiImproveMatching]
    refine rmMap_bind_id fun mt => ?_
    rw [fillSeq]
    exact rmMap_bind fun g => H.christofidesTail dbg m g

theorem computeApproxMatchingPar (r : MatchRng) (chunks : Nat → Nat → List Nat) (g : Graph α)
    (m : Mat α) : Walky.computeApproxMatchingPar r chunks (Graph.mapW φ g) (m.mapW φ) =
      Walky.computeApproxMatchingPar r chunks g m := by
  unfold Walky.computeApproxMatchingPar approxMatchingPar parImproveMatching
  rw [oddVertices]
  have : improveChunk (m.mapW φ) = improveChunk m := by
    funext l k
    unfold improveChunk
    simp only [H.optimizeTwo]
  rw [this]

omit H [FloatOps α] [FloatOps β] in
theorem fillMstPar (φ : α → β) (order : List Nat) (g : MGraph α) (mst : Graph α) :
    Walky.fillMstPar order (g.mapW φ) (Graph.mapW φ mst) =
      (Walky.fillMstPar order g mst).map (MGraph.mapW φ) := by
  unfold Walky.fillMstPar
  refine foldlM_hom ?_ _ _
  intro g i
  unfold Graph.mapW
  rw [idx_map]
  refine rmMap_bind fun es => ?_
  unfold fillCol
  refine foldlM_hom_list ?_ es g
  intro g e
  show (if e.dst < g.dim then _ else _) = _
  split
  · exact congrArg _ (put φ g e.dst i (e.cost, 1))
  · rfl

omit H [FloatOps α] [FloatOps β] in
theorem fillMatchingPar (φ : α → β) {g g' : MGraph α} {mt : List (Nat × Nat)}
    (h : FillMatchingPar g mt g') : FillMatchingPar (g.mapW φ) mt (g'.mapW φ) := by
  obtain ⟨n, tasks, hs, hf⟩ := h
  refine ⟨n, tasks, ?_, hf⟩
  have key : ∀ {n : Nat} {s t : RaceState α}, Steps RaceStep n s t →
      Steps RaceStep n (⟨s.g.mapW φ, s.tasks⟩ : RaceState β) ⟨t.g.mapW φ, t.tasks⟩ := by
    intro n s t hs
    induction hs with
    | refl => exact .refl _
    | @tail n s u v _ hstep ih =>
      refine .tail ih ?_
      cases hstep with
      | read1 k t hk hp => exact .read1 ⟨_, _⟩ k t hk hp
      | read2 k t hk hp => exact .read2 ⟨_, _⟩ k t hk hp
      | write1 k t hk hp =>
        have := RaceStep.write1 (⟨u.g.mapW φ, u.tasks⟩ : RaceState β) k t hk hp
        rw [setTimes] at this
        exact this
      | write2 k t hk hp =>
        have := RaceStep.write2 (⟨u.g.mapW φ, u.tasks⟩ : RaceState β) k t hk hp
        rw [setTimes] at this
        exact this
  exact key hs

theorem christofidesPar {dbg : Bool} {m : Mat α} {r : MatchRng} {s : ParSched α} {s' : ParSched β}
    {res : RM (Solution α)} (hp : primPar s.shape s.update m [] = Walky.primSeq m [])
    (hp' : primPar s'.shape s'.update (m.mapW φ) [] = Walky.primSeq (m.mapW φ) [])
    (hc : s'.chunks = s.chunks) (hcol : s'.columns = s.columns)
    (hd : dbg = true → (m.mapW φ).isMetric = m.isMetric) (h : ChristofidesPar dbg m r s res) :
    ChristofidesPar dbg (m.mapW φ) r s' (res.map (solMap φ)) := by
  unfold ChristofidesPar ChristofidesGenericPar at h ⊢
  have hb : (dbg && !(m.mapW φ).isMetric) = (dbg && !m.isMetric) := by
    cases dbg with
    | false => rfl
    | true => rw [hd rfl]
  rw [hb]
  split
  · rename_i hx
    rw [if_pos hx] at h
    rw [h]
    rfl
  · rename_i hx
    rw [if_neg hx] at h
    rw [hp', H.primSeq, hc, hcol]
    rw [hp] at h
    cases hm : Walky.primSeq m [] with
    | error e =>
      rw [hm] at h
      rw [h]
      rfl
    | ok mst =>
      rw [hm] at h
      show match Walky.computeApproxMatchingPar r s.chunks (Graph.mapW φ mst) (m.mapW φ) with
        | .error e => _
        | .ok matching => _
      rw [H.computeApproxMatchingPar]
      change match Walky.computeApproxMatchingPar r s.chunks mst m with
        | .error e => _
        | .ok matching => _ at h
      cases hmt : Walky.computeApproxMatchingPar r s.chunks mst m with
      | error e =>
        rw [hmt] at h
        rw [h]
        rfl
      | ok mt =>
        rw [hmt] at h
        have hl : (Graph.mapW φ mst).length = mst.length := List.length_map _
        show match Walky.fillMstPar (s.columns (min (Graph.mapW φ mst).length m.dim))
            ((emptyMulti m).mapW φ) (Graph.mapW φ mst) with
          | .error e => _
          | .ok g0 => _
        rw [hl, fillMstPar]
        change match Walky.fillMstPar (s.columns (min mst.length m.dim)) (emptyMulti m) mst with
          | .error e => _
          | .ok g0 => _ at h
        cases hg : Walky.fillMstPar (s.columns (min mst.length m.dim)) (emptyMulti m) mst with
        | error e =>
          rw [hg] at h
          rw [h]
          rfl
        | ok g0 =>
          rw [hg] at h
          obtain ⟨g, h1, rfl⟩ := h
          exact ⟨g.mapW φ, fillMatchingPar φ h1, (H.christofidesTail dbg m g).symm⟩

/-! ## The exact solvers on several processes -/

theorem searchMpi (m : Mat α) (global : α) (pre : List Nat) :
    Walky.searchMpi (m.mapW φ) (φ global) pre = (Walky.searchMpi m global pre).map (solMap φ) := by
  unfold Walky.searchMpi
  rw [H.evaluatePath]
  refine rmMap_bind fun w => ?_
  have T : TestHom φ id (testMpi m global) (testMpi (m.mapW φ) (φ global)) := by
    intro s pre cur best
    unfold testMpi
    rw [H.mstBound]
    refine rmMap_bind fun lb => ?_
    simp only [H.lt]
    rw [← apply_ite φ, ← H.add, H.le]
    rfl
  have h := H.dfs T m (m.dim + 1) pre w ((FloatOps.inf, []), ())
  unfold resMap solMap at h
  simp only [H.inf] at h
  show (Walky.dfs (m.mapW φ) (testMpi (m.mapW φ) (φ global)) (m.dim + 1) pre (φ w)
    ((FloatOps.inf, []), id ()) >>= _) = _
  rw [h]
  exact rmMap_bind fun r => rfl

omit H [FloatOps α] [FloatOps β] in
theorem wrapUp (φ : α → β) (w : α × Nat) (bufs : List (List Nat)) :
    Walky.wrapUp (msgMap φ w) bufs = (Walky.wrapUp w bufs).map (solMap φ) := by
  unfold Walky.wrapUp
  show (idx bufs w.2 >>= _) = _
  refine rmMap_bind_id fun b => ?_
  split <;> rfl

/-- all costs of a worker changed by `φ` -/
def _root_.Walky.DWorker.mapW (φ : α → β) (w : DWorker α) : DWorker β :=
  { sol := solMap φ w.sol, done := w.done, up := w.up.map (msgMap φ),
    down := w.down.map fun x => (φ x.1, x.2) }

/-- all costs of the dynamic solver changed by `φ` -/
def _root_.Walky.DSys.mapW (φ : α → β) (s : DSys α) : DSys β :=
  { workers := s.workers.map (DWorker.mapW φ), winner := msgMap φ s.winner, current := s.current,
    waiting := s.waiting, log := s.log }

theorem dynWorker (m : Mat α) (rank : Nat) (w : DWorker α) (msg : α × List Nat) :
    Walky.dynWorker (m.mapW φ) rank (w.mapW φ) (φ msg.1, msg.2) =
      (Walky.dynWorker m rank w msg).map (DWorker.mapW φ) := by
  unfold Walky.dynWorker
  show (if msg.2.all (· == 0) then _ else _) = _
  split
  · rfl
  · show (Walky.searchMpi (m.mapW φ) (φ msg.1) msg.2 >>= _) = _
    rw [H.searchMpi]
    refine rmMap_bind fun r => ?_
    have hs : (if (solMap φ r).1 <ᶠ (w.mapW φ).sol.1 then solMap φ r else (w.mapW φ).sol) =
        solMap φ (if r.1 <ᶠ w.sol.1 then r else w.sol) := by
      have : ((solMap φ r).1 <ᶠ (w.mapW φ).sol.1) = (r.1 <ᶠ w.sol.1) := H.lt _ _
      rw [this]
      split <;> rfl
    show Except.ok _ = Except.ok _
    refine congrArg _ ?_
    rw [hs]
    unfold DWorker.mapW
    simp only [List.map_append]
    rfl

theorem dynHandle (s : DSys α) (n : Nat) (msg : α × Nat) :
    DSys.handle (s.mapW φ) n (msgMap φ msg) = (DSys.handle s n msg).map (DSys.mapW φ) := by
  unfold DSys.handle
  have hw : (if (FloatOps.zero ≤ᶠ (msgMap φ msg).1) && ((msgMap φ msg).1 <ᶠ (s.mapW φ).winner.1) then
      msgMap φ msg else (s.mapW φ).winner) =
      msgMap φ (if (FloatOps.zero ≤ᶠ msg.1) && (msg.1 <ᶠ s.winner.1) then msg else s.winner) := by
    have h1 : (FloatOps.zero ≤ᶠ (msgMap φ msg).1) = (FloatOps.zero ≤ᶠ msg.1) := by
      rw [← H.zero]
      exact H.le _ _
    have h2 : ((msgMap φ msg).1 <ᶠ (s.mapW φ).winner.1) = (msg.1 <ᶠ s.winner.1) := H.lt _ _
    rw [h1, h2]
    split <;> rfl
  simp only [hw]
  have hsend : ∀ (w : α × Nat) (p : List Nat), (s.mapW φ).workers.modify (msg.2 - 1)
      (fun x => { x with down := x.down ++ [((msgMap φ w).1, p)] }) =
      (s.workers.modify (msg.2 - 1) fun x => { x with down := x.down ++ [(w.1, p)] }).map
        (DWorker.mapW φ) := by
    intro w p
    refine (map_modify' ?_ _ _).symm
    intro x
    unfold DWorker.mapW
    simp only [List.map_append]
    rfl
  have hm : (msgMap φ msg).2 = msg.2 := rfl
  have hcur : (s.mapW φ).current = s.current := rfl
  simp only [hm, hcur, hsend]
  cases s.current with
  | none => rfl
  | some p => exact rmMap_bind_id fun next => rfl

theorem dynamicResult {m : Mat α} {nw : Nat} {r : RM (Solution α)} (h : DynamicResult m nw r) :
    DynamicResult (m.mapW φ) nw (r.map (solMap φ)) := by
  obtain ⟨n, s, hs, hf, rfl⟩ := h
  refine ⟨n, s.mapW φ, ?_, ?_, ?_⟩
  · have h0 : (initDynamic nw : DSys β) = (initDynamic nw : DSys α).mapW φ := by
      unfold initDynamic DSys.mapW DWorker.mapW solMap msgMap
      simp only [List.map_map, H.inf]
      refine congrArg (fun x => DSys.mk x _ _ _ _) ?_
      refine List.map_congr_left fun i _ => ?_
      show _ = DWorker.mk (φ _, _) _ [(φ _, _)] _
      rw [H.inf]
      rfl
    rw [h0]
    refine Steps.map_sim (DSys.mapW φ) ?_ hs
    intro s t hst
    cases hst with
    | recv i w w' msg rest hi hd hm hw =>
      have := DStep.recv (m := m.mapW φ) (s.mapW φ) i (w.mapW φ) (w'.mapW φ) (φ msg.1, msg.2)
        (rest.map fun x => (φ x.1, x.2)) ?_ hd ?_ ?_
      · show DStep _ _ (DSys.mk (List.map _ (List.set _ _ _)) _ _ _ _)
        rw [List.map_set]
        exact this
      · show (List.map _ _)[i]? = _
        rw [List.getElem?_map, hi]
        rfl
      · show List.map _ w.down = _
        rw [hm]
        rfl
      · have h := H.dynWorker m (i + 1) { w with down := rest } msg
        rw [hw] at h
        exact h
    | root _ i w msg rest hlt hi hu hh =>
      refine DStep.root (m := m.mapW φ) (s.mapW φ) (t.mapW φ) i (w.mapW φ) (msgMap φ msg)
        (rest.map (msgMap φ)) ?_ ?_ ?_ ?_
      · show s.waiting < (s.workers.map _).length
        rw [List.length_map]
        exact hlt
      · show (List.map _ _)[i]? = _
        rw [List.getElem?_map, hi]
        rfl
      · show List.map _ w.up = _
        rw [hu]
        rfl
      · have h := H.dynHandle { s with workers := s.workers.set i { w with up := rest } } m.dim msg
        rw [hh] at h
        unfold DSys.mapW at h
        simp only [List.map_set] at h
        exact h
  · refine ⟨?_, ?_⟩
    · show ¬ s.waiting < (s.workers.map _).length
      rw [List.length_map]
      exact hf.1
    · intro w hw
      obtain ⟨w', hw', rfl⟩ := List.mem_map.mp hw
      exact hf.2 w' hw'
  · show _ = Walky.wrapUp (msgMap φ s.winner) _
    rw [wrapUp]
    refine congrArg (fun b => Except.map _ (Walky.wrapUp s.winner b)) ?_
    unfold DSys.buffers DSys.mapW
    simp only [List.map_map]
    rfl

/-- two messages to the coordinator of the static solver: the same cost in the two number systems, or
both say that the sender has finished -/
def UpRel (φ : α → β) (x : α × Nat) (y : β × Nat) : Prop :=
  y = msgMap φ x ∨ ∃ r, x = (negOne, r) ∧ y = (negOne, r)

/-- two workers of the static solver in the same situation -/
structure SWRel (φ : α → β) (w : SWorker α) (w' : SWorker β) : Prop where
  digits : w'.digits = w.digits
  maxDigits : w'.maxDigits = w.maxDigits
  sol : w'.sol = solMap φ w.sol
  global : w'.global = φ w.global
  phase : w'.phase = w.phase
  up : List.Forall₂ (UpRel φ) w.up w'.up
  down : w'.down = w.down.map φ

/-- two states of the static solver in the same situation -/
structure SRel (φ : α → β) (s : SSys α) (s' : SSys β) : Prop where
  workers : List.Forall₂ (SWRel φ) s.workers s'.workers
  winner : s'.winner = msgMap φ s.winner
  finished : s'.finished = s.finished

omit H [FloatOps α] [FloatOps β] in
theorem forall₂_get {σ τ : Type} {S : σ → τ → Prop} {l : List σ} {l' : List τ}
    (h : List.Forall₂ S l l') {i : Nat} {x : σ} (hx : l[i]? = some x) : ∃ y, l'[i]? = some y ∧ S x y := by
  induction h generalizing i with
  | nil => cases hx
  | cons h1 _ ih =>
    cases i with
    | zero =>
      cases hx
      exact ⟨_, rfl, h1⟩
    | succ i => exact ih hx

omit H [FloatOps α] [FloatOps β] in
theorem forall₂_set {σ τ : Type} {S : σ → τ → Prop} {l : List σ} {l' : List τ}
    (h : List.Forall₂ S l l') (i : Nat) {x : σ} {y : τ} (hx : S x y) :
    List.Forall₂ S (l.set i x) (l'.set i y) := by
  induction h generalizing i with
  | nil => exact .nil
  | cons h1 h2 ih =>
    cases i with
    | zero => exact .cons hx h2
    | succ i => exact .cons h1 (ih i)

omit H [FloatOps α] [FloatOps β] in
theorem forall₂_modify {σ τ : Type} {S : σ → τ → Prop} {f : σ → σ} {f' : τ → τ}
    (hf : ∀ x y, S x y → S (f x) (f' y)) {l : List σ} {l' : List τ}
    (h : List.Forall₂ S l l') (i : Nat) : List.Forall₂ S (l.modify i f) (l'.modify i f') := by
  induction h generalizing i with
  | nil => cases i <;> exact .nil
  | cons h1 h2 ih =>
    cases i with
    | zero => exact .cons (hf _ _ h1) h2
    | succ i => exact .cons h1 (ih i)

omit H [FloatOps α] [FloatOps β] in
theorem forall₂_snoc {σ τ : Type} {S : σ → τ → Prop} {l : List σ} {l' : List τ}
    (h : List.Forall₂ S l l') {x : σ} {y : τ} (hx : S x y) : List.Forall₂ S (l ++ [x]) (l' ++ [y]) := by
  induction h with
  | nil => exact .cons hx .nil
  | cons h1 _ ih => exact .cons h1 ih

theorem workerRound (m : Mat α) (rank : Nat) {w w1 : SWorker α} {w' : SWorker β} (h : SWRel φ w w')
    (hr : Walky.workerRound m rank w = .ok w1) :
    ∃ w1', Walky.workerRound (m.mapW φ) rank w' = .ok w1' ∧ SWRel φ w1 w1' := by
  obtain ⟨digits, maxDigits, sol, global, phase, up, down⟩ := w
  obtain ⟨digits', maxDigits', sol', global', phase', up', down'⟩ := w'
  obtain ⟨h1, h2, h3, h4, h5, h6, h7⟩ := h
  dsimp only at h1 h2 h3 h4 h5 h6 h7
  subst h1 h2 h3 h4 h5 h7
  unfold Walky.workerRound at hr ⊢
  dsimp only at hr ⊢
  rw [show (m.mapW φ).dim = m.dim from rfl]
  obtain ⟨⟨ds, next⟩, e1, hr⟩ := bindOk hr
  rw [e1, rm_bind_ok]
  cases next with
  | none =>
    cases hr
    exact ⟨_, rfl, rfl, rfl, rfl, rfl, rfl, forall₂_snoc h6 (.inr ⟨_, rfl, rfl⟩), rfl⟩
  | some v =>
    dsimp only at hr ⊢
    split
    · rename_i hv
      rw [if_pos hv] at hr
      cases hr
      exact ⟨_, rfl, rfl, rfl, rfl, rfl, rfl, forall₂_snoc h6 (.inr ⟨_, rfl, rfl⟩), rfl⟩
    · rename_i hv
      rw [if_neg hv] at hr
      split
      · rename_i hu
        rw [if_pos hu] at hr
        obtain ⟨r, e2, hr⟩ := bindOk hr
        cases hr
        rw [H.searchMpi, e2, rmMap_ok, rm_bind_ok]
        have hs : (if (solMap φ r).1 <ᶠ (solMap φ sol).1 then solMap φ r else solMap φ sol) =
            solMap φ (if r.1 <ᶠ sol.1 then r else sol) := by
          have : ((solMap φ r).1 <ᶠ (solMap φ sol).1) = (r.1 <ᶠ sol.1) := H.lt _ _
          rw [this]
          split <;> rfl
        rw [hs]
        exact ⟨_, rfl, rfl, rfl, rfl, rfl, rfl, forall₂_snoc h6 (.inl rfl), rfl⟩
      · rename_i hu
        rw [if_neg hu] at hr
        cases hr
        exact ⟨_, rfl, rfl, rfl, rfl, rfl, rfl, h6, rfl⟩

theorem staticHandle (hn : (FloatOps.zero ≤ᶠ (negOne : α)) = false)
    (hn' : (FloatOps.zero ≤ᶠ (negOne : β)) = false) {s : SSys α} {s' : SSys β} (h : SRel φ s s')
    {x : α × Nat} {y : β × Nat} (hx : UpRel φ x y) : SRel φ (s.handle x) (s'.handle y) := by
  rcases hx with rfl | ⟨r, rfl, rfl⟩
  · unfold SSys.handle
    have h1 : (FloatOps.zero ≤ᶠ (msgMap φ x).1) = (FloatOps.zero ≤ᶠ x.1) := by
      rw [← H.zero]
      exact H.le _ _
    rw [h1]
    split
    · have hw : (if (msgMap φ x).1 <ᶠ s'.winner.1 then msgMap φ x else s'.winner) =
          msgMap φ (if x.1 <ᶠ s.winner.1 then x else s.winner) := by
        rw [h.winner]
        have : ((msgMap φ x).1 <ᶠ (msgMap φ s.winner).1) = (x.1 <ᶠ s.winner.1) := H.lt _ _
        rw [this]
        split <;> rfl
      simp only [hw]
      refine ⟨forall₂_modify ?_ h.workers _, rfl, h.finished⟩
      intro w w' hww
      refine ⟨hww.digits, hww.maxDigits, hww.sol, hww.global, hww.phase, hww.up, ?_⟩
      show w'.down ++ _ = List.map φ (w.down ++ _)
      rw [hww.down, List.map_append]
      rfl
    · exact ⟨h.workers, h.winner, congrArg (· + 1) h.finished⟩
  · unfold SSys.handle
    simp only [hn, hn']
    exact ⟨h.workers, h.winner, congrArg (· + 1) h.finished⟩

theorem staticResult (hn : (FloatOps.zero ≤ᶠ (negOne : α)) = false)
    (hn' : (FloatOps.zero ≤ᶠ (negOne : β)) = false) {m : Mat α} {pl nw : Nat} {r : RM (Solution α)}
    (h : StaticResult m pl nw r) : StaticResult (m.mapW φ) pl nw (r.map (solMap φ)) := by
  obtain ⟨s0, n, s, h0, hs, hf, rfl⟩ := h
  have hinit : ∃ s0', initStatic (m.mapW φ) pl nw = .ok s0' ∧ SRel φ s0 s0' := by
    unfold initStatic at h0 ⊢
    obtain ⟨ws, e1, e2⟩ := bindOk h0
    cases e2
    let f : SWorker α → SWorker β := fun w =>
      { digits := w.digits, maxDigits := w.maxDigits, sol := solMap φ w.sol, global := φ w.global,
        phase := w.phase, up := w.up.map (msgMap φ), down := w.down.map φ }
    rw [mapM_hom (φ := f) (f := fun i => do
      let (lo, hi) ← splitChunks pl m.dim nw i
      return { digits := lo, maxDigits := hi, sol := (FloatOps.inf, []), global := FloatOps.inf,
               phase := .work, up := [], down := [] }), e1]
    · refine ⟨_, rfl, ?_, ?_, rfl⟩
      · show List.Forall₂ _ ws (ws.map f)
        rw [List.forall₂_map_right_iff, List.forall₂_same]
        refine fun w _ => ⟨rfl, rfl, rfl, rfl, rfl, ?_, rfl⟩
        show List.Forall₂ _ w.up (w.up.map (msgMap φ))
        rw [List.forall₂_map_right_iff, List.forall₂_same]
        exact fun x _ => .inl rfl
      · show (FloatOps.inf, 0) = (φ FloatOps.inf, 0)
        rw [H.inf]
    · intro i
      refine rmMap_bind_id fun r => ?_
      show Except.ok (SWorker.mk _ _ (FloatOps.inf, []) FloatOps.inf _ _ _) =
        Except.ok (SWorker.mk _ _ (φ FloatOps.inf, []) (φ FloatOps.inf) _ _ _)
      rw [H.inf]
      rfl
  obtain ⟨s0', i1, i2⟩ := hinit
  obtain ⟨s', j1, j2⟩ := Steps.rel_sim (R' := SStep (m.mapW φ)) (S := SRel φ) (by
    intro s t s' hS hst
    cases hst with
    | round i w w1 hi hp hw =>
      obtain ⟨w', k1, k2⟩ := forall₂_get hS.workers hi
      obtain ⟨w1', l1, l2⟩ := H.workerRound m (i + 1) k2 hw
      exact ⟨{ s' with workers := s'.workers.set i w1' }, ⟨forall₂_set hS.workers i l2, hS.winner, hS.finished⟩,
        .round s' i w' w1' k1 (k2.phase.trans hp) l1⟩
    | recv i w g rest hi hp hd =>
      obtain ⟨w', k1, k2⟩ := forall₂_get hS.workers hi
      have hd' : w'.down = φ g :: rest.map φ := by
        rw [k2.down, hd]
        rfl
      refine ⟨{ s' with workers := s'.workers.set i { w' with global := φ g, phase := .work, down := rest.map φ } },
        ⟨forall₂_set hS.workers i ⟨k2.digits, k2.maxDigits, k2.sol, rfl, rfl, k2.up, rfl⟩,
        hS.winner, hS.finished⟩, .recv s' i w' _ _ k1 (k2.phase.trans hp) hd'⟩
    | root i w msg rest hlt hi hu =>
      obtain ⟨w', k1, k2⟩ := forall₂_get hS.workers hi
      have hup := k2.up
      rw [hu] at hup
      obtain ⟨msg', rest', hm, hrest, hu'⟩ := List.forall₂_cons_left_iff.mp hup
      refine ⟨_, H.staticHandle hn hn' ?_ hm, .root s' i w' msg' rest' ?_ k1 hu'⟩
      · exact ⟨forall₂_set hS.workers i ⟨k2.digits, k2.maxDigits, k2.sol, k2.global, k2.phase, hrest,
          k2.down⟩, hS.winner, hS.finished⟩
      · rw [hS.finished, ← hS.workers.length_eq]
        exact hlt) i2 hs
  refine ⟨s0', n, s', i1, j2, ⟨?_, ?_⟩, ?_⟩
  · rw [j1.finished, ← j1.workers.length_eq]
    exact hf.1
  · intro w' hw'
    obtain ⟨i, hi⟩ := List.mem_iff_getElem?.mp hw'
    obtain ⟨w, k1, k2⟩ := forall₂_get j1.workers.flip hi
    exact k2.phase.trans (hf.2 w (List.mem_of_getElem? k1))
  · rw [j1.winner, wrapUp]
    refine congrArg (fun b => Except.map _ (Walky.wrapUp s.winner b)) ?_
    unfold SSys.buffers
    refine congrArg _ ?_
    have := j1.workers
    revert this
    generalize s.workers = l
    generalize s'.workers = l'
    intro hl
    induction hl with
    | nil => rfl
    | cons h1 _ ih =>
      rw [List.map_cons, List.map_cons, ih, h1.sol]
      rfl

end FloatHom

end Walky
