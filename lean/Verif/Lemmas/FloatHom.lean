import Verif.Model.Permutation
import Verif.Model.Exact
import Verif.Model.OneTree
import Verif.Model.NearestNeighbour
import Verif.Model.Christofides
import Verif.Lemmas.Basic

/-!
# Helper lemmas: the algorithms commute with maps that preserve the arithmetic

A map between two kinds of numbers that preserves the operations used by an algorithm can be applied
before or after it.
-/

set_option linter.unusedSectionVars false

namespace Walky

open FloatOps

variable {α β : Type} [FloatOps α] [FloatOps β]

/-- `φ` preserves the operations used by the solvers (not the constants `1e-10` and `-1`) -/
structure FloatHom (φ : α → β) : Prop where
  zero : φ zero = zero
  inf : φ inf = inf
  add : ∀ x y, φ (x +ᶠ y) = φ x +ᶠ φ y
  sub : ∀ x y, φ (x -ᶠ y) = φ x -ᶠ φ y
  half : ∀ x, φ (half x) = half (φ x)
  lt : ∀ x y, (φ x <ᶠ φ y) = (x <ᶠ y)
  le : ∀ x y, (φ x ≤ᶠ φ y) = (x ≤ᶠ y)
  eq : ∀ x y, FloatOps.eq (φ x) (φ y) = FloatOps.eq x y

/-- all entries changed by `φ` -/
def Mat.mapW (φ : α → β) (m : Mat α) : Mat β := ⟨m.dim, fun i j => φ (m.get i j)⟩

/-- the length of a solution changed by `φ` -/
def solMap (φ : α → β) (s : Solution α) : Solution β := (φ s.1, s.2)

/-- the cost of an edge changed by `φ` -/
def Edge.mapW (φ : α → β) (e : Edge α) : Edge β := ⟨e.dst, φ e.cost⟩

/-- the costs of a graph changed by `φ` -/
def Graph.mapW (φ : α → β) (g : Graph α) : Graph β := g.map fun v => v.map (Edge.mapW φ)

section general

variable {ι σ τ ρ : Type}

@[simp] theorem rmMap_ok (f : σ → τ) (a : σ) : Except.map f (.ok a : RM σ) = .ok (f a) := rfl

@[simp] theorem rmMap_err (f : σ → τ) (e : Panic) : Except.map f (.error e : RM σ) = .error e := rfl

theorem rmMap_bind {υ : Type} {f : σ → τ} {g : ρ → υ} {x : RM σ} {k : σ → RM ρ} {k' : τ → RM υ}
    (h : ∀ a, k' (f a) = (k a).map g) : (x.map f >>= k') = (x >>= k).map g := by
  cases x with
  | error e => rfl
  | ok a => exact h a

theorem rmMap_bind_id {υ : Type} {g : ρ → υ} {x : RM σ} {k : σ → RM ρ} {k' : σ → RM υ}
    (h : ∀ a, k' a = (k a).map g) : (x >>= k') = (x >>= k).map g := by
  cases x with
  | error e => rfl
  | ok a => exact h a

theorem foldlM_hom {φ : σ → τ} {f : σ → ι → RM σ} {g : τ → ι → RM τ}
    (h : ∀ s a, g (φ s) a = (f s a).map φ) (l : List ι) (s : σ) :
    l.foldlM g (φ s) = (l.foldlM f s).map φ := by
  induction l generalizing s with
  | nil => rfl
  | cons a l ih =>
    rw [List.foldlM_cons, List.foldlM_cons, h]
    exact rmMap_bind ih

theorem foldlM_hom_list {ι' : Type} {φ : σ → τ} {ψ : ι → ι'} {f : σ → ι → RM σ} {g : τ → ι' → RM τ}
    (h : ∀ s a, g (φ s) (ψ a) = (f s a).map φ) (l : List ι) (s : σ) :
    (l.map ψ).foldlM g (φ s) = (l.foldlM f s).map φ := by
  induction l generalizing s with
  | nil => rfl
  | cons a l ih =>
    rw [List.map_cons, List.foldlM_cons, List.foldlM_cons, h]
    exact rmMap_bind ih

theorem foldl_hom' {ι' : Type} {φ : σ → τ} {ψ : ι → ι'} {f : σ → ι → σ} {g : τ → ι' → τ}
    (h : ∀ s a, g (φ s) (ψ a) = φ (f s a)) (l : List ι) (s : σ) :
    (l.map ψ).foldl g (φ s) = φ (l.foldl f s) := by
  induction l generalizing s with
  | nil => rfl
  | cons a l ih => rw [List.map_cons, List.foldl_cons, List.foldl_cons, h, ih]

theorem foldl_homid {φ : σ → τ} {f : σ → ι → σ} {g : τ → ι → τ}
    (h : ∀ s a, g (φ s) a = φ (f s a)) (l : List ι) (s : σ) :
    l.foldl g (φ s) = φ (l.foldl f s) := by
  induction l generalizing s with
  | nil => rfl
  | cons a l ih => rw [List.foldl_cons, List.foldl_cons, h, ih]

theorem mapM_hom {φ : σ → τ} {f : ι → RM σ} {g : ι → RM τ} (h : ∀ a, g a = (f a).map φ) (l : List ι) :
    l.mapM g = (l.mapM f).map (List.map φ) := by
  induction l with
  | nil => rfl
  | cons a l ih =>
    rw [List.mapM_cons, List.mapM_cons, h, ih]
    refine rmMap_bind fun b => ?_
    refine rmMap_bind fun bs => ?_
    rfl

theorem idx_map (f : σ → τ) (l : List σ) (i : Nat) : idx (l.map f) i = (idx l i).map f := by
  unfold idx
  rw [List.getElem?_map]
  cases l[i]? <;> rfl

theorem unwrapO_map (f : σ → τ) (x : Option σ) : unwrapO (x.map f) = (unwrapO x).map f := by
  cases x <;> rfl

theorem map_modify' {f : σ → σ} {f' : τ → τ} {g : σ → τ} (h : ∀ x, g (f x) = f' (g x)) (l : List σ)
    (i : Nat) : (l.modify i f).map g = (l.map g).modify i f' := by
  refine List.ext_getElem? fun k => ?_
  rw [List.getElem?_map, List.getElem?_modify, List.getElem?_modify, List.getElem?_map]
  cases l[k]? with
  | none => rfl
  | some x =>
    show some _ = some _
    refine congrArg some ?_
    split
    · exact h x
    · rfl

theorem minByFirst_map {f : σ → τ} {lt : σ → σ → Bool} {lt' : τ → τ → Bool}
    (h : ∀ a b, lt' (f a) (f b) = lt a b) (l : List σ) :
    minByFirst lt' (l.map f) = (minByFirst lt l).map f := by
  cases l with
  | nil => rfl
  | cons x t =>
    show some _ = some _
    refine congrArg some ?_
    refine foldl_hom' (φ := f) ?_ t x
    intro s a
    rw [h]
    cases lt a s <;> rfl

end general

namespace FloatHom

variable {φ : α → β} (H : FloatHom φ)
include H

theorem isNaN (x : α) : FloatOps.isNaN (φ x) = FloatOps.isNaN x := by
  unfold FloatOps.isNaN
  rw [H.eq]

theorem olt (x y : α) : FloatOps.olt (φ x) (φ y) = FloatOps.olt x y := by
  unfold FloatOps.olt
  rw [H.isNaN, H.isNaN, H.lt]

theorem sum (l : List α) : FloatOps.sum (l.map φ) = φ (FloatOps.sum l) := by
  unfold FloatOps.sum
  rw [← H.zero]
  exact foldl_hom' (fun s a => (H.add s a).symm) l _

omit H [FloatOps α] [FloatOps β] in
theorem entry (φ : α → β) (m : Mat α) (i j : Nat) : (m.mapW φ).entry i j = (m.entry i j).map φ := by
  unfold Mat.entry Mat.mapW
  by_cases h : i < m.dim ∧ j < m.dim
  · simp only [if_pos h, rmMap_ok]
  · simp only [if_neg h, rmMap_err]

theorem evaluatePath (m : Mat α) (p : List Nat) :
    (m.mapW φ).evaluatePath p = (m.evaluatePath p).map φ := by
  unfold Mat.evaluatePath
  split
  · exact congrArg _ H.zero.symm
  · rw [← H.zero]
    refine foldlM_hom ?_ _ _
    intro s a
    rw [entry]
    refine rmMap_bind fun w => ?_
    exact congrArg _ (H.add _ _).symm

theorem evaluateCircle (m : Mat α) (p : List Nat) :
    (m.mapW φ).evaluateCircle p = (m.evaluateCircle p).map φ := by
  unfold Mat.evaluateCircle
  split
  · exact congrArg _ H.zero.symm
  · refine rmMap_bind_id fun l => ?_
    refine rmMap_bind_id fun f => ?_
    rw [entry, H.evaluatePath]
    refine rmMap_bind fun w => ?_
    refine rmMap_bind fun v => ?_
    exact congrArg _ (H.add _ _).symm

theorem permLoop (m : Mat α) (step : List Nat → RM (Bool × List Nat)) (fuel : Nat) (cur : List Nat)
    (best : Solution α) :
    Walky.permLoop (m.mapW φ) step fuel cur (solMap φ best) =
      (Walky.permLoop m step fuel cur best).map (solMap φ) := by
  induction fuel generalizing cur best with
  | zero => rfl
  | succ fuel ih =>
    unfold Walky.permLoop
    refine rmMap_bind_id fun r => ?_
    obtain ⟨more, cur'⟩ := r
    cases more with
    | false => rfl
    | true =>
      simp only [if_true]
      rw [H.evaluateCircle]
      refine rmMap_bind fun w => ?_
      have : (φ w <ᶠ (solMap φ best).1) = (w <ᶠ best.1) := H.lt _ _
      rw [this]
      split
      · exact ih cur' (w, cur')
      · exact ih cur' best

theorem naiveSolver (m : Mat α) : Walky.naiveSolver (m.mapW φ) = (Walky.naiveSolver m).map (solMap φ) := by
  unfold Walky.naiveSolver
  have h := H.permLoop m nextPermutation (m.dim.factorial + 1) (List.range m.dim)
    (FloatOps.inf, List.range m.dim)
  unfold solMap at h
  rw [H.inf] at h
  exact h

theorem firstImprovedSolver (m : Mat α) :
    Walky.firstImprovedSolver (m.mapW φ) = (Walky.firstImprovedSolver m).map (solMap φ) := by
  unfold Walky.firstImprovedSolver
  have h := H.permLoop m nextPermutationTail (m.dim.factorial + 1) (List.range m.dim)
    (FloatOps.inf, List.range m.dim)
  unfold solMap at h
  rw [H.inf] at h
  exact h

/-! ## Prim's algorithm -/

omit H [FloatOps α] [FloatOps β] in
theorem pushEdge (φ : α → β) (g : Graph α) (i : Nat) (e : Edge α) :
    Graph.pushEdge (Graph.mapW φ g) i (e.mapW φ) = (Graph.pushEdge g i e).map (Graph.mapW φ) := by
  unfold Graph.pushEdge Graph.mapW
  rw [List.length_map]
  by_cases h : i < g.length
  · rw [if_pos h, if_pos h, rmMap_ok]
    refine congrArg _ ?_
    refine (map_modify' (fun v => ?_) g i).symm
    rw [List.map_append]
    rfl
  · rw [if_neg h, if_neg h, rmMap_err]

theorem directedEdgeWeight (g : Graph α) :
    Graph.directedEdgeWeight (Graph.mapW φ g) = φ (Graph.directedEdgeWeight g) := by
  unfold Graph.directedEdgeWeight Graph.mapW
  rw [← H.sum, List.map_map, List.map_map]
  refine congrArg _ (List.map_congr_left fun v _ => ?_)
  simp only [Function.comp]
  rw [← H.sum, List.map_map, List.map_map]
  rfl

theorem undirectedEdgeWeight (g : Graph α) :
    Graph.undirectedEdgeWeight (Graph.mapW φ g) = φ (Graph.undirectedEdgeWeight g) := by
  unfold Graph.undirectedEdgeWeight
  rw [H.directedEdgeWeight, H.half]

omit H [FloatOps α] [FloatOps β] in
theorem addUndirectedEdge (φ : α → β) (g : Graph α) (u v : Nat) (w : α) :
    Graph.addUndirectedEdge (Graph.mapW φ g) u v (φ w) =
      (Graph.addUndirectedEdge g u v w).map (Graph.mapW φ) := by
  unfold Graph.addUndirectedEdge
  have hl : (Graph.mapW φ g).length = g.length := List.length_map _
  rw [hl]
  by_cases h : u < g.length ∧ v < g.length
  · rw [if_pos h, if_pos h]
    have h1 := pushEdge φ g u ⟨v, w⟩
    rw [show (Edge.mapW φ ⟨v, w⟩ : Edge β) = ⟨v, φ w⟩ from rfl] at h1
    rw [h1]
    exact rmMap_bind fun g => pushEdge φ g v ⟨u, w⟩
  · rw [if_neg h, if_neg h, rmMap_err]

omit H [FloatOps α] [FloatOps β] in
theorem primPush (φ : α → β) (start : Nat) (adj : Graph α) (v : Nat) (e : Edge α) :
    Walky.primPush start (Graph.mapW φ adj) v (e.mapW φ) =
      (Walky.primPush start adj v e).map (Graph.mapW φ) := by
  unfold Walky.primPush
  by_cases h : v ≠ start
  · rw [if_pos h, if_pos h, pushEdge]
    exact rmMap_bind fun g => pushEdge φ g e.dst ⟨v, e.cost⟩
  · rw [if_neg h, if_neg h, rmMap_ok]

/-- two implementations of the trait that correspond under `φ` and `ψ` -/
structure _root_.Walky.OpsHom {σ τ : Type} (φ : α → β) (ψ : σ → τ) (o : MinCostOps σ α)
    (o' : MinCostOps τ β) : Prop where
  fromDefault : ∀ e n, o'.fromDefault (Edge.mapW φ e) n = ψ (o.fromDefault e n)
  find : ∀ it d, o'.find it (ψ d) = (o.find it d).map fun r => (r.1, Edge.mapW φ r.2)
  update : ∀ it d v row n, o'.update it (ψ d) v (fun j => φ (row j)) n = (o.update it d v row n).map ψ
  setCost : ∀ d v e, o'.setCost (ψ d) v (Edge.mapW φ e) = (o.setCost d v e).map ψ
  markUsed : ∀ d v, o'.markUsed (ψ d) v = (o.markUsed d v).map ψ

theorem primLoop {σ τ : Type} {ψ : σ → τ} {o : MinCostOps σ α} {o' : MinCostOps τ β}
    (O : OpsHom φ ψ o o') (m : Mat α) (start k it : Nat) (d : σ) (adj : Graph α) :
    Walky.primLoop o' (m.mapW φ) start k it (ψ d) (Graph.mapW φ adj) =
      (Walky.primLoop o m start k it d adj).map (Graph.mapW φ) := by
  induction k generalizing it d adj with
  | zero => rfl
  | succ k ih =>
    unfold Walky.primLoop
    rw [O.find]
    refine rmMap_bind fun r => ?_
    obtain ⟨v, e⟩ := r
    have he : FloatOps.eq (Edge.mapW φ e).cost FloatOps.inf = FloatOps.eq e.cost FloatOps.inf := by
      rw [← H.inf]
      exact H.eq _ _
    simp only [he]
    split
    · rfl
    · rw [O.markUsed]
      refine rmMap_bind fun d => ?_
      rw [primPush]
      refine rmMap_bind fun adj => ?_
      show (if v < m.dim then _ else _) = _
      split
      · have hu := O.update it d v (m.get v) m.dim
        show (o'.update it (ψ d) v (fun j => φ (m.get v j)) m.dim >>= _) = _
        rw [hu]
        exact rmMap_bind fun d => ih (it + 1) d adj
      · rfl

theorem primGeneric {σ τ : Type} {ψ : σ → τ} {o : MinCostOps σ α} {o' : MinCostOps τ β}
    (O : OpsHom φ ψ o o') (m : Mat α) (ex : List Nat) :
    Walky.primGeneric o' (m.mapW φ) ex = (Walky.primGeneric o m ex).map (Graph.mapW φ) := by
  unfold Walky.primGeneric
  refine rmMap_bind_id fun start => ?_
  show (if m.dim ≤ start then _ else _) = _
  split
  · rfl
  · have h1 := O.fromDefault ⟨m.dim, FloatOps.inf⟩ (m.dim + 1)
    rw [show (Edge.mapW φ ⟨m.dim, FloatOps.inf⟩ : Edge β) = ⟨m.dim, FloatOps.inf⟩ from
      congrArg _ H.inf] at h1
    have h2 := O.setCost (o.fromDefault ⟨m.dim, FloatOps.inf⟩ (m.dim + 1)) start ⟨start, FloatOps.zero⟩
    rw [show (Edge.mapW φ ⟨start, FloatOps.zero⟩ : Edge β) = ⟨start, FloatOps.zero⟩ from
      congrArg _ H.zero] at h2
    show (o'.setCost (o'.fromDefault ⟨m.dim, FloatOps.inf⟩ (m.dim + 1)) start ⟨start, FloatOps.zero⟩ >>= _) = _
    rw [h1, h2]
    refine rmMap_bind fun d => ?_
    rw [foldlM_hom (φ := ψ) (f := fun d v => o.markUsed d v) (fun s a => O.markUsed s a)]
    refine rmMap_bind fun d => ?_
    have h3 := H.primLoop O m start (m.dim + 1) 0 d (List.replicate (m.dim + 1) [])
    rw [show (Graph.mapW φ (List.replicate (m.dim + 1) []) : Graph β) =
      List.replicate (m.dim + 1) [] from by simp [Graph.mapW]] at h3
    show (Walky.primLoop o' (m.mapW φ) start (m.dim + 1) 0 (ψ d) (List.replicate (m.dim + 1) []) >>= _) = _
    rw [h3]
    refine rmMap_bind fun adj => ?_
    show Except.ok _ = Except.ok _
    refine congrArg _ ?_
    unfold Graph.mapW
    rw [List.map_dropLast]

/-- the costs in the vector of `primSeq` changed by `φ` -/
def _root_.Walky.Dist.mapW (φ : α → β) (d : Dist α) : Dist β := d.map fun p => (p.1.mapW φ, p.2)

omit H [FloatOps α] [FloatOps β] in
theorem candidates (φ : α → β) (d : Dist α) :
    (Dist.mapW φ d).candidates = d.candidates.map fun r => (r.1, Edge.mapW φ r.2) := by
  unfold Dist.candidates Dist.mapW
  rw [List.zipIdx_map, List.filterMap_map, List.map_filterMap]
  refine List.filterMap_congr fun x _ => ?_
  obtain ⟨⟨e, b⟩, k⟩ := x
  cases b <;> rfl

theorem vecOps : OpsHom φ (Dist.mapW φ) (Walky.vecOps (α := α)) (Walky.vecOps (α := β)) where
  fromDefault e n := by
    show List.replicate n _ = List.map _ (List.replicate n _)
    rw [List.map_replicate]
  find it d := by
    show Except.ok _ = Except.ok _
    refine congrArg _ ?_
    unfold Dist.find
    rw [candidates, minByFirst_map (lt := Dist.candLt) (lt' := Dist.candLt)
      (f := fun r : Nat × Edge α => (r.1, Edge.mapW φ r.2)) (fun a b => H.olt _ _)]
    have hl : (Dist.mapW φ d).length = d.length := List.length_map _
    rw [hl]
    cases minByFirst Dist.candLt d.candidates with
    | none => exact congrArg (fun w => (d.length, (⟨d.length, w⟩ : Edge β))) H.inf.symm
    | some r => rfl
  update it d v row n := by
    show Except.ok _ = Except.ok _
    refine congrArg _ ?_
    refine foldl_homid (φ := Dist.mapW φ) ?_ _ _
    intro s j
    unfold Dist.relax Dist.mapW
    refine (map_modify' (fun p => ?_) s j).symm
    have : (φ (row j) <ᶠ (p.1.mapW φ).cost) = (row j <ᶠ p.1.cost) := H.lt _ _
    simp only [this]
    split <;> rfl
  setCost d v e := by
    show Dist.setCost _ _ _ = _
    unfold Dist.setCost
    have hl : (Dist.mapW φ d).length = d.length := List.length_map _
    rw [hl]
    by_cases h : v < d.length
    · show _ = Except.map _ (if v < d.length then _ else _)
      rw [if_pos h, if_pos h, rmMap_ok]
      exact congrArg _ (map_modify' (g := fun p : Edge α × Bool => (p.1.mapW φ, p.2))
        (fun p => rfl) d v).symm
    · show _ = Except.map _ (if v < d.length then _ else _)
      rw [if_neg h, if_neg h, rmMap_err]
  markUsed d v := by
    show Dist.markUsed _ _ = _
    unfold Dist.markUsed
    have hl : (Dist.mapW φ d).length = d.length := List.length_map _
    rw [hl]
    by_cases h : v < d.length
    · show _ = Except.map _ (if v < d.length then _ else _)
      rw [if_pos h, if_pos h, rmMap_ok]
      exact congrArg _ (map_modify' (g := fun p : Edge α × Bool => (p.1.mapW φ, p.2))
        (fun p => rfl) d v).symm
    · show _ = Except.map _ (if v < d.length then _ else _)
      rw [if_neg h, if_neg h, rmMap_err]

theorem primSeq (m : Mat α) (ex : List Nat) :
    Walky.primSeq (m.mapW φ) ex = (Walky.primSeq m ex).map (Graph.mapW φ) := H.primGeneric H.vecOps m ex

theorem mstBound (m : Mat α) (pre : List Nat) :
    Walky.mstBound (m.mapW φ) pre = (Walky.mstBound m pre).map φ := by
  unfold Walky.mstBound
  rw [H.primSeq]
  exact rmMap_bind fun g => congrArg _ (H.directedEdgeWeight g)

/-! ## The recursive exact solvers -/

/-- two tests that correspond under `φ` and `ψ` -/
def _root_.Walky.TestHom {σ τ : Type} (φ : α → β) (ψ : σ → τ) (t : PruneTest σ α) (t' : PruneTest τ β) : Prop :=
  ∀ s pre cur best, t' (ψ s) pre (φ cur) (φ best) = (t s pre cur best).map fun r => (r.1, ψ r.2)

/-- solution and state of the test changed -/
def _root_.Walky.resMap {σ τ : Type} (φ : α → β) (ψ : σ → τ) (s : Solution α × σ) : Solution β × τ :=
  (solMap φ s.1, ψ s.2)

theorem dfs {σ τ : Type} {ψ : σ → τ} {t : PruneTest σ α} {t' : PruneTest τ β} (T : TestHom φ ψ t t')
    (m : Mat α) (fuel : Nat) (pre : List Nat) (cost : α) (s : Solution α × σ) :
    Walky.dfs (m.mapW φ) t' fuel pre (φ cost) (resMap φ ψ s) =
      (Walky.dfs m t fuel pre cost s).map (resMap φ ψ) := by
  induction fuel generalizing pre cost s with
  | zero => rfl
  | succ fuel ih =>
    unfold Walky.dfs
    show (if pre.length = m.dim then _ else _) = _
    split
    · refine rmMap_bind_id fun l => ?_
      refine rmMap_bind_id fun f => ?_
      rw [entry]
      refine rmMap_bind fun w => ?_
      have : ((φ cost +ᶠ φ w) <ᶠ (resMap φ ψ s).1.1) = ((cost +ᶠ w) <ᶠ s.1.1) := by
        rw [← H.add]
        exact H.lt _ _
      simp only [this]
      split
      · show Except.ok _ = Except.ok _
        rw [← H.add]
        rfl
      · rfl
    · have := foldlM_hom (φ := fun st : α × Solution α × σ => (φ st.1, resMap φ ψ st.2))
        (f := fun (st : α × Solution α × σ) i => do
          let (cur, s) := st
          if pre.contains i then return (cur, s)
          let pre' := pre ++ [i]
          if pre'.length = 1 then do
            let s ← Walky.dfs m t fuel pre' cur s
            return (cur, s)
          else do
            let a ← idx pre' (pre'.length - 2)
            let b ← idx pre' (pre'.length - 2 + 1)
            let w ← m.entry a b
            let cur := cur +ᶠ w
            let (go, aux) ← t s.2 pre' cur s.1.1
            let s ← if go then Walky.dfs m t fuel pre' cur (s.1, aux) else pure (s.1, aux)
            return (cur -ᶠ w, s))
        (g := fun (st : β × Solution β × τ) i => do
          let (cur, s) := st
          if pre.contains i then return (cur, s)
          let pre' := pre ++ [i]
          if pre'.length = 1 then do
            let s ← Walky.dfs (m.mapW φ) t' fuel pre' cur s
            return (cur, s)
          else do
            let a ← idx pre' (pre'.length - 2)
            let b ← idx pre' (pre'.length - 2 + 1)
            let w ← (m.mapW φ).entry a b
            let cur := cur +ᶠ w
            let (go, aux) ← t' s.2 pre' cur s.1.1
            let s ← if go then Walky.dfs (m.mapW φ) t' fuel pre' cur (s.1, aux) else pure (s.1, aux)
            return (cur -ᶠ w, s)) ?_ (List.range m.dim) (cost, s)
      · refine (congrArg (fun x => x >>= fun r => pure r.2) this).trans ?_
        exact rmMap_bind fun r => rfl
      · intro st i
        obtain ⟨cur, s⟩ := st
        show (if pre.contains i then _ else _) = Except.map _ (if pre.contains i then _ else _)
        split
        · rfl
        · show (if (pre ++ [i]).length = 1 then _ else _) =
            Except.map _ (if (pre ++ [i]).length = 1 then _ else _)
          split
          · show (Walky.dfs (m.mapW φ) t' fuel _ (φ cur) (resMap φ ψ s) >>= _) = _
            rw [ih]
            exact rmMap_bind fun r => rfl
          · refine rmMap_bind_id fun a => ?_
            refine rmMap_bind_id fun b => ?_
            rw [entry]
            refine rmMap_bind fun w => ?_
            show (t' (ψ s.2) (pre ++ [i]) (φ cur +ᶠ φ w) (φ s.1.1) >>= _) = _
            rw [← H.add, T]
            refine rmMap_bind fun r => ?_
            obtain ⟨go, aux⟩ := r
            cases go with
            | true =>
              show (Walky.dfs (m.mapW φ) t' fuel _ (φ (cur +ᶠ w)) (resMap φ ψ (s.1, aux)) >>= _) = _
              rw [ih]
              refine rmMap_bind fun r => ?_
              show Except.ok _ = Except.ok _
              rw [← H.sub]
            | false =>
              show Except.ok _ = Except.ok _
              rw [← H.sub]
              rfl

theorem solveDfs {σ τ : Type} {ψ : σ → τ} {t : PruneTest σ α} {t' : PruneTest τ β} (T : TestHom φ ψ t t')
    (m : Mat α) (aux : σ) :
    Walky.solveDfs (m.mapW φ) t' (ψ aux) = (Walky.solveDfs m t aux).map (solMap φ) := by
  unfold Walky.solveDfs
  have h := H.dfs T m (m.dim + 1) [] FloatOps.zero ((FloatOps.inf, []), aux)
  unfold resMap solMap at h
  simp only [H.zero, H.inf] at h
  show (Walky.dfs (m.mapW φ) t' (m.dim + 1) [] FloatOps.zero ((FloatOps.inf, []), ψ aux) >>= _) = _
  rw [h]
  exact rmMap_bind fun r => rfl

theorem test2 : TestHom φ id (Walky.test2 (α := α)) (Walky.test2 (α := β)) := fun _ _ _ _ => rfl

theorem test3 : TestHom φ id (Walky.test3 (α := α)) (Walky.test3 (α := β)) := by
  intro s pre cur best
  unfold Walky.test3
  rw [H.le]
  rfl

theorem shortestLaterEdge (m : Mat α) (sub : List Nat) (i : Nat) :
    Walky.shortestLaterEdge (m.mapW φ) sub i = φ (Walky.shortestLaterEdge m sub i) := by
  unfold Walky.shortestLaterEdge
  rw [← H.inf]
  refine foldl_homid ?_ _ _
  intro s j
  have : ((m.mapW φ).get i j <ᶠ φ s) = (m.get i j <ᶠ s) := H.lt _ _
  rw [this]
  split
  · rfl
  · split <;> rfl

theorem nnOfRemaining (m : Mat α) (sub : List Nat) :
    Walky.nnOfRemaining (m.mapW φ) sub = φ (Walky.nnOfRemaining m sub) := by
  unfold Walky.nnOfRemaining
  rw [← H.zero]
  refine foldl_homid ?_ _ _
  intro s i
  rw [H.shortestLaterEdge, ← H.inf]
  simp only [H.eq]
  split
  · rfl
  · split
    · exact (H.add _ _).symm
    · rfl

theorem test4 (m : Mat α) : TestHom φ id (Walky.test4 m) (Walky.test4 (m.mapW φ)) := by
  intro s pre cur best
  unfold Walky.test4
  rw [H.nnOfRemaining, ← H.add, H.le]
  rfl

theorem test5 (m : Mat α) : TestHom φ id (Walky.test5 m) (Walky.test5 (m.mapW φ)) := by
  intro s pre cur best
  unfold Walky.test5
  rw [H.mstBound]
  refine rmMap_bind fun lb => ?_
  rw [← H.add, H.le]
  rfl

theorem test6 (m : Mat α) (hash : List Nat → Nat) :
    TestHom φ (List.map fun x => (x.1, φ x.2)) (Walky.test6 m hash) (Walky.test6 (m.mapW φ) hash) := by
  intro s pre cur best
  unfold Walky.test6
  rw [H.mstBound]
  refine rmMap_bind fun lb => ?_
  have hl : (s.map fun x : Nat × α => (x.1, φ x.2)).lookup (hash pre) = (s.lookup (hash pre)).map φ := by
    induction s with
    | nil => rfl
    | cons x s ih =>
      obtain ⟨k, v⟩ := x
      rw [List.map_cons, List.lookup_cons, List.lookup_cons, ih]
      cases hash pre == k <;> rfl
  rw [hl]
  cases s.lookup (hash pre) with
  | none =>
    show Except.ok _ = Except.ok _
    rw [← H.add, H.le]
    rfl
  | some v =>
    show Except.ok _ = Except.ok _
    rw [← H.add, H.le]

/-! ## 1-trees -/

theorem oneTree (m : Mat α) (x : Nat) :
    Walky.oneTree (m.mapW φ) x = (Walky.oneTree m x).map (Graph.mapW φ) := by
  unfold Walky.oneTree
  show (if x < m.dim then _ else _) = _
  split
  · rw [H.primSeq]
    refine rmMap_bind fun g => ?_
    have h := foldl_homid (φ := fun s : Edge α × Edge α => (Edge.mapW φ s.1, Edge.mapW φ s.2))
      (f := twoMinStep x (m.get x)) (g := twoMinStep x ((m.mapW φ).get x)) ?_ (List.range m.dim)
      (⟨x, FloatOps.inf⟩, ⟨x, FloatOps.inf⟩)
    · rw [show (Edge.mapW φ ⟨x, FloatOps.inf⟩ : Edge β) = ⟨x, FloatOps.inf⟩ from
        congrArg _ H.inf] at h
      show (Graph.addUndirectedEdge _ x (List.foldl (twoMinStep x ((m.mapW φ).get x))
        (⟨x, FloatOps.inf⟩, ⟨x, FloatOps.inf⟩) (List.range m.dim)).1.dst _ >>= fun g' =>
        Graph.addUndirectedEdge g' x _ _) = _
      rw [show (m.mapW φ).dim = m.dim from rfl, h]
      show (Graph.addUndirectedEdge (Graph.mapW φ g) x _ (φ _) >>= _) = _
      rw [addUndirectedEdge]
      exact rmMap_bind fun g' => addUndirectedEdge φ g' x _ _
    · intro s j
      unfold twoMinStep
      have h1 : ((m.mapW φ).get x j <ᶠ (Edge.mapW φ s.1).cost) = (m.get x j <ᶠ s.1.cost) := H.lt _ _
      have h2 : ((m.mapW φ).get x j <ᶠ (Edge.mapW φ s.2).cost) = (m.get x j <ᶠ s.2.cost) := H.lt _ _
      simp only [h1, h2]
      split
      · rfl
      · split
        · rfl
        · split <;> rfl
  · rfl

theorem oneTreeLbSeq (m : Mat α) : Walky.oneTreeLbSeq (m.mapW φ) = (Walky.oneTreeLbSeq m).map φ := by
  unfold Walky.oneTreeLbSeq
  have hw : ∀ x, oneTreeWeight (m.mapW φ) x = (oneTreeWeight m x).map φ := by
    intro x
    unfold oneTreeWeight
    rw [H.oneTree]
    exact rmMap_bind fun g => congrArg _ (H.undirectedEdgeWeight g)
  rw [show (m.mapW φ).dim = m.dim from rfl, mapM_hom hw]
  refine rmMap_bind fun ws => ?_
  have hm : maxByL (ws.map φ) = (maxByL ws).map (Option.map φ) := by
    cases ws with
    | nil => rfl
    | cons x t =>
      show (List.foldlM maxPartial (φ x) (t.map φ) >>= _) = _
      rw [foldlM_hom_list (φ := φ) (ψ := φ) (f := maxPartial)]
      · exact rmMap_bind fun r => rfl
      · intro s a
        unfold maxPartial
        rw [H.isNaN, H.isNaN, H.lt]
        split
        · rfl
        · split <;> rfl
  rw [hm]
  exact rmMap_bind fun r => unwrapO_map φ r

/-! ## Nearest neighbour -/

/-- the distance of a state changed by `φ` -/
def _root_.Walky.NNState.mapW (φ : α → β) (s : NNState α) : NNState β :=
  { path := s.path, visited := s.visited, current := s.current, distance := φ s.distance }

theorem nnLoop (m : Mat α) (fuel : Nat) (s : NNState α) :
    Walky.nnLoop (m.mapW φ) fuel (s.mapW φ) = (Walky.nnLoop m fuel s).map (NNState.mapW φ) := by
  induction fuel generalizing s with
  | zero =>
    unfold Walky.nnLoop
    show (if s.path.length < m.dim then _ else _) = _
    split <;> rfl
  | succ fuel ih =>
    unfold Walky.nnLoop
    show (if s.path.length < m.dim then _ else _) = _
    split
    · have h := foldlM_hom (φ := fun x : Option Nat × α => (x.1, φ x.2))
        (f := nnScanStep m s.visited s.current) (g := nnScanStep (m.mapW φ) s.visited s.current) ?_
        (List.range m.dim) (none, FloatOps.inf)
      · rw [H.inf] at h
        show (List.foldlM (nnScanStep (m.mapW φ) s.visited s.current) (none, FloatOps.inf)
          (List.range m.dim) >>= _) = _
        rw [h]
        refine rmMap_bind fun r => ?_
        obtain ⟨x, d⟩ := r
        cases x with
        | none => rfl
        | some x =>
          show (if x < s.visited.length then _ else _) = Except.map _ (if x < s.visited.length then _ else _)
          split
          · have := ih { path := s.path ++ [x], visited := s.visited.set x true, current := x,
                         distance := s.distance +ᶠ d }
            unfold NNState.mapW at this
            rw [H.add] at this
            exact this
          · rfl
      · intro st j
        unfold nnScanStep
        refine rmMap_bind_id fun v => ?_
        cases v with
        | true => rfl
        | false =>
          show ((m.mapW φ).entry s.current j >>= _) = Except.map _ (m.entry s.current j >>= _)
          rw [entry]
          refine rmMap_bind fun d => ?_
          rw [H.lt]
          split <;> rfl
    · rfl

theorem singleNN (m : Mat α) (x : Nat) :
    Walky.singleNN (m.mapW φ) x = (Walky.singleNN m x).map (solMap φ) := by
  unfold Walky.singleNN
  show (if x < m.dim then _ else _) = _
  split
  · have h := H.nnLoop m m.dim
      { path := [x], visited := (List.replicate m.dim false).set x true, current := x,
        distance := FloatOps.zero }
    unfold NNState.mapW at h
    rw [H.zero] at h
    show (Walky.nnLoop (m.mapW φ) m.dim
      { path := [x], visited := (List.replicate m.dim false).set x true, current := x,
        distance := FloatOps.zero } >>= _) = _
    rw [h]
    refine rmMap_bind fun s => ?_
    show ((m.mapW φ).entry s.current x >>= _) = _
    rw [entry]
    refine rmMap_bind fun d => ?_
    show Except.ok _ = Except.ok _
    rw [← H.add]
    rfl
  · rfl

theorem nNNSeq (xs : List Nat) (m : Mat α) (n : Nat) :
    Walky.nNNSeq xs (m.mapW φ) n = (Walky.nNNSeq xs m n).map (solMap φ) := by
  unfold Walky.nNNSeq
  show (if n = 0 then _ else if m.dim < n then _ else _) = _
  split
  · rfl
  · split
    · rfl
    · rw [mapM_hom (H.singleNN m)]
      refine rmMap_bind fun ls => ?_
      rw [minByFirst_map (lt := solLt) (lt' := solLt) (f := solMap φ) (fun a b => H.olt _ _)]
      exact unwrapO_map _ _

/-! ## Christofides -/

theorem optimizeTwo (m : Mat α) (e f : Nat × Nat) :
    Walky.optimizeTwo (m.mapW φ) e f = Walky.optimizeTwo m e f := by
  have hid : ∀ x : RM ((Nat × Nat) × (Nat × Nat)), x = x.map id := fun x => by cases x <;> rfl
  conv_rhs => rw [hid (Walky.optimizeTwo m e f)]
  unfold Walky.optimizeTwo
  simp only [entry]
  refine rmMap_bind fun c01 => ?_
  refine rmMap_bind fun c23 => ?_
  refine rmMap_bind fun c02 => ?_
  refine rmMap_bind fun c13 => ?_
  refine rmMap_bind fun c03 => ?_
  refine rmMap_bind fun c12 => ?_
  simp only [← H.add, H.lt]
  exact hid _

theorem improvePairs (m : Mat α) : ∀ l : List (Nat × Nat),
    Walky.improvePairs (m.mapW φ) l = Walky.improvePairs m l
  | [] => rfl
  | [_] => rfl
  | a :: b :: t => by
    unfold Walky.improvePairs
    rw [H.optimizeTwo, improvePairs m t]

theorem improveMatching (m : Mat α) (shuf : Nat → List (Nat × Nat) → List (Nat × Nat)) (tries : Nat)
    (l : List (Nat × Nat)) :
    Walky.improveMatching (m.mapW φ) shuf tries l = Walky.improveMatching m shuf tries l := by
  unfold Walky.improveMatching
  simp only [H.improvePairs]

omit H [FloatOps α] [FloatOps β] in
theorem oddVertices (φ : α → β) (g : Graph α) :
    Walky.oddVertices (Graph.mapW φ g) = Walky.oddVertices g := by
  unfold Walky.oddVertices Graph.mapW
  rw [List.zipIdx_map, List.filterMap_map]
  refine List.filterMap_congr fun x _ => ?_
  obtain ⟨l, k⟩ := x
  simp [Function.comp]

theorem computeApproxMatching (r : MatchRng) (g : Graph α) (m : Mat α) :
    Walky.computeApproxMatching r (Graph.mapW φ g) (m.mapW φ) = Walky.computeApproxMatching r g m := by
  unfold Walky.computeApproxMatching approxMatchingSeq
  rw [oddVertices, H.improveMatching]

/-- the costs of a multigraph changed by `φ` -/
def _root_.Walky.MGraph.mapW (φ : α → β) (g : MGraph α) : MGraph β :=
  ⟨g.dim, fun i j => (φ (g.cell i j).1, (g.cell i j).2)⟩

omit H [FloatOps α] [FloatOps β] in
theorem put (φ : α → β) (g : MGraph α) (i j : Nat) (x : α × Nat) :
    (g.mapW φ).put i j (φ x.1, x.2) = (g.put i j x).mapW φ := by
  unfold MGraph.put MGraph.mapW
  refine congrArg (MGraph.mk g.dim) ?_
  funext a b
  show (if _ then _ else _) = (φ (if _ then _ else _ : α × Nat).1, (if _ then _ else _ : α × Nat).2)
  split <;> rfl

omit H [FloatOps α] [FloatOps β] in
theorem setTimes (φ : α → β) (g : MGraph α) (i j k : Nat) :
    (g.mapW φ).setTimes i j k = (g.setTimes i j k).mapW φ := put φ g i j ((g.cell i j).1, k)

omit H [FloatOps α] [FloatOps β] in
theorem fillSeq (φ : α → β) (m : Mat α) (mst : Graph α) (mt : List (Nat × Nat)) :
    Walky.fillSeq (m.mapW φ) (Graph.mapW φ mst) mt = (Walky.fillSeq m mst mt).map (MGraph.mapW φ) := by
  unfold Walky.fillSeq fillMstSeq
  have h1 : (Graph.mapW φ mst).length = mst.length := List.length_map _
  rw [h1]
  show ((List.range (min mst.length m.dim)).foldlM _ ((emptyMulti m).mapW φ) >>= _) = _
  rw [foldlM_hom (φ := MGraph.mapW φ) (f := fun g i => do
    let edges ← idx mst i
    fillRow g i edges)]
  · refine rmMap_bind fun g => ?_
    unfold fillMatchingSeq
    refine foldlM_hom ?_ _ _
    intro g e
    have hinc : ∀ (g : MGraph α) i j, (g.mapW φ).inc i j = (g.inc i j).map (MGraph.mapW φ) := by
      intro g i j
      unfold MGraph.inc
      show (if i < g.dim ∧ j < g.dim then _ else _) = _
      split
      · exact congrArg _ (setTimes φ g i j _)
      · rfl
    rw [hinc]
    exact rmMap_bind fun g => hinc g _ _
  · intro g i
    unfold Graph.mapW
    rw [idx_map]
    refine rmMap_bind fun es => ?_
    unfold fillRow
    refine foldlM_hom_list ?_ es g
    intro g e
    show (if e.dst < g.dim then _ else _) = _
    split
    · exact congrArg _ (put φ g i e.dst (e.cost, 1))
    · rfl

omit H [FloatOps α] [FloatOps β] in
theorem findCycleLoop (φ : α → β) (dbg : Bool) (fuel : Nat) (g : MGraph α) (deg : List Nat) (v : Nat)
    (cyc : List Nat) :
    Walky.findCycleLoop dbg fuel (g.mapW φ) deg v cyc =
      (Walky.findCycleLoop dbg fuel g deg v cyc).map fun r => (r.1, r.2.1.mapW φ, r.2.2) := by
  have hdec : ∀ (g : MGraph α) i j, (g.mapW φ).dec dbg i j = (g.dec dbg i j).map (MGraph.mapW φ) := by
    intro g i j
    unfold MGraph.dec
    show (if i < g.dim ∧ j < g.dim then _ else _) = _
    split
    · exact rmMap_bind_id fun x => congrArg _ (setTimes φ g i j _)
    · rfl
  induction fuel generalizing g deg v cyc with
  | zero => rfl
  | succ fuel ih =>
    unfold Walky.findCycleLoop
    show (if v < g.dim then _ else _) = _
    split
    · show (match (List.range g.dim).find? (fun j => g.times v j != 0) with
        | none => _
        | some next => _) = _
      cases (List.range g.dim).find? (fun j => g.times v j != 0) with
      | none => rfl
      | some next =>
        show ((g.mapW φ).dec dbg v next >>= _) = Except.map _ (g.dec dbg v next >>= _)
        rw [hdec]
        refine rmMap_bind fun g => ?_
        rw [hdec]
        refine rmMap_bind fun g => ?_
        refine rmMap_bind_id fun x => ?_
        refine rmMap_bind_id fun d => ?_
        refine rmMap_bind_id fun x => ?_
        refine rmMap_bind_id fun d => ?_
        exact ih _ _ _ _
    · rfl

omit H [FloatOps α] [FloatOps β] in
theorem eulerLoop (φ : α → β) (dbg : Bool) (fuel : Nat) (g : MGraph α) (deg walk : List Nat) :
    Walky.eulerLoop dbg fuel (g.mapW φ) deg walk = Walky.eulerLoop dbg fuel g deg walk := by
  have hid : ∀ x : RM (List Nat), x = x.map id := fun x => by cases x <;> rfl
  induction fuel generalizing g deg walk with
  | zero => rfl
  | succ fuel ih =>
    conv_rhs => rw [hid (Walky.eulerLoop dbg (fuel + 1) g deg walk)]
    unfold Walky.eulerLoop
    refine rmMap_bind_id fun o => ?_
    cases o with
    | none => rfl
    | some kv =>
      obtain ⟨k, v⟩ := kv
      show (Walky.findCycleLoop dbg (vecLimit + deg.sum) (g.mapW φ) deg v [v] >>= _) =
        Except.map _ (Walky.findCycleLoop dbg (vecLimit + deg.sum) g deg v [v] >>= _)
      rw [findCycleLoop]
      refine rmMap_bind fun r => ?_
      obtain ⟨cyc, g, deg⟩ := r
      rw [← hid]
      exact ih _ _ _

theorem christofidesTail (dbg : Bool) (m : Mat α) (g : MGraph α) :
    Walky.christofidesTail dbg (m.mapW φ) (g.mapW φ) =
      (Walky.christofidesTail dbg m g).map (solMap φ) := by
  unfold Walky.christofidesTail eulerianCycle
  show (Walky.eulerLoop dbg (vecLimit + (multiDegrees g).sum) (g.mapW φ) (multiDegrees g) [0] >>= _) = _
  rw [eulerLoop]
  refine rmMap_bind_id fun walk => ?_
  refine rmMap_bind_id fun ham => ?_
  rw [mapM_hom (φ := φ) (f := fun e : Nat × Nat => m.entry e.1 e.2) (fun e => entry φ m e.1 e.2)]
  refine rmMap_bind fun cs => ?_
  show (if dbg && !isHamiltonianCycle ham m.dim then _ else _) = _
  split
  · rfl
  · show Except.ok _ = Except.ok _
    rw [H.sum]
    rfl

theorem christofidesSeq (dbg : Bool) (m : Mat α) (r : MatchRng)
    (h : dbg = true → (m.mapW φ).isMetric = m.isMetric) :
    Walky.christofidesSeq dbg (m.mapW φ) r = (Walky.christofidesSeq dbg m r).map (solMap φ) := by
  unfold Walky.christofidesSeq christofidesGeneric
  have hc : (dbg && !(m.mapW φ).isMetric) = (dbg && !m.isMetric) := by
    cases dbg with
    | false => rfl
    | true => rw [h rfl]
  rw [hc]
  split
  · rfl
  · rw [H.primSeq]
    refine rmMap_bind fun g => ?_
    rw [H.computeApproxMatching]
    refine rmMap_bind_id fun mt => ?_
    rw [fillSeq]
    exact rmMap_bind fun g => H.christofidesTail dbg m g

/-! ## Several threads -/

theorem searchPrefix (m : Mat α) (pre : List Nat) :
    Walky.searchPrefix (m.mapW φ) pre = (Walky.searchPrefix m pre).map (solMap φ) := by
  unfold Walky.searchPrefix
  rw [H.evaluatePath]
  refine rmMap_bind fun w => ?_
  have h := H.dfs (H.test5 m) m (m.dim + 1) pre w ((FloatOps.inf, []), ())
  unfold resMap solMap at h
  simp only [H.inf] at h
  show (Walky.dfs (m.mapW φ) (Walky.test5 (m.mapW φ)) (m.dim + 1) pre (φ w) ((FloatOps.inf, []), id ()) >>= _) = _
  rw [h]
  exact rmMap_bind fun r => rfl

/-- the pending result of a thread changed by `φ` -/
def _root_.Walky.TState.mapW (φ : α → β) (t : TState α) : TState β :=
  { digits := t.digits, maxDigits := t.maxDigits, pending := t.pending.map (solMap φ), done := t.done }

/-- all results changed by `φ` -/
def _root_.Walky.TSys.mapW (φ : α → β) (s : TSys α) : TSys β :=
  { threads := s.threads.map (TState.mapW φ), best := solMap φ s.best }

theorem threadStep (m : Mat α) (t : TState α) (best : Solution α) :
    Walky.threadStep (m.mapW φ) (t.mapW φ) (solMap φ best) =
      (Walky.threadStep m t best).map fun r => (r.1.mapW φ, solMap φ r.2) := by
  obtain ⟨digits, maxDigits, pending, done⟩ := t
  cases pending with
  | some r =>
    show Except.ok _ = Except.ok _
    refine congrArg _ (Prod.ext rfl ?_)
    show (if (solMap φ r).1 <ᶠ (solMap φ best).1 then solMap φ r else solMap φ best) = _
    have : ((solMap φ r).1 <ᶠ (solMap φ best).1) = (r.1 <ᶠ best.1) := H.lt _ _
    rw [this]
    show _ = solMap φ (if r.1 <ᶠ best.1 then r else best)
    split <;> rfl
  | none =>
    show (getNextValue digits m.dim >>= _) = Except.map _ (getNextValue digits m.dim >>= _)
    refine rmMap_bind_id fun r => ?_
    obtain ⟨ds, next⟩ := r
    cases next with
    | none => rfl
    | some v =>
      show (if v = maxDigits then _ else if isUnique v then _ else _) =
        Except.map _ (if v = maxDigits then _ else if isUnique v then _ else _)
      split
      · rfl
      · split
        · rw [H.searchPrefix]
          exact rmMap_bind fun r => rfl
        · rfl

theorem threadSteps {m : Mat α} {n : Nat} {s0 s : TSys α} (hs : Steps (TSys.step m) n s0 s) :
    Steps (TSys.step (m.mapW φ)) n (s0.mapW φ) (s.mapW φ) := by
  induction hs with
  | refl => exact .refl _
  | tail hs hstep ih =>
    refine .tail ih ?_
    obtain ⟨i, t, t', b, ht, hd, hstep, rfl⟩ := hstep
    refine ⟨i, t.mapW φ, t'.mapW φ, solMap φ b, ?_, hd, ?_, ?_⟩
    · show (List.map _ _)[i]? = _
      rw [List.getElem?_map, ht]
      rfl
    · show Walky.threadStep _ _ (solMap φ _) = _
      rw [H.threadStep, hstep]
      rfl
    · show TSys.mk (List.map _ (List.set _ _ _)) _ = _
      rw [List.map_set]
      rfl

theorem threadedResult {m : Mat α} {pl nt : Nat} {r : Solution α} (h : ThreadedResult m pl nt r) :
    ThreadedResult (m.mapW φ) pl nt (solMap φ r) := by
  unfold ThreadedResult at h ⊢
  show if m.dim ≤ nt then _ else _
  split
  · rw [if_pos (by assumption)] at h
    have h5 := H.solveDfs (H.test5 m) m ()
    unfold fifthImprovedSolver at h ⊢
    rw [h] at h5
    exact h5
  · rw [if_neg (by assumption)] at h
    obtain ⟨s0, n, s, h0, hs, hf, rfl⟩ := h
    refine ⟨s0.mapW φ, n, s.mapW φ, ?_, ?_, ?_, rfl⟩
    · unfold initThreads at h0 ⊢
      rw [mapM_hom (φ := TState.mapW φ) (f := fun i => do
        let (lo, hi) ← splitChunks pl m.dim nt i
        return { digits := lo, maxDigits := hi, pending := none, done := false })]
      · have : (.ok (s0.mapW φ) : RM (TSys β)) = Except.map (TSys.mapW φ) (.ok s0) := rfl
        rw [this, ← h0]
        refine rmMap_bind fun ts => ?_
        show Except.ok _ = Except.ok _
        refine congrArg _ ?_
        show TSys.mk _ _ = TSys.mk _ (φ _, [])
        rw [H.inf]
      · exact fun i => rmMap_bind_id fun r => rfl
    · exact H.threadSteps hs
    · intro t ht
      obtain ⟨t', ht', rfl⟩ := List.mem_map.mp ht
      exact hf t' ht'

end FloatHom

end Walky
