import Verif.Model.Base
import Verif.Spec

/-! # Relation between model matrices and cost functions -/

namespace Walky

variable {K : Type}

/-- The matrix `m` holds the finite costs `c` between different cities. (The diagonal is never
read by a tour, except for the single city of a 1×1 matrix.) -/
structure Rep (m : Mat (XNum K)) (c : Nat → Nat → K) : Prop where
  off : ∀ i j, i < m.dim → j < m.dim → i ≠ j → m.get i j = .fin (c i j)
  single : m.dim = 1 → m.get 0 0 = .fin (c 0 0)

/-- The matrix with the finite entries `c`. -/
def Mat.ofFun (n : Nat) (c : Nat → Nat → K) : Mat (XNum K) :=
  { dim := n, get := fun i j => .fin (c i j) }

theorem rep_ofFun (n : Nat) (c : Nat → Nat → K) : Rep (Mat.ofFun n c) c :=
  ⟨fun _ _ _ _ _ => rfl, fun _ => rfl⟩

/-- cost function given by rows (0 outside) -/
def ofRowsC [Zero K] (rows : List (List K)) : Nat → Nat → K :=
  fun i j => ((rows[i]?).bind (·[j]?)).getD 0

/-- The matrix with the given rows of finite numbers. -/
def Mat.ofRowsFin [Zero K] (rows : List (List K)) : Mat (XNum K) :=
  Mat.ofFun rows.length (ofRowsC rows)

/-- The adjacency lists `g` of `n` vertices hold the undirected edges `E` with the costs `c` (each
edge once at both of its ends, in the order of `E`) and nothing else. -/
structure GraphOf (n : Nat) (c : Nat → Nat → K) (E : List (Nat × Nat)) (g : Graph (XNum K)) :
    Prop where
  len : g.length = n
  adj : ∀ i < n, g[i]? = some ((Spec.edgesAt c E i).map fun x => ⟨x.1, .fin x.2⟩)

/-- Every vertex of the graph `g` has exactly one edge to every other vertex and none to itself, and
the costs of both directions are equal. -/
structure CompleteUndirected {α : Type} [FloatOps α] (g : Graph α) : Prop where
  ends : ∀ (i : Nat) (es : List (Edge α)), g[i]? = some es →
    (es.map Edge.dst).Perm ((List.range g.length).erase i)
  costs : ∀ (i j : Nat) (es fs : List (Edge α)), g[i]? = some es → g[j]? = some fs →
    ∀ e ∈ es, ∀ f ∈ fs, e.dst = j → f.dst = i → FloatOps.eq f.cost e.cost = true

/-- no vertex has an edge to itself -/
def NoLoop {α : Type} (g : Graph α) : Prop :=
  ∀ (i : Nat) (es : List (Edge α)), g[i]? = some es → ∀ e ∈ es, e.dst ≠ i

/-- `sqrt` is the exact square root of the numbers that are not negative -/
def ExactSqrt [Zero K] [Mul K] [LE K] (sqrt : XNum K → XNum K) (s : K → K) : Prop :=
  ∀ x, 0 ≤ x → sqrt (.fin x) = .fin (s x) ∧ 0 ≤ s x ∧ s x * s x = x

/-- points with finite coordinates -/
def finPoints (pts : List (K × K)) : List (XNum K × XNum K) := pts.map fun p => (.fin p.1, .fin p.2)

end Walky
