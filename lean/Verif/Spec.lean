import Mathlib.Algebra.Order.Field.Basic
import Mathlib.Data.List.Perm.Basic
import Mathlib.Data.List.Range
import Mathlib.Logic.Relation

/-!
# Specification vocabulary

Independent of the model: plain mathematics about cities `0, …, n-1` and a cost function
`c : Nat → Nat → K`.
-/

namespace Walky.Spec

variable {K : Type*}

/-- `p` visits each of the cities `0, …, n-1` exactly once. -/
def IsTour (n : Nat) (p : List Nat) : Prop := p.Perm (List.range n)

section cost
variable [AddCommMonoid K]

/-- Length of the open walk `p`. -/
def pathCost (c : Nat → Nat → K) : List Nat → K
  | [] => 0
  | [_] => 0
  | a :: b :: t => c a b + pathCost c (b :: t)

/-- Length of the closed walk that goes through `p` and returns to its first vertex. -/
def tourCost (c : Nat → Nat → K) : List Nat → K
  | [] => 0
  | a :: t => pathCost c (a :: t ++ [a])

/-- `p` is a tour and no tour is shorter. -/
def IsShortest [LE K] (n : Nat) (c : Nat → Nat → K) (p : List Nat) : Prop :=
  IsTour n p ∧ ∀ q, IsTour n q → tourCost c p ≤ tourCost c q

end cost

/-- The cost function is symmetric on the cities. -/
def Symm (n : Nat) (c : Nat → Nat → K) : Prop :=
  ∀ i j, i < n → j < n → c i j = c j i

/-- Costs between different cities are not negative. -/
def Nonneg [Zero K] [LE K] (n : Nat) (c : Nat → Nat → K) : Prop :=
  ∀ i j, i < n → j < n → i ≠ j → 0 ≤ c i j

/-- Triangle inequality, zero diagonal and symmetry. -/
structure Metric [AddCommMonoid K] [LE K] (n : Nat) (c : Nat → Nat → K) : Prop where
  diag : ∀ i, i < n → c i i = 0
  symm : Symm n c
  tri : ∀ i j k, i < n → j < n → k < n → c i j ≤ c i k + c k j

/-! ## Edge sets -/

/-- `a` and `b` are the ends of an edge of `E`. -/
def Joined (E : List (Nat × Nat)) (a b : Nat) : Prop := (a, b) ∈ E ∨ (b, a) ∈ E

/-- Any two vertices of `U` are linked by a walk along edges of `E`. -/
def Connects (E : List (Nat × Nat)) (U : List Nat) : Prop :=
  ∀ a ∈ U, ∀ b ∈ U, Relation.ReflTransGen (Joined E) a b

/-- `E` is a spanning tree of the vertices `U`: edges between different vertices of `U`, connected,
one edge less than vertices. -/
structure IsSpanningTree (U : List Nat) (E : List (Nat × Nat)) : Prop where
  ends : ∀ e ∈ E, e.1 ∈ U ∧ e.2 ∈ U ∧ e.1 ≠ e.2
  conn : Connects E U
  count : E.length + 1 = U.length

/-- total cost of the edges -/
def edgeSum [AddCommMonoid K] (c : Nat → Nat → K) (E : List (Nat × Nat)) : K :=
  (E.map fun e => c e.1 e.2).sum

/-- the cities `0, …, n-1` without the excluded ones -/
def citiesExcept (n : Nat) (ex : List Nat) : List Nat :=
  (List.range n).filter fun i => !ex.contains i

/-- the ends, seen from `i`, of the edges of `E` at `i`, with their costs -/
def edgesAt (c : Nat → Nat → K) (E : List (Nat × Nat)) (i : Nat) : List (Nat × K) :=
  E.flatMap fun e => (if e.1 = i then [(e.2, c e.1 e.2)] else []) ++
    (if e.2 = i then [(e.1, c e.1 e.2)] else [])

/-! ## Matchings -/

/-- the ends of the edges -/
def ends (E : List (Nat × Nat)) : List Nat := E.flatMap fun e => [e.1, e.2]

/-- the vertices among `0, …, n-1` at which an odd number of edges ends -/
def oddDegree (n : Nat) (E : List (Nat × Nat)) : List Nat :=
  (List.range n).filter fun i => (ends E).count i % 2 = 1

/-- every vertex of `V` is an end of exactly one edge, and no other vertex is -/
def PerfectMatching (V : List Nat) (M : List (Nat × Nat)) : Prop := (ends M).Perm V

/-- a perfect matching of smallest cost -/
def MinMatching [AddCommMonoid K] [LE K] (c : Nat → Nat → K) (V : List Nat) (M : List (Nat × Nat)) :
    Prop :=
  PerfectMatching V M ∧ ∀ M', PerfectMatching V M' → edgeSum c M ≤ edgeSum c M'

/-- number of edges of `E` between two different vertices `i` and `j`; twice the number of loops
for `i = j` -/
def multiplicity (E : List (Nat × Nat)) (i j : Nat) : Nat := E.count (i, j) + E.count (j, i)

/-- no edge of the list is repeated, in either direction -/
def NoRepeat (M : List (Nat × Nat)) : Prop := M.Pairwise fun e f => f ≠ e ∧ f ≠ e.swap

/-- No four different cities have three pairings of three different costs in which the pairing
`03, 12` beats `02, 13`, which beats `01, 23`. (For a symmetric cost function: the two most expensive of
the three pairings of any four cities cost the same, or the two cheapest do, or all of them do.) -/
def NoThree [Add K] [LT K] (n : Nat) (c : Nat → Nat → K) : Prop :=
  ∀ v0 v1 v2 v3, v0 < n → v1 < n → v2 < n → v3 < n → [v0, v1, v2, v3].Nodup →
    ¬ (c v0 v3 + c v1 v2 < c v0 v2 + c v1 v3 ∧ c v0 v2 + c v1 v3 < c v0 v1 + c v2 v3)

end Walky.Spec
