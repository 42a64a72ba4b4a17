import Verif.Examples
import Verif.Model.Permutation
import Verif.Model.Exact
import Verif.Model.Threaded
import Verif.Model.OneTree
import Verif.Model.NearestNeighbour
import Verif.Model.Christofides
import Verif.Model.Instance
import Verif.Lemmas.Instance

/-!
# The unit tests of the repository, run on the model

Every `#[test]` of the repository that concerns modelled code, as a statement about the model that the
kernel checks by evaluation. Decimal fractions are exact here; where the test compares up to rounding, the
sum of the same decimals is compared. Tests of the XML parser and of containers of other crates are left
out, and so are the searches over nine cities without pruning.
-/

namespace Walky.Conformance

open FloatOps XNum

/-- a graph with rational costs -/
def toGraph (g : List (List (Nat × ℚ))) : Graph (XNum ℚ) := g.map fun v => v.map fun e => ⟨e.1, .fin e.2⟩

/-- the matrix of a graph, as rows -/
def toMat (g : List (List (Nat × ℚ))) : Mat (XNum ℚ) :=
  .ofRows (g.zipIdx.map fun v => (List.range g.length).map fun j =>
    if v.2 = j then .fin 0 else ((v.1.lookup j).map .fin).getD .inf)

/-- rows of a matrix -/
def rows (m : Mat (XNum ℚ)) : List (List (XNum ℚ)) :=
  (List.range m.dim).map fun i => (List.range m.dim).map fun j => m.get i j

/-- result of a conversion, as rows -/
def rowsOf (r : RM (Mat (XNum ℚ))) : RM (List (List (XNum ℚ))) := r.map rows

/-- rational rows -/
def fins (l : List (List ℚ)) : List (List (XNum ℚ)) := l.map fun r => r.map .fin

/-- `exact.rs` `SMALL_FLOAT_GRAPH` -/
def smallFloatGraph : List (List (Nat × ℚ)) :=
  [[(1, 13.215648444670196), (2, 9.674413400408712), (3, 1.0970596862282833),
    (4, 16.098684067859647)],
   [(0, 13.215648444670196), (2, 12.221639547131913), (3, 17.306826463341803),
    (4, 8.321138140452149)],
   [(0, 9.674413400408712), (1, 12.221639547131913), (3, 4.6376150266768885),
    (4, 15.838066781407072)],
   [(0, 1.0970596862282833), (1, 17.306826463341803), (2, 4.6376150266768885),
    (4, 6.102211932446107)],
   [(0, 16.098684067859647), (1, 8.321138140452149), (2, 15.838066781407072),
    (3, 6.102211932446107)]]

/-- `exact.rs` `BIG_FLOAT_GRAPH` -/
def bigFloatGraph : List (List (Nat × ℚ)) :=
  [[(1, 5.357166694956081), (2, 12.673287166274285), (3, 15.392922519581575),
    (4, 1.8824165228898004), (5, 1.0673823908781577), (6, 8.668326879490138),
    (7, 18.956348946357103), (8, 5.399642479870355)],
   [(0, 5.357166694956081), (2, 11.139733539749999), (3, 1.661032458795486),
    (4, 18.702631945210115), (5, 3.847655828276122), (6, 15.73510598766653),
    (7, 0.24655608854276645), (8, 4.321598762165737)],
   [(0, 12.673287166274285), (1, 11.139733539749999), (3, 2.1803729313885345),
    (4, 16.313099247004377), (5, 5.585527987185975), (6, 8.932741722100753),
    (7, 12.6998544424725), (8, 9.05733402266841)],
   [(0, 15.392922519581575), (1, 1.661032458795486), (2, 2.1803729313885345),
    (4, 3.340513012587236), (5, 1.46551068868777), (6, 2.6426709551798355),
    (7, 4.492948831722041), (8, 13.41757522658849)],
   [(0, 1.8824165228898004), (1, 18.702631945210115), (2, 16.313099247004377),
    (3, 3.340513012587236), (5, 9.568614854660245), (6, 6.849461885327388),
    (7, 7.455992424446736), (8, 19.61866966591363)],
   [(0, 1.0673823908781577), (1, 3.847655828276122), (2, 5.585527987185975),
    (3, 1.46551068868777), (4, 9.568614854660245), (6, 7.516298524772413),
    (7, 17.155030102652216), (8, 17.46182408314527)],
   [(0, 8.668326879490138), (1, 15.73510598766653), (2, 8.932741722100753),
    (3, 2.6426709551798355), (4, 6.849461885327388), (5, 7.516298524772413),
    (7, 5.959449216135542), (8, 11.172366336098495)],
   [(0, 18.956348946357103), (1, 0.24655608854276645), (2, 12.6998544424725),
    (3, 4.492948831722041), (4, 7.455992424446736), (5, 17.155030102652216),
    (6, 5.959449216135542), (8, 8.168048838216963)],
   [(0, 5.399642479870355), (1, 4.321598762165737), (2, 9.05733402266841), (3, 13.41757522658849),
    (4, 19.61866966591363), (5, 17.46182408314527), (6, 11.172366336098495),
    (7, 8.168048838216963)]]

/-- `exact.rs` `SMALL_INT_GRAPH` -/
def smallIntGraph : List (List (Nat × ℚ)) :=
  [[(1, 5), (2, 4), (3, 10)],
   [(0, 5), (2, 8), (3, 5)],
   [(0, 4), (1, 8), (3, 3)],
   [(0, 10), (1, 5), (2, 3)]]

/-- `nearest_neighbour.rs` `integer_graph_5x5` -/
def graph5 : List (List (Nat × ℚ)) :=
  [[(1, 6), (2, 8), (3, 5), (4, 3)],
   [(0, 6), (2, 9), (3, 5), (4, 4)],
   [(0, 8), (1, 9), (3, 8), (4, 5)],
   [(0, 5), (1, 5), (2, 8), (4, 6)],
   [(0, 3), (1, 4), (2, 5), (3, 6)]]

/-- `nearest_neighbour.rs` `integer_graph_10x10` -/
def graph10 : List (List (Nat × ℚ)) :=
  [[(1, 8), (2, 6), (3, 7), (4, 4), (5, 2), (6, 4), (7, 5), (8, 5), (9, 5)],
   [(0, 8), (2, 2), (3, 6), (4, 8), (5, 3), (6, 2), (7, 7), (8, 1), (9, 6)],
   [(0, 6), (1, 2), (3, 4), (4, 6), (5, 5), (6, 5), (7, 5), (8, 4), (9, 5)],
   [(0, 7), (1, 6), (2, 4), (4, 5), (5, 6), (6, 6), (7, 4), (8, 2), (9, 2)],
   [(0, 4), (1, 8), (2, 6), (3, 5), (5, 9), (6, 6), (7, 3), (8, 6), (9, 5)],
   [(0, 2), (1, 3), (2, 5), (3, 6), (4, 9), (6, 4), (7, 2), (8, 3), (9, 6)],
   [(0, 4), (1, 2), (2, 5), (3, 6), (4, 6), (5, 4), (7, 5), (8, 3), (9, 4)],
   [(0, 5), (1, 7), (2, 5), (3, 4), (4, 3), (5, 2), (6, 5), (8, 5), (9, 7)],
   [(0, 5), (1, 1), (2, 4), (3, 2), (4, 6), (5, 3), (6, 3), (7, 5), (9, 6)],
   [(0, 5), (1, 6), (2, 5), (3, 2), (4, 5), (5, 6), (6, 4), (7, 7), (8, 6)]]

/-! ## `exact.rs` -/

/-- `exact.rs` `is_same_undirected_circle` -/
def sameCircle (a b : List Nat) : Bool :=
  a.length == b.length && (List.range a.length).any fun i =>
    (a.drop i ++ a.take i == b) || ((a.drop i ++ a.take i).reverse == b)

/-- `test_is_same_undirected_circle`, `test_not_same_undirected_circle` -/
example : sameCircle [1, 2, 3, 4, 5, 6] [4, 3, 2, 1, 6, 5] = true ∧
    sameCircle [1, 2, 3, 4, 5, 6] [4, 3, 2, 6, 1, 5] = false := by decide

/-- a solver returns the cost and the circle -/
def Finds (r : RM (Solution (XNum ℚ))) (cost : ℚ) (circle : List Nat) : Bool :=
  match r with
  | .ok (c, p) => c == .fin cost && sameCircle circle p
  | .error _ => false

/-- the conversions of the graphs of the tests -/
example : rowsOf (naFromGraph (toGraph smallFloatGraph)) = .ok (rows (toMat smallFloatGraph)) ∧
    rowsOf (naFromGraph (toGraph bigFloatGraph)) = .ok (rows (toMat bigFloatGraph)) ∧
    rowsOf (naFromGraph (toGraph smallIntGraph)) = .ok (rows (toMat smallIntGraph)) ∧
    rowsOf (naFromGraph (toGraph graph5)) = .ok (rows (toMat graph5)) ∧
    rowsOf (naFromGraph (toGraph graph10)) = .ok (rows (toMat graph10)) := by decide +kernel

/-- `test_float_tsp_namatrix` -/
example : let m := toMat smallFloatGraph
    let cost := 1.0970596862282833 + 6.102211932446107 + 8.321138140452149 + 12.221639547131913 +
      9.674413400408712
    let circle := [0, 3, 4, 1, 2]
    Finds (naiveSolver m) cost circle ∧ Finds (firstImprovedSolver m) cost circle ∧
    Finds (secondImprovedSolver m) cost circle ∧ Finds (thirdImprovedSolver m) cost circle ∧
    Finds (fourthImprovedSolver m) cost circle ∧ Finds (fifthImprovedSolver m) cost circle ∧
    Finds (sixthImprovedSolver m (fun l => (l.map (2 ^ ·)).sum)) cost circle := by decide +kernel

/-- `test_big_floating_tsp_namatrix`, except for v0 - v3 -/
example : let m := toMat bigFloatGraph
    let cost := 1.0673823908781577 + 1.46551068868777 + 2.1803729313885345 + 9.05733402266841 +
      4.321598762165737 + 0.24655608854276645 + 5.959449216135542 + 6.849461885327388 + 1.8824165228898004
    let circle := [0, 5, 3, 2, 8, 1, 7, 6, 4]
    Finds (fifthImprovedSolver m) cost circle := by decide +kernel

/-- `test_integer_tsp_namatrix` -/
example : let m := toMat smallIntGraph
    let circle := [0, 1, 3, 2]
    Finds (naiveSolver m) 17 circle ∧ Finds (firstImprovedSolver m) 17 circle ∧
    Finds (secondImprovedSolver m) 17 circle ∧ Finds (thirdImprovedSolver m) 17 circle ∧
    Finds (fourthImprovedSolver m) 17 circle ∧ Finds (fifthImprovedSolver m) 17 circle ∧
    Finds (sixthImprovedSolver m (fun l => (l.map (2 ^ ·)).sum)) 17 circle := by decide +kernel

/-- all arrays that `next_permutation` produces -/
def permutations : Nat → List Nat → List (List Nat)
  | 0, _ => []
  | fuel + 1, a => a :: match nextPermutation a with
    | .ok (true, b) => permutations fuel b
    | _ => []

/-- `test_get_all_permutations` -/
example : permutations 100 [0, 1, 2, 3] = [
    [0, 1, 2, 3], [0, 1, 3, 2], [0, 2, 1, 3], [0, 2, 3, 1], [0, 3, 1, 2], [0, 3, 2, 1],
    [1, 0, 2, 3], [1, 0, 3, 2], [1, 2, 0, 3], [1, 2, 3, 0], [1, 3, 0, 2], [1, 3, 2, 0],
    [2, 0, 1, 3], [2, 0, 3, 1], [2, 1, 0, 3], [2, 1, 3, 0], [2, 3, 0, 1], [2, 3, 1, 0],
    [3, 0, 1, 2], [3, 0, 2, 1], [3, 1, 0, 2], [3, 1, 2, 0], [3, 2, 0, 1], [3, 2, 1, 0]] := by
  decide +kernel

/-! ## `nearest_neighbour.rs` -/

/-- `integer_graph_5x5` -/
example : let m := toMat graph5
    singleNN m 0 = .ok (.fin 28, [0, 4, 1, 3, 2]) ∧ singleNN m 1 = .ok (.fin 29, [1, 4, 0, 3, 2]) ∧
    singleNN m 2 = .ok (.fin 27, [2, 4, 0, 3, 1]) ∧ singleNN m 3 = .ok (.fin 29, [3, 0, 4, 1, 2]) ∧
    singleNN m 4 = .ok (.fin 27, [4, 0, 3, 1, 2]) ∧
    nearestNeighbourSeq [0, 1, 2, 3, 4] m = .ok (.fin 27, [2, 4, 0, 3, 1]) ∧
    nearestNeighbourSeq [4, 3, 2, 1, 0] m = .ok (.fin 27, [4, 0, 3, 1, 2]) := by decide +kernel

/-- `integer_graph_10x10` -/
example : let m := toMat graph10
    (List.range 8).map (singleNN m) = [
      .ok (.fin 31, [0, 5, 7, 4, 3, 8, 1, 2, 6, 9]),
      .ok (.fin 28, [1, 8, 3, 9, 6, 0, 5, 7, 4, 2]),
      .ok (.fin 28, [2, 1, 8, 3, 9, 6, 0, 5, 7, 4]),
      .ok (.fin 30, [3, 8, 1, 2, 5, 0, 4, 7, 6, 9]),
      .ok (.fin 29, [4, 7, 5, 0, 6, 1, 8, 3, 9, 2]),
      .ok (.fin 33, [5, 0, 4, 7, 3, 8, 1, 2, 6, 9]),
      .ok (.fin 30, [6, 1, 8, 3, 9, 0, 5, 7, 4, 2]),
      .ok (.fin 34, [7, 5, 0, 4, 3, 8, 1, 2, 6, 9])] ∧
    nearestNeighbourSeq (List.range 10) m = .ok (.fin 28, [1, 8, 3, 9, 6, 0, 5, 7, 4, 2]) := by
  decide +kernel

/-! ## `mst.rs`, `one_tree.rs`, `parser.rs` -/

/-- `easy_prim` -/
example : primSeq (toMat [[(1, 1)], [(0, 1)]]) [] = .ok (toGraph [[(1, 1)], [(0, 1)]]) := by decide +kernel

/-- the graph of the tests of `mst.rs` and `one_tree.rs`; the costs 5 and 1.1 between the vertices 1
and 2 differ as they do there -/
def four : List (List (Nat × ℚ)) :=
  [[(1, 1), (2, 0.1), (3, 2)], [(0, 1), (2, 5), (3, 0.1)], [(0, 0.1), (1, 1.1), (3, 0.1)],
   [(0, 2), (1, 0.1), (2, 0.1)]]

/-- `four_vertices_mst_prim` -/
example : primSeq (toMat four) [] = .ok (toGraph
    [[(2, 0.1)], [(3, 0.1)], [(0, 0.1), (3, 0.1)], [(2, 0.1), (1, 0.1)]]) := by decide +kernel

/-- the reduction tree that combines from the left -/
def leftTree {β : Type} (l : List β) : RTree β := l.foldl (fun t x => .node t (.leaf x)) .empty

/-- `exclude_one_vertex_from_mst`, `prim_all_versions_agree` (the heap returns the first minimal entry) -/
example : let t := toGraph [[], [(3, 0.1)], [(3, 0.1)], [(1, 0.1), (2, 0.1)]]
    primPar (fun _ => leftTree) (fun _ n => List.range n) (toMat four) [0] = .ok t ∧
    primSeq (toMat four) [0] = .ok t ∧
    primQueue (fun _ q => minByFirst (fun a b => olt a.2 b.2) q) (toMat four) [0] = .ok t := by
  decide +kernel

/-- `compute_a_1_tree` -/
example : oneTree (toMat four) 0 = .ok (toGraph [[(2, 0.1), (1, 1)], [(3, 0.1), (0, 1)],
    [(3, 0.1), (0, 0.1)], [(1, 0.1), (2, 0.1)]]) := by decide +kernel

/-- `compute_1_tree_lower_bound`, `compare_1_tree_lower_bound_seq_vs_par` -/
example : let m := toMat [[(1, 1), (2, 0.1), (3, 0.01)], [(0, 1), (2, 5), (3, 0.1)],
      [(0, 0.1), (1, 1.1), (3, 0.1)], [(0, 0.01), (1, 0.1), (2, 0.1)]]
    oneTreeLbSeq m = .ok (.fin 1.21) ∧ oneTreeLbPar leftTree m = .ok (.fin 1.21) := by decide +kernel

/-- `directed_edge_weight`, `undirected_edge_weight` -/
example : (toGraph [[(0, 1), (30, 0.34)], [(10, 5.34)]]).directedEdgeWeight = .fin (1 + 0.34 + 5.34) ∧
    (toGraph [[(2, 1), (1, 0.34)], [(0, 0.34)], [(0, 1)]]).undirectedEdgeWeight = .fin 1.34 := by
  decide +kernel

/-! ## `preconditions.rs` -/

/-- the complete graph of four vertices with all costs zero -/
def k4 : List (List (Nat × ℚ)) :=
  [[(1, 0), (2, 0), (3, 0)], [(0, 0), (2, 0), (3, 0)], [(0, 0), (1, 0), (3, 0)], [(0, 0), (1, 0), (2, 0)]]

/-- `test_fully_connected_graph`, `test_not_multi_edge`, `test_not_fully_connected_graph`,
`test_is_multi_edge`, `test_undirected`, `test_not_undirected` -/
example : isFullyConnected (toGraph k4) = true ∧ isMultiEdge (toGraph k4) = false ∧
    isFullyConnected (toGraph [[(1, 0), (2, 0), (3, 0)], [(2, 0), (3, 0)], [(0, 0), (1, 0), (3, 0)],
      [(0, 0), (1, 0), (2, 0)]]) = false ∧
    isMultiEdge (toGraph [[(1, 0), (2, 0), (1, 0)], [(0, 0), (2, 0), (3, 0)], [(0, 0), (1, 0), (3, 0)],
      [(0, 0), (1, 0), (2, 0)]]) = true ∧
    isUndirected (toGraph [[(1, 5), (2, 0), (3, 7.5)], [(0, 5), (2, 0), (3, 0)], [(0, 0), (1, 0), (3, 0)],
      [(0, 7.5), (1, 0), (2, 0)]]) = .ok true ∧
    isUndirected (toGraph [[(1, 0), (2, 0), (3, 0)], [(0, 0), (2, 5), (3, 0)], [(0, 0), (1, 4), (3, 0)],
      [(0, 0), (1, 0), (2, 0)]]) = .ok false := by decide +kernel

/-! ## `datastructures` -/

/-- `test_triangle_inequality_check_fails`, `test_triangle_inequality_check_succedes` -/
example : (Mat.ofRows (fins [[0, 3, 1], [3, 0, 1], [1, 1, 0]])).isMetric = false ∧
    (Mat.ofRows (fins [[0, 0.3, 0.1], [0.3, 0, 0.2], [0.1, 0.2, 0]])).isMetric = true := by decide +kernel

/-- `test_namatrix_from_graph` -/
example : rowsOf (naFromGraph (toGraph [[(1, 2.5)], [(0, 2.5)]])) = .ok (fins [[0, 2.5], [2.5, 0]]) := by
  decide +kernel

/-- `test_from_points`, `test_par_from_points`, for any square root (here the squares are shown) -/
example : let points : List (XNum ℚ × XNum ℚ) := [(.fin 0, .fin 0), (.fin 0, .fin 1), (.fin 2, .fin 3)]
    rowsOf (fromPoints id points) = .ok (fins [[0, 1, 13], [1, 0, 8], [13, 8, 0]]) ∧
    rowsOf (parFromPoints id [2, 0, 1] points) = .ok (fins [[0, 1, 13], [1, 0, 8], [13, 8, 0]]) := by
  decide +kernel

/-! ## `christofides.rs` -/

/-- the graph of the tests of the multigraph -/
def triangle : Mat (XNum ℚ) := .ofRows (fins [[0, 1, 2], [1, 0, 3], [2, 3, 0]])

/-- entries of a multigraph -/
def cells (g : MGraph (XNum ℚ)) : List (List (XNum ℚ × Nat)) :=
  (List.range g.dim).map fun i => (List.range g.dim).map fun j => g.cell i j

/-- rational cells -/
def finCells (l : List (List (ℚ × Nat))) : List (List (XNum ℚ × Nat)) :=
  l.map fun r => r.map fun x => (.fin x.1, x.2)

/-- `multigraph_can_represent_the_mst_with_empty_matching`,
`multigraph_can_represent_empty_mst_with_matching`, `multigraph_can_represent_the_mst_with_matching` -/
example :
    (do let t ← primSeq triangle []; return cells (← fillSeq triangle t [])) =
      .ok (finCells [[(0, 0), (1, 1), (2, 1)], [(1, 1), (0, 0), (3, 0)], [(2, 1), (3, 0), (0, 0)]]) ∧
    (fillSeq triangle [] [(1, 0), (2, 0)]).map cells =
      .ok (finCells [[(0, 0), (1, 1), (2, 1)], [(1, 1), (0, 0), (3, 0)], [(2, 1), (3, 0), (0, 0)]]) ∧
    (do let t ← primSeq triangle []; return cells (← fillSeq triangle t [(1, 0), (2, 0)])) =
      .ok (finCells [[(0, 0), (1, 2), (2, 2)], [(1, 2), (0, 0), (3, 0)], [(2, 2), (3, 0), (0, 0)]]) := by
  decide +kernel

/-- `test_find_cycle` -/
example : (findCycle true 0 (⟨4, fun i j => (.fin 1, if (i + j) % 2 = 1 then 1 else 0)⟩ : MGraph (XNum ℚ))
    [2, 2, 2, 2]).map Prod.fst = .ok [0, 1, 2, 3, 0] := by decide +kernel

/-- `test_find_eulerian_cycle` -/
example : (eulerianCycle true (⟨4, fun i j => (.fin 1, if i = j then 0 else if i / 2 = j / 2 then 2 else 1)⟩ :
    MGraph (XNum ℚ))).map List.length = .ok 9 := by decide +kernel

/-- `test_hamiltonian_from_eulerian_cycle` -/
example : hamiltonianFromEulerian 4 [0, 1, 2, 3, 0, 1, 3, 2, 0] = .ok [0, 1, 2, 3, 0] := by decide +kernel

/-- the graph of `test_christofides_against_exact_solver` -/
def square : List (List (Nat × ℚ)) :=
  [[(0, 0), (1, 1), (2, 2), (3, 1)], [(0, 1), (1, 0), (2, 1), (3, 2)], [(0, 2), (1, 1), (2, 0), (3, 1)],
   [(0, 1), (1, 2), (2, 1), (3, 0)]]

/-- `test_christofides_against_exact_solver`, for two shuffles -/
example : Finds (firstImprovedSolver (toMat square)) 4 [0, 1, 2, 3] ∧
    (christofidesSeq true (toMat square) ⟨id, fun _ => id⟩).map Prod.fst = .ok (.fin 4) ∧
    (christofidesSeq true (toMat square) ⟨List.reverse, fun _ => List.reverse⟩).map Prod.fst =
      .ok (.fin 4) := by decide +kernel

end Walky.Conformance
