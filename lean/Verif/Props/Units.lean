import Verif.Lemmas.FloatHom
import Verif.Rounding
import Verif.Rep
import Verif.Lemmas.Perm
import Verif.Examples

/-!
# The unit of the distances (C108)

Two instances that differ only in the unit in which the distances are given: every entry of the second
matrix is the entry of the first one, multiplied by the same positive number.
-/

set_option linter.unusedSectionVars false

namespace Walky

open FloatOps

variable {K : Type} [Field K] [LinearOrder K] [IsStrictOrderedRing K]

/-- a distance in another unit; missing roads (infinite costs) and NaN stay what they are -/
def Spec.inUnit (s : K) : XNum K → XNum K
  | .fin x => .fin (s * x)
  | x => x

/-- the same instance in another unit -/
structure Spec.OtherUnit (s : K) (m m' : Mat (XNum K)) : Prop where
  pos : 0 < s
  dim : m'.dim = m.dim
  get : ∀ i j, m'.get i j = inUnit s (m.get i j)

/-- the same solution in another unit: same tour, the length is converted -/
def Spec.inUnitSol (s : K) (r : Solution (XNum K)) : Solution (XNum K) := (inUnit s r.1, r.2)

theorem inUnit_hom {s : K} (hs : 0 < s) : FloatHom (Spec.inUnit s) where
  zero := congrArg XNum.fin (mul_zero s)
  inf := rfl
  add x y := by
    cases x <;> cases y <;> first | rfl | exact congrArg XNum.fin (mul_add s _ _)
  sub x y := by
    cases x <;> cases y <;> first | rfl | exact congrArg XNum.fin (mul_sub s _ _)
  half x := by
    cases x <;> first | rfl | exact congrArg XNum.fin (mul_div_assoc s _ _).symm
  lt x y := by
    cases x <;> cases y <;> first | rfl | exact decide_eq_decide.mpr (mul_lt_mul_iff_right₀ hs)
  le x y := by
    cases x <;> cases y <;> first | rfl | exact decide_eq_decide.mpr (mul_le_mul_iff_right₀ hs)
  eq x y := by
    cases x <;> cases y <;> first | rfl | exact decide_eq_decide.mpr (mul_right_inj' hs.ne')

theorem unit_mapW {s : K} {m m' : Mat (XNum K)} (h : Spec.OtherUnit s m m') :
    m' = m.mapW (Spec.inUnit s) := by
  obtain ⟨n, g⟩ := m
  obtain ⟨n', g'⟩ := m'
  have hd : n' = n := h.dim
  have hg : g' = fun i j => Spec.inUnit s (g i j) := funext fun i => funext fun j => h.get i j
  subst hd hg
  rfl

namespace Props

open XNum Spec

variable {s : K} {m m' : Mat (XNum K)}

/-- **C108, exact solvers.** In another unit all six exact solvers return the same tour, and its length
is converted — also v4, v5 and v6, whose tours need not be shortest, and for every hash function of v6.
A panic stays the same panic. -/
theorem C108_exact (h : OtherUnit s m m') (hash : List Nat → Nat) :
    naiveSolver m' = (naiveSolver m).map (inUnitSol s) ∧
    firstImprovedSolver m' = (firstImprovedSolver m).map (inUnitSol s) ∧
    secondImprovedSolver m' = (secondImprovedSolver m).map (inUnitSol s) ∧
    thirdImprovedSolver m' = (thirdImprovedSolver m).map (inUnitSol s) ∧
    fourthImprovedSolver m' = (fourthImprovedSolver m).map (inUnitSol s) ∧
    fifthImprovedSolver m' = (fifthImprovedSolver m).map (inUnitSol s) ∧
    sixthImprovedSolver m' hash = (sixthImprovedSolver m hash).map (inUnitSol s) := by
  have H := inUnit_hom h.pos
  rw [unit_mapW h]
  exact ⟨H.naiveSolver m, H.firstImprovedSolver m, H.solveDfs H.test2 m (), H.solveDfs H.test3 m (),
    H.solveDfs (H.test4 m) m (), H.solveDfs (H.test5 m) m (), H.solveDfs (H.test6 m hash) m []⟩

theorem otherUnit_back (h : OtherUnit s m m') : OtherUnit s⁻¹ m' m where
  pos := inv_pos.mpr h.pos
  dim := h.dim.symm
  get i j := by
    rw [h.get]
    cases m.get i j with
    | fin x => exact congrArg XNum.fin (inv_mul_cancel_left₀ h.pos.ne' x).symm
    | nan => rfl
    | inf => rfl
    | ninf => rfl

/-- **C108, several threads.** The possible results of the multi-threaded solver are the same tours with
converted lengths, for every number of threads and prefix length. -/
theorem C108_threads (h : OtherUnit s m m') (pl nt : Nat) (r' : Solution (XNum K)) :
    ThreadedResult m' pl nt r' ↔ ∃ r, ThreadedResult m pl nt r ∧ r' = inUnitSol s r := by
  constructor
  · intro hr
    refine ⟨inUnitSol s⁻¹ r', ?_, ?_⟩
    · have hb := otherUnit_back h
      rw [unit_mapW hb]
      exact (inUnit_hom hb.pos).threadedResult hr
    · obtain ⟨w, p⟩ := r'
      refine Prod.ext ?_ rfl
      cases w with
      | fin x => exact congrArg XNum.fin (mul_inv_cancel_left₀ h.pos.ne' x).symm
      | nan => rfl
      | inf => rfl
      | ninf => rfl
  · rintro ⟨r, hr, rfl⟩
    rw [unit_mapW h]
    exact (inUnit_hom h.pos).threadedResult hr

/-- **C108, lower bounds.** The spanning tree has the same edges with converted costs (whatever cities
are left out), its weight and the 1-tree bound are converted. -/
theorem C108_bounds (h : OtherUnit s m m') (ex : List Nat) :
    primSeq m' ex = (primSeq m ex).map (List.map (List.map fun e => ⟨e.dst, inUnit s e.cost⟩)) ∧
    ((primSeq m' ex).map Graph.undirectedEdgeWeight =
      ((primSeq m ex).map Graph.undirectedEdgeWeight).map (inUnit s)) ∧
    oneTreeLbSeq m' = (oneTreeLbSeq m).map (inUnit s) := by
  have H := inUnit_hom h.pos
  rw [unit_mapW h]
  refine ⟨H.primSeq m ex, ?_, H.oneTreeLbSeq m⟩
  rw [H.primSeq]
  cases primSeq m ex with
  | error e => rfl
  | ok g => exact congrArg Except.ok (H.undirectedEdgeWeight g)

/-- **C108, nearest neighbour.** Same tour, converted length, from every start city, and for the best of
any number of start cities in any order. -/
theorem C108_nearest_neighbour (h : OtherUnit s m m') :
    (∀ x, singleNN m' x = (singleNN m x).map (inUnitSol s)) ∧
    ∀ xs n, nNNSeq xs m' n = (nNNSeq xs m n).map (inUnitSol s) := by
  have H := inUnit_hom h.pos
  rw [unit_mapW h]
  exact ⟨H.singleNN m, fun xs n => H.nNNSeq xs m n⟩

/-- **C108, Christofides.** With the same shuffles: same tour, converted length. Debug builds need the
same answer of `is_metric` for both instances (`C108_tolerance`). -/
theorem C108_christofides (h : OtherUnit s m m') (r : MatchRng) {dbg : Bool}
    (hd : dbg = true → m'.isMetric = m.isMetric) :
    christofidesSeq dbg m' r = (christofidesSeq dbg m r).map (inUnitSol s) := by
  have H := inUnit_hom h.pos
  rw [unit_mapW h] at hd ⊢
  exact H.christofidesSeq dbg m r hd

/-- three cities, one distance exceeds the detour by `1e-10` -/
def almostC (s : ℚ) : Nat → Nat → ℚ := fun i j =>
  s * (if i = j then 0 else if i + j = 2 then 2 + 1 / 10 ^ 10 else 1)

private theorem almost_unit : OtherUnit (2 : ℚ) (Mat.ofFun 3 (almostC 1)) (Mat.ofFun 3 (almostC 2)) where
  pos := by decide
  dim := rfl
  get i j := congrArg XNum.fin (by unfold almostC; rw [one_mul])

/-- **C108, negation for debug builds.** The tolerance `1e-10` of `is_metric` is absolute. The same three
cities are accepted in one unit, and in a unit half as long Christofides' algorithm panics. -/
theorem C108_tolerance (r : MatchRng) :
    OtherUnit (2 : ℚ) (Mat.ofFun 3 (almostC 1)) (Mat.ofFun 3 (almostC 2)) ∧
    (Mat.ofFun 3 (almostC 1)).isMetric = true ∧ (Mat.ofFun 3 (almostC 2)).isMetric = false ∧
    christofidesSeq true (Mat.ofFun 3 (almostC 2)) r = .error .assert := by
  have h2 : (Mat.ofFun 3 (almostC 2)).isMetric = false := by decide +kernel
  refine ⟨almost_unit, by decide +kernel, h2, ?_⟩
  unfold christofidesSeq christofidesGeneric
  rw [h2]
  rfl

/-- four cities with distances near `s · 2^50` -/
def longC (s : ℚ) : Nat → Nat → ℚ := fun i j =>
  if i = j then 0
  else s * (2 ^ 50 + if i = 0 ∨ j = 0 then 3 else if i = 3 ∨ j = 3 then 2 else 1)

/-- **C108, negation with doubles.** Rounding depends on the unit. All distances of both instances are
integers below 2^53, hence doubles. In the first unit v1 finds the shortest tour, in the second one
(all distances multiplied by 3) it returns a tour that is longer. -/
theorem C108_doubles :
    OtherUnit (3 : ℚ) (Mat.ofFun 4 (longC 1)) (Mat.ofFun 4 (longC 3)) ∧
    (∃ w, @firstImprovedSolver _ binary64.ops (Mat.ofFun 4 (longC 1)) = .ok (.fin w, [0, 2, 1, 3])) ∧
    (∃ w, @firstImprovedSolver _ binary64.ops (Mat.ofFun 4 (longC 3)) = .ok (.fin w, [0, 1, 3, 2])) ∧
    (∀ i < 4, ∀ j < 4, binary64.rnd (longC 3 i j) = .fin (longC 3 i j)) ∧
    tourCost (longC 1) [0, 2, 1, 3] < tourCost (longC 1) [0, 1, 3, 2] := by
  refine ⟨⟨by decide, rfl, fun i j => congrArg XNum.fin ?_⟩, ⟨4503599627370505, by decide +kernel⟩,
    ⟨13510798882111516, by decide +kernel⟩, by decide +kernel, by decide +kernel⟩
  unfold longC
  split
  · exact (mul_zero _).symm
  · rw [one_mul]

/-- the hypothesis of the theorems: kilometres and metres, and the answers of v5 and nearest neighbour -/
example : ∃ m' w p q v, OtherUnit (1000 : ℚ) Ex.m4 m' ∧
    fifthImprovedSolver Ex.m4 = .ok (fin w, p) ∧ fifthImprovedSolver m' = .ok (fin (1000 * w), p) ∧
    singleNN Ex.m4 1 = .ok (fin v, q) ∧ singleNN m' 1 = .ok (fin (1000 * v), q) ∧ 0 < w ∧ 0 < v := by
  refine ⟨⟨4, fun i j => inUnit 1000 (Ex.m4.get i j)⟩, 10, [0, 1, 3, 2], [1, 0, 2, 3], 10,
    ⟨by decide, rfl, fun _ _ => rfl⟩, ?_⟩
  decide +kernel

end Props

end Walky

