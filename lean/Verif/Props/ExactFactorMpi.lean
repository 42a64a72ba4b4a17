import Verif.Lemmas.ExactFactorMpi
import Verif.Props.ExactFactor
import Verif.Props.StaticMpi
import Verif.Props.DynamicMpi
import Verif.Props.MpiProg

/-! # Property C105 for the MPI solvers: the factor 2 cannot be improved -/

namespace Walky.Props

open Spec XNum

variable {K : Type} [Field K] [LinearOrder K] [IsStrictOrderedRing K]

/-- nothing yet, or a cost between `2n - 18` and `2n - 8` -/
def LongCost (n : Nat) (x : XNum K) : Prop :=
  x = XNum.inf ∨ ∃ y, x = fin y ∧ 2 * (n : K) - 18 ≤ y ∧ y ≤ 2 * (n : K) - 8

/-- One search below three cities: without a best known cost it finds a long tour, with the length
of a long tour as best known cost it finds nothing. -/
theorem ladder_search {n : Nat} (hn : 12 ≤ n) {g : XNum K} {pre : List Nat} {r : Solution (XNum K)}
    (hg : LongCost n g) (hv : ValidPre n pre) (hl : pre.length = 3)
    (hr : searchMpi (Mat.ofFun n (ladder (n - 12))) g pre = .ok r) : LongCost n r.1 := by
  have hm := rep_ofFun (K := K) n (ladder (n - 12))
  have hdim : (Mat.ofFun n (ladder (n - 12) : Nat → Nat → K)).dim = n := rfl
  have e12 : ((n - 12 : ℕ) : K) = n - 12 := by rw [Nat.cast_sub (by omega)]; norm_num
  rcases hg with rfl | ⟨y, rfl, -, hy⟩
  · have hs : searchPrefix (Mat.ofFun n (ladder (n - 12) : Nat → Nat → K)) pre = .ok r := by
      unfold searchMpi at hr
      rw [testMpi_inf] at hr
      exact hr
    obtain ⟨r'', f1, f2, f3, f4, -, f6⟩ := searchPrefix_ok hm (show 0 < n by omega) hv
    rw [hs] at f1
    injection f1 with e
    subst e
    have hI := isTour_firstLeaf hv
    obtain ⟨r', d1, -, -, d2, d3⟩ := dfs_entered _ _ hm (test5 _) (fun _ => True) (test5_ok hm)
      (show 0 < n by omega) (firstLeaf n pre) (n + 1) pre ((XNum.inf, []), ()) hv
      (by rw [hdim]; omega) trivial proper_inf
      (Or.inr ⟨rfl, rfl, by
        intro p hp _ hp2 _ _
        obtain ⟨y, hy⟩ := mstBound_fin hm (validPre_prefix hI hp).2
        exact ⟨(), by simp [test5, hy]⟩⟩)
    have hr' : r = r'.1 := by
      unfold searchPrefix at hs
      rw [evaluatePath_valid hm (by rw [hdim]; exact hv)] at hs
      have d1' : dfs (Mat.ofFun n (ladder (n - 12) : Nat → Nat → K)) (test5 _) (n + 1) pre
          (fin (pathCost (ladder (n - 12)) pre)) ((FloatOps.inf, []), ()) = .ok r' := d1
      simp only [rm_bind_ok, hdim] at hs
      rw [d1'] at hs
      simp only [rm_bind_ok, rm_pure] at hs
      injection hs with e
      exact e.symm
    rw [hr'] at f2 f3 f4 f6 ⊢
    right
    refine ⟨_, f4, ?_, ?_⟩
    · rcases d3 with d3 | d3
      · rw [d3] at f2
        exact absurd f2 (not_isTour_nil (by rw [hdim]; omega))
      · have htail := ladder_tail (K := K) (n := n) (d := n - 12) (D := n - 5) hI (by omega)
          (by omega) (by
            intro z hz
            rw [List.mem_drop_iff_getElem] at hz
            obtain ⟨i, hi, rfl⟩ := hz
            have hsorted : ((List.range n).filter fun i => !pre.contains i).Pairwise (· < ·) :=
              List.pairwise_lt_range.filter _
            have e : firstLeaf n pre = pre ++ (List.range n).filter fun i => !pre.contains i := rfl
            have hlen := hI.length
            rw [e, List.length_append] at hlen
            have hlen' := hI.length
            have := pairwise_lt_getElem hsorted (n - 5 + i - pre.length) (by omega)
            have e2 : (firstLeaf n pre)[n - 5 + i] =
                ((List.range n).filter fun i => !pre.contains i)[n - 5 + i - pre.length]'(by omega) := by
              simp only [e]
              rw [List.getElem_append_right (by omega)]
            rw [e2]
            omega)
        have hge : tourCost (ladder (n - 12)) (firstLeaf n pre) ≤
            (tourCost (ladder (n - 12)) r'.1.2 : K) :=
          stuck (m := Mat.ofFun n (ladder (n - 12))) hm (fun i j _ _ => ladder_symm _ i j)
            (fun i j h => ladder_ge _ h) (fun i j => ladder_le _ i j) hI f2 (k := pre.length)
            (D := n - 5) (by
              rw [List.prefix_iff_eq_take.mp f3 |>.symm]
              exact List.prefix_iff_eq_take.mp (prefix_firstLeaf n pre)) (by omega)
            (by rw [hdim]; omega) htail d3
        have hI1 := ladder_firstLeaf (K := K) (n := n) (d := n - 12) hv (by omega) (by omega)
        rw [e12, hl] at hI1
        push_cast at hI1
        linarith
    · have := ladder_firstLeaf_le (K := K) (n := n) (d := n - 12) hv hl (by omega)
      rw [e12] at this
      rw [hdim] at f6
      linarith
  · left
    have hnone := dfs_pruned hm (test := testMpi (Mat.ofFun n (ladder (n - 12) : Nat → Nat → K)) (fin y))
      (pre := pre) (s := ((XNum.inf, []), ())) n hv (by rintro rfl; simp at hl) (by rw [hdim]; omega) (by
        intro i hi hip
        have hv' : ValidPre n (pre ++ [i]) := hv.snoc hi hip
        have hl' : (pre ++ [i]).length = 4 := by simp [hl]
        obtain ⟨x, hx, hx'⟩ := mstBound_ge hm (fun i j _ _ => ladder_symm _ i j)
          (fun i j h => ladder_ge _ h) hv' (by rw [hl', hdim]; omega)
        have hp := path_ge (c := (ladder (n - 12) : Nat → Nat → K)) (fun i j h => ladder_ge _ h) hv'.1
        unfold testMpi
        rw [hx]
        rw [hl', hdim] at hx'
        rw [hl'] at hp
        push_cast at hx' hp
        have hlt : FloatOps.lt (fin y) (XNum.inf : XNum K) = true := rfl
        simp only [rm_bind_ok, rm_pure, XNum.add_fin, hlt, if_true, XNum.le_fin]
        rw [decide_eq_false]
        intro hle
        linarith)
    unfold searchMpi at hr
    rw [evaluatePath_valid hm (by rw [hdim]; exact hv)] at hr
    simp only [rm_bind_ok, hdim] at hr
    have hnone' : dfs (Mat.ofFun n (ladder (n - 12) : Nat → Nat → K)) (testMpi _ (fin y)) (n + 1) pre
        (fin (pathCost (ladder (n - 12)) pre)) ((FloatOps.inf, []), ()) = .ok ((XNum.inf, []), ()) := hnone
    rw [hnone'] at hr
    simp only [rm_bind_ok, rm_pure] at hr
    injection hr with e
    rw [← e]

/-- **C105, MPI** The factor 2 cannot be improved for the MPI solvers either: for every `n ≥ 12` there
is a metric with a tour of length `n` on which, for every number of workers and every message order,
the static solver (with fewer than `n` workers) answers with a tour of length at least `2n - 18`, and
the cost broadcast by the dynamic solver is the length of a tour, at least `2n - 18`. -/
theorem C105_mpi_tight {n : Nat} (hn : 12 ≤ n) :
    ∃ c : Nat → Nat → K, Metric n c ∧ Nonneg n c ∧
      (∀ nW, 1 ≤ nW → nW < n → (∃ r, StaticResult (Mat.ofFun n c) 3 nW r) ∧
        ∀ r, StaticResult (Mat.ofFun n c) 3 nW r →
          ∃ p, r = .ok (fin (tourCost c p), p) ∧ IsTour n p ∧ 2 * (n : K) - 18 ≤ tourCost c p) ∧
      (∀ nW, 1 ≤ nW → (∃ k s, Steps (DStep (Mat.ofFun n c)) k (initDynamic nW) s ∧ s.final) ∧
        ∀ k s, Steps (DStep (Mat.ofFun n c)) k (initDynamic nW) s → s.final →
          ∃ p, s.winner.1 = fin (tourCost c p) ∧ IsTour n p ∧ 2 * (n : K) - 18 ≤ tourCost c p) ∧
      ∃ q, IsTour n q ∧ tourCost c q = n := by
  have hm := rep_ofFun (K := K) n (ladder (n - 12))
  have hdim : (Mat.ofFun n (ladder (n - 12) : Nat → Nat → K)).dim = n := rfl
  have hnn := ladder_nonneg (K := K) n (n - 12)
  have hsym : Symm n (ladder (n - 12) : Nat → Nat → K) := fun i j _ _ => ladder_symm _ i j
  refine ⟨ladder (n - 12), ladder_metric _ _, hnn, ?_, ?_, evenOdd n, evenOdd_tour n,
    evenOdd_cost (by omega) _⟩
  · intro nW h1 h2
    have hlt : nW < n ^ 3 := lt_cube (by omega) h2
    refine ⟨?_, fun r hr => ?_⟩
    · obtain ⟨s0, _, a1, -, ⟨k, s, a2, a3⟩, -⟩ := C21_static_no_deadlock_partial hm hnn h1 hlt
      exact ⟨_, s0, k, s, a1, a2, a3, rfl⟩
    · obtain ⟨p, e, hp⟩ := C23_static_few_workers_partial hm (by rw [hdim]; omega) h1 h2 hr
      refine ⟨p, e, hp, ?_⟩
      obtain ⟨s0, k, s, b1, b2, b3, b4⟩ := (StaticResult_eq sameCmp_exact _ nW r).mp hr
      obtain ⟨s0', g1, g2⟩ := sinit_inv (V := exactV (ladder (n - 12) : Nat → Nat → K))
        (A := exactA (Mat.ofFun n (ladder (n - 12))) (ladder (n - 12))) (k := 3)
        (m := Mat.ofFun n (ladder (n - 12))) hlt (by rw [hdim]; omega)
      rw [b1] at g1
      injection g1 with g1
      subst g1
      have hc0 : SCosts (LongCost n) s0 := by
        unfold initStatic at b1
        cases hws : (List.range nW).mapM (fun i => do
            let (lo, hi) ← splitChunks 3 (Mat.ofFun n (ladder (n - 12) : Nat → Nat → K)).dim nW i
            return (⟨lo, hi, (FloatOps.inf, []), FloatOps.inf, Phase.work, [], []⟩ : SWorker (XNum K)))
          with
        | error e => rw [hws] at b1; cases b1
        | ok ws =>
          rw [hws] at b1
          simp only [rm_bind_ok, rm_pure] at b1
          injection b1 with b1
          subst b1
          refine ⟨Or.inl rfl, fun i w hw => ?_⟩
          obtain ⟨j, -, hj⟩ := mapM_mem hws w (List.mem_iff_getElem?.mpr ⟨i, hw⟩)
          cases hsp : splitChunks 3 (Mat.ofFun n (ladder (n - 12) : Nat → Nat → K)).dim nW j with
          | error e => rw [hsp] at hj; cases hj
          | ok lh =>
            rw [hsp] at hj
            simp only [rm_bind_ok, rm_pure] at hj
            injection hj with hj
            subst hj
            exact ⟨Or.inl rfl, Or.inl rfl, by simp, by simp⟩
      have hc := (scosts_steps (searchMpi_ok hm (by rw [hdim]; omega)) (by rw [hdim]; omega)
        (fun g pre r hg hv hl hr => ladder_search hn hg hv hl hr) g2 hc0 b2).1
      have hw : s.winner.1 = fin (tourCost (ladder (n - 12)) p) := by
        rw [e] at b4
        unfold wrapUp at b4
        cases hb : idx (s.buffers (Mat.ofFun n (ladder (n - 12) : Nat → Nat → K)).dim) s.winner.2 with
        | error e => rw [hb] at b4; cases b4
        | ok b =>
          rw [hb] at b4
          simp only [rm_bind_ok] at b4
          split at b4
          · injection b4 with b4
            exact (congrArg Prod.fst b4).symm
          · cases b4
      rw [hw] at hc
      rcases hc with hc | ⟨y, hy, hy2, -⟩
      · cases hc
      · injection hy with hy
        rw [hy]
        exact hy2
  · intro nW h1
    refine ⟨?_, fun k s hs hf => ?_⟩
    · exact (C24_dynamic_handout hm (by rw [hdim]; omega) h1).1
    · obtain ⟨p, e, hp, -⟩ := C61_dynamic_quality hm (by rw [hdim]; omega) hsym hnn h1 hs hf
      refine ⟨p, e, hp, ?_⟩
      rw [DStep_eq sameCmp_exact] at hs
      have hc := (dcosts_steps (searchMpi_ok hm (by rw [hdim]; omega)) (by rw [hdim]; omega)
        (fun g pre r hg hv hl hr => ladder_search hn hg hv hl hr)
        (dinit_inv (by rw [hdim]; omega) nW) ⟨Or.inl rfl, by
          intro i w hw
          simp only [initDynamic, List.getElem?_map, Option.map_eq_some_iff] at hw
          obtain ⟨j, hj, rfl⟩ := hw
          exact ⟨Or.inl rfl, by simp, by simp; exact Or.inl rfl⟩⟩ hs).1
      rw [e] at hc
      rcases hc with hc | ⟨y, hy, hy2, -⟩
      · cases hc
      · injection hy with hy
        rw [hy]
        exact hy2

end Walky.Props
