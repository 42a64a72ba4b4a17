import Verif.Props.Accuracy
import Verif.Props.DoubleExact
import Verif.Props.MpiSync

/-! # C79: the MPI solvers in IEEE double precision -/

namespace Walky.Props

open FloatOps XNum Spec

/-- The costs between `2 ≤ n ≤ 2 ^ 25` cities are doubles between 0 and `M`, and `4 n M ≤ 2 ^ k`. -/
structure DoubleFits (k : ℤ) (M : ℚ) (m : Mat (XNum ℚ)) (c : Nat → Nat → ℚ) : Prop where
  lo : -1021 ≤ k
  hi : k ≤ 1023
  rep : Rep m c
  M0 : 0 ≤ M
  double : ∀ i j, i < m.dim → j < m.dim → i ≠ j → IsDouble (c i j)
  nonneg : ∀ i j, i < m.dim → j < m.dim → i ≠ j → 0 ≤ c i j
  le : ∀ i j, i < m.dim → j < m.dim → i ≠ j → c i j ≤ M
  two : 2 ≤ m.dim
  small : m.dim ≤ 2 ^ 25
  size : 4 * m.dim * M ≤ (2 : ℚ) ^ k

variable {k : ℤ} {M : ℚ} {m : Mat (XNum ℚ)} {c : Nat → Nat → ℚ}

private def V64 (k : ℤ) (m : Mat (XNum ℚ)) (c : Nat → Nat → ℚ) : List Nat → ℚ → Prop :=
  nearV IsDouble m.dim c (pow2 (k - 54))

private def A64 (k : ℤ) (m : Mat (XNum ℚ)) (c : Nat → Nat → ℚ) : ℚ → List Nat → List Nat → Prop :=
  nearA (pow2 k) m.dim c (pow2 (k - 54))

private theorem search64 (h : DoubleFits k M m c) :
    MSearch m.dim (@searchMpi _ binary64.ops m) (V64 k m c) (A64 k m c) :=
  searchMpi_msearch (fits64 h.lo h.hi h.rep h.M0 (fun i j hi hj hij => by
    rw [abs_of_nonneg (h.nonneg i j hi hj hij)]
    exact h.le i j hi hj hij) h.two h.small h.size) floors64 isDouble_zero

private theorem nonneg64 (h : DoubleFits k M m c) : ∀ q w, IsTour m.dim q → V64 k m c q w → 0 ≤ w :=
  fun _ _ _ hv => hv.2 fun i j hi hj hij => ⟨h.double i j hi hj hij, h.nonneg i j hi hj hij⟩

private theorem exists64 : ∀ q pre, IsTour m.dim q → ∃ T, A64 k m c T pre q :=
  fun _ _ _ => ⟨pow2 k, Or.inl le_rfl⟩

private theorem value64 {q : List Nat} {w : ℚ} (h : V64 k m c q w) :
    |w - tourCost c q| ≤ (2 * m.dim ^ 2 + 1) * (2 : ℚ) ^ (k - 54) := by
  refine h.1.trans (le_of_eq ?_)
  rw [pow2_eq]
  push_cast
  ring

private theorem twice64 (h : DoubleFits k M m c) (hs : Symm m.dim c) (q q' pre : List Nat)
    (hq : tourCost c q' = tourCost c q) :
    A64 k m c (2 * tourCost c q + (2 * m.dim ^ 2 + 3 * m.dim + 1) * (2 : ℚ) ^ (k - 54)) pre q' := by
  refine Or.inr ⟨hs, h.nonneg, ?_⟩
  rw [hq, pow2_eq]
  push_cast
  ring

private theorem cmp64 : SameCmp binary64.ops := sameCmp_ops binary64

/-- **C79 (static solver, no deadlock)** In IEEE double precision, for every number of workers below `n³` and
every message order: no process panics; the number of steps is bounded; as long as not everybody is at the
barrier some process can take a step, whichever ranks MPI holds in a send whose message has not been received;
the coordinator stops listening only when all workers are at the barrier and no message is in transit. -/
theorem C79_static_no_deadlock (h : DoubleFits k M m c) {nW : Nat} (h1 : 1 ≤ nW) (h2 : nW < m.dim ^ 3) :
    ∃ s0 N, @initStatic _ binary64.ops m 3 nW = .ok s0 ∧ s0.workers.length = nW ∧
      (∃ n s, Steps (@SStep _ binary64.ops m) n s0 s ∧ s.final) ∧
      ∀ n s, Steps (@SStep _ binary64.ops m) n s0 s → n ≤ N ∧
        (∀ held : Nat → Prop, (∀ r, held r → s.pending r) →
          (s.final ∧ ∀ r, ¬ s.pending r) ∨ ∃ r s', ¬ held r ∧ @SStepBy _ binary64.ops m r s s') ∧
        (∀ (i : Nat) w, s.workers[i]? = some w → w.phase = .work →
          ∃ w', @workerRound _ binary64.ops m (i + 1) w = .ok w') ∧
        (¬ s.finished < s.workers.length → s.final ∧ ∀ w ∈ s.workers, w.up = [] ∧ w.down = []) := by
  obtain ⟨s0, N, a1, a2, a3, a4⟩ := static_progress (search64 h) (nonneg64 h) h1 h2
  have e1 : @initStatic _ binary64.ops m 3 nW = .ok s0 := by
    rw [initStatic_eq cmp64]
    exact a1
  rw [← SStep_eq cmp64] at a3 a4
  refine ⟨s0, N, e1, a2, a3, fun n s hs => ?_⟩
  obtain ⟨b1, -, b2, b3, -⟩ := a4 n s hs
  rw [← workerRound_eq cmp64] at b2
  exact ⟨b1, fun held hh => static_sync cmp64 (search64 h) (nonneg64 h) h1 h2 e1 hs held hh, b2, b3⟩

/-- **C79 (static solver, winner)** In every complete execution the broadcast cost is not larger than any
worker's local cost, and either the winning rank is a worker whose local path is a tour with that cost, up to
`(2 n² + 1) · 2 ^ (k - 54)`, or no worker has found anything and the cost is infinite. -/
theorem C79_static_winner (h : DoubleFits k M m c) {nW : Nat} (h2 : nW < m.dim ^ 3)
    {s0 s : SSys (XNum ℚ)} {n : Nat} (e1 : @initStatic _ binary64.ops m 3 nW = .ok s0)
    (e2 : Steps (@SStep _ binary64.ops m) n s0 s) (hf : s.final) :
    (∀ w ∈ s.workers, FloatOps.le s.winner.1 w.sol.1 = true) ∧
    ((∃ i w x, s.winner.2 = i + 1 ∧ s.workers[i]? = some w ∧ w.sol.1 = s.winner.1 ∧
        IsTour m.dim w.sol.2 ∧ s.winner.1 = .fin x ∧
        |x - tourCost c w.sol.2| ≤ (2 * m.dim ^ 2 + 1) * (2 : ℚ) ^ (k - 54)) ∨
      (s.winner = (XNum.inf, 0) ∧ ∀ w ∈ s.workers, w.sol = (XNum.inf, []))) := by
  rw [initStatic_eq cmp64] at e1
  rw [SStep_eq cmp64] at e2
  obtain ⟨a, b⟩ := static_winner (search64 h) (by have := h.two; omega) h2 e1 e2 hf
  refine ⟨a, b.imp_left ?_⟩
  rintro ⟨i, w, a, b, d, e, x, hx, hv⟩
  exact ⟨i, w, x, a, b, d, e, hx, value64 hv⟩

/-- **C79 (static solver, result)** Whatever the message order, with fewer workers than cities all ranks return
the same tour, with its length up to `(2 n² + 1) · 2 ^ (k - 54)`; for symmetric costs it is at most
`(2 n² + 3 n + 1) · 2 ^ (k - 54)` above twice the length of any tour. There is such an execution. -/
theorem C79_static_result (h : DoubleFits k M m c) (hn : 3 ≤ m.dim) {nW : Nat} (h1 : 1 ≤ nW)
    (h2 : nW < m.dim) :
    (∃ r, @StaticResult _ binary64.ops m 3 nW r) ∧
    ∀ r, @StaticResult _ binary64.ops m 3 nW r → ∃ p x, r = .ok (.fin x, p) ∧ IsTour m.dim p ∧
      |x - tourCost c p| ≤ (2 * m.dim ^ 2 + 1) * (2 : ℚ) ^ (k - 54) ∧
      (Symm m.dim c → ∀ q, IsTour m.dim q →
        x ≤ 2 * tourCost c q + (2 * m.dim ^ 2 + 3 * m.dim + 1) * (2 : ℚ) ^ (k - 54)) := by
  have hlt := lt_cube hn h2
  refine ⟨?_, fun r hr => ?_⟩
  · obtain ⟨s0, _, e1, _, ⟨n, s, e2, e3⟩, _⟩ := C79_static_no_deadlock h h1 hlt
    exact ⟨_, s0, n, s, e1, e2, e3, rfl⟩
  · rw [StaticResult_eq cmp64] at hr
    obtain ⟨p, x, rfl, b, d⟩ := static_tour (search64 h) h1 hlt
      (fun i hi => hasWork_of_large hn hi (large_of_few hn h1 h2)) hr
    refine ⟨p, x, rfl, b, value64 d, fun hs q hq => ?_⟩
    obtain ⟨k', a, b, t, hk, hq'⟩ := exists_rotate_zero hn hq
    exact static_le (search64 h) hn h1 h2 hr hq' (twice64 h hs q _ _ (by rw [← hk, tourCost_rotate]))

/-- **C79 (static solver, mismatch)** If the chunk of some worker contains nothing to search, the final
broadcast fails in every complete execution. -/
theorem C79_static_mismatch (h : DoubleFits k M m c) {nW : Nat} (h2 : nW < m.dim ^ 3) {i : Nat}
    (hi : i < nW) (hw : ¬ HasWork m.dim nW i) {r : RM (Solution (XNum ℚ))}
    (hr : @StaticResult _ binary64.ops m 3 nW r) : r = .error .explicit :=
  static_mismatch (search64 h) (by have := h.two; omega) h2 hi hw ((StaticResult_eq cmp64 m nW r).mp hr)

/-- **C79 (dynamic solver, no deadlock)** In IEEE double precision, at least four cities, every number of workers
and every message order: no process panics; the number of steps is bounded; as long as not everybody is at the
barrier some process can take a step, whichever ranks MPI holds in a send whose message has not been received;
at the end exactly the prefixes of `Offered` have been handed out, in increasing order, and every worker has
received exactly one shutdown message. -/
theorem C79_dynamic_handout (h : DoubleFits k M m c) (hn : 4 ≤ m.dim) {nW : Nat} (h1 : 1 ≤ nW) :
    (∃ n s, Steps (@DStep _ binary64.ops m) n (@initDynamic _ binary64.ops nW) s ∧ s.final) ∧
    ∃ N, ∀ n s, Steps (@DStep _ binary64.ops m) n (@initDynamic _ binary64.ops nW) s → n ≤ N ∧
      (∀ held : Nat → Prop, (∀ r, held r → s.pending r) →
        (s.final ∧ ∀ r, ¬ s.pending r) ∨ ∃ r s', ¬ held r ∧ @DStepBy _ binary64.ops m r s s') ∧
      (∀ (i : Nat) w msg rest, s.workers[i]? = some w → w.done = false → w.down = msg :: rest →
        ∃ w', @dynWorker _ binary64.ops m (i + 1) { w with down := rest } msg = .ok w') ∧
      (∀ (i : Nat) w msg rest, s.workers[i]? = some w → w.up = msg :: rest → ∃ s', @DSys.handle _ binary64.ops
        { s with workers := s.workers.set i { w with up := rest } } m.dim msg = .ok s') ∧
      (s.final →
        ((s.log.map Prod.snd).filter (fun p => p != [0, 0, 0])).Pairwise
          (fun a b => Nat.ofDigits m.dim a.reverse < Nat.ofDigits m.dim b.reverse) ∧
        (∀ p, p ∈ (s.log.map Prod.snd).filter (fun p => p != [0, 0, 0]) ↔ Offered m.dim p) ∧
        ∀ i < nW, s.log.count (i + 1, [0, 0, 0]) = 1) := by
  obtain ⟨a1, N, a2⟩ := dyn_handout (search64 h) hn h1
  rw [← DStep_eq cmp64] at a1 a2
  refine ⟨by rw [initDynamic_eq cmp64]; exact a1, N, fun n s hs => ?_⟩
  obtain ⟨b1, -, b2, b3, -, b4⟩ := a2 n s (by rw [initDynamic_eq cmp64] at hs; exact hs)
  rw [← dynWorker_eq cmp64] at b2
  refine ⟨b1, fun held hh => dyn_sync cmp64 (search64 h) hn hs held hh, b2, fun i w msg rest hi hu => ?_, b4⟩
  rw [dhandle_eq cmp64]
  exact b3 i w msg rest hi hu

/-- **C79 (dynamic solver, winner)** In every complete execution the broadcast cost is not larger than any
worker's local cost; the winning rank is a worker whose local path is a tour with that cost, up to
`(2 n² + 1) · 2 ^ (k - 54)`; for symmetric costs it is at most `(2 n² + 3 n + 1) · 2 ^ (k - 54)` above twice the
length of any tour. -/
theorem C79_dynamic_winner (h : DoubleFits k M m c) (hn : 4 ≤ m.dim) {nW : Nat} (h1 : 1 ≤ nW) {n : Nat}
    {s : DSys (XNum ℚ)} (hs : Steps (@DStep _ binary64.ops m) n (@initDynamic _ binary64.ops nW) s)
    (hf : s.final) :
    (∀ w ∈ s.workers, FloatOps.le s.winner.1 w.sol.1 = true) ∧
    ∃ i w x, s.winner.2 = i + 1 ∧ s.workers[i]? = some w ∧ w.sol.1 = s.winner.1 ∧
      IsTour m.dim w.sol.2 ∧ s.winner.1 = .fin x ∧
      |x - tourCost c w.sol.2| ≤ (2 * m.dim ^ 2 + 1) * (2 : ℚ) ^ (k - 54) ∧
      (Symm m.dim c → ∀ q, IsTour m.dim q →
        x ≤ 2 * tourCost c q + (2 * m.dim ^ 2 + 3 * m.dim + 1) * (2 : ℚ) ^ (k - 54)) := by
  rw [initDynamic_eq cmp64, DStep_eq cmp64] at hs
  obtain ⟨a2, i, w, b1, b2, b3, b4, x, b5, b6⟩ := dyn_winner (search64 h) hn (nonneg64 h) exists64 h1 hs hf
  refine ⟨a2, i, w, x, b1, b2, b3, b4, b5, value64 b6, fun hsym q hq => ?_⟩
  obtain ⟨k', a, b, u, hk, hq'⟩ := exists_rotate_two hn hq
  have hwin : FloatOps.le s.winner.1 (fin (2 * tourCost c q +
      (2 * m.dim ^ 2 + 3 * m.dim + 1) * (2 : ℚ) ^ (k - 54))) = true := by
    rcases dyn_le (search64 h) hn h1 hs hf hq' (twice64 h hsym q _ _ (by rw [← hk, tourCost_rotate])) with
      h | ⟨w, hw, h⟩
    · exact h
    · exact XNum.le_trans' (a2 w hw) h
  rw [b5] at hwin
  simpa using hwin

/-- **C79 (dynamic solver, one worker)** With one worker every complete execution returns a tour, with its length
up to `(2 n² + 1) · 2 ^ (k - 54)`, and there is one. -/
theorem C79_dynamic_one_worker (h : DoubleFits k M m c) (hn : 4 ≤ m.dim) :
    (∃ r, @DynamicResult _ binary64.ops m 1 r) ∧
    ∀ r, @DynamicResult _ binary64.ops m 1 r → ∃ p x, r = .ok (.fin x, p) ∧ IsTour m.dim p ∧
      |x - tourCost c p| ≤ (2 * m.dim ^ 2 + 1) * (2 : ℚ) ^ (k - 54) := by
  refine ⟨?_, fun r hr => ?_⟩
  · obtain ⟨n, s, e1, e2⟩ := (C79_dynamic_handout h hn (nW := 1) le_rfl).1
    exact ⟨_, n, s, e1, e2, rfl⟩
  · obtain ⟨n, s, e1, e2, rfl⟩ := (DynamicResult_eq cmp64 m 1 r).mp hr
    obtain ⟨p, x, a, b, d⟩ := dyn_ok (search64 h) hn (nonneg64 h) exists64 le_rfl e1 e2
      (dyn_one (search64 h) hn exists64 e1 e2)
    exact ⟨p, x, a, b, value64 d⟩

/-- **C79 (dynamic solver, mismatch)** With at least two workers some execution ends with a failing broadcast. -/
theorem C79_dynamic_mismatch (h : DoubleFits k M m c) (hn : 4 ≤ m.dim) {nW : Nat} (h2 : 2 ≤ nW) :
    @DynamicResult _ binary64.ops m nW (.error .explicit) :=
  (DynamicResult_eq cmp64 m nW _).mpr (dyn_mismatch (search64 h) hn h2)

/-- four cities, costs up to 10, `k = 8` -/
theorem ex_doubleFits : DoubleFits 8 10 (Mat.ofFun 4 Ex.c4) Ex.c4 := by
  have hb : ∀ i < 4, ∀ j < 4, 0 ≤ Ex.c4 i j ∧ Ex.c4 i j ≤ 10 ∧ (Ex.c4 i j).den = 1 := by decide +kernel
  refine ⟨by norm_num, by norm_num, rep_ofFun _ _, ex_fits.1, fun i j hi hj _ => ?_,
    fun i j hi hj _ => (hb i hi j hj).1, fun i j hi hj _ => (hb i hi j hj).2.1, by decide, by decide,
    ex_fits.2.2⟩
  obtain ⟨b1, b2, b3⟩ := hb i hi j hj
  exact small_isDouble b1 (by linarith) b3

/-- all ranks return a tour, with its length up to `33 · 2 ^ -46` -/
example : ∃ p x, @StaticResult _ binary64.ops (Mat.ofFun 4 Ex.c4) 3 3 (.ok (.fin x, p)) ∧ IsTour 4 p ∧
    |x - tourCost Ex.c4 p| ≤ 33 * (2 : ℚ) ^ (-46 : ℤ) := by
  obtain ⟨⟨r, hr⟩, h⟩ := C79_static_result ex_doubleFits (by decide) (nW := 3) (by decide) (by decide)
  obtain ⟨p, x, rfl, a1, a2, -⟩ := h r hr
  refine ⟨p, x, hr, a1, a2.trans (le_of_eq ?_)⟩
  rw [show (Mat.ofFun 4 Ex.c4).dim = 4 from rfl]
  norm_num

example : ∃ p x, @DynamicResult _ binary64.ops (Mat.ofFun 4 Ex.c4) 1 (.ok (.fin x, p)) ∧ IsTour 4 p := by
  obtain ⟨⟨r, hr⟩, h⟩ := C79_dynamic_one_worker ex_doubleFits (by decide)
  obtain ⟨p, x, rfl, a1, -⟩ := h r hr
  exact ⟨p, x, hr, a1⟩

example : @DynamicResult _ binary64.ops (Mat.ofFun 4 Ex.c4) 5 (.error .explicit) :=
  C79_dynamic_mismatch ex_doubleFits (by decide) (by decide)

end Walky.Props
