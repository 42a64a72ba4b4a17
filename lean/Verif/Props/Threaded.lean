import Verif.Lemmas.Threaded
import Verif.Props.ExactPartial

/-! # Properties C17–C20: the multi-threaded solver -/

namespace Walky.Props

open Spec XNum

variable {K : Type} [Field K] [LinearOrder K] [IsStrictOrderedRing K]

/-- **C17, progress** For every number of threads below the dimension: the threads start without
panic; the number of steps of any execution is bounded; in every reachable state no thread panics
with its next step, so that the execution can go on until all threads have finished. -/
theorem C17_progress {m : Mat (XNum K)} {c : Nat → Nat → K} (hm : Rep m c) {nT : Nat}
    (h1 : 1 ≤ nT) (h2 : nT < m.dim) :
    ∃ s0 N, initThreads m 3 nT = .ok s0 ∧ s0.threads.length = nT ∧
      (∃ n s, Steps (TSys.step m) n s0 s ∧ s.final) ∧
      ∀ n s, Steps (TSys.step m) n s0 s → n ≤ N ∧
        ∀ (i : Nat) t, s.threads[i]? = some t → t.done = false → ∃ s', TSys.stepOf m i s s' :=
  threaded_progress sameCmp_exact (searchPrefix_searchOk hm (by omega)) h1 h2

/-- some execution has a result -/
theorem C17_result_exists {m : Mat (XNum K)} {c : Nat → Nat → K} (hm : Rep m c)
    (hn : 1 ≤ m.dim) {nT : Nat} (h1 : 1 ≤ nT) : ∃ r, ThreadedResult m 3 nT r := by
  unfold ThreadedResult
  by_cases h : m.dim ≤ nT
  · obtain ⟨p, hp, _⟩ := C10_truthful m c hm hn (fun _ => 0) _ (Or.inr (Or.inr (Or.inr (Or.inl rfl))))
    exact ⟨_, by rw [if_pos h]; exact hp⟩
  · obtain ⟨s0, _, e1, _, ⟨n, s, e2, e3⟩, _⟩ := C17_progress hm h1 (not_le.mp h)
    exact ⟨s.best, by rw [if_neg h]; exact ⟨s0, n, s, e1, e2, e3, rfl⟩⟩

/-- the facts about a result of the threads -/
theorem threaded_facts {m : Mat (XNum K)} {c : Nat → Nat → K} (hm : Rep m c) {nT : Nat}
    (h1 : 1 ≤ nT) (h2 : nT < m.dim) {r : Solution (XNum K)} (hr : ThreadedResult m 3 nT r) :
    (r = (XNum.inf, []) ∨ ∃ i < nT, ∃ pre,
        Work m.dim 3 (loV m.dim nT i) (hiV m.dim nT i) pre ∧ searchPrefix m pre = .ok r) ∧
    ∀ i < nT, ∀ pre, Work m.dim 3 (loV m.dim nT i) (hiV m.dim nT i) pre → ∀ r',
      searchPrefix m pre = .ok r' → FloatOps.le r.1 r'.1 = true :=
  threaded_factsG sameCmp_exact (searchPrefix_searchOk hm (by omega)) h1 h2 hr

/-- **C17 (partial)** Whatever the schedule, the cost returned by the threaded solver is the same,
and the path is a tour of that length. Missing: two cities with one thread, see
`C19_threaded_two_cities` (there the cost is infinite and the path empty). -/
theorem C17_schedule_independent_partial {m : Mat (XNum K)} {c : Nat → Nat → K} (hm : Rep m c)
    (hn : 1 ≤ m.dim) {nT : Nat} (h1 : 1 ≤ nT) (hex : ¬ (m.dim = 2 ∧ nT = 1)) :
    ∃ w, ∀ r, ThreadedResult m 3 nT r → r.1 = .fin w ∧ IsTour m.dim r.2 ∧ w = tourCost c r.2 := by
  by_cases h : m.dim ≤ nT
  · obtain ⟨p, hp, htp, _⟩ := C10_truthful m c hm hn (fun _ => 0) _
      (Or.inr (Or.inr (Or.inr (Or.inl rfl))))
    refine ⟨tourCost c p, ?_⟩
    intro r hr
    unfold ThreadedResult at hr
    rw [if_pos h, hp] at hr
    injection hr with e
    rw [← e]
    exact ⟨rfl, htp, rfl⟩
  · have h2 : nT < m.dim := not_le.mp h
    have hn3 : 3 ≤ m.dim := by omega
    have hd : 0 < m.dim := by omega
    have hw0 := work_zero (a := 1) (b := 2) hn3 h1 h2 (by omega) (by omega) (by decide)
    obtain ⟨r0, hr0, _, _, hr0c, _⟩ := searchPrefix_ok hm hd hw0.validPre
    have htour : ∀ r, ThreadedResult m 3 nT r → IsTour m.dim r.2 ∧ r.1 = fin (tourCost c r.2) ∧
        ∃ i < nT, ∃ pre, Work m.dim 3 (loV m.dim nT i) (hiV m.dim nT i) pre ∧
          searchPrefix m pre = .ok r := by
      intro r hr
      obtain ⟨a, b⟩ := threaded_facts hm h1 h2 hr
      rcases a with e | ⟨i, hi, pre, hw, hs⟩
      · have := b 0 (by omega) _ hw0 _ hr0
        rw [e, hr0c] at this
        simp at this
      · obtain ⟨r', d1, d2, _, d4, _⟩ := searchPrefix_ok hm hd hw.validPre
        rw [hs] at d1
        injection d1 with e
        subst e
        exact ⟨d2, d4, i, hi, pre, hw, hs⟩
    obtain ⟨r1, hr1⟩ := C17_result_exists hm hn h1
    refine ⟨tourCost c r1.2, ?_⟩
    intro r hr
    obtain ⟨a1, a2, i, hi, pre, hw, hs⟩ := htour r hr
    obtain ⟨b1, b2, j, hj, pre', hw', hs'⟩ := htour r1 hr1
    have l1 := (threaded_facts hm h1 h2 hr).2 j hj pre' hw' _ hs'
    have l2 := (threaded_facts hm h1 h2 hr1).2 i hi pre hw _ hs
    rw [a2, b2] at l1 l2
    simp only [XNum.le_fin, decide_eq_true_eq] at l1 l2
    have e := le_antisymm l1 l2
    exact ⟨by rw [a2, e], a1, e.symm⟩

/-- the hypotheses of C17 and C18: four cities, three threads -/
example : Rep Ex.m4 Ex.c4 ∧ 3 ≤ Ex.m4.dim ∧ 1 ≤ 3 ∧ 3 < Ex.m4.dim ∧ ¬ (Ex.m4.dim = 2 ∧ 3 = 1) :=
  ⟨Ex.rep4, by decide, by decide, by decide, by decide⟩

/-- **C18 (partial)** For every tour of at least three cities there is a rotation whose first three
cities are, in every complete execution, searched by some thread: at some moment of the execution
that thread waits for the lock with the result of the search below this prefix. Missing: tours of
two cities, which have no first three cities (`C19_threaded_two_cities`). -/
theorem C18_prefix_searched_partial {m : Mat (XNum K)} {c : Nat → Nat → K} (hm : Rep m c)
    (hn : 3 ≤ m.dim) {nT : Nat} (h1 : 1 ≤ nT) (h2 : nT < m.dim) {q : List Nat}
    (hq : IsTour m.dim q) :
    ∃ k i, i < nT ∧ ∀ s0 n s, initThreads m 3 nT = .ok s0 → Steps (TSys.step m) n s0 s → s.final →
      ∃ n1 n2 s1 t1 r, Steps (TSys.step m) n1 s0 s1 ∧ Steps (TSys.step m) n2 s1 s ∧
        s1.threads[i]? = some t1 ∧ t1.digits = (q.rotate k).take 3 ∧ t1.pending = some r ∧
        searchPrefix m ((q.rotate k).take 3) = .ok r :=
  threaded_searched sameCmp_exact (searchPrefix_searchOk hm (by omega)) hn h1 h2 hq

/-- **C19 (partial)** The threaded solver returns a tour and its length, for every dimension, number
of threads and schedule, except for two cities with one thread (`C19_threaded_two_cities`). -/
theorem C19_threaded_tour_partial {m : Mat (XNum K)} {c : Nat → Nat → K} (hm : Rep m c)
    (hn : 1 ≤ m.dim) {nT : Nat} (h1 : 1 ≤ nT) (hex : ¬ (m.dim = 2 ∧ nT = 1))
    {r : Solution (XNum K)} (hr : ThreadedResult m 3 nT r) :
    IsTour m.dim r.2 ∧ r.1 = .fin (tourCost c r.2) := by
  obtain ⟨w, hw⟩ := C17_schedule_independent_partial hm hn h1 hex
  obtain ⟨a, b, d⟩ := hw r hr
  exact ⟨b, by rw [a, d]⟩

/-- **C19 (negation)** With two cities and one thread, every execution returns the empty path with
infinite cost, and there is such an execution. -/
theorem C19_threaded_two_cities {m : Mat (XNum K)} {c : Nat → Nat → K} (hm : Rep m c)
    (hn : m.dim = 2) : ThreadedResult m 3 1 (XNum.inf, []) ∧
      ∀ r, ThreadedResult m 3 1 r → r = (XNum.inf, []) := by
  have key : ∀ r, ThreadedResult m 3 1 r → r = (XNum.inf, []) := by
    intro r hr
    rcases (threaded_facts hm (nT := 1) le_rfl (by omega) hr).1 with e | ⟨i, _, pre, hw, _⟩
    · exact e
    · have := hw.validPre.length_le
      have := hw.len
      omega
  obtain ⟨r, hr⟩ := C17_result_exists hm (by omega) (nT := 1) le_rfl
  exact ⟨key r hr ▸ hr, key⟩

/-- two cities at distance 5 -/
example : Rep (Mat.ofRowsFin [[0, 5], [5, 0]] : Mat (XNum ℚ)) (ofRowsC [[0, 5], [5, 0]]) ∧
    (Mat.ofRowsFin [[0, 5], [5, 0]] : Mat (XNum ℚ)).dim = 2 := ⟨rep_ofFun _ _, rfl⟩

/-- a bound for all tours whose search below the 3-prefix is not pruned -/
theorem threaded_le {m : Mat (XNum K)} {c : Nat → Nat → K} (hm : Rep m c) (hn : 3 ≤ m.dim)
    {nT : Nat} (h1 : 1 ≤ nT) (h2 : nT < m.dim) {r : Solution (XNum K)}
    (hr : ThreadedResult m 3 nT r) {q : List Nat} (hq : IsTour m.dim q) {T : K}
    (hT : tourCost c q ≤ T) (hsym : Symm m.dim c)
    (hb : ∀ q', IsTour m.dim q' → tourCost c q' = tourCost c q → ∀ p t, q' = p ++ t →
      4 ≤ p.length → pathCost c p + 2 * pathCost c t ≤ T) : tourCost c r.2 ≤ T := by
  obtain ⟨k, t, hk⟩ := rotate_to_zero (by omega) hq
  have hq' : IsTour m.dim (0 :: t) := hk ▸ hq.rotate k
  have hcq : tourCost c (0 :: t) = tourCost c q := by rw [← hk, tourCost_rotate]
  have hlen := hq'.length
  rcases t with _ | ⟨a, _ | ⟨b, t⟩⟩
  · simp at hlen; omega
  · simp at hlen; omega
  have ha : a < m.dim := hq'.mem.mp (by simp)
  have hb' : b < m.dim := hq'.mem.mp (by simp)
  have hnd : [0, a, b].Nodup := by
    have := hq'.nodup
    simp only [List.nodup_cons, List.mem_cons, not_or] at this ⊢
    simp
    tauto
  have hw := work_zero hn h1 h2 ha hb' hnd
  obtain ⟨r', e1, e2, e3, e4, e5, _⟩ := searchPrefix_ok hm (by omega) hw.validPre
  have hle := (threaded_facts hm h1 h2 hr).2 0 (by omega) _ hw r' e1
  obtain ⟨_, d2⟩ := C19_threaded_tour_partial hm (by omega) h1 (by omega) hr
  rw [d2, e4] at hle
  simp only [XNum.le_fin, decide_eq_true_eq] at hle
  refine hle.trans (e5 _ T hq' ⟨t, rfl⟩ (by rw [hcq]; exact hT) ?_)
  refine along_test5_from hm hsym hq' ?_
  intro p s e hp _
  exact hb _ hq' hcq p s e hp

/-- **C20 (partial)** For up to five cities, every number of threads and every schedule, the result
is a shortest tour. Missing: larger dimensions, where the claim is false (`C20_not_exact`), and two
cities with one thread. -/
theorem C20_threaded_exact_partial {m : Mat (XNum K)} {c : Nat → Nat → K} (hm : Rep m c)
    (hn : 1 ≤ m.dim) (hn5 : m.dim ≤ 5) (hsym : Symm m.dim c) (hc : Nonneg m.dim c) {nT : Nat}
    (h1 : 1 ≤ nT) (hex : ¬ (m.dim = 2 ∧ nT = 1)) {r : Solution (XNum K)}
    (hr : ThreadedResult m 3 nT r) : IsShortest m.dim c r.2 ∧ r.1 = .fin (tourCost c r.2) := by
  obtain ⟨a1, a2⟩ := C19_threaded_tour_partial hm hn h1 hex hr
  refine ⟨?_, a2⟩
  by_cases h : m.dim ≤ nT
  · obtain ⟨p, hp, hs⟩ := C08_v5_exact_partial m c hm hn hn5 hsym hc
    unfold ThreadedResult at hr
    rw [if_pos h, hp] at hr
    injection hr with e
    rw [← e]
    exact hs
  · refine ⟨a1, fun q hq => ?_⟩
    refine threaded_le hm (by omega) h1 (not_le.mp h) hr hq le_rfl hsym ?_
    intro q' hq' hcq p t e hp
    subst e
    have hl := hq'.length
    simp at hl
    have ht : pathCost c t = 0 := by
      rcases t with _ | ⟨x, _ | ⟨y, t⟩⟩
      · rfl
      · rfl
      · simp at hl; omega
    have := tour_split_ge hc (fun h => by omega) hq'
    rw [← hcq, ht]
    linarith

example : Rep Ex.m4 Ex.c4 ∧ 1 ≤ Ex.m4.dim ∧ Ex.m4.dim ≤ 5 ∧ Symm Ex.m4.dim Ex.c4 ∧
    Nonneg Ex.m4.dim Ex.c4 ∧ 1 ≤ 2 ∧ ¬ (Ex.m4.dim = 2 ∧ 2 = 1) :=
  ⟨Ex.rep4, by decide, by decide, Ex.symm4, Ex.nonneg4, by decide, by decide⟩

/-- **C20 (partial)** For every dimension, number of threads and schedule the result is at most twice
as long as a shortest tour. Missing: the factor 1. -/
theorem C20_threaded_within_twice_partial {m : Mat (XNum K)} {c : Nat → Nat → K} (hm : Rep m c)
    (hn : 1 ≤ m.dim) (hsym : Symm m.dim c) (hc : Nonneg m.dim c) (hd : m.dim = 1 → 0 ≤ c 0 0)
    {nT : Nat} (h1 : 1 ≤ nT) (hex : ¬ (m.dim = 2 ∧ nT = 1)) {r : Solution (XNum K)}
    (hr : ThreadedResult m 3 nT r) :
    IsTour m.dim r.2 ∧ r.1 = .fin (tourCost c r.2) ∧
      ∀ q, IsTour m.dim q → tourCost c r.2 ≤ 2 * tourCost c q := by
  obtain ⟨a1, a2⟩ := C19_threaded_tour_partial hm hn h1 hex hr
  refine ⟨a1, a2, fun q hq => ?_⟩
  by_cases h : m.dim ≤ nT
  · obtain ⟨p, hp, _, hs⟩ := C08_v5_within_twice_partial m c hm hn hsym hc hd
    unfold ThreadedResult at hr
    rw [if_pos h, hp] at hr
    injection hr with e
    rw [← e]
    exact hs q hq
  · have h0 := tour_split_ge hc hd (p := q) (t := []) (by simpa using hq)
    simp only [List.append_nil, pathCost_nil, add_zero] at h0
    refine threaded_le hm (by omega) h1 (not_le.mp h) hr hq (by linarith) hsym ?_
    intro q' hq' hcq p t e _
    subst e
    have := tour_split_ge hc hd hq'
    linarith

/-- **C20 (negation)** With at least six CPUs the threaded solver is the fifth solver on six cities
and returns a tour of length 61 although one of length 60 exists. -/
theorem C20_not_exact : ∃ (m : Mat (XNum ℚ)) (c : Nat → Nat → ℚ), Rep m c ∧ m.dim = 6 ∧
    Metric m.dim c ∧ Nonneg m.dim c ∧ ∀ nT, 6 ≤ nT → ∃ p q, ThreadedResult m 3 nT (fin (tourCost c p), p) ∧
      IsTour m.dim q ∧ tourCost c q < tourCost c p := by
  obtain ⟨m, c, h1, h2, h3, h4, p, q, h5, h6, h7⟩ := C08_v5_not_exact
  refine ⟨m, c, h1, h2, h3, h4, fun nT hT => ⟨p, q, ?_, h6, h7⟩⟩
  unfold ThreadedResult
  rw [if_pos (by omega)]
  exact h5

end Walky.Props
