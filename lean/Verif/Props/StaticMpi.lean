import Verif.Lemmas.StaticMpi
import Verif.Props.ExactPartial

/-! # Properties C21–C23, C27 (static solver), C60: the MPI solver with static work distribution -/

namespace Walky.Props

open Spec XNum

variable {K : Type} [Field K] [LinearOrder K] [IsStrictOrderedRing K]

omit [Field K] [LinearOrder K] [IsStrictOrderedRing K] in
private theorem dim_two {m : Mat (XNum K)} {nW : Nat} (h1 : 1 ≤ nW) (h2 : nW < m.dim ^ 3) :
    2 ≤ m.dim := by
  by_contra h
  have : m.dim = 0 ∨ m.dim = 1 := by omega
  rcases this with h | h
  · rw [h] at h2; simp at h2
  · rw [h] at h2; simp at h2; omega

theorem tour_nonneg {n : Nat} {c : Nat → Nat → K} (hn : 2 ≤ n) (hc : Nonneg n c) {q : List Nat}
    (hq : IsTour n q) : 0 ≤ tourCost c q :=
  (pathCost_nonneg hc (validPre_prefix hq (List.prefix_refl _))).trans
    (closing_nonneg hc (fun h => by omega) hq)

section
variable {S : XNum K → List Nat → RM (Solution (XNum K))} {V : List Nat → K → Prop}
  {A : K → List Nat → List Nat → Prop}

/-- Runs of the static solver, for any search -/
theorem static_progress {m : Mat (XNum K)} (hS : MSearch m.dim S V A)
    (hnn : ∀ q w, IsTour m.dim q → V q w → 0 ≤ w) {nW : Nat} (h1 : 1 ≤ nW) (h2 : nW < m.dim ^ 3) :
    ∃ s0 N, initStatic m 3 nW = .ok s0 ∧ s0.workers.length = nW ∧
      (∃ n s, Steps (SStepG m.dim S) n s0 s ∧ s.final) ∧
      ∀ n s, Steps (SStepG m.dim S) n s0 s → n ≤ N ∧ (s.final ∨ ∃ s', SStepG m.dim S s s') ∧
        (∀ (i : Nat) w, s.workers[i]? = some w → w.phase = .work →
          ∃ w', workerRoundG m.dim S (i + 1) w = .ok w') ∧
        (¬ s.finished < s.workers.length → s.final ∧ ∀ w ∈ s.workers, w.up = [] ∧ w.down = []) ∧
        ∀ w ∈ s.workers, (w.up ≠ [] → s.finished < s.workers.length) ∧
          (w.down ≠ [] → w.phase = .wait) := by
  have hd := dim_two h1 h2
  obtain ⟨s0, e1, e2⟩ := sinit_inv (V := V) (A := A) h2 (by omega : 0 < m.dim)
  refine ⟨s0, s0.measure m.dim (m.dim ^ 3), e1, e2.len,
    sexists_final hS (by omega) hnn _ s0 s0 0 le_rfl e2 (.refl _), ?_⟩
  intro n s hs
  obtain ⟨a1, a2⟩ := ssteps_inv hS (by omega) e2 hs
  have hfin : ¬ s.finished < s.workers.length → ∀ w ∈ s.workers, w.phase = .done ∧ w.up = [] ∧ w.down = [] :=
    finished_all a1 hnn
  refine ⟨by omega, ?_, ?_, ?_, ?_⟩
  · by_cases hf : s.final
    · exact Or.inl hf
    · exact Or.inr (sstep_progress hS (by omega) a1 hnn hf)
  · intro i w hw hp
    obtain ⟨w', a, _⟩ := workerRound_inv hS (by omega) (a1.wk i w hw) hp
    exact ⟨w', a⟩
  · intro h
    exact ⟨⟨h, fun w hw => (hfin h w hw).1⟩, fun w hw => (hfin h w hw).2⟩
  · intro w hw
    refine ⟨?_, ?_⟩
    · intro hup
      by_contra h
      exact hup (hfin h w hw).2.1
    · intro hdown
      obtain ⟨i, hi⟩ := List.mem_iff_getElem?.mp hw
      cases (a1.wk i w hi).shape with
      | work _ _ h3 => exact absurd h3 hdown
      | sent h1 _ _ => exact h1
      | answered _ h1 _ _ _ _ _ => exact h1
      | stuck h1 _ _ _ => exact h1
      | leaving _ _ h3 => exact absurd h3 hdown
      | left _ _ h3 => exact absurd h3 hdown

/-- Facts about every complete execution. -/
theorem static_final {m : Mat (XNum K)} (hS : MSearch m.dim S V A) (hd : 0 < m.dim)
    {nW : Nat} (h2 : nW < m.dim ^ 3) {s0 s : SSys (XNum K)} {n : Nat}
    (e1 : initStatic m 3 nW = .ok s0) (e2 : Steps (SStepG m.dim S) n s0 s) (hf : s.final) :
    SInv m.dim V A 3 (sLo (m.dim ^ 3) nW) (sHi (m.dim ^ 3) nW) nW s ∧
      ∀ w ∈ s.workers, FloatOps.le s.winner.1 w.sol.1 = true := by
  obtain ⟨s0', e1', e3⟩ := sinit_inv (V := V) (A := A) h2 hd
  rw [e1] at e1'
  injection e1' with e
  subst e
  obtain ⟨a1, _⟩ := ssteps_inv hS hd e3 e2
  refine ⟨a1, ?_⟩
  intro w hw
  obtain ⟨i, hi⟩ := List.mem_iff_getElem?.mp hw
  exact (a1.wk i w hi).wle (by rw [hf.2 w hw]; simp)

/-- The winner of the static solver, for any search -/
theorem static_winner {m : Mat (XNum K)} (hS : MSearch m.dim S V A)
    (hd : 0 < m.dim) {nW : Nat} (h2 : nW < m.dim ^ 3) {s0 s : SSys (XNum K)} {n : Nat}
    (e1 : initStatic m 3 nW = .ok s0) (e2 : Steps (SStepG m.dim S) n s0 s) (hf : s.final) :
    (∀ w ∈ s.workers, FloatOps.le s.winner.1 w.sol.1 = true) ∧
    ((∃ i w, s.winner.2 = i + 1 ∧ s.workers[i]? = some w ∧ w.sol.1 = s.winner.1 ∧
        IsTour m.dim w.sol.2 ∧ ∃ x, s.winner.1 = .fin x ∧ V w.sol.2 x) ∨
      (s.winner = (XNum.inf, 0) ∧ ∀ w ∈ s.workers, w.sol = (XNum.inf, []))) := by
  obtain ⟨a1, a2⟩ := static_final hS hd h2 e1 e2 hf
  refine ⟨a2, ?_⟩
  rcases a1.win with e | ⟨i, w, b1, b2, b3, b4⟩
  · right
    refine ⟨e, ?_⟩
    intro w hw
    obtain ⟨i, hi⟩ := List.mem_iff_getElem?.mp hw
    rcases (a1.wk i w hi).sol with h | h
    · exact h
    · have := a2 w hw
      obtain ⟨-, x, hx, -⟩ := h
      rw [e, hx] at this
      simp at this
  · left
    have hw : w ∈ s.workers := List.mem_iff_getElem?.mpr ⟨i, b1⟩
    have e := le_antisymm' b4 (a2 w hw)
    refine ⟨i, w, b2, b1, e, b3, ?_⟩
    rcases (a1.wk i w b1).sol with h | h
    · rw [h] at b3; exact absurd b3 (not_isTour_nil hd)
    · obtain ⟨-, x, hx, hv⟩ := h
      exact ⟨x, by rw [← e, hx], hv⟩

end

/-- **C21 (partial)** Non-negative costs, any number of workers below `n³`, every message order:
no process panics; the number of steps is bounded; as long as not everybody is at the barrier some
process can take a step; the coordinator stops listening only when all workers are at the barrier and
no message is in transit; and each message in transit has a receiver that is listening (so that the
same holds for sends that wait for the receiver).
Missing: at least `n³` workers, where the splitting panics (`C21_too_many_workers`). -/
theorem C21_static_no_deadlock_partial {m : Mat (XNum K)} {c : Nat → Nat → K} (hm : Rep m c)
    (hc : Nonneg m.dim c) {nW : Nat} (h1 : 1 ≤ nW) (h2 : nW < m.dim ^ 3) :
    ∃ s0 N, initStatic m 3 nW = .ok s0 ∧ s0.workers.length = nW ∧
      (∃ n s, Steps (SStep m) n s0 s ∧ s.final) ∧
      ∀ n s, Steps (SStep m) n s0 s → n ≤ N ∧ (s.final ∨ ∃ s', SStep m s s') ∧
        (∀ (i : Nat) w, s.workers[i]? = some w → w.phase = .work →
          ∃ w', workerRound m (i + 1) w = .ok w') ∧
        (¬ s.finished < s.workers.length → s.final ∧ ∀ w ∈ s.workers, w.up = [] ∧ w.down = []) ∧
        ∀ w ∈ s.workers, (w.up ≠ [] → s.finished < s.workers.length) ∧
          (w.down ≠ [] → w.phase = .wait) := by
  have hd := dim_two h1 h2
  rw [SStep_eq sameCmp_exact, workerRound_eq sameCmp_exact]
  exact static_progress (searchMpi_ok hm (by omega))
    (fun q w hq hw => by rw [hw]; exact tour_nonneg hd hc hq) h1 h2

/-- the hypotheses of C21: four cities, seven workers -/
example : Rep Ex.m4 Ex.c4 ∧ Nonneg Ex.m4.dim Ex.c4 ∧ 1 ≤ 7 ∧ 7 < Ex.m4.dim ^ 3 :=
  ⟨Ex.rep4, Ex.nonneg4, by decide, by decide⟩

/-- **C21 (negation)** With `n³` or more workers every worker panics while splitting the work. -/
theorem C21_too_many_workers {α : Type} [FloatOps α] (m : Mat α) {nW : Nat} (h1 : 1 ≤ nW) (h : m.dim ^ 3 ≤ nW) :
    (∀ i, splitChunks 3 m.dim nW i = .error .assert) ∧ initStatic m 3 nW = .error .assert := by
  have key : ∀ i, splitChunks 3 m.dim nW i = .error .assert := by
    intro i
    unfold splitChunks
    simp only [show ¬ nW < m.dim ^ 3 by omega, if_false]
  refine ⟨key, ?_⟩
  obtain ⟨j, rfl⟩ : ∃ j, nW = j + 1 := ⟨nW - 1, by omega⟩
  unfold initStatic
  rw [List.range_succ_eq_map, List.mapM_cons, key]
  rfl

/-- **C22 (partial)** In every complete execution, for every finite matrix and every number of
workers: the broadcast cost is not larger than any worker's local cost, and either the winning rank is
a worker whose local path is a tour with exactly that cost, or no worker has found anything and the
cost is infinite. Missing: in the second case (see `C23_single_process`, `C23_no_work`) there is no
local path. -/
theorem C22_static_winner_partial {m : Mat (XNum K)} {c : Nat → Nat → K} (hm : Rep m c)
    (hd : 0 < m.dim) {nW : Nat} (h2 : nW < m.dim ^ 3) {s0 s : SSys (XNum K)} {n : Nat}
    (e1 : initStatic m 3 nW = .ok s0) (e2 : Steps (SStep m) n s0 s) (hf : s.final) :
    (∀ w ∈ s.workers, FloatOps.le s.winner.1 w.sol.1 = true) ∧
    ((∃ i w, s.winner.2 = i + 1 ∧ s.workers[i]? = some w ∧ w.sol.1 = s.winner.1 ∧
        IsTour m.dim w.sol.2 ∧ s.winner.1 = .fin (tourCost c w.sol.2)) ∨
      (s.winner = (XNum.inf, 0) ∧ ∀ w ∈ s.workers, w.sol = (XNum.inf, []))) := by
  rw [SStep_eq sameCmp_exact] at e2
  obtain ⟨h, h'⟩ := static_winner (searchMpi_ok hm hd) hd h2 e1 e2 hf
  refine ⟨h, h'.imp_left ?_⟩
  rintro ⟨i, w, a, b, d, e, x, hx, rfl⟩
  exact ⟨i, w, a, b, d, e, hx⟩

/-- the hypotheses of C22 can be met: an execution of three workers on four cities -/
example : ∃ s0 n s, initStatic Ex.m4 3 3 = .ok s0 ∧ Steps (SStep Ex.m4) n s0 s ∧ s.final := by
  obtain ⟨s0, _, e1, _, ⟨n, s, e2, e3⟩, _⟩ := C21_static_no_deadlock_partial Ex.rep4 Ex.nonneg4
    (nW := 3) (by decide) (by decide)
  exact ⟨s0, n, s, e1, e2, e3⟩

/-- the chunk of the worker with rank `i + 1` contains a prefix the worker searches -/
def HasWork (n nW i : Nat) : Prop :=
  ∃ pre : List Nat, pre.length = 3 ∧ pre.Nodup ∧ (∀ x ∈ pre, x < n) ∧
    i * (n ^ 3 / nW) < Nat.ofDigits n pre.reverse ∧
    (Nat.ofDigits n pre.reverse + 1 < (i + 1) * (n ^ 3 / nW) ∨ n ^ 3 / nW = 1)

theorem hasWork_iff {n nW i : Nat} (h : nW < n ^ 3) (hi : i < nW) :
    HasWork n nW i ↔ ∃ pre, SWork n 3 (sLo (n ^ 3) nW i) (sHi (n ^ 3) nW i) pre := by
  have hcs : 1 ≤ n ^ 3 / nW := Nat.div_pos h.le (by omega)
  have e : (i + 1) * (n ^ 3 / nW) = i * (n ^ 3 / nW) + n ^ 3 / nW := by ring
  unfold HasWork sLo sHi
  constructor
  · rintro ⟨pre, h1, h2, h3, h4, h5⟩
    refine ⟨pre, h1, h3, h2, h4, ?_⟩
    unfold digitsVal
    omega
  · rintro ⟨pre, h1, h2, h3, h4, h5⟩
    unfold digitsVal at h4 h5
    exact ⟨pre, h1, h3, h2, h4, by omega⟩

/-- with chunks of at least `3n + 1` prefixes every worker has work -/
theorem hasWork_of_large {n nW i : Nat} (hn : 3 ≤ n) (hi : i < nW) (hcs : 3 * n + 1 ≤ n ^ 3 / nW) :
    HasWork n nW i := by
  have e : (i + 1) * (n ^ 3 / nW) = i * (n ^ 3 / nW) + n ^ 3 / nW := by ring
  have hle : (i + 1) * (n ^ 3 / nW) ≤ n ^ 3 :=
    (Nat.mul_le_mul_right _ hi).trans (Nat.mul_div_le _ _)
  set lo := i * (n ^ 3 / nW) with hlo
  -- a block of prefixes `[a, b, _]` with `a ≠ b`
  have key : ∃ B, lo < B * n ∧ B * n + n ≤ lo + 3 * n ∧ B / n ≠ B % n := by
    have hB1 : lo < (lo / n + 1) * n := by
      rw [Nat.add_mul, Nat.one_mul]
      have h1 := Nat.div_add_mod lo n
      have h2 := Nat.mod_lt lo (show n > 0 by omega)
      rw [Nat.mul_comm] at h1
      omega
    have hB2 : (lo / n + 1) * n ≤ lo + n := by
      rw [Nat.add_mul, Nat.one_mul]
      have := Nat.div_mul_le_self lo n
      omega
    set B := lo / n + 1 with hB
    by_cases hne : B / n ≠ B % n
    · exact ⟨B, hB1, by omega, hne⟩
    · have heq : B / n = B % n := not_not.mp hne
      refine ⟨B + 1, by rw [Nat.add_mul, Nat.one_mul]; omega, by rw [Nat.add_mul, Nat.one_mul]; omega, ?_⟩
      have hdm := Nat.div_add_mod B n
      have hmod := Nat.mod_lt B (show n > 0 by omega)
      by_cases hb : B % n + 1 = n
      · have e1 : B + 1 = n * (B / n + 1) := by rw [Nat.mul_add, Nat.mul_one]; omega
        rw [e1, Nat.mul_div_cancel_left _ (by omega), Nat.mul_mod_right]
        omega
      · have e1 : B + 1 = (B % n + 1) + n * (B / n) := by omega
        have hlt : B % n + 1 < n := by omega
        rw [e1, Nat.add_mul_div_left _ _ (by omega), Nat.add_mul_mod_self_left,
          Nat.div_eq_of_lt hlt, Nat.mod_eq_of_lt hlt]
        omega
  obtain ⟨B, hB1, hB2, hB3⟩ := key
  obtain ⟨d, hd, hd1, hd2⟩ : ∃ d < 3, d ≠ B / n ∧ d ≠ B % n := by
    by_cases h0 : 0 ≠ B / n ∧ 0 ≠ B % n
    · exact ⟨0, by omega, h0.1, h0.2⟩
    · by_cases h1 : 1 ≠ B / n ∧ 1 ≠ B % n
      · exact ⟨1, by omega, h1.1, h1.2⟩
      · exact ⟨2, by omega, by omega, by omega⟩
  have hval : Nat.ofDigits n [B / n, B % n, d].reverse = B * n + d := by
    simp only [List.reverse_cons, List.reverse_nil, List.nil_append, List.cons_append,
      Nat.ofDigits_cons, Nat.ofDigits_nil, Nat.mul_zero, Nat.add_zero]
    have := Nat.div_add_mod B n
    calc d + n * (B % n + n * (B / n)) = d + n * B := by congr 2; omega
      _ = B * n + d := by ring
  have hBlt : B < n * n := by
    by_contra h
    have : n * n * n ≤ B * n := Nat.mul_le_mul_right _ (not_lt.mp h)
    have : n ^ 3 = n * n * n := by ring
    omega
  refine ⟨[B / n, B % n, d], rfl, ?_, ?_, ?_, ?_⟩
  · simp only [List.nodup_cons, List.mem_cons, List.not_mem_nil, or_false, not_or, not_false_eq_true,
      List.nodup_nil, and_true]
    exact ⟨⟨hB3, fun h => hd1 h.symm⟩, fun h => hd2 h.symm⟩
  · intro x hx
    simp only [List.mem_cons, List.not_mem_nil, or_false] at hx
    rcases hx with rfl | rfl | rfl
    · exact Nat.div_lt_of_lt_mul hBlt
    · exact Nat.mod_lt _ (by omega)
    · omega
  · rw [hval]; omega
  · left
    rw [hval, e]
    omega

theorem large_of_few {n nW : Nat} (hn : 3 ≤ n) (h1 : 1 ≤ nW) (h2 : nW < n) :
    3 * n + 1 ≤ n ^ 3 / nW := by
  rw [Nat.le_div_iff_mul_le h1]
  obtain ⟨k, rfl⟩ : ∃ k, n = k + 3 := ⟨n - 3, by omega⟩
  calc (3 * (k + 3) + 1) * nW ≤ (3 * (k + 3) + 1) * (k + 2) := Nat.mul_le_mul_left _ (by omega)
    _ ≤ (k + 3) ^ 3 := by nlinarith [sq_nonneg k, Nat.zero_le (k ^ 3)]

/-- the wrap-up with buffers of equal length -/
theorem wrapUp_ok {α : Type} {w : α × Nat} {bufs : List (List Nat)} {b : List Nat} {n : Nat}
    (hb : bufs[w.2]? = some b) (hl : ∀ b' ∈ bufs, b'.length = n) : wrapUp w bufs = .ok (w.1, b) := by
  have hb' : b.length = n := hl b (List.mem_iff_getElem?.mpr ⟨_, hb⟩)
  unfold wrapUp
  rw [idx_ok hb]
  simp only [rm_bind_ok]
  rw [if_pos]
  · rfl
  · rw [List.all_eq_true]
    intro b' h
    rw [hl b' h, hb']
    simp

/-- the wrap-up with buffers of different lengths -/
theorem wrapUp_err {α : Type} {w : α × Nat} {bufs : List (List Nat)} (hw : w.2 < bufs.length)
    {b1 b2 : List Nat} (h1 : b1 ∈ bufs) (h2 : b2 ∈ bufs) (hne : b1.length ≠ b2.length) :
    wrapUp w bufs = .error .explicit := by
  unfold wrapUp
  rw [idx_ok (List.getElem?_eq_getElem hw)]
  simp only [rm_bind_ok]
  rw [if_neg]
  rw [List.all_eq_true]
  intro h
  have a := h b1 h1
  have b := h b2 h2
  simp at a b
  omega

theorem lt_cube {n nW : Nat} (hn : 3 ≤ n) (h2 : nW < n) : nW < n ^ 3 := by
  calc nW < n := h2
    _ = n ^ 1 := (pow_one _).symm
    _ ≤ n ^ 3 := Nat.pow_le_pow_right (by omega) (by omega)

section
variable {S : XNum K → List Nat → RM (Solution (XNum K))} {V : List Nat → K → Prop}
  {A : K → List Nat → List Nat → Prop}

/-- `StaticResult` for any search -/
def StaticResultG (m : Mat (XNum K)) (S : XNum K → List Nat → RM (Solution (XNum K)))
    (nW : Nat) (r : RM (Solution (XNum K))) : Prop :=
  ∃ s0 n s, initStatic m 3 nW = .ok s0 ∧ Steps (SStepG m.dim S) n s0 s ∧ s.final ∧
    r = wrapUp s.winner (s.buffers m.dim)

theorem StaticResult_eq {F : FloatOps (XNum K)} (hF : SameCmp F) (m : Mat (XNum K)) (nW : Nat)
    (r : RM (Solution (XNum K))) :
    @StaticResult _ F m 3 nW r ↔ StaticResultG m (@searchMpi _ F m) nW r := by
  unfold StaticResult StaticResultG
  rw [SStep_eq hF, initStatic_eq hF]

/-- The result of the static solver, for any search -/
theorem static_tour {m : Mat (XNum K)} (hS : MSearch m.dim S V A)
    {nW : Nat} (h1 : 1 ≤ nW) (h2 : nW < m.dim ^ 3) (hw : ∀ i < nW, HasWork m.dim nW i)
    {r : RM (Solution (XNum K))} (hr : StaticResultG m S nW r) :
    ∃ p x, r = .ok (.fin x, p) ∧ IsTour m.dim p ∧ V p x := by
  have hd := dim_two h1 h2
  obtain ⟨s0, n, s, e1, e2, e3, rfl⟩ := hr
  obtain ⟨a1, a2⟩ := static_final hS (by omega) h2 e1 e2 e3
  have htour : ∀ (i : Nat) (w : SWorker (XNum K)), s.workers[i]? = some w → IsTour m.dim w.sol.2 := by
    intro i w hi
    have hin : i < nW := by rw [← a1.len]; exact (List.getElem?_eq_some_iff.mp hi).1
    obtain ⟨pre, hp⟩ := (hasWork_iff h2 hin).mp (hw i hin)
    exact (a1.wk i w hi).seen pre hp (Or.inl (e3.2 w (List.mem_iff_getElem?.mpr ⟨i, hi⟩)))
  rcases (static_winner hS (by omega) h2 e1 e2 e3).2 with
    ⟨i, w, b1, b2, b3, b4, x, b5, b6⟩ | ⟨_, h⟩
  · refine ⟨w.sol.2, x, ?_, b4, b6⟩
    rw [← b5]
    refine wrapUp_ok (n := m.dim) ?_ ?_
    · rw [b1]
      simp [SSys.buffers, b2]
    · intro b' hb'
      simp only [SSys.buffers, List.mem_cons, List.mem_map] at hb'
      rcases hb' with rfl | ⟨w', hw', rfl⟩
      · simp
      · obtain ⟨j, hj⟩ := List.mem_iff_getElem?.mp hw'
        exact (htour j w' hj).length
  · exfalso
    have h0 : 0 < s.workers.length := by rw [a1.len]; exact h1
    have := htour 0 _ (List.getElem?_eq_getElem h0)
    rw [h _ (List.getElem_mem h0)] at this
    exact not_isTour_nil (by omega) this

/-- The failing broadcast of the static solver, for any search -/
theorem static_mismatch {m : Mat (XNum K)} (hS : MSearch m.dim S V A) (hd : 0 < m.dim)
    {nW : Nat} (h2 : nW < m.dim ^ 3) {i : Nat} (hi : i < nW) (hw : ¬ HasWork m.dim nW i)
    {r : RM (Solution (XNum K))} (hr : StaticResultG m S nW r) : r = .error .explicit := by
  obtain ⟨s0, n, s, e1, e2, e3, rfl⟩ := hr
  obtain ⟨a1, a2⟩ := static_final hS hd h2 e1 e2 e3
  have hil : i < s.workers.length := by rw [a1.len]; exact hi
  have hW := a1.wk i _ (List.getElem?_eq_getElem hil)
  have hsol : s.workers[i].sol = (XNum.inf, []) := by
    rcases hW.sol with h | h
    · exact h
    · exact absurd ((hasWork_iff h2 hi).mpr (hW.conv h.1)) hw
  refine wrapUp_err ?_ (b1 := List.replicate m.dim 0) (b2 := []) (by simp [SSys.buffers]) ?_
    (by simp; omega)
  · rcases a1.win with e | ⟨j, w, b1, b2, _⟩
    · rw [e]; simp [SSys.buffers]
    · rw [b2]
      have := (List.getElem?_eq_some_iff.mp b1).1
      simp [SSys.buffers]
      omega
  · simp only [SSys.buffers, List.mem_cons, List.mem_map]
    exact Or.inr ⟨_, List.getElem_mem hil, by rw [hsol]⟩

/-- The result of the static solver with few workers against the bounds of the search -/
theorem static_le {m : Mat (XNum K)} (hS : MSearch m.dim S V A)
    (hn : 3 ≤ m.dim) {nW : Nat} (h1 : 1 ≤ nW) (h2 : nW < m.dim) {x : K} {p : List Nat}
    (hr : StaticResultG m S nW (.ok (.fin x, p))) {a b : Nat} {t : List Nat}
    (hq : IsTour m.dim (0 :: a :: b :: t)) {T : K} (hA : A T [0, a, b] (0 :: a :: b :: t)) : x ≤ T := by
  have hlt : nW < m.dim ^ 3 := lt_cube hn h2
  have ha : a < m.dim := hq.mem.mp (by simp)
  have hb' : b < m.dim := hq.mem.mp (by simp)
  have hnd : [0, a, b].Nodup := by
    have := hq.nodup
    simp only [List.nodup_cons, List.mem_cons, not_or] at this ⊢
    simp
    tauto
  have hw := work_zero hn h1 h2 ha hb' hnd
  obtain ⟨s0, n, s, e1, e2, e3, e4⟩ := hr
  obtain ⟨a1, a2⟩ := static_final hS (by omega) hlt e1 e2 e3
  have h0 : 0 < s.workers.length := by rw [a1.len]; exact h1
  have hW := a1.wk 0 _ (List.getElem?_eq_getElem h0)
  have hwin : FloatOps.le s.winner.1 (fin T) = true := by
    rcases hW.bound [0, a, b] (0 :: a :: b :: t) T
      ⟨hw.len, hw.valid, hw.nodup, hw.gt, Or.inl hw.lt⟩ (Or.inl (e3.2 _ (List.getElem_mem h0))) hq ⟨t, rfl⟩
      hA with h | h
    · exact h
    · exact le_trans' (a2 _ (List.getElem_mem h0)) h
  have hwp : s.winner.1 = fin x := by
    unfold wrapUp at e4
    cases hb : idx (s.buffers m.dim) s.winner.2 with
    | error e => rw [hb] at e4; cases e4
    | ok b =>
      rw [hb] at e4
      simp only [rm_bind_ok] at e4
      split at e4
      · injection e4 with e4
        injection e4 with e5 e6
        exact e5.symm
      · cases e4
  rw [hwp] at hwin
  simpa using hwin

/-- every tour can be started at city 0 with two more cities -/
theorem exists_rotate_zero {n : Nat} (hn : 3 ≤ n) {q : List Nat} (hq : IsTour n q) :
    ∃ k a b t, q.rotate k = 0 :: a :: b :: t ∧ IsTour n (0 :: a :: b :: t) := by
  obtain ⟨k, t, hk⟩ := rotate_to_zero (by omega) hq
  have hq' : IsTour n (0 :: t) := hk ▸ hq.rotate k
  have hlen := hq'.length
  rcases t with _ | ⟨a, _ | ⟨b, t⟩⟩
  · simp at hlen; omega
  · simp at hlen; omega
  exact ⟨k, a, b, t, hk, hq'⟩

end

/-- **C23, C27 (static solver, partial)** If every worker has work, then every complete execution ends
with a broadcast between buffers of equal length, and all ranks return the same tour and its length.
Missing: workers without work, `C27_static_mismatch`, and a single process, `C23_single_process`. -/
theorem C23_static_tour_partial {m : Mat (XNum K)} {c : Nat → Nat → K} (hm : Rep m c)
    {nW : Nat} (h1 : 1 ≤ nW) (h2 : nW < m.dim ^ 3) (hw : ∀ i < nW, HasWork m.dim nW i)
    {r : RM (Solution (XNum K))} (hr : StaticResult m 3 nW r) :
    ∃ p, r = .ok (.fin (tourCost c p), p) ∧ IsTour m.dim p := by
  have hd := dim_two h1 h2
  obtain ⟨p, x, h, h', rfl⟩ := static_tour (searchMpi_ok hm (by omega)) h1 h2 hw
    ((StaticResult_eq sameCmp_exact m nW r).mp hr)
  exact ⟨p, h, h'⟩

/-- **C23, C27 (static solver, partial)** In particular with fewer workers than cities. -/
theorem C23_static_few_workers_partial {m : Mat (XNum K)} {c : Nat → Nat → K} (hm : Rep m c)
    (hn : 3 ≤ m.dim) {nW : Nat} (h1 : 1 ≤ nW) (h2 : nW < m.dim)
    {r : RM (Solution (XNum K))} (hr : StaticResult m 3 nW r) :
    ∃ p, r = .ok (.fin (tourCost c p), p) ∧ IsTour m.dim p := by
  refine C23_static_tour_partial hm h1 ?_ (fun i hi => hasWork_of_large hn hi (large_of_few hn h1 h2)) hr
  calc nW < m.dim := h2
    _ = m.dim ^ 1 := (pow_one _).symm
    _ ≤ m.dim ^ 3 := Nat.pow_le_pow_right (by omega) (by omega)

/-- the hypotheses of C23: four cities and three workers, and there is a result -/
example : Rep Ex.m4 Ex.c4 ∧ 3 ≤ Ex.m4.dim ∧ 1 ≤ 3 ∧ 3 < Ex.m4.dim ∧ ∃ r, StaticResult Ex.m4 3 3 r := by
  obtain ⟨s0, _, e1, _, ⟨n, s, e2, e3⟩, _⟩ := C21_static_no_deadlock_partial Ex.rep4 Ex.nonneg4
    (nW := 3) (by decide) (by decide)
  exact ⟨Ex.rep4, by decide, by decide, by decide, _, s0, n, s, e1, e2, e3, rfl⟩

/-- **C23 (negation)** A single process returns infinite cost and the path `[0, …, 0]`, which is not
a tour if there are at least two cities. -/
theorem C23_single_process {α : Type} [FloatOps α] (m : Mat α) (hn : 2 ≤ m.dim) (r : RM (Solution α)) :
    (StaticResult m 3 0 r ↔ r = .ok (FloatOps.inf, List.replicate m.dim 0)) ∧
      ¬ IsTour m.dim (List.replicate m.dim 0) := by
  have hnt : ¬ IsTour m.dim (List.replicate m.dim 0) := by
    intro h
    have := h.nodup
    obtain ⟨k, hk⟩ : ∃ k, m.dim = k + 2 := ⟨m.dim - 2, by omega⟩
    rw [hk] at this
    simp [List.replicate_succ] at this
  have hstuck : ∀ n s, Steps (SStep m) n (⟨[], (FloatOps.inf, 0), 0⟩ : SSys α) s →
      s = ⟨[], (FloatOps.inf, 0), 0⟩ := by
    intro n s hs
    generalize hs0 : (⟨[], (FloatOps.inf, 0), 0⟩ : SSys α) = s0 at hs
    induction hs with
    | refl => exact hs0.symm ▸ rfl
    | tail h1 h2 ih =>
      have := ih hs0
      subst hs0
      subst this
      cases h2 with
      | round i w w' h1 _ _ => simp at h1
      | recv i w g rest h1 _ _ => simp at h1
      | root i w msg rest h0 _ _ => simp at h0
  have hres : wrapUp (FloatOps.inf, 0) (SSys.buffers (⟨[], (FloatOps.inf, 0), 0⟩ : SSys α) m.dim) =
      .ok ((FloatOps.inf : α), List.replicate m.dim 0) :=
    wrapUp_ok (n := m.dim) rfl (by simp [SSys.buffers])
  refine ⟨⟨?_, ?_⟩, hnt⟩
  · rintro ⟨s0, n, s, e1, e2, e3, rfl⟩
    have : s0 = ⟨[], (FloatOps.inf, 0), 0⟩ := by
      injection e1 with e
      exact e.symm
    subst this
    rw [hstuck n s e2]
    exact hres
  · rintro rfl
    exact ⟨⟨[], (FloatOps.inf, 0), 0⟩, 0, _, rfl, .refl _, ⟨by simp, by simp⟩, hres.symm⟩

/-- **C27 (static solver, negation)** If the chunk of some worker contains nothing to search, the
worker's buffer is empty and the final broadcast fails in every complete execution. -/
theorem C27_static_mismatch {m : Mat (XNum K)} {c : Nat → Nat → K} (hm : Rep m c) (hd : 0 < m.dim)
    {nW : Nat} (h2 : nW < m.dim ^ 3) {i : Nat} (hi : i < nW) (hw : ¬ HasWork m.dim nW i)
    {r : RM (Solution (XNum K))} (hr : StaticResult m 3 nW r) : r = .error .explicit := by
  exact static_mismatch (searchMpi_ok hm hd) hd h2 hi hw
    ((StaticResult_eq sameCmp_exact m nW r).mp hr)

/-- **C23 (negation)** If the number of workers is between a third (exclusive) and half of `n³`, no
worker searches anything, and the solver fails in every complete execution; there is one. For
instance 32 workers and four cities. -/
theorem C23_no_work {m : Mat (XNum K)} {c : Nat → Nat → K} (hm : Rep m c) (hc : Nonneg m.dim c)
    {nW : Nat} (hcs : m.dim ^ 3 / nW = 2) :
    (∃ r, StaticResult m 3 nW r) ∧ ∀ r, StaticResult m 3 nW r → r = .error .explicit := by
  have h1 : 1 ≤ nW := by
    rcases Nat.eq_zero_or_pos nW with h | h
    · rw [h] at hcs; simp at hcs
    · exact h
  have h2 : nW < m.dim ^ 3 := by
    by_contra h
    have : m.dim ^ 3 / nW ≤ 1 := by
      calc m.dim ^ 3 / nW ≤ nW / nW := Nat.div_le_div_right (not_lt.mp h)
        _ = 1 := Nat.div_self h1
    omega
  have hd := dim_two h1 h2
  refine ⟨?_, ?_⟩
  · obtain ⟨s0, _, e1, _, ⟨n, s, e2, e3⟩, _⟩ := C21_static_no_deadlock_partial hm hc h1 h2
    exact ⟨_, s0, n, s, e1, e2, e3, rfl⟩
  · intro r hr
    refine C27_static_mismatch hm (by omega) h2 (i := 0) (by omega) ?_ hr
    rintro ⟨pre, _, _, _, h4, h5⟩
    rw [hcs] at h4 h5
    omega

example : Rep Ex.m4 Ex.c4 ∧ Nonneg Ex.m4.dim Ex.c4 ∧ Ex.m4.dim ^ 3 / 32 = 2 :=
  ⟨Ex.rep4, Ex.nonneg4, by decide⟩

/-- **C60** Symmetric non-negative costs and fewer workers than cities: under every message order
all ranks return the same tour; it is at most twice as long as a shortest one, and a shortest one if
there are at most five cities. -/
theorem C60_static_quality {m : Mat (XNum K)} {c : Nat → Nat → K} (hm : Rep m c)
    (hn : 3 ≤ m.dim) (hsym : Symm m.dim c) (hc : Nonneg m.dim c) {nW : Nat} (h1 : 1 ≤ nW)
    (h2 : nW < m.dim) {r : RM (Solution (XNum K))} (hr : StaticResult m 3 nW r) :
    ∃ p, r = .ok (.fin (tourCost c p), p) ∧ IsTour m.dim p ∧
      (∀ q, IsTour m.dim q → tourCost c p ≤ 2 * tourCost c q) ∧
      (m.dim ≤ 5 → IsShortest m.dim c p) := by
  have hlt : nW < m.dim ^ 3 := by
    calc nW < m.dim := h2
      _ = m.dim ^ 1 := (pow_one _).symm
      _ ≤ m.dim ^ 3 := Nat.pow_le_pow_right (by omega) (by omega)
  obtain ⟨p, e, hp⟩ := C23_static_few_workers_partial hm hn h1 h2 hr
  have key : ∀ q T, IsTour m.dim q → tourCost c q ≤ T →
      (∀ q', IsTour m.dim q' → tourCost c q' = tourCost c q → ∀ p t, q' = p ++ t → 4 ≤ p.length →
        pathCost c p + 2 * pathCost c t ≤ T) → tourCost c p ≤ T := by
    intro q T hq hT hb
    obtain ⟨k, a, b, t, hk, hq'⟩ := exists_rotate_zero hn hq
    have hcq : tourCost c (0 :: a :: b :: t) = tourCost c q := by rw [← hk, tourCost_rotate]
    have hr' := (StaticResult_eq sameCmp_exact m nW r).mp hr
    rw [e] at hr'
    exact static_le (searchMpi_ok hm (by omega)) hn h1 h2 hr' hq' ⟨by rw [hcq]; exact hT,
      along_test5_from hm hsym hq' (fun p s e hp _ => hb _ hq' hcq p s e hp)⟩
  refine ⟨p, e, hp, ?_, ?_⟩
  · intro q hq
    have h0 := tour_split_ge hc (fun h => by omega) (p := q) (t := []) (by simpa using hq)
    simp only [List.append_nil, pathCost_nil, add_zero] at h0
    refine key q _ hq (by linarith) ?_
    intro q' hq' hcq p t e _
    subst e
    have := tour_split_ge hc (fun h => by omega) hq'
    linarith
  · intro h5
    refine ⟨hp, fun q hq => key q _ hq le_rfl ?_⟩
    intro q' hq' hcq p t e hp
    subst e
    have hl := hq'.length
    simp at hl
    have ht : pathCost c t = 0 := by
      rcases t with _ | ⟨x, _ | ⟨y, t⟩⟩
      · rfl
      · rfl
      · simp at hl; omega
    have := tour_split_ge hc (fun h => by omega) hq'
    rw [← hcq, ht]
    linarith

/-- the hypotheses of C60 -/
example : Rep Ex.m4 Ex.c4 ∧ 3 ≤ Ex.m4.dim ∧ Symm Ex.m4.dim Ex.c4 ∧ Nonneg Ex.m4.dim Ex.c4 ∧ 1 ≤ 2 ∧
    2 < Ex.m4.dim := ⟨Ex.rep4, by decide, Ex.symm4, Ex.nonneg4, by decide, by decide⟩

end Walky.Props
