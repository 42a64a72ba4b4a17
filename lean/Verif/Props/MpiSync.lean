import Verif.Model.MpiSync
import Verif.Props.DynamicMpi

/-! # Property C73: sends that wait; static solver with negative costs -/

namespace Walky.Props

open FloatOps Spec XNum

variable {K : Type} [Field K] [LinearOrder K] [IsStrictOrderedRing K]

theorem sstep_iff {α : Type} [FloatOps α] {m : Mat α} {s t : SSys α} :
    SStep m s t ↔ ∃ r, SStepBy m r s t := by
  constructor
  · intro h
    cases h with
    | round i w w' a b d => exact ⟨_, .round s i w w' a b d⟩
    | recv i w g rest a b d => exact ⟨_, .recv s i w g rest a b d⟩
    | root i w msg rest a b d => exact ⟨_, .root s i w msg rest a b d⟩
  · rintro ⟨r, h⟩
    cases h with
    | round _ i w w' a b d => exact .round s i w w' a b d
    | recv _ i w g rest a b d => exact .recv s i w g rest a b d
    | root _ i w msg rest a b d => exact .root s i w msg rest a b d

theorem dstep_iff {α : Type} [FloatOps α] {m : Mat α} {s t : DSys α} :
    DStep m s t ↔ ∃ r, DStepBy m r s t := by
  constructor
  · intro h
    cases h with
    | recv i w w' msg rest a b d e => exact ⟨_, .recv s i w w' msg rest a b d e⟩
    | root _ i w msg rest a b d e => exact ⟨_, .root s t i w msg rest a b d e⟩
  · rintro ⟨r, h⟩
    cases h with
    | recv _ i w w' msg rest a b d e => exact .recv s i w w' msg rest a b d e
    | root _ _ i w msg rest a b d e => exact .root s t i w msg rest a b d e

section
variable {F : FloatOps (XNum K)} {V : List Nat → K → Prop} {A : K → List Nat → List Nat → Prop}

/-- The static solver with sends that wait, for every arithmetic with exact comparisons -/
theorem static_sync (hF : SameCmp F) {m : Mat (XNum K)} (hS : MSearch m.dim (@searchMpi _ F m) V A)
    (hnn : ∀ q w, IsTour m.dim q → V q w → 0 ≤ w) {nW : Nat} (h1 : 1 ≤ nW) (h2 : nW < m.dim ^ 3)
    {s0 s : SSys (XNum K)} {n : Nat} (e1 : @initStatic _ F m 3 nW = .ok s0)
    (hs : Steps (@SStep _ F m) n s0 s) (held : Nat → Prop) (hh : ∀ r, held r → s.pending r) :
    (s.final ∧ ∀ r, ¬ s.pending r) ∨ ∃ r s', ¬ held r ∧ @SStepBy _ F m r s s' := by
  have hd : 2 ≤ m.dim := by
    by_contra h
    have : m.dim = 0 ∨ m.dim = 1 := by omega
    rcases this with h | h <;> rw [h] at h2 <;> simp at h2
    omega
  obtain ⟨s0', e1', e2⟩ := sinit_inv (V := V) (A := A) h2 (by omega : 0 < m.dim)
  rw [initStatic_eq hF] at e1
  rw [SStep_eq hF] at hs
  rw [e1] at e1'
  have := Except.ok.inj e1'
  subst this
  have hI := (ssteps_inv hS (by omega) e2 hs).1
  by_cases hcon : ∃ r s', ¬ held r ∧ @SStepBy _ F m r s s'
  · exact .inr hcon
  left
  have hshape := fun i w (hw : s.workers[i]? = some w) => (hI.wk i w hw).shape
  -- a worker with an answer is not held
  have hdown : ∀ (i : Nat) w, s.workers[i]? = some w → w.down = [] := by
    intro i w hw
    cases hshape i w hw with
    | answered g k1 k2 k3 _ _ _ =>
      refine (hcon ⟨i + 1, _, fun h => ?_, .recv s i w g [] hw k1 k3⟩).elim
      obtain ⟨w', a, b⟩ := hh _ h
      rw [hw] at a
      cases a
      exact b k2
    | work _ _ h => exact h
    | sent _ _ h => exact h
    | stuck _ _ h _ => exact h
    | leaving _ _ h => exact h
    | left _ _ h => exact h
  have h0 : ¬ held 0 := by
    intro h
    obtain ⟨w, hw, b⟩ := hh 0 h
    obtain ⟨i, hi⟩ := List.mem_iff_getElem?.mp hw
    exact b (hdown i w hi)
  have hwork : ∀ (i : Nat) w, s.workers[i]? = some w → w.phase ≠ .work := by
    intro i w hw hp
    obtain ⟨w', a, _⟩ := workerRound_inv hS (by omega) (hI.wk i w hw) hp
    refine hcon ⟨i + 1, _, fun h => ?_, .round s i w w' hw hp (by rw [workerRound_eq hF]; exact a)⟩
    obtain ⟨w'', a', b⟩ := hh _ h
    rw [hw] at a'
    cases a'
    cases hshape i w hw with
    | work _ h _ => exact b h
    | sent h _ _ => rw [h] at hp; cases hp
    | answered _ h _ _ _ _ _ => rw [h] at hp; cases hp
    | stuck h _ _ _ => rw [h] at hp; cases hp
    | leaving h _ _ => rw [h] at hp; cases hp
    | left h _ _ => rw [h] at hp; cases hp
  have hf : s.final := by
    by_contra hf
    obtain ⟨s', hs'⟩ := sstep_progress hS (by omega) hI hnn hf
    rw [← SStep_eq hF] at hs'
    obtain ⟨r, hr⟩ := (@sstep_iff _ F _ _ _).mp hs'
    cases hr with
    | round _ i w w' a b d => exact hwork i w a b
    | recv _ i w g rest a b d => rw [hdown i w a] at d; cases d
    | root _ i w msg rest a b d => exact hcon ⟨0, _, h0, .root s i w msg rest a b d⟩
  refine ⟨hf, ?_⟩
  have hfin := finished_all hI hnn hf.1
  rintro (_ | i)
  · rintro ⟨w, hw, b⟩
    exact b (hfin w hw).2.2
  · rintro ⟨w, hw, b⟩
    exact b (hfin w (List.mem_iff_getElem?.mpr ⟨i, hw⟩)).2.1

/-- The dynamic solver with sends that wait, for every arithmetic with exact comparisons -/
theorem dyn_sync (hF : SameCmp F) {m : Mat (XNum K)} (hS : MSearch m.dim (@searchMpi _ F m) V A)
    (hn : 4 ≤ m.dim) {nW n : Nat} {s : DSys (XNum K)}
    (hs : Steps (@DStep _ F m) n (@initDynamic _ F nW) s) (held : Nat → Prop)
    (hh : ∀ r, held r → s.pending r) :
    (s.final ∧ ∀ r, ¬ s.pending r) ∨ ∃ r s', ¬ held r ∧ @DStepBy _ F m r s s' := by
  rw [initDynamic_eq hF, DStep_eq hF] at hs
  have hI := (dsteps_inv hS (by omega) (dinit_inv (V := V) (A := A) hn nW) hs).1
  by_cases hcon : ∃ r s', ¬ held r ∧ @DStepBy _ F m r s s'
  · exact .inr hcon
  left
  have hdown : ∀ (i : Nat) w, s.workers[i]? = some w → w.down = [] := by
    intro i w hw
    cases hdn : w.down with
    | nil => rfl
    | cons msg rest =>
      exfalso
      have hW := hI.wk i w hw
      have key : w.done = false ∧ w.up = [] := by
        cases hW.shape with
        | asked _ _ h => rw [hdn] at h; cases h
        | task g p k1 k2 _ _ _ _ => exact ⟨k1, k2⟩
        | released g k1 k2 _ => exact ⟨k1, k2⟩
        | left _ _ h => rw [hdn] at h; cases h
      obtain ⟨w', a, _⟩ := dynWorker_inv hS (by omega) hW key.1 hdn
      refine hcon ⟨i + 1, _, fun h => ?_, .recv s i w w' msg rest hw key.1 hdn
        (by rw [dynWorker_eq hF]; exact a)⟩
      obtain ⟨w'', a', b⟩ := hh _ h
      rw [hw] at a'
      cases a'
      exact b key.2
  have h0 : ¬ held 0 := by
    intro h
    obtain ⟨w, hw, b⟩ := hh 0 h
    obtain ⟨i, hi⟩ := List.mem_iff_getElem?.mp hw
    exact b (hdown i w hi)
  have hf : s.final := by
    by_contra hf
    obtain ⟨s', hs'⟩ := dstep_progress hS (by omega) hI hf
    rw [← DStep_eq hF] at hs'
    obtain ⟨r, hr⟩ := (@dstep_iff _ F _ _ _).mp hs'
    cases hr with
    | recv _ i w w' msg rest a b d e => rw [hdown i w a] at d; cases d
    | root _ _ i w msg rest a b d e => exact hcon ⟨0, _, h0, .root s _ i w msg rest a b d e⟩
  refine ⟨hf, ?_⟩
  rintro (_ | i)
  · rintro ⟨w, hw, b⟩
    obtain ⟨i, hi⟩ := List.mem_iff_getElem?.mp hw
    exact b (hdown i w hi)
  · rintro ⟨w, hw, b⟩
    have hdone := hf.2 w (List.mem_iff_getElem?.mpr ⟨i, hw⟩)
    cases (hI.wk i w hw).shape with
    | asked h _ _ => rw [h] at hdone; cases hdone
    | task g p h _ _ _ _ _ => rw [h] at hdone; cases hdone
    | released g h _ _ => rw [h] at hdone; cases hdone
    | left _ h _ => exact b h

end

/-- **C73, static solver** Non-negative costs, every number of workers below `n³`: in every reachable
state, whichever ranks MPI holds in a send whose message has not been received, either everybody is at
the barrier with nothing in transit, or a rank that is not held can take a step. So the solver does not
rely on buffered sends. -/
theorem C73_static_synchronous {m : Mat (XNum K)} {c : Nat → Nat → K} (hm : Rep m c)
    (hc : Nonneg m.dim c) {nW : Nat} (h1 : 1 ≤ nW) (h2 : nW < m.dim ^ 3) {s0 s : SSys (XNum K)}
    {n : Nat} (e1 : initStatic m 3 nW = .ok s0) (hs : Steps (SStep m) n s0 s)
    (held : Nat → Prop) (hh : ∀ r, held r → s.pending r) :
    (s.final ∧ ∀ r, ¬ s.pending r) ∨ ∃ r s', ¬ held r ∧ SStepBy m r s s' := by
  have hd : 2 ≤ m.dim := by
    by_contra h
    have : m.dim = 0 ∨ m.dim = 1 := by omega
    rcases this with h | h <;> rw [h] at h2 <;> simp at h2
    omega
  exact static_sync sameCmp_exact (searchMpi_ok hm (by omega))
    (fun q w hq hw => by rw [hw]; exact tour_nonneg hd hc hq) h1 h2 e1 hs held hh

/-- **C73, dynamic solver** At least four cities, every finite matrix and every number of workers: as
for the static solver. -/
theorem C73_dynamic_synchronous {m : Mat (XNum K)} {c : Nat → Nat → K} (hm : Rep m c)
    (hn : 4 ≤ m.dim) {nW n : Nat} {s : DSys (XNum K)}
    (hs : Steps (DStep m) n (initDynamic nW) s) (held : Nat → Prop) (hh : ∀ r, held r → s.pending r) :
    (s.final ∧ ∀ r, ¬ s.pending r) ∨ ∃ r s', ¬ held r ∧ DStepBy m r s s' := by
  exact dyn_sync sameCmp_exact (searchMpi_ok hm (by omega)) hn hs held hh

omit [IsStrictOrderedRing K] in
/-- the coordinator never stores a negative cost -/
theorem static_winner_nonneg {m : Mat (XNum K)} {s0 s : SSys (XNum K)} {n : Nat}
    (h0 : FloatOps.le (zero : XNum K) s0.winner.1 = true) (hs : Steps (SStep m) n s0 s) :
    FloatOps.le (zero : XNum K) s.winner.1 = true := by
  induction hs with
  | refl => exact h0
  | tail h1 h2 ih =>
    have ih := ih h0
    cases h2 with
    | round i w w' _ _ _ => exact ih
    | recv i w g rest _ _ _ => exact ih
    | root i w msg rest _ _ _ =>
      unfold SSys.handle
      by_cases h : (zero ≤ᶠ msg.1) = true
      · simp only [h, if_true]
        split
        · exact h
        · exact ih
      · simp only [h]
        exact ih

/-- **C73 (negation for negative costs)** The static solver takes a message with a negative cost for
the message that a worker has finished. If all tours have negative length and some worker has a prefix
to search, no execution reaches the end; since executions are bounded, all end in a deadlock. -/
theorem C73_static_negative {m : Mat (XNum K)} {c : Nat → Nat → K} (hm : Rep m c)
    (hneg : ∀ q, IsTour m.dim q → tourCost c q < 0) {nW : Nat} (h2 : nW < m.dim ^ 3)
    (hw : ∃ i < nW, HasWork m.dim nW i) {s0 : SSys (XNum K)} (e1 : initStatic m 3 nW = .ok s0) :
    ∃ N, ∀ n s, Steps (SStep m) n s0 s → n ≤ N ∧ ¬ s.final := by
  obtain ⟨i, hi, hwi⟩ := hw
  have hd : 0 < m.dim := by
    by_contra h
    have : m.dim = 0 := by omega
    rw [this] at h2
    simp at h2
  have hS := searchMpi_ok hm hd
  obtain ⟨s0', e1', e2⟩ := sinit_inv (V := exactV c) (A := exactA m c) h2 hd
  rw [e1] at e1'
  have := Except.ok.inj e1'
  subst this
  refine ⟨s0.measure m.dim (m.dim ^ 3), fun n s hs => ?_⟩
  obtain ⟨a1, a2⟩ := ssteps_inv hS hd e2 (by rw [← SStep_eq sameCmp_exact]; exact hs)
  refine ⟨by omega, fun hf => ?_⟩
  have h0 : FloatOps.le (zero : XNum K) s0.winner.1 = true := by
    rcases e2.win with h | ⟨j, w, b1, b2, b3, b4⟩
    · rw [h]; rfl
    · unfold initStatic at e1
      simp only [bind, Except.bind] at e1
      split at e1
      · cases e1
      · cases e1
        rfl
  have hwin := static_winner_nonneg h0 hs
  have hil : i < s.workers.length := by rw [a1.len]; exact hi
  have hget := List.getElem?_eq_getElem hil
  have hdone := hf.2 _ (List.getElem_mem hil)
  obtain ⟨pre, hp⟩ := (hasWork_iff h2 hi).mp hwi
  have htour := (a1.wk i _ hget).seen pre hp (.inl hdone)
  have hle := (a1.wk i _ hget).wle (by rw [hdone]; simp)
  rcases (a1.wk i _ hget).sol with h | h
  · rw [h] at htour
    exact not_isTour_nil hd htour
  · obtain ⟨-, x, hx, rfl⟩ := h
    rw [hx] at hle
    have := le_trans' hwin hle
    have hn := hneg _ htour
    simp at this
    exact absurd this (not_le.mpr hn)

/-- the hypotheses of C73: four cities at costs `-1` and three workers; an initial state exists -/
example : ∃ (m : Mat (XNum ℚ)) (c : Nat → Nat → ℚ), Rep m c ∧ m.dim = 4 ∧
    (∀ q, IsTour m.dim q → tourCost c q < 0) ∧ (∃ i < 3, HasWork m.dim 3 i) ∧
    ∃ s0, initStatic m 3 3 = .ok s0 := by
  refine ⟨Mat.ofFun 4 (fun _ _ => -1), fun _ _ => -1, rep_ofFun _ _, rfl, ?_, ?_, ?_⟩
  · intro q hq
    have hl := hq.length
    rcases q with _ | ⟨a, _ | ⟨b, _ | ⟨d, _ | ⟨e, _ | ⟨f, t⟩⟩⟩⟩⟩
    all_goals simp [Mat.ofFun] at hl
    simp [tourCost]
    norm_num
  · exact ⟨0, by decide, hasWork_of_large (n := 4) (nW := 3) (by decide) (by decide) (by decide)⟩
  · obtain ⟨s0, e, -⟩ := sinit_inv (m := Mat.ofFun 4 (fun _ _ => (-1 : ℚ))) (V := fun _ _ => True)
      (A := fun _ _ _ => True) (k := 3) (nW := 3) (by decide) (by decide)
    exact ⟨s0, e⟩

/-- the hypotheses of the first two theorems: after the first step of the first worker, which may be
held in its send -/
example : ∃ s0 n s, initStatic Ex.m4 3 3 = .ok s0 ∧ Steps (SStep Ex.m4) n s0 s ∧ s.final := by
  obtain ⟨s0, _, e1, _, ⟨n, s, e2, e3⟩, _⟩ := C21_static_no_deadlock_partial Ex.rep4 Ex.nonneg4
    (nW := 3) (by decide) (by decide)
  exact ⟨s0, n, s, e1, e2, e3⟩

end Walky.Props
