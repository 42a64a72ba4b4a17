import Verif.Lemmas.DynamicMpi
import Verif.Props.StaticMpi

/-! # Properties C24–C27, C61: the MPI solver with dynamic work distribution -/

namespace Walky.Props

open Spec XNum

variable {K : Type} [Field K] [LinearOrder K] [IsStrictOrderedRing K]

/-- three different cities, not before `[1, 2, 3]` in lexicographic order -/
def Offered (n : Nat) (p : List Nat) : Prop :=
  p.length = 3 ∧ p.Nodup ∧ (∀ x ∈ p, x < n) ∧
    Nat.ofDigits n [1, 2, 3].reverse ≤ Nat.ofDigits n p.reverse

section
variable {S : XNum K → List Nat → RM (Solution (XNum K))} {V : List Nat → K → Prop}
  {A : K → List Nat → List Nat → Prop}

/-- receivers are workers -/
theorem dlog_rank {N : Nat} (hS : MSearch N S V A) (hn : 4 ≤ N) {nW n : Nat}
    {s : DSys (XNum K)} (hs : Steps (DStepG N S) n (initDynamic nW) s) :
    ∀ x ∈ s.log, 1 ≤ x.1 ∧ x.1 ≤ nW := by
  have h0 := dinit_inv (V := V) (A := A) hn nW
  generalize hs0 : (initDynamic nW : DSys (XNum K)) = s0 at hs h0
  induction hs with
  | refl => subst hs0; simp [initDynamic]
  | tail h1 h2 ih =>
    have hI := (dsteps_inv hS (by omega) h0 h1).1
    have ih := ih hs0 h0
    cases h2 with
    | recv i w w' msg rest _ _ _ _ => exact ih
    | root _ i w msg rest a1 a2 a3 a4 =>
      obtain ⟨s'', b1, _, _, ⟨p, b4, _⟩, _⟩ := handle_inv hI a2 a3
      rw [a4] at b1
      injection b1 with e
      subst e
      intro x hx
      rw [b4, List.mem_append, List.mem_singleton] at hx
      rcases hx with hx | rfl
      · exact ih x hx
      · have := (List.getElem?_eq_some_iff.mp a2).1
        rw [hI.len] at this
        simp only
        omega

/-- Runs of the dynamic solver, for any search -/
theorem dyn_handout {N : Nat} (hS : MSearch N S V A) (hn : 4 ≤ N) {nW : Nat} (h1 : 1 ≤ nW) :
    (∃ n s, Steps (DStepG N S) n (initDynamic nW) s ∧ s.final) ∧
    ∃ L, ∀ n s, Steps (DStepG N S) n (initDynamic nW) s → n ≤ L ∧ (s.final ∨ ∃ s', DStepG N S s s') ∧
      (∀ (i : Nat) w msg rest, s.workers[i]? = some w → w.done = false → w.down = msg :: rest →
        ∃ w', dynWorkerG S (i + 1) { w with down := rest } msg = .ok w') ∧
      (∀ (i : Nat) w msg rest, s.workers[i]? = some w → w.up = msg :: rest → ∃ s',
        DSys.handle { s with workers := s.workers.set i { w with up := rest } } N msg = .ok s') ∧
      (∀ x ∈ s.log, 1 ≤ x.1 ∧ x.1 ≤ nW) ∧
      (s.final →
        ((s.log.map Prod.snd).filter (fun p => p != [0, 0, 0])).Pairwise
          (fun a b => Nat.ofDigits N a.reverse < Nat.ofDigits N b.reverse) ∧
        (∀ p, p ∈ (s.log.map Prod.snd).filter (fun p => p != [0, 0, 0]) ↔ Offered N p) ∧
        ∀ i < nW, s.log.count (i + 1, [0, 0, 0]) = 1) := by
  have h0 := dinit_inv (V := V) (A := A) hn nW
  refine ⟨dexists_final hS (by omega) _ _ _ 0 le_rfl h0 (.refl _),
    (initDynamic nW : DSys (XNum K)).measure N, ?_⟩
  intro n s hs
  obtain ⟨a1, a2, _⟩ := dsteps_inv hS (by omega) h0 hs
  refine ⟨by omega, ?_, ?_, ?_, dlog_rank hS hn hs, ?_⟩
  · by_cases hf : s.final
    · exact Or.inl hf
    · exact Or.inr (dstep_progress hS (by omega) a1 hf)
  · intro i w msg rest hw hd hdn
    obtain ⟨w', a, _⟩ := dynWorker_inv hS (by omega) (a1.wk i w hw) hd hdn
    exact ⟨w', a⟩
  · intro i w msg rest hw hup
    obtain ⟨s', a, _⟩ := handle_inv a1 hw hup
    exact ⟨s', a⟩
  · intro hf
    have hrel : ∀ i < nW, s.log.count (i + 1, [0, 0, 0]) = 1 := by
      intro i hi
      have hil : i < s.workers.length := by rw [a1.len]; exact hi
      have := (a1.wk i _ (List.getElem?_eq_getElem hil)).rel
      rw [this, if_pos]
      simp [DWorker.free, hf.2 _ (List.getElem_mem hil)]
    refine ⟨a1.cur.sorted, ?_, hrel⟩
    intro p
    constructor
    · intro hp
      obtain ⟨b1, b2⟩ := a1.cur.valid p hp
      exact ⟨b1.len, b1.nodup, b1.valid, b2⟩
    · rintro ⟨b1, b2, b3, b4⟩
      refine a1.cur.complete p ⟨b1, b3, b2⟩ b4 ?_
      intro q hq
      exfalso
      have hz : (0 + 1, [0, 0, 0]) ∈ s.log := by
        apply List.one_le_count_iff.mp
        rw [hrel 0 h1]
      exact (a1.cur.next q hq).2.2.2 _ hz rfl

/-- The prefixes sent by the dynamic solver, for any search -/
theorem dyn_covers {N : Nat} (hS : MSearch N S V A) (hn : 4 ≤ N) {nW : Nat} (h1 : 1 ≤ nW) {q : List Nat} (hq : IsTour N q) :
    ∃ k, ∀ n s, Steps (DStepG N S) n (initDynamic nW) s →
      (∀ x ∈ s.log, ∀ i ∈ x.2, i < N) ∧
      (s.final → ∃ r, (r, (q.rotate k).take 3) ∈ s.log) := by
  have h2 : 2 ∈ q := hq.mem.mpr (by omega)
  obtain ⟨l, t, rfl⟩ := List.append_of_mem h2
  have hk : (l ++ 2 :: t).rotate l.length = 2 :: (t ++ l) := by
    rw [List.rotate_append_length_eq]; rfl
  have hq' : IsTour N (2 :: (t ++ l)) := hk ▸ hq.rotate _
  refine ⟨l.length, ?_⟩
  rw [hk]
  intro n s hs
  have h0 := dinit_inv (V := V) (A := A) hn nW
  obtain ⟨a1, _, _⟩ := dsteps_inv hS (by omega) h0 hs
  refine ⟨?_, ?_⟩
  · intro x hx i hi
    by_cases hz : x.2 = [0, 0, 0]
    · rw [hz] at hi
      simp at hi
      omega
    · have : x.2 ∈ handed s.log := by
        simp only [handed, List.mem_filter, List.mem_map]
        exact ⟨⟨x, hx, rfl⟩, by simpa using hz⟩
      exact (a1.cur.valid _ this).1.valid i hi
  · intro hf
    obtain ⟨_, L, hN⟩ := dyn_handout hS hn h1
    obtain ⟨_, _, _, _, _, h6⟩ := hN n s hs
    obtain ⟨_, hall, _⟩ := h6 hf
    have hlen := hq'.length
    generalize t ++ l = u at *
    rcases u with _ | ⟨a, _ | ⟨b, u⟩⟩
    · simp at hlen; omega
    · simp at hlen; omega
    have hoff : Offered N [2, a, b] := by
      have hpre : [2, a, b] <+: 2 :: a :: b :: u := ⟨u, rfl⟩
      obtain ⟨p1, p2⟩ := validPre_prefix hq' hpre
      refine ⟨rfl, p1, p2, ?_⟩
      simp [Nat.ofDigits_cons]
      nlinarith
    have := (hall [2, a, b]).mpr hoff
    simp only [List.mem_filter, List.mem_map] at this
    obtain ⟨⟨x, hx, e⟩, _⟩ := this
    refine ⟨x.1, ?_⟩
    simp only [List.take_succ_cons, List.take_zero]
    rw [← e]
    exact hx

/-- some worker or the coordinator knows a tour not longer than `T` -/
theorem dyn_le {N : Nat} (hS : MSearch N S V A) (hn : 4 ≤ N) {nW : Nat}
    (h1 : 1 ≤ nW) {n : Nat} {s : DSys (XNum K)} (hs : Steps (DStepG N S) n (initDynamic nW) s)
    (hf : s.final) {a b : Nat} {t : List Nat} (hq : IsTour N (2 :: a :: b :: t)) {T : K}
    (hA : A T [2, a, b] (2 :: a :: b :: t)) :
    FloatOps.le s.winner.1 (fin T) = true ∨ ∃ w ∈ s.workers, FloatOps.le w.sol.1 (fin T) = true := by
  have h0 := dinit_inv (V := V) (A := A) hn nW
  obtain ⟨a1, _, _⟩ := dsteps_inv hS (by omega) h0 hs
  obtain ⟨_, L, hN⟩ := dyn_handout hS hn h1
  obtain ⟨_, _, _, _, h5, h6⟩ := hN n s hs
  obtain ⟨_, hall, _⟩ := h6 hf
  have hoff : Offered N [2, a, b] := by
    have hpre : [2, a, b] <+: 2 :: a :: b :: t := ⟨t, rfl⟩
    obtain ⟨p1, p2⟩ := validPre_prefix hq hpre
    refine ⟨rfl, p1, p2, ?_⟩
    simp [Nat.ofDigits_cons]
    nlinarith
  have := (hall [2, a, b]).mpr hoff
  simp only [List.mem_filter, List.mem_map] at this
  obtain ⟨⟨⟨r, p⟩, hx, rfl⟩, _⟩ := this
  obtain ⟨b1, b2⟩ := h5 _ hx
  simp only at b1 b2
  obtain ⟨i, rfl⟩ : ∃ i, r = i + 1 := ⟨r - 1, by omega⟩
  have hil : i < s.workers.length := by rw [a1.len]; omega
  have hW := a1.wk i _ (List.getElem?_eq_getElem hil)
  rcases hW.bound _ hx (by simp) with ⟨g, hg⟩ | h
  · exfalso
    have hd := hf.2 _ (List.getElem_mem hil)
    cases hW.shape with
    | asked h1 _ _ => rw [h1] at hd; cases hd
    | task _ _ h1 => rw [h1] at hd; cases hd
    | released _ h1 _ _ => rw [h1] at hd; cases hd
    | left _ _ h3 => rw [h3] at hg; cases hg
  · exact (h _ T hq ⟨t, rfl⟩ hA).imp id (fun h => ⟨_, List.getElem_mem hil, h⟩)

/-- in every complete execution a tour is found -/
theorem dyn_found {N : Nat} (hS : MSearch N S V A) (hn : 4 ≤ N)
    (hex : ∀ q pre, IsTour N q → ∃ T, A T pre q) {nW : Nat}
    (h1 : 1 ≤ nW) {n : Nat} {s : DSys (XNum K)} (hs : Steps (DStepG N S) n (initDynamic nW) s)
    (hf : s.final) : ∃ w ∈ s.workers, IsTour N w.sol.2 ∧ ∃ x, w.sol.1 = fin x ∧ V w.sol.2 x := by
  have h0 := dinit_inv (V := V) (A := A) hn nW
  obtain ⟨a1, _, _⟩ := dsteps_inv hS (by omega) h0 hs
  have htour : ∀ w ∈ s.workers, w.sol.1 ≠ XNum.inf →
      IsTour N w.sol.2 ∧ ∃ x, w.sol.1 = fin x ∧ V w.sol.2 x := by
    intro w hw hne
    obtain ⟨i, hi⟩ := List.mem_iff_getElem?.mp hw
    rcases (a1.wk i w hi).sol with h | h
    · rw [h] at hne; exact absurd rfl hne
    · exact h
  have hqr : IsTour N ((List.range N).rotate 2) := 
    IsTour.rotate (List.Perm.refl _) 2
  obtain ⟨k, hk⟩ : ∃ k, N = k + 4 := ⟨N - 4, by omega⟩
  have he : ∃ a b t, (List.range N).rotate 2 = 2 :: a :: b :: t := by
    rw [hk]
    have : List.range (k + 4) = [0, 1] ++ (2 :: 3 :: (List.range k).map (· + 4)) := by
      rw [List.range_eq_range', show k + 4 = 4 + k by omega, ← List.range'_append_1]
      simp [List.range'_eq_map_range, Nat.add_comm, List.range_succ_eq_map]
    rw [this, show (2 : Nat) = [0, 1].length from rfl, List.rotate_append_length_eq]
    cases k <;> simp [List.range_succ_eq_map]
  obtain ⟨a, b, t, he⟩ := he
  rw [he] at hqr
  obtain ⟨T, hA⟩ := hex _ [2, a, b] hqr
  rcases dyn_le hS hn h1 hs hf hqr hA with h | ⟨w, hw, h⟩
  · rcases a1.win with e | ⟨i, w, b1, b2, b3, b4⟩
    · rw [e] at h; simp at h
    · have hw : w ∈ s.workers := List.mem_iff_getElem?.mpr ⟨i, b1⟩
      refine ⟨w, hw, htour w hw ?_⟩
      intro e
      have := le_trans' b4 h
      rw [e] at this
      simp at this
  · refine ⟨w, hw, htour w hw ?_⟩
    intro e
    rw [e] at h
    simp at h

/-- The winner of the dynamic solver, for any search -/
theorem dyn_winner {N : Nat} (hS : MSearch N S V A) (hn : 4 ≤ N)
    (hnn : ∀ q w, IsTour N q → V q w → 0 ≤ w) (hex : ∀ q pre, IsTour N q → ∃ T, A T pre q) {nW : Nat} (h1 : 1 ≤ nW) {n : Nat} {s : DSys (XNum K)}
    (hs : Steps (DStepG N S) n (initDynamic nW) s) (hf : s.final) :
    (∀ w ∈ s.workers, FloatOps.le s.winner.1 w.sol.1 = true) ∧
    ∃ i w, s.winner.2 = i + 1 ∧ s.workers[i]? = some w ∧ w.sol.1 = s.winner.1 ∧
        IsTour N w.sol.2 ∧ ∃ x, s.winner.1 = .fin x ∧ V w.sol.2 x := by
  have h0 := dinit_inv (V := V) (A := A) hn nW
  obtain ⟨a1, _, _⟩ := dsteps_inv hS (by omega) h0 hs
  have a2 : ∀ w ∈ s.workers, FloatOps.le s.winner.1 w.sol.1 = true := by
    intro w hw
    obtain ⟨i, hi⟩ := List.mem_iff_getElem?.mp hw
    have hW := a1.wk i w hi
    refine hW.rep ?_ ?_
    · have hd := hf.2 w hw
      cases hW.shape with
      | asked h1 _ _ => rw [h1] at hd; cases hd
      | task _ _ h1 => rw [h1] at hd; cases hd
      | released _ h1 _ _ => rw [h1] at hd; cases hd
      | left _ h2 _ => exact h2
    · rcases hW.sol with h | h
      · rw [h]; simp
      · obtain ⟨k1, x, k2, k3⟩ := h
        rw [k2]
        have := hnn _ _ k1 k3
        simpa only [XNum.zero_def, XNum.le_fin, decide_eq_true_eq] using this
  refine ⟨a2, ?_⟩
  rcases a1.win with e | ⟨i, w, b1, b2, b3, b4⟩
  · exfalso
    obtain ⟨w, hw, _, x, h3, _⟩ := dyn_found hS hn hex h1 hs hf
    have := a2 w hw
    rw [e, h3] at this
    simp at this
  · have hw : w ∈ s.workers := List.mem_iff_getElem?.mpr ⟨i, b1⟩
    have e := le_antisymm' b4 (a2 w hw)
    refine ⟨i, w, b2, b1, e, b3, ?_⟩
    rcases (a1.wk i w b1).sol with h | h
    · rw [h] at b3; exact absurd b3 (not_isTour_nil (by omega))
    · obtain ⟨-, x, k2, k3⟩ := h
      exact ⟨x, by rw [← e, k2], k3⟩

/-- the coordinator only accepts costs that are not negative -/
theorem dyn_winner_nonneg {N : Nat} (hS : MSearch N S V A) (hn : 4 ≤ N)
    {nW n : Nat} {s : DSys (XNum K)} (hs : Steps (DStepG N S) n (initDynamic nW) s) :
    s.winner = (XNum.inf, 0) ∨ ∃ q x, IsTour N q ∧ s.winner.1 = fin x ∧ V q x ∧ 0 ≤ x := by
  have h0 := dinit_inv (V := V) (A := A) hn nW
  generalize hs0 : (initDynamic nW : DSys (XNum K)) = s0 at hs h0
  induction hs with
  | refl => subst hs0; exact Or.inl rfl
  | @tail _ _ s1 s2 h1 h2 ih =>
    have hI := (dsteps_inv hS (by omega) h0 h1).1
    have ih := ih hs0 h0
    cases h2 with
    | recv i w w' msg rest _ _ _ _ => exact ih
    | root _ i w msg rest a1 a2 a3 a4 =>
      have hwin : s2.winner = (if FloatOps.le (FloatOps.zero : XNum K) msg.1 &&
          FloatOps.lt msg.1 s1.winner.1 then msg else s1.winner) := by
        unfold DSys.handle at a4
        simp only at a4
        split at a4
        · rename_i p hp
          cases hnx : nextPrefix N (N ^ 3 + 1) p with
          | error e => rw [hnx] at a4; cases a4
          | ok nx =>
            rw [hnx] at a4
            injection a4 with e
            rw [← e]
        · injection a4 with e
          rw [← e]
      rw [hwin]
      split
      · rename_i hb
        rw [Bool.and_eq_true] at hb
        have hW := hI.wk i w a2
        cases hW.shape with
        | asked _ hup _ =>
          rw [hup] at a3
          injection a3 with e _
          subst e
          rcases hW.sol with h | h
          · rw [h] at hb
            have h2 := hb.2
            rcases hI.proper with e | ⟨x, e⟩ <;> rw [e] at h2 <;> cases h2
          · right
            obtain ⟨k1, x, k2, k3⟩ := h
            refine ⟨w.sol.2, x, k1, k2, k3, ?_⟩
            have := hb.1
            rw [k2] at this
            simpa using this
        | task _ _ _ h => rw [h] at a3; cases a3
        | released _ _ h _ => rw [h] at a3; cases a3
        | left _ h _ => rw [h] at a3; cases a3
      · exact ih

/-- every final state gives a result of the wrap-up -/
theorem dyn_ok {N : Nat} (hS : MSearch N S V A) (hn : 4 ≤ N)
    (hnn : ∀ q w, IsTour N q → V q w → 0 ≤ w) (hex : ∀ q pre, IsTour N q → ∃ T, A T pre q) {nW : Nat} (h1 : 1 ≤ nW) {n : Nat} {s : DSys (XNum K)}
    (hs : Steps (DStepG N S) n (initDynamic nW) s) (hf : s.final)
    (hw : ∀ w ∈ s.workers, IsTour N w.sol.2) :
    ∃ p x, wrapUp s.winner (s.buffers N) = .ok (fin x, p) ∧ IsTour N p ∧ V p x := by
  obtain ⟨_, i, w, b1, b2, b3, b4, x, b5, b6⟩ := dyn_winner hS hn hnn hex h1 hs hf
  refine ⟨w.sol.2, x, ?_, b4, b6⟩
  rw [← b5]
  refine wrapUp_ok (n := N) ?_ ?_
  · rw [b1]
    simp [DSys.buffers, b2]
  · intro b' hb'
    simp only [DSys.buffers, List.mem_cons, List.mem_map] at hb'
    rcases hb' with rfl | ⟨w', hw', rfl⟩
    · simp
    · exact (hw w' hw').length

/-- With a single worker the worker finds a tour. -/
theorem dyn_one {N : Nat} (hS : MSearch N S V A) (hn : 4 ≤ N)
    (hex : ∀ q pre, IsTour N q → ∃ T, A T pre q) {n : Nat} {s : DSys (XNum K)}
    (hs : Steps (DStepG N S) n (initDynamic 1) s) (hf : s.final) :
    ∀ w ∈ s.workers, IsTour N w.sol.2 := by
  obtain ⟨w, hw, h, _⟩ := dyn_found hS hn hex le_rfl hs hf
  have hl := (dsteps_inv hS (by omega) (dinit_inv (V := V) (A := A) hn 1) hs).1.len
  obtain ⟨w0, h0⟩ := List.length_eq_one_iff.mp hl
  rw [h0] at hw ⊢
  simp only [List.mem_singleton, forall_eq] at hw ⊢
  rw [← hw]
  exact h

/-- as long as there are prefixes, the first worker or the coordinator can take a step -/
theorem dyn_starve_step {N : Nat} (hS : MSearch N S V A) (hd : 0 < N)
    {nW : Nat} (h2 : 2 ≤ nW) {s : DSys (XNum K)} (hI : DInv N V A nW s) (hl : ∀ x ∈ s.log, x.1 ≠ 2)
    {p : List Nat} (hcur : s.current = some p) : ∃ s', DStepG N S s s' ∧ ∀ x ∈ s'.log, x.1 ≠ 2 := by
  have h0l : 0 < s.workers.length := by rw [hI.len]; omega
  have h1l : 1 < s.workers.length := by rw [hI.len]; omega
  have hw0 := List.getElem?_eq_getElem h0l
  have hW := hI.wk 0 _ hw0
  have hnz := (hI.cur.next p hcur).2.2.2
  have hfree : ∀ i (h : i < s.workers.length), s.workers[i].free = false := by
    intro i h
    by_contra hc
    rw [Bool.not_eq_false] at hc
    have := (hI.wk i _ (List.getElem?_eq_getElem h)).rel
    rw [if_pos hc] at this
    have hz : (i + 1, [0, 0, 0]) ∈ s.log := by
      apply List.one_le_count_iff.mp
      omega
    exact hnz _ hz rfl
  have hf0 := hfree 0 h0l
  cases hW.shape with
  | asked b1 b2 b3 =>
    obtain ⟨s', e1, _, _, ⟨q, e4, _⟩, _⟩ := handle_inv hI hw0 b2
    refine ⟨s', .root s s' 0 _ _ _ ?_ hw0 b2 e1, ?_⟩
    · rw [hI.wait]
      have : s.workers.countP DWorker.free = 0 := by
        rw [List.countP_eq_zero]
        intro w hw
        obtain ⟨i, hi, rfl⟩ := List.mem_iff_getElem.mp hw
        rw [hfree i hi]
        simp
      omega
    · intro x hx
      rw [e4, List.mem_append, List.mem_singleton] at hx
      rcases hx with hx | rfl
      · exact hl x hx
      · simp
  | task g p b1 b2 b3 b4 b5 b6 =>
    obtain ⟨w', e1, _⟩ := dynWorker_inv hS hd hW b1 b3
    exact ⟨_, .recv s 0 _ w' _ _ hw0 b1 b3 e1, hl⟩
  | released g b1 b2 b3 => simp [DWorker.free, b3] at hf0
  | left b1 b2 b3 => simp [DWorker.free, b1] at hf0

/-- the first worker can take all prefixes -/
theorem dyn_starve {N : Nat} (hS : MSearch N S V A) (hd : 0 < N) {nW : Nat}
    (h2 : 2 ≤ nW) : ∀ (L : Nat) (s0 s : DSys (XNum K)) (n : Nat), s.measure N ≤ L →
      DInv N V A nW s → Steps (DStepG N S) n s0 s → (∀ x ∈ s.log, x.1 ≠ 2) →
      ∃ n' s', Steps (DStepG N S) n' s0 s' ∧ DInv N V A nW s' ∧ s'.current = none ∧ ∀ x ∈ s'.log, x.1 ≠ 2 := by
  intro L
  induction L with
  | zero =>
    intro s0 s n hN hI hs hl
    cases hcur : s.current with
    | none => exact ⟨n, s, hs, hI, hcur, hl⟩
    | some p =>
      obtain ⟨s', e1, _⟩ := dyn_starve_step hS hd h2 hI hl hcur
      have := (dstep_inv hS hd hI e1).2.1
      omega
  | succ L ih =>
    intro s0 s n hN hI hs hl
    cases hcur : s.current with
    | none => exact ⟨n, s, hs, hI, hcur, hl⟩
    | some p =>
      obtain ⟨s', e1, e2⟩ := dyn_starve_step hS hd h2 hI hl hcur
      obtain ⟨f1, f2, _⟩ := dstep_inv hS hd hI e1
      exact ih s0 s' (n + 1) (by omega) f1 (.tail hs e1) e2

/-- `DynamicResult` for any search -/
def DynamicResultG (N : Nat) (S : XNum K → List Nat → RM (Solution (XNum K))) (nW : Nat)
    (r : RM (Solution (XNum K))) : Prop :=
  ∃ n s, Steps (DStepG N S) n (initDynamic nW) s ∧ s.final ∧ r = wrapUp s.winner (s.buffers N)

theorem DynamicResult_eq {F : FloatOps (XNum K)} (hF : SameCmp F) (m : Mat (XNum K)) (nW : Nat)
    (r : RM (Solution (XNum K))) :
    @DynamicResult _ F m nW r ↔ DynamicResultG m.dim (@searchMpi _ F m) nW r := by
  unfold DynamicResult DynamicResultG
  rw [DStep_eq hF, initDynamic_eq hF]

/-- The failing broadcast of the dynamic solver, for any search -/
theorem dyn_mismatch {N : Nat} (hS : MSearch N S V A) (hn : 4 ≤ N) {nW : Nat}
    (h2 : 2 ≤ nW) : DynamicResultG N S nW (.error .explicit) := by
  have h0 := dinit_inv (V := V) (A := A) hn nW
  obtain ⟨n1, s1, a1, a2, a3, a4⟩ := dyn_starve hS (by omega) h2 _ _ _ 0 le_rfl h0 (.refl _)
    (by simp [initDynamic])
  obtain ⟨n2, s2, b1, b2⟩ := dexists_final hS (by omega) _ s1 s1 0 le_rfl a2 (.refl _)
  obtain ⟨c1, _, c2⟩ := dsteps_inv hS (by omega) a2 b1
  obtain ⟨n3, b3⟩ := a1.append b1
  refine ⟨n3, s2, b3, b2, ?_⟩
  have hil : 1 < s2.workers.length := by rw [c1.len]; omega
  have hW := c1.wk 1 _ (List.getElem?_eq_getElem hil)
  have hsol : s2.workers[1].sol = (XNum.inf, []) := by
    rcases hW.sol with h | h
    · exact h
    · obtain ⟨p, d1, d2⟩ := hW.conv h.1
      exact absurd rfl (a4 _ ((c2 a3).2 _ d1 d2))
  symm
  refine wrapUp_err ?_ (b1 := List.replicate N 0) (b2 := []) (by simp [DSys.buffers]) ?_
    (by simp; omega)
  · rcases c1.win with e | ⟨j, w, b1, b2, _⟩
    · rw [e]; simp [DSys.buffers]
    · rw [b2]
      have := (List.getElem?_eq_some_iff.mp b1).1
      simp [DSys.buffers]
      omega
  · simp only [DSys.buffers, List.mem_cons, List.mem_map]
    exact Or.inr ⟨_, List.getElem_mem hil, by rw [hsol]⟩

end

/-- every tour can be started at city 2 with two more cities -/
theorem exists_rotate_two {n : Nat} (hn : 4 ≤ n) {q : List Nat} (hq : IsTour n q) :
    ∃ k a b t, q.rotate k = 2 :: a :: b :: t ∧ IsTour n (2 :: a :: b :: t) := by
  have h2 : 2 ∈ q := hq.mem.mpr (by omega)
  obtain ⟨l, t, rfl⟩ := List.append_of_mem h2
  have hk : (l ++ 2 :: t).rotate l.length = 2 :: (t ++ l) := by
    rw [List.rotate_append_length_eq]; rfl
  have hq' : IsTour n (2 :: (t ++ l)) := hk ▸ hq.rotate _
  have hlen := hq'.length
  generalize t ++ l = u at *
  rcases u with _ | ⟨a, _ | ⟨b, u⟩⟩
  · simp at hlen; omega
  · simp at hlen; omega
  · exact ⟨_, a, b, u, hk, hq'⟩

/-- **C24** For at least four cities, every finite matrix, every number of workers and every message
order: no process panics, the number of steps is bounded, and some process can take a step as long as
not everybody is at the barrier. In every complete execution the prefixes sent (apart from the zero
prefix) are, in the order of sending, all triples of different cities from `[1, 2, 3]` upwards in
increasing order, each sent once; and the zero prefix is sent to every worker exactly once. -/
theorem C24_dynamic_handout {m : Mat (XNum K)} {c : Nat → Nat → K} (hm : Rep m c) (hn : 4 ≤ m.dim)
    {nW : Nat} (h1 : 1 ≤ nW) :
    (∃ n s, Steps (DStep m) n (initDynamic nW) s ∧ s.final) ∧
    ∃ N, ∀ n s, Steps (DStep m) n (initDynamic nW) s → n ≤ N ∧ (s.final ∨ ∃ s', DStep m s s') ∧
      (∀ (i : Nat) w msg rest, s.workers[i]? = some w → w.done = false → w.down = msg :: rest →
        ∃ w', dynWorker m (i + 1) { w with down := rest } msg = .ok w') ∧
      (∀ (i : Nat) w msg rest, s.workers[i]? = some w → w.up = msg :: rest → ∃ s',
        DSys.handle { s with workers := s.workers.set i { w with up := rest } } m.dim msg = .ok s') ∧
      (∀ x ∈ s.log, 1 ≤ x.1 ∧ x.1 ≤ nW) ∧
      (s.final →
        ((s.log.map Prod.snd).filter (fun p => p != [0, 0, 0])).Pairwise
          (fun a b => Nat.ofDigits m.dim a.reverse < Nat.ofDigits m.dim b.reverse) ∧
        (∀ p, p ∈ (s.log.map Prod.snd).filter (fun p => p != [0, 0, 0]) ↔ Offered m.dim p) ∧
        ∀ i < nW, s.log.count (i + 1, [0, 0, 0]) = 1) := by
  rw [DStep_eq sameCmp_exact, dynWorker_eq sameCmp_exact]
  exact dyn_handout (searchMpi_ok hm (by omega)) hn h1

/-- the hypotheses of C24 -/
example : Rep Ex.m4 Ex.c4 ∧ 4 ≤ Ex.m4.dim ∧ 1 ≤ 5 := ⟨Ex.rep4, by decide, by decide⟩

/-- **C25 (partial)** For at least four cities, the first three cities of some rotation of every tour
are sent to a worker in every complete execution, and everything sent are valid cities. Missing: up to
three cities, where the first prefix sent is invalid, `C25_small_panic`. -/
theorem C25_dynamic_covers_partial {m : Mat (XNum K)} {c : Nat → Nat → K} (hm : Rep m c)
    (hn : 4 ≤ m.dim) {nW : Nat} (h1 : 1 ≤ nW) {q : List Nat} (hq : IsTour m.dim q) :
    ∃ k, ∀ n s, Steps (DStep m) n (initDynamic nW) s →
      (∀ x ∈ s.log, ∀ i ∈ x.2, i < m.dim) ∧
      (s.final → ∃ r, (r, (q.rotate k).take 3) ∈ s.log) := by
  rw [DStep_eq sameCmp_exact]
  exact dyn_covers (searchMpi_ok hm (by omega)) hn h1 hq

/-- a tour to which C25 applies -/
example : IsTour Ex.m4.dim [3, 1, 0, 2] := by
  rw [Ex.dim4]
  unfold IsTour
  decide

/-- **C25 (negation)** With at most three cities the first prefix sent is `[1, 2, 3]`, which contains
an invalid city, and the search of the worker that receives it panics. -/
theorem C25_small_panic {α : Type} [FloatOps α] (m : Mat α) (hn : m.dim ≤ 3) (nW : Nat) :
    (initDynamic nW : DSys α).current = some [1, 2, 3] ∧ ¬ (3 < m.dim) ∧
      ∀ (g : α) rank w, dynWorker m rank w (g, [1, 2, 3]) = .error .index := by
  refine ⟨rfl, by omega, ?_⟩
  intro g rank w
  have h : m.evaluatePath [1, 2, 3] = .error .index := by
    have h23 : m.entry 2 3 = .error .index := by
      unfold Mat.entry
      rw [if_neg (by omega)]
    unfold Mat.evaluatePath
    simp only [List.length_cons, List.length_nil, List.tail_cons, List.zip_cons_cons, List.zip_nil_right,
      List.foldlM_cons, List.foldlM_nil, h23]
    by_cases h12 : 1 < m.dim ∧ 2 < m.dim
    · simp only [Mat.entry, h12]
      rfl
    · simp only [Mat.entry, h12, if_false]
      rfl
  simp [dynWorker, searchMpi, h]

/-- a worker that is stuck with the prefix `[1, 2, 3]` -/
private def Stuck {α : Type} (s : DSys α) : Prop :=
  ∃ (i : Nat) (w : DWorker α) (g : α) (rest : List (α × List Nat)),
    s.workers[i]? = some w ∧ w.done = false ∧ w.down = (g, [1, 2, 3]) :: rest

private theorem stuck_modify {α : Type} {s : DSys α} (h : Stuck s) (k : Nat) (msg : α × List Nat)
    {s' : DSys α}
    (e : s'.workers = s.workers.modify k fun w => { w with down := w.down ++ [msg] }) : Stuck s' := by
  obtain ⟨i, w, g, rest, h1, h2, h3⟩ := h
  by_cases hk : k = i
  · refine ⟨i, { w with down := w.down ++ [msg] }, g, rest ++ [msg], ?_, h2, ?_⟩
    · rw [e, List.getElem?_modify, h1]
      simp [hk]
    · simp [h3]
  · refine ⟨i, w, g, rest, ?_, h2, h3⟩
    rw [e, List.getElem?_modify, h1]
    simp [hk]

/-- **C25 (negation)** So with at most three cities and at least one worker no execution comes to an
end. -/
theorem C25_small_no_result {α : Type} [FloatOps α] (m : Mat α) (hn : m.dim ≤ 3) {nW : Nat} (h1 : 1 ≤ nW)
    (r : RM (Solution α)) : ¬ DynamicResult m nW r := by
  have hpanic := (C25_small_panic m hn nW).2.2
  have hinv : ∀ n s, Steps (DStep m) n (initDynamic nW) s → s = initDynamic nW ∨ Stuck s := by
    intro n s hs
    generalize h0 : (initDynamic nW : DSys α) = s0 at hs
    induction hs with
    | refl => exact Or.inl rfl
    | @tail k s t u h1 h2 ih =>
      have ih := ih h0
      subst h0
      rcases ih with rfl | ih
      · cases h2 with
        | recv i w w' msg rest g1 g2 g3 g4 =>
          simp only [initDynamic, List.getElem?_map, Option.map_eq_some_iff] at g1
          obtain ⟨j, -, rfl⟩ := g1
          simp at g3
        | root _ i w msg rest g0 g1 g2 g3 =>
          right
          have hi : i < nW := by
            have := (List.getElem?_eq_some_iff.mp g1).1
            simpa [initDynamic] using this
          have hw : w = ⟨(FloatOps.inf, []), false, [(FloatOps.inf, i + 1)], []⟩ := by
            simp only [initDynamic, List.getElem?_map, List.getElem?_range hi, Option.map_some,
              Option.some.injEq] at g1
            exact g1.symm
          subst hw
          simp only [List.cons.injEq] at g2
          obtain ⟨rfl, rfl⟩ := g2
          unfold DSys.handle at g3
          simp only [initDynamic] at g3
          cases hnp : nextPrefix m.dim (m.dim ^ 3 + 1) [1, 2, 3] with
          | error e => rw [hnp] at g3; simp at g3
          | ok next =>
            rw [hnp] at g3
            simp only [rm_bind_ok, rm_pure, Except.ok.injEq] at g3
            subst g3
            refine ⟨i, ⟨(FloatOps.inf, []), false, [], [(FloatOps.inf, [1, 2, 3])]⟩, FloatOps.inf, [], ?_, rfl, rfl⟩
            simp only [Nat.add_sub_cancel, List.getElem?_modify]
            rw [List.getElem?_set_self (by simpa using hi)]
            simp
            split <;> rfl
      · right
        cases h2 with
        | recv i w w' msg rest g1 g2 g3 g4 =>
          obtain ⟨j, v, g, rest', k1, k2, k3⟩ := ih
          by_cases hij : i = j
          · subst hij
            rw [g1] at k1
            injection k1 with k1
            subst k1
            rw [g3] at k3
            injection k3 with k3 _
            subst k3
            rw [hpanic] at g4
            cases g4
          · exact ⟨j, v, g, rest', by simp only [List.getElem?_set_ne hij]; exact k1, k2, k3⟩
        | root _ i w msg rest g0 g1 g2 g3 =>
          have hst : Stuck { t with workers := t.workers.set i { w with up := rest } } := by
            obtain ⟨j, v, g, rest', k1, k2, k3⟩ := ih
            by_cases hij : i = j
            · subst hij
              rw [g1] at k1
              injection k1 with k1
              subst k1
              refine ⟨i, { w with up := rest }, g, rest', ?_, k2, k3⟩
              simp only
              exact List.getElem?_set_self (List.getElem?_eq_some_iff.mp g1).1
            · exact ⟨j, v, g, rest', by simp only [List.getElem?_set_ne hij]; exact k1, k2, k3⟩
          unfold DSys.handle at g3
          simp only at g3
          cases hcur : t.current with
          | some p =>
            rw [hcur] at g3
            simp only at g3
            cases hnp : nextPrefix m.dim (m.dim ^ 3 + 1) p with
            | error e => rw [hnp] at g3; simp at g3
            | ok next =>
              rw [hnp] at g3
              simp only [rm_bind_ok, rm_pure, Except.ok.injEq] at g3
              subst g3
              exact stuck_modify hst _ _ rfl
          | none =>
            rw [hcur] at g3
            simp only [rm_pure, Except.ok.injEq] at g3
            subst g3
            exact stuck_modify hst _ _ rfl
  rintro ⟨n, s, e1, e2, -⟩
  rcases hinv n s e1 with rfl | ⟨i, w, g, rest, k1, k2, -⟩
  · have := e2.1
    simp only [initDynamic, List.length_map, List.length_range] at this
    omega
  · rw [e2.2 w (List.mem_of_getElem? k1)] at k2
    cases k2

/-- A single process has nobody to send work to and returns infinite cost and the path `[0, …, 0]`. -/
theorem C25_single_process {α : Type} [FloatOps α] (m : Mat α) (r : RM (Solution α)) :
    DynamicResult m 0 r ↔ r = .ok (FloatOps.inf, List.replicate m.dim 0) := by
  have hstuck : ∀ n s, Steps (DStep m) n (initDynamic 0) s → s = initDynamic 0 := by
    intro n s hs
    generalize h0 : (initDynamic 0 : DSys α) = s0 at hs
    induction hs with
    | refl => rfl
    | tail h1 h2 ih =>
      have := ih h0
      subst h0
      subst this
      cases h2 with
      | recv i w w' msg rest g1 => simp [initDynamic] at g1
      | root _ i w msg rest g0 g1 => simp [initDynamic] at g1
  have hres : wrapUp (initDynamic 0 : DSys α).winner ((initDynamic 0 : DSys α).buffers m.dim) =
      .ok (FloatOps.inf, List.replicate m.dim 0) :=
    wrapUp_ok (n := m.dim) rfl (by simp [DSys.buffers, initDynamic])
  constructor
  · rintro ⟨n, s, e1, -, rfl⟩
    rw [hstuck n s e1, hres]
  · rintro rfl
    exact ⟨0, _, .refl _, ⟨by simp [initDynamic], by simp [initDynamic]⟩, hres.symm⟩

/-- a matrix with three cities -/
example : (Mat.ofRowsFin [[0, 1, 2], [1, 0, 3], [2, 3, 0]] : Mat (XNum ℚ)).dim ≤ 3 := by decide

/-- for a large threshold the search is not pruned -/
theorem exists_alongT {m : Mat (XNum K)} {c : Nat → Nat → K} (hm : Rep m c) {q : List Nat}
    (hq : IsTour m.dim q) (pre : List Nat) :
    ∃ T, tourCost c q ≤ T ∧ AlongT c (test5 m) (fun _ => True) T pre q := by
  have key : ∀ k, ∃ T, tourCost c q ≤ T ∧ ∀ p, p <+: q → p.length ≤ k →
      ∃ x, mstBound m p = .ok (fin x) ∧ pathCost c p + x ≤ T := by
    intro k
    induction k with
    | zero =>
      obtain ⟨x, hx⟩ := mstBound_fin hm (p := []) (by simp)
      refine ⟨max (tourCost c q) (pathCost c [] + x), le_max_left _ _, ?_⟩
      intro p _ hl
      obtain rfl : p = [] := List.length_eq_zero_iff.mp (by omega)
      exact ⟨x, hx, le_max_right _ _⟩
    | succ k ih =>
      obtain ⟨T, hT, h⟩ := ih
      obtain ⟨x, hx⟩ := mstBound_fin hm (p := q.take (k + 1))
        (fun v hv => hq.mem.mp (List.mem_of_mem_take hv))
      refine ⟨max T (pathCost c (q.take (k + 1)) + x), hT.trans (le_max_left _ _), ?_⟩
      intro p hp hl
      by_cases he : p.length ≤ k
      · obtain ⟨y, hy, hy'⟩ := h p hp he
        exact ⟨y, hy, hy'.trans (le_max_left _ _)⟩
      · have : p = q.take (k + 1) := by
          rw [show k + 1 = p.length by omega]
          exact List.prefix_iff_eq_take.mp hp
        rw [this]
        exact ⟨x, hx, le_max_right _ _⟩
  obtain ⟨T, hT, h⟩ := key q.length
  refine ⟨T, hT, ?_⟩
  intro p hp _ _ a b _ hb hle
  obtain ⟨x, hx, hx'⟩ := h p hp hp.length_le
  refine ⟨(), ?_⟩
  unfold test5
  rw [hx]
  simp only [rm_bind_ok, rm_pure, XNum.add_fin]
  have : FloatOps.le (fin (pathCost c p + x)) b = true := by
    refine le_trans' ?_ hle
    simpa using hx'
  rw [this]

/-- **C26 (partial)** Non-negative costs, at least four cities, at least one worker: in every complete
execution the broadcast cost is not larger than any worker's local cost, and it is the length of the
tour that the winning rank has stored. Missing: negative costs, `C26_negative`, and up to three
cities, `C25_small_panic`. -/
theorem C26_dynamic_winner_partial {m : Mat (XNum K)} {c : Nat → Nat → K} (hm : Rep m c)
    (hn : 4 ≤ m.dim) (hc : Nonneg m.dim c) {nW : Nat} (h1 : 1 ≤ nW) {n : Nat} {s : DSys (XNum K)}
    (hs : Steps (DStep m) n (initDynamic nW) s) (hf : s.final) :
    (∀ w ∈ s.workers, FloatOps.le s.winner.1 w.sol.1 = true) ∧
    ∃ i w, s.winner.2 = i + 1 ∧ s.workers[i]? = some w ∧ w.sol.1 = s.winner.1 ∧
        IsTour m.dim w.sol.2 ∧ s.winner.1 = .fin (tourCost c w.sol.2) := by
  rw [DStep_eq sameCmp_exact] at hs
  obtain ⟨a, i, w, b, d, e, f, x, hx, rfl⟩ := dyn_winner (searchMpi_ok hm (by omega)) hn
    (fun q w hq hw => by rw [hw]; exact tour_nonneg (by omega) hc hq)
    (fun q pre hq => exists_alongT hm hq pre) h1 hs hf
  exact ⟨a, i, w, b, d, e, f, hx⟩

/-- the hypotheses of C26 can be met: an execution of three workers on four cities -/
example : ∃ n s, Steps (DStep Ex.m4) n (initDynamic 3) s ∧ s.final :=
  (C24_dynamic_handout Ex.rep4 (by decide) (by decide)).1

/-- **C26 (negation)** If all tours have negative length, then in every complete execution a worker
has found a tour, but the coordinator broadcasts infinity and its own rank. -/
theorem C26_negative {m : Mat (XNum K)} {c : Nat → Nat → K} (hm : Rep m c) (hn : 4 ≤ m.dim)
    (hneg : ∀ q, IsTour m.dim q → tourCost c q < 0) {nW : Nat} (h1 : 1 ≤ nW) {n : Nat}
    {s : DSys (XNum K)} (hs : Steps (DStep m) n (initDynamic nW) s) (hf : s.final) :
    s.winner = (XNum.inf, 0) ∧
      ∃ w ∈ s.workers, IsTour m.dim w.sol.2 ∧ w.sol.1 = .fin (tourCost c w.sol.2) := by
  rw [DStep_eq sameCmp_exact] at hs
  have hS := searchMpi_ok hm (by omega)
  obtain ⟨w, a, b, x, hx, rfl⟩ := dyn_found hS hn (fun q pre hq => exists_alongT hm hq pre) h1 hs hf
  refine ⟨?_, w, a, b, hx⟩
  rcases dyn_winner_nonneg hS hn hs with h | ⟨q, x, h2, _, rfl, h3⟩
  · exact h
  · exact absurd (hneg q h2) (not_lt.mpr h3)

/-- four cities, all costs `-1` -/
example : ∃ (m : Mat (XNum ℚ)) (c : Nat → Nat → ℚ), Rep m c ∧ 4 ≤ m.dim ∧
    ∀ q, IsTour m.dim q → tourCost c q < 0 := by
  refine ⟨Mat.ofFun 4 (fun _ _ => -1), fun _ _ => -1, rep_ofFun _ _, le_rfl, ?_⟩
  intro q hq
  have hl := hq.length
  rcases q with _ | ⟨a, _ | ⟨b, _ | ⟨d, _ | ⟨e, _ | ⟨f, t⟩⟩⟩⟩⟩
  all_goals simp [Mat.ofFun] at hl
  simp [tourCost]
  norm_num

/-- **C27 (dynamic solver, partial)** Non-negative costs, at least four cities: in a complete execution
in which every worker has found a tour, the final broadcast succeeds and all ranks return the same
tour and its length. Missing: workers without a tour, `C27_dynamic_mismatch`. -/
theorem C27_dynamic_partial {m : Mat (XNum K)} {c : Nat → Nat → K} (hm : Rep m c)
    (hn : 4 ≤ m.dim) (hc : Nonneg m.dim c) {nW : Nat} (h1 : 1 ≤ nW) {n : Nat} {s : DSys (XNum K)}
    (hs : Steps (DStep m) n (initDynamic nW) s) (hf : s.final)
    (hw : ∀ w ∈ s.workers, IsTour m.dim w.sol.2) :
    ∃ p, wrapUp s.winner (s.buffers m.dim) = .ok (.fin (tourCost c p), p) ∧ IsTour m.dim p := by
  rw [DStep_eq sameCmp_exact] at hs
  obtain ⟨p, x, h, h', rfl⟩ := dyn_ok (searchMpi_ok hm (by omega)) hn
    (fun q w hq hw => by rw [hw]; exact tour_nonneg (by omega) hc hq)
    (fun q pre hq => exists_alongT hm hq pre) h1 hs hf hw
  exact ⟨p, h, h'⟩

/-- **C27 (dynamic solver, partial)** A single worker always finds a tour. -/
theorem C27_dynamic_one_worker_partial {m : Mat (XNum K)} {c : Nat → Nat → K} (hm : Rep m c)
    (hn : 4 ≤ m.dim) (hc : Nonneg m.dim c) :
    (∃ r, DynamicResult m 1 r) ∧
    ∀ r, DynamicResult m 1 r → ∃ p, r = .ok (.fin (tourCost c p), p) ∧ IsTour m.dim p := by
  refine ⟨?_, ?_⟩
  · obtain ⟨n, s, e1, e2⟩ := (C24_dynamic_handout hm hn (nW := 1) le_rfl).1
    exact ⟨_, n, s, e1, e2, rfl⟩
  · rintro r ⟨n, s, e1, e2, rfl⟩
    refine C27_dynamic_partial hm hn hc le_rfl e1 e2 ?_
    rw [DStep_eq sameCmp_exact] at e1
    exact dyn_one (searchMpi_ok hm (by omega)) hn (fun q pre hq => exists_alongT hm hq pre) e1 e2

/-- the hypotheses of C27 -/
example : Rep Ex.m4 Ex.c4 ∧ 4 ≤ Ex.m4.dim ∧ Nonneg Ex.m4.dim Ex.c4 :=
  ⟨Ex.rep4, by decide, Ex.nonneg4⟩

/-- **C27 (dynamic solver, negation)** With at least two workers, every finite matrix of at least four
cities has an execution in which one worker never receives a prefix, its path stays empty, and the
final broadcast fails. -/
theorem C27_dynamic_mismatch {m : Mat (XNum K)} {c : Nat → Nat → K} (hm : Rep m c) (hn : 4 ≤ m.dim)
    {nW : Nat} (h2 : 2 ≤ nW) : DynamicResult m nW (.error .explicit) :=
  (DynamicResult_eq sameCmp_exact m nW _).mpr (dyn_mismatch (searchMpi_ok hm (by omega)) hn h2)

/-- **C61** Symmetric non-negative costs, at least four cities, any number of workers, every message
order: the cost broadcast by the dynamic solver is the length of a tour that is at most twice as long
as a shortest one, and a shortest one if there are at most five cities. -/
theorem C61_dynamic_quality {m : Mat (XNum K)} {c : Nat → Nat → K} (hm : Rep m c)
    (hn : 4 ≤ m.dim) (hsym : Symm m.dim c) (hc : Nonneg m.dim c) {nW : Nat} (h1 : 1 ≤ nW)
    {n : Nat} {s : DSys (XNum K)} (hs : Steps (DStep m) n (initDynamic nW) s) (hf : s.final) :
    ∃ p, s.winner.1 = .fin (tourCost c p) ∧ IsTour m.dim p ∧
      (∀ q, IsTour m.dim q → tourCost c p ≤ 2 * tourCost c q) ∧
      (m.dim ≤ 5 → IsShortest m.dim c p) := by
  obtain ⟨a2, i, w, b1, b2, b3, b4, b5⟩ := C26_dynamic_winner_partial hm hn hc h1 hs hf
  have key : ∀ q T, IsTour m.dim q → tourCost c q ≤ T →
      (∀ q', IsTour m.dim q' → tourCost c q' = tourCost c q → ∀ p t, q' = p ++ t → 4 ≤ p.length →
        pathCost c p + 2 * pathCost c t ≤ T) → tourCost c w.sol.2 ≤ T := by
    intro q T hq hT hb
    obtain ⟨k, a, b, u, hk, hq'⟩ := exists_rotate_two hn hq
    have hcq : tourCost c (2 :: a :: b :: u) = tourCost c q := by rw [← hk, tourCost_rotate]
    have hwin : FloatOps.le s.winner.1 (fin T) = true := by
      rw [DStep_eq sameCmp_exact] at hs
      rcases dyn_le (searchMpi_ok hm (by omega)) hn h1 hs hf hq' ⟨by rw [hcq]; exact hT,
        along_test5_from hm hsym hq' (fun p s e hp _ => hb _ hq' hcq p s e hp)⟩ with h | ⟨w, hw, h⟩
      · exact h
      · exact le_trans' (a2 w hw) h
    rw [b5] at hwin
    simpa using hwin
  refine ⟨w.sol.2, b5, b4, ?_, ?_⟩
  · intro q hq
    have h0 := tour_split_ge hc (fun h => by omega) (p := q) (t := []) (by simpa using hq)
    simp only [List.append_nil, pathCost_nil, add_zero] at h0
    refine key q _ hq (by linarith) ?_
    intro q' hq' hcq p t e _
    subst e
    have := tour_split_ge hc (fun h => by omega) hq'
    linarith
  · intro h5
    refine ⟨b4, fun q hq => key q _ hq le_rfl ?_⟩
    intro q' hq' hcq p t e hp
    subst e
    have hl := hq'.length
    simp at hl
    have ht : pathCost c t = 0 := by
      rcases t with _ | ⟨x, _ | ⟨y, t⟩⟩
      · rfl
      · rfl
      · simp at hl; omega
    have := tour_split_ge hc (fun h => by omega) hq'
    rw [← hcq, ht]
    linarith

/-- the hypotheses of C61 -/
example : Rep Ex.m4 Ex.c4 ∧ 4 ≤ Ex.m4.dim ∧ Symm Ex.m4.dim Ex.c4 ∧ Nonneg Ex.m4.dim Ex.c4 ∧ 1 ≤ 2 :=
  ⟨Ex.rep4, by decide, Ex.symm4, Ex.nonneg4, by decide⟩

end Walky.Props
