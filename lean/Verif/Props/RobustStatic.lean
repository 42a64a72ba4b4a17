import Verif.Props.MpiProg
import Verif.Props.RobustMpi

/-! # C127: unusual numbers in MPI jobs: static work distribution and Christofides' algorithm -/

namespace Walky.Props

open FloatOps XNum Spec

namespace StaticAny

section
variable {K : Type} [Field K] [LinearOrder K] [IsStrictOrderedRing K]
  {N : Nat} {S : XNum K → List Nat → RM (Solution (XNum K))} {V : List Nat → K → Prop}

/-- the search does not panic; it finds nothing or a tour with its cost -/
def Search (N : Nat) (S : XNum K → List Nat → RM (Solution (XNum K))) (V : List Nat → K → Prop) : Prop :=
  ∀ g pre, ValidPre N pre → ∃ r, S g pre = .ok r ∧ SolOk N V r

/-- the possible combinations of position and messages in transit -/
inductive Shape (rank : Nat) (win : XNum K) : SWorker (XNum K) → Prop
  | work (w : SWorker (XNum K)) : w.phase = .work → w.up = [] → w.down = [] → Shape rank win w
  | sent (w : SWorker (XNum K)) : w.phase = .wait → w.up = [(w.sol.1, rank)] → w.down = [] →
      Shape rank win w
  | answered (w : SWorker (XNum K)) (g : XNum K) : w.phase = .wait → w.up = [] → w.down = [g] →
      FloatOps.le win w.sol.1 = true → Shape rank win w
  | leaving (w : SWorker (XNum K)) : w.phase = .done → w.up = [(fin (-1), rank)] → w.down = [] →
      Shape rank win w
  | left (w : SWorker (XNum K)) : w.phase = .done → w.up = [] → w.down = [] → Shape rank win w

/-- invariant of a worker -/
structure WAny (N : Nat) (V : List Nat → K → Prop) (k rank : Nat) (win : XNum K) (w : SWorker (XNum K)) : Prop where
  len : w.digits.length = k
  valid : ValidDigits N w.digits
  shape : Shape rank win w
  sol : SolOk N V w.sol
  wle : w.phase ≠ .wait → FloatOps.le win w.sol.1 = true

omit [IsStrictOrderedRing K] in
theorem WAny.mono {k rank : Nat} {win win' : XNum K}
    {w : SWorker (XNum K)} (h : WAny N V k rank win w) (hle : FloatOps.le win' win = true) :
    WAny N V k rank win' w where
  len := h.len
  valid := h.valid
  shape := by
    cases h.shape with
    | work h1 h2 h3 => exact .work _ h1 h2 h3
    | sent h1 h2 h3 => exact .sent _ h1 h2 h3
    | answered g h1 h2 h3 h4 => exact .answered _ g h1 h2 h3 (le_trans' hle h4)
    | leaving h1 h2 h3 => exact .leaving _ h1 h2 h3
    | left h1 h2 h3 => exact .left _ h1 h2 h3
  sol := h.sol
  wle := fun hp => le_trans' hle (h.wle hp)

theorem round (hS : Search N S V) (hdim : 0 < N)
    {k rank : Nat} {win : XNum K} {w : SWorker (XNum K)} (h : WAny N V k rank win w)
    (hp : w.phase = .work) :
    ∃ w', workerRoundG N S rank w = .ok w' ∧ WAny N V k rank win w' ∧
      w'.measure N (N ^ k) < w.measure N (N ^ k) ∧
      FloatOps.le w'.sol.1 w.sol.1 = true ∧ (IsTour N w.sol.2 → IsTour N w'.sol.2) ∧
      (w'.phase = .work ∨ w'.up ≠ []) := by
  obtain ⟨hup, hdown⟩ : w.up = [] ∧ w.down = [] := by
    cases h.shape with
    | work h1 h2 h3 => exact ⟨h2, h3⟩
    | sent h1 h2 h3 => rw [hp] at h1; cases h1
    | answered g h1 h2 h3 h4 => rw [hp] at h1; cases h1
    | leaving h1 h2 h3 => rw [hp] at h1; cases h1
    | left h1 h2 h3 => rw [hp] at h1; cases h1
  have hwle := h.wle (by rw [hp]; simp)
  have hvlt : digitsVal N w.digits < N ^ k := by
    have := digitsVal_lt h.valid
    rwa [h.len] at this
  -- the worker leaves its loop
  have hleave : ∀ l : List Nat, l.length = k → ValidDigits N l →
      WAny N V k rank win { w with digits := l, phase := .done, up := w.up ++ [(negOne, rank)] } := by
    intro l hl hlv
    exact ⟨hl, hlv, .leaving _ rfl (by simp [hup]) hdown, h.sol, fun _ => hwle⟩
  have hmleave : ∀ l : List Nat, SWorker.measure N (N ^ k)
      { w with digits := l, phase := .done, up := w.up ++ [(negOne, rank)] } <
      w.measure N (N ^ k) := by
    intro l
    simp [SWorker.measure, hp, hup]
  unfold workerRoundG
  obtain ⟨l, e1, e2, e3 | e3⟩ := getNextValue_ok h.valid
  · obtain ⟨_, e4, e5⟩ := e3
    have hl : l.length = k := by rw [e1, h.len]
    have hllt : digitsVal N l < N ^ k := by
      have := digitsVal_lt e2
      rwa [hl] at this
    simp only [e4, rm_bind_ok]
    by_cases hmax : l = w.maxDigits
    · rw [if_pos hmax]
      exact ⟨_, rfl, hleave l hl e2, hmleave l, h.sol.proper.le_refl, id, Or.inr (by simp)⟩
    · rw [if_neg hmax]
      by_cases hu : isUnique l = true
      · rw [if_pos hu]
        obtain ⟨r, hr, hr1⟩ := hS w.global l ⟨isUnique_iff.mp hu, e2⟩
        rw [hr]
        simp only [rm_bind_ok, rm_pure]
        set sol := if FloatOps.lt r.1 w.sol.1 = true then r else w.sol with hsol
        have hsolok : SolOk N V sol := by rw [hsol]; split; exacts [hr1, h.sol]
        have hsle : FloatOps.le sol.1 w.sol.1 = true := by
          rw [hsol]
          by_cases hlt : FloatOps.lt r.1 w.sol.1 = true
          · rw [if_pos hlt]; exact le_of_lt' hlt
          · rw [if_neg hlt]
            exact h.sol.proper.le_refl
        have hfin : IsTour N w.sol.2 → IsTour N sol.2 := by
          intro ht
          rcases hsolok with e | e
          · rcases h.sol with e' | e'
            · rw [e'] at ht; exact absurd ht (not_isTour_nil hdim)
            · obtain ⟨-, x, e', -⟩ := e'
              rw [e, e'] at hsle; simp at hsle
          · exact e.1
        refine ⟨_, rfl, ?_, ?_, hsle, hfin, Or.inr (by simp)⟩
        · exact ⟨hl, e2, .sent _ rfl (by simp [hup]) hdown, hsolok, by simp⟩
        · simp only [SWorker.measure, hp, hup]
          simp
          omega
      · rw [if_neg hu]
        refine ⟨_, rfl, ?_, ?_, h.sol.proper.le_refl, id, Or.inl hp⟩
        · exact ⟨hl, e2, .work _ hp hup hdown, h.sol, h.wle⟩
        · simp only [SWorker.measure, hp]
          omega
  · obtain ⟨e4, e5⟩ := e3
    have hl : l.length = k := by rw [e1, h.len]
    simp only [e5, rm_bind_ok]
    exact ⟨_, rfl, hleave l hl e2, hmleave l, h.sol.proper.le_refl, id, Or.inr (by simp)⟩

/-- invariant of the system -/
structure SAny (N : Nat) (V : List Nat → K → Prop) (k nW : Nat) (s : SSys (XNum K)) : Prop where
  len : s.workers.length = nW
  wk : ∀ i w, s.workers[i]? = some w → WAny N V k (i + 1) s.winner.1 w
  proper : Proper s.winner.1
  win : s.winner = (XNum.inf, 0) ∨ ∃ i w, s.workers[i]? = some w ∧ s.winner.2 = i + 1 ∧
    IsTour N w.sol.2 ∧ FloatOps.le w.sol.1 s.winner.1 = true
  fin : s.finished = s.workers.countP SWorker.counted

omit [IsStrictOrderedRing K] in
/-- replacing one worker -/
theorem SAny.set {k nW : Nat}
    {s : SSys (XNum K)} (h : SAny N V k nW s) {i : Nat} {w w' : SWorker (XNum K)}
    (hw : s.workers[i]? = some w) {win : XNum K × Nat} {f : Nat}
    (hw' : WAny N V k (i + 1) win.1 w')
    (hle : FloatOps.le win.1 s.winner.1 = true) (hpr : Proper win.1)
    (hsol : FloatOps.le w'.sol.1 w.sol.1 = true) (ht : IsTour N w.sol.2 → IsTour N w'.sol.2)
    (hwin : win = s.winner ∨ (win.2 = i + 1 ∧ IsTour N w'.sol.2 ∧ FloatOps.le w'.sol.1 win.1 = true))
    (hf : f + (if w.counted then 1 else 0) = s.finished + (if w'.counted then 1 else 0)) :
    SAny N V k nW ⟨s.workers.set i w', win, f⟩ := by
  have hil := (List.getElem?_eq_some_iff.mp hw).1
  refine ⟨by simp [h.len], ?_, hpr, ?_, ?_⟩
  · intro j u hu
    simp only at hu ⊢
    by_cases hij : i = j
    · subst hij
      rw [List.getElem?_set_self hil] at hu
      injection hu with e
      subst e
      exact hw'
    · rw [List.getElem?_set_ne hij] at hu
      exact (h.wk j u hu).mono hle
  · simp only
    rcases hwin with e | ⟨e1, e2, e3⟩
    · rw [e]
      rcases h.win with h' | ⟨j, u, a1, a2, a3, a4⟩
      · exact Or.inl h'
      · right
        by_cases hij : i = j
        · subst hij
          rw [hw] at a1
          injection a1 with e'
          subst e'
          exact ⟨i, w', List.getElem?_set_self hil, a2, ht a3, le_trans' hsol a4⟩
        · exact ⟨j, u, by rw [List.getElem?_set_ne hij]; exact a1, a2, a3, a4⟩
    · exact Or.inr ⟨i, w', List.getElem?_set_self hil, e1, e2, e3⟩
  · have := countP_set' SWorker.counted s.workers i w w' hw
    rw [← h.fin] at this
    simp only
    omega

omit [IsStrictOrderedRing K] in
theorem notNeg_sol (hnn : ∀ q w, V q w → 0 ≤ w) {s : Solution (XNum K)} (h : SolOk N V s) :
    FloatOps.le (zero : XNum K) s.1 = true := by
  rcases h with e | ⟨-, y, e, hy⟩
  · rw [e]; rfl
  · rw [e]
    simpa using hnn _ _ hy

theorem step (hS : Search N S V) (hnn : ∀ q w, V q w → 0 ≤ w) (hdim : 0 < N)
    {k nW : Nat} {s s' : SSys (XNum K)} (h : SAny N V k nW s)
    (hs : SStepG N S s s') :
    SAny N V k nW s' ∧ s'.measure N (N ^ k) < s.measure N (N ^ k) := by
  cases hs with
  | round i w w' h1 h2 h3 =>
    have hW := h.wk i w h1
    obtain ⟨w'', a1, a2, a3, a4, a5, a6⟩ := round hS hdim hW h2
    rw [h3] at a1
    injection a1 with e
    subst e
    refine ⟨h.set h1 a2 h.proper.le_refl h.proper a4 a5 (Or.inl rfl) ?_, SSys.measure_set h1 a3⟩
    have : w.counted = false := by simp [SWorker.counted, h2]
    have : w'.counted = false := by
      rcases a6 with h' | h'
      · simp [SWorker.counted, h']
      · simp [SWorker.counted, h']
    simp [*]
  | recv i w g rest h1 h2 h3 =>
    have hW := h.wk i w h1
    obtain ⟨g', b1, b2, b5⟩ : ∃ g', w.up = [] ∧ w.down = [g'] ∧ FloatOps.le s.winner.1 w.sol.1 = true := by
      cases hW.shape with
      | work h1 _ _ => rw [h2] at h1; cases h1
      | sent _ _ h4 => rw [h3] at h4; cases h4
      | answered g h1 h2 h3 h4 => exact ⟨g, h2, h3, h4⟩
      | leaving h1 _ _ => rw [h2] at h1; cases h1
      | left h1 _ _ => rw [h2] at h1; cases h1
    rw [h3] at b2
    injection b2 with e1 e2
    subst e1 e2
    refine ⟨h.set h1 ?_ h.proper.le_refl h.proper hW.sol.proper.le_refl id (Or.inl rfl) ?_,
      SSys.measure_set h1 ?_⟩
    · exact ⟨hW.len, hW.valid, .work _ rfl b1 rfl, hW.sol, fun _ => b5⟩
    · simp [SWorker.counted, h3]
    · simp [SWorker.measure, h2, b1]
  | root i w msg rest h1 h2 h3 =>
    have hW := h.wk i w h2
    cases hW.shape with
    | work _ h4 _ => rw [h3] at h4; cases h4
    | answered _ _ h4 _ _ => rw [h3] at h4; cases h4
    | left _ h4 _ => rw [h3] at h4; cases h4
    | leaving h4 h5 h6 =>
      rw [h3] at h5
      injection h5 with e1 e2
      subst e1 e2
      have hneg : FloatOps.le (zero : XNum K) (XNum.fin (-1)) = false := by simp
      unfold SSys.handle
      simp only [hneg, Bool.false_eq_true, if_false]
      refine ⟨h.set h2 ?_ h.proper.le_refl h.proper hW.sol.proper.le_refl id (Or.inl rfl) ?_,
        SSys.measure_set h2 ?_⟩
      · exact ⟨hW.len, hW.valid, .left _ h4 rfl h6, hW.sol, hW.wle⟩
      · simp [SWorker.counted, h3, h4, h6]
      · simp [SWorker.measure, h4, h3]
    | sent h4 h5 h6 =>
      rw [h3] at h5
      injection h5 with e1 e2
      subst e1 e2
      have hi' : i + 1 - 1 = i := by omega
      unfold SSys.handle
      have hpos := notNeg_sol hnn hW.sol
      simp only [hpos, if_true, hi', modify_set_self]
      set win : XNum K × Nat :=
        if FloatOps.lt w.sol.1 s.winner.1 = true then (w.sol.1, i + 1) else s.winner with hwin
      have hwle : FloatOps.le win.1 s.winner.1 = true ∧ FloatOps.le win.1 w.sol.1 = true ∧
          Proper win.1 := by
        rw [hwin]
        by_cases hlt : FloatOps.lt w.sol.1 s.winner.1 = true
        · rw [if_pos hlt]; exact ⟨le_of_lt' hlt, hW.sol.proper.le_refl, hW.sol.proper⟩
        · rw [if_neg hlt]
          exact ⟨h.proper.le_refl, Proper.not_lt hW.sol.proper h.proper (by simpa using hlt),
            h.proper⟩
      refine ⟨h.set h2 ?_ hwle.1 hwle.2.2 hW.sol.proper.le_refl id ?_ ?_, SSys.measure_set h2 ?_⟩
      · have hW' := hW.mono hwle.1
        exact ⟨hW'.len, hW'.valid, .answered _ win.1 h4 rfl (by simp [h6]) hwle.2.1, hW'.sol, hW'.wle⟩
      · rw [hwin]
        by_cases hlt : FloatOps.lt w.sol.1 s.winner.1 = true
        · right
          rw [if_pos hlt]
          refine ⟨rfl, ?_, hW.sol.proper.le_refl⟩
          rcases hW.sol with e | e
          · rw [e] at hlt; simp at hlt
          · exact e.1
        · left; rw [if_neg hlt]
      · simp [SWorker.counted, h3, h4, h6]
      · simp [SWorker.measure, h4, h3]

/-- a state that is not final has a next step -/
theorem progress (hS : Search N S V) (hdim : 0 < N)
    {k nW : Nat} {s : SSys (XNum K)} (h : SAny N V k nW s) (hf : ¬ s.final) : ∃ s', SStepG N S s s' := by
  by_contra hcon
  have hall : ∀ (i : Nat) (w : SWorker (XNum K)), s.workers[i]? = some w →
      (w.phase = .done ∧ w.up = [] ∧ w.down = []) ∨ (w.up ≠ [] ∧ ¬ s.finished < s.workers.length) := by
    intro i w hw
    have hW := h.wk i w hw
    cases hW.shape with
    | work h1 _ _ =>
      obtain ⟨w', a, _⟩ := round hS hdim hW h1
      exact absurd ⟨_, .round s i w w' hw h1 a⟩ hcon
    | sent _ h2 _ =>
      refine Or.inr ⟨by simp [h2], fun h' => hcon ⟨_, .root s i w _ _ h' hw h2⟩⟩
    | answered g h1 h2 h3 _ => exact absurd ⟨_, .recv s i w g [] hw h1 h3⟩ hcon
    | leaving _ h2 _ =>
      refine Or.inr ⟨by simp [h2], fun h' => hcon ⟨_, .root s i w _ _ h' hw h2⟩⟩
    | left h1 h2 h3 => exact Or.inl ⟨h1, h2, h3⟩
  by_cases hlt : s.finished < s.workers.length
  · have : s.workers.countP SWorker.counted = s.workers.length := by
      rw [List.countP_eq_length]
      intro w hw
      obtain ⟨i, hi'⟩ := List.mem_iff_getElem?.mp hw
      rcases hall i w hi' with ⟨a, b, d⟩ | ⟨_, h2⟩
      · simp [SWorker.counted, a, b, d]
      · exact absurd hlt h2
    rw [← h.fin] at this
    omega
  · refine hf ⟨hlt, ?_⟩
    have hle : s.workers.countP SWorker.counted ≤ s.workers.length := List.countP_le_length
    have : s.workers.countP SWorker.counted = s.workers.length := by rw [← h.fin] at hle ⊢; omega
    rw [List.countP_eq_length] at this
    intro w hw
    obtain ⟨i, hi'⟩ := List.mem_iff_getElem?.mp hw
    have hc := this w hw
    rcases hall i w hi' with ⟨a, _⟩ | ⟨h1, _⟩
    · exact a
    · simp [SWorker.counted, h1] at hc

/-- the initial state -/
theorem init {m : Mat (XNum K)} {k nW : Nat} (hlt : nW < m.dim ^ k) (hdim : 0 < m.dim) :
    ∃ s, initStatic m k nW = .ok s ∧ SAny m.dim V k nW s := by
  obtain ⟨s, h1, h2⟩ := sinit_inv (V := V) (A := fun _ _ _ => True) hlt hdim
  refine ⟨s, h1, h2.len, ?_, h2.proper, h2.win, h2.fin⟩
  have h3 : ∀ w ∈ s.workers, w.phase = .work ∧ w.sol = (XNum.inf, []) := by
    unfold initStatic at h1
    obtain ⟨ws, e1, e2⟩ := bindOk h1
    rw [← Except.ok.inj e2]
    intro w hw
    obtain ⟨i, -, hi⟩ := mapM_mem e1 w hw
    obtain ⟨x, -, e3⟩ := bindOk hi
    rw [← Except.ok.inj e3]
    exact ⟨rfl, rfl⟩
  intro i w hw
  have hW := h2.wk i w hw
  refine ⟨hW.len, hW.valid, ?_, hW.sol, hW.wle⟩
  cases hW.shape with
  | work h1 h2 h3 => exact .work _ h1 h2 h3
  | sent h1 _ _ => rw [(h3 w (List.mem_of_getElem? hw)).1] at h1; cases h1
  | answered _ h1 _ _ _ _ _ => rw [(h3 w (List.mem_of_getElem? hw)).1] at h1; cases h1
  | stuck h1 _ _ _ => rw [(h3 w (List.mem_of_getElem? hw)).1] at h1; cases h1
  | leaving h1 h2 h3 => exact .leaving _ h1 h2 h3
  | left h1 h2 h3 => exact .left _ h1 h2 h3

theorem steps (hS : Search N S V) (hnn : ∀ q w, V q w → 0 ≤ w) (hdim : 0 < N)
    {k nW : Nat} {s0 s : SSys (XNum K)} {n : Nat} (h : SAny N V k nW s0)
    (hs : Steps (SStepG N S) n s0 s) :
    SAny N V k nW s ∧ n + s.measure N (N ^ k) ≤ s0.measure N (N ^ k) := by
  induction hs with
  | refl s => exact ⟨h, by omega⟩
  | tail h1 h2 ih =>
    obtain ⟨b1, b2⟩ := ih h
    obtain ⟨c1, c2⟩ := step hS hnn hdim b1 h2
    exact ⟨c1, by omega⟩

theorem exists_final (hS : Search N S V) (hnn : ∀ q w, V q w → 0 ≤ w) (hdim : 0 < N)
    {k nW : Nat} :
    ∀ (L : Nat) (s0 s : SSys (XNum K)) (n : Nat), s.measure N (N ^ k) ≤ L →
      SAny N V k nW s → Steps (SStepG N S) n s0 s →
      ∃ n' s', Steps (SStepG N S) n' s0 s' ∧ s'.final := by
  intro L
  induction L with
  | zero =>
    intro s0 s n hN h hs
    by_cases hf : s.final
    · exact ⟨n, s, hs, hf⟩
    · obtain ⟨s', hs'⟩ := progress hS hdim h hf
      have := (step hS hnn hdim h hs').2
      omega
  | succ L ih =>
    intro s0 s n hN h hs
    by_cases hf : s.final
    · exact ⟨n, s, hs, hf⟩
    · obtain ⟨s', hs'⟩ := progress hS hdim h hf
      obtain ⟨a, b⟩ := step hS hnn hdim h hs'
      exact ih s0 s' (n + 1) (by omega) a (.tail hs hs')

omit [IsStrictOrderedRing K] in
/-- the result of a complete execution -/
theorem result (hdim : 0 < N) {k nW : Nat} (h1 : 1 ≤ nW) {s : SSys (XNum K)}
    (h : SAny N V k nW s) (hf : s.final) :
    wrapUp s.winner (s.buffers N) = .error .explicit ∨
    ∃ v q, wrapUp s.winner (s.buffers N) = .ok (XNum.fin v, q) ∧ IsTour N q ∧ V q v := by
  unfold wrapUp SSys.buffers
  rcases h.win with c | ⟨i, w, c1, c2, c3, c4⟩
  · left
    rw [c]
    simp only [idx, List.getElem?_cons_zero, rm_bind_ok]
    have hlt : 0 < s.workers.length := by rw [h.len]; exact h1
    have hw := List.getElem?_eq_getElem hlt
    have hle := (h.wk 0 _ hw).wle (by rw [hf.2 _ (List.getElem_mem hlt)]; simp)
    have hnil : (s.workers[0]).sol.2 = [] := by
      rcases (h.wk 0 _ hw).sol with e | ⟨-, x, e, -⟩
      · rw [e]
      · rw [c, e] at hle
        simp at hle
    rw [if_neg]
    rw [List.all_eq_true]
    intro hall
    have := hall (s.workers[0]).sol.2
      (List.mem_cons_of_mem _ (List.mem_map.mpr ⟨_, List.getElem_mem hlt, rfl⟩))
    rw [hnil] at this
    simp at this
    omega
  · have hidx : idx (List.replicate N 0 :: s.workers.map fun w => w.sol.2) s.winner.2 = .ok w.sol.2 := by
      unfold idx
      rw [c2]
      simp [c1]
    rw [hidx]
    simp only [rm_bind_ok]
    split
    · right
      have hW := h.wk i w c1
      have hle := hW.wle (by rw [hf.2 _ (List.mem_of_getElem? c1)]; simp)
      rcases hW.sol with e | ⟨-, x, e, hV⟩
      · rw [e] at c3
        exact absurd c3 (not_isTour_nil hdim)
      · refine ⟨x, w.sol.2, ?_, c3, hV⟩
        have : s.winner.1 = XNum.fin x := by
          rw [e] at hle c4
          rcases h.proper with hp | ⟨y, hp⟩
          · rw [hp] at hle; simp at hle
          · rw [hp] at hle c4 ⊢
            simp at hle c4
            rw [le_antisymm hle c4]
        rw [this]
        rfl
    · exact Or.inl rfl

end

end StaticAny

section
variable {K : Type} [Field K] [LinearOrder K] [IsStrictOrderedRing K] {R : Rounding K} {D : K → Prop}

/-- **C127** (v0, costs that are infinite or not negative) Every accepted instance with at least two cities, without
edges from a vertex to itself, whose costs are infinite or numbers of the arithmetic that are not negative, from two to
`n³` processes: no execution of `walky exact v0 --parallelism mpi` is longer than some bound, and none gets stuck before
all ranks are at the barrier; hence the job has an outcome. In every outcome all ranks fail without output, or they
print the same finite number and the same tour of all cities, which contains no infinite edge. -/
theorem C127_v0_partial (hF : R.Floors D) (hD : D 0) {g : Graph (XNum K)}
    (hacc : @doConditionsHold _ R.ops g = .ok true) (hl : NoLoop g) (hn : 2 ≤ g.length)
    (hc : ∀ es ∈ g, ∀ e ∈ es, e.cost = .inf ∨ ∃ w, e.cost = .fin w ∧ D w ∧ 0 ≤ w)
    {env : MpiEnv (XNum K)} (hs : 2 ≤ env.size) (hs' : env.size ≤ g.length ^ 3) :
    (∃ m s0 L, (do @naFromGraph _ R.ops (← @parseChecked _ R.ops g)) = .ok m ∧
      @initStatic _ R.ops m 3 (env.size - 1) = .ok s0 ∧
      ∀ k s, Steps (@SStep _ R.ops m) k s0 s → k ≤ L ∧ (s.final ∨ ∃ s', @SStep _ R.ops m s s')) ∧
    (∃ outs, @MpiRuns _ R.ops env g (.exact .v0) outs) ∧
    ∀ outs, @MpiRuns _ R.ops env g (.exact .v0) outs →
      outs = List.replicate env.size ⟨[], .error .explicit⟩ ∨
      ∃ v q, 0 ≤ v ∧ IsTour g.length q ∧
        (∀ i es, g[i]? = some es → ∀ e ∈ es, (i, e.dst) ∈ q.zip (q.tail ++ q.take 1) → e.cost ≠ .inf) ∧
        outs = List.replicate env.size ⟨[.bestCost (.fin v), .bestPermutation q], .ok ()⟩ := by
  obtain ⟨m, hm, hdim, hE⟩ := matrix hacc
  obtain ⟨hE1, hE2⟩ := hE hl
  have hpos := infOrPos_of hE2 hc
  have hS : StaticAny.Search m.dim (@searchMpi _ R.ops m) (fun q v => 0 ≤ v ∧ FiniteTour m q) := by
    intro g pre hp
    obtain ⟨r, h1, h2⟩ := searchMpi_pos hF hD hpos (by omega) g hp
    refine ⟨r, h1, ?_⟩
    rcases h2 with h2 | ⟨h2, -, ⟨v, h3, h4⟩, h5⟩
    · exact Or.inl h2
    · exact Or.inr ⟨h2, v, h3, h4, h5⟩
  have hnn : ∀ (q : List Nat) (v : K), (0 ≤ v ∧ FiniteTour m q) → 0 ≤ v := fun _ _ h => h.1
  have hd : 0 < m.dim := by omega
  obtain ⟨s0, i1, i2⟩ := StaticAny.init (V := fun q v => 0 ≤ v ∧ FiniteTour m q) (m := m) (k := 3)
    (nW := env.size - 1) (by rw [hdim]; omega) hd
  rw [← initStatic_eq (sameCmp_ops R)] at i1
  have hstep := SStep_eq (sameCmp_ops R) m
  refine ⟨⟨m, s0, s0.measure m.dim (m.dim ^ 3), hm, i1, fun k s hk => ?_⟩, ?_, ?_⟩
  · rw [hstep] at hk ⊢
    obtain ⟨a1, a2⟩ := StaticAny.steps hS hnn hd i2 hk
    refine ⟨by omega, ?_⟩
    by_cases hf : s.final
    · exact Or.inl hf
    · exact Or.inr (StaticAny.progress hS hd a1 hf)
  · simp only [MpiRuns, hm, MpiExactRun]
    obtain ⟨k, s, h1, h2⟩ := StaticAny.exists_final hS hnn hd _ s0 s0 0 le_rfl i2 (.refl _)
    rw [← hstep] at h1
    exact ⟨_, _, ⟨s0, k, s, i1, h1, h2, rfl⟩, rfl⟩
  · intro outs hout
    simp only [MpiRuns, hm, MpiExactRun] at hout
    obtain ⟨r, ⟨s0', k, s, h0, h1, h2, rfl⟩, rfl⟩ := hout
    rw [i1] at h0
    cases h0
    rw [hstep] at h1
    obtain ⟨a1, -⟩ := StaticAny.steps hS hnn hd i2 h1
    rcases StaticAny.result hd (by omega) a1 h2 with e | ⟨v, q, e, hq, hv, hfin⟩
    · left
      rw [e]
      rfl
    · right
      rw [e]
      refine ⟨v, q, hv, hdim ▸ hq, ?_, rfl⟩
      intro i es hi e he hmem
      rw [← hE1 i es hi e he]
      exact hfin _ hmem

/-- `C127_v0_partial` applies to infinite costs in double precision -/
example : ∃ outs, @MpiRuns _ binary64.ops mpi3 (quad (.fin 0) .inf) (.exact .v0) outs :=
  (C127_v0_partial floors64 isDouble_zero (by decide +kernel) (quad_noLoop _ _) (by decide)
    (quad_costs (P := fun x => x = .inf ∨ ∃ w, x = .fin w ∧ IsDouble w ∧ 0 ≤ w)
      (Or.inr ⟨0, rfl, isDouble_zero, le_rfl⟩) (Or.inl rfl)) (by decide) (by decide)).2.1

/-- Christofides' algorithm in a job with finite costs, whatever the rounding does -/
theorem christofidesMpi_finite {m : Mat (XNum K)} {c : Nat → Nat → K} (hm : Rep m c) (hn : 2 ≤ m.dim) {r : MatchRng}
    (hr : r.Ok) {shufs : Nat → Nat → List (Nat × Nat) → List (Nat × Nat)} (hsh : ∀ k i l, (shufs k i l).Perm l)
    {size : Nat} (hsize : 1 ≤ size) {dbg : Bool} (hdbg : dbg = true → @Mat.isMetric _ R.ops m = true) :
    ∃ p, @christofidesMpi _ R.ops dbg m r shufs size =
        .ok (@FloatOps.sum _ R.ops ((pairs (p ++ [0])).map fun e => m.get e.1 e.2), p ++ [0]) ∧
      IsTour m.dim p ∧ p.head? = some 0 := by
  obtain ⟨mst, E, h1, h2, h3, -⟩ := prim_tree hm (by omega)
  have hodd := oddVertices_eq h3.adjOf
  have hval : Valid m.dim (pairUp (r.vertices (oddSet m.dim E))) := valid_iff.mpr fun v hv =>
    oddSet_lt v ((hr.vertices _).mem_iff.mp ((flatten_pairUp_sublist _).subset hv))
  have hne : pairUp (r.vertices (oddSet m.dim E)) ≠ [] := by
    intro hc
    have := length_pairUp (r.vertices (oddSet m.dim E))
    rw [hc, (hr.vertices _).length_eq] at this
    have := oddSet_two hn h2
    simp at *
    omega
  obtain ⟨root, others, k1, k2⟩ := @mpiImproveMatching_ok _ R.ops m shufs hsh size
    ((oddSet m.dim E).length ^ 2) hsize _ hval hne _ (fun l' hl' => @matchingCost_ok _ R.ops m l' hl')
  have hM : Valid m.dim (@mpiBest _ R.ops root others).2 := by
    have hmem := @mpiBest_mem _ R.ops others root
    rw [← k1] at hmem
    obtain ⟨k, _, e⟩ := List.mem_map.mp hmem
    rw [← e]
    exact @impRun_valid _ R.ops _ _ (hsh k) _ _ hval
  obtain ⟨g, g1, g2, g3⟩ := fillSeq_ok rfl h3.adjOf (spanning_valid h2) hM
  obtain ⟨s1, s2, s3⟩ := union_ok h2 g2 g3
  obtain ⟨p, p1, -, -, p2, p3⟩ := @christofidesTail_total _ R.ops m g g2 (by omega) s1 s2 dbg (Or.inr s3)
  refine ⟨p, ?_, p3 s3, p2⟩
  rw [← p1]
  refine christofidesGeneric_ops hdbg h1 ?_ g1
  unfold computeApproxMatchingMpi
  rw [hodd, k2, rm_bind_ok]
  cases size with
  | zero => omega
  | succ k => rfl

/-- **C127** (Christofides) Every accepted instance with at least two cities, without edges from a vertex to itself,
whose costs are finite (negative ones included), any rounding, any number of processes, all shuffles on all ranks – in
a debug build only if the matrix passes the test for metrics: the root of every job `walky approx christofides` prints
the sum, in this arithmetic, of the costs along a tour of all cities that starts at city 0, followed by a number if a
spanning tree bound was asked for; the other ranks end without output. -/
theorem C127_christofides_partial {g : Graph (XNum K)} (hacc : @doConditionsHold _ R.ops g = .ok true)
    (hl : NoLoop g) (hn : 2 ≤ g.length) (hc : ∀ es ∈ g, ∀ e ∈ es, ∃ v, e.cost = .fin v)
    {env : MpiEnv (XNum K)} (henv : env.Ok)
    (hdbg : env.dbg = true → ∀ m, (do @naFromGraph _ R.ops (← @parseChecked _ R.ops g)) = .ok m →
      @Mat.isMetric _ R.ops m = true)
    {lb : Option LowerBoundAlgorithm} (hlb : lb ≠ some .oneTree) (outs : List (Out (XNum K)))
    (hout : @MpiRuns _ R.ops env g (.approx .christofides lb) outs) :
    ∃ (d : Nat → Nat → XNum K) (q : List Nat) (l' : List (Line (XNum K))),
      (∀ (i : Nat) (es : List (Edge (XNum K))), g[i]? = some es → ∀ e ∈ es, d i e.dst = e.cost) ∧
      IsTour g.length q ∧ q.head? = some 0 ∧
      outs = ⟨.christofidesWeight (@FloatOps.sum _ R.ops ((q.zip (q.tail ++ [0])).map fun e => d e.1 e.2)) :: l',
        .ok ()⟩ :: List.replicate (env.size - 1) ⟨[], .ok ()⟩ ∧
      ((lb = none ∧ l' = []) ∨ (lb ≠ none ∧ ∃ y, l' = [.mstBound y])) := by
  obtain ⟨m, hm, hdim, hE⟩ := matrix hacc
  obtain ⟨e1, e3⟩ := hE hl
  have hval : ∀ i j, ∃ v, i < m.dim → j < m.dim → i ≠ j → m.get i j = .fin v := by
    intro i j
    by_cases h : i < m.dim ∧ j < m.dim ∧ i ≠ j
    · obtain ⟨es, hes, e, he, k⟩ := e3 i j h.1 h.2.1 h.2.2
      obtain ⟨v, hv⟩ := hc es hes e he
      exact ⟨v, fun _ _ _ => by rw [k, hv]⟩
    · exact ⟨0, fun a b c => absurd ⟨a, b, c⟩ h⟩
  choose c hcv using hval
  have hrep : Rep m c := ⟨fun i j hi hj hij => hcv i j hi hj hij, fun h => by omega⟩
  obtain ⟨p, h1, h2, h3⟩ := christofidesMpi_finite (R := R) hrep (by omega) henv.rng henv.shufs henv.size
    (dbg := env.dbg) (fun h => hdbg h m hm)
  simp only [MpiRuns, hm, mpiApprox, h1] at hout
  obtain ⟨l', k1, k2⟩ : ∃ l', @mpiBoundAfter _ R.ops env m 0 lb = ⟨l', .ok ()⟩ ∧
      ((lb = none ∧ l' = []) ∨ (lb ≠ none ∧ ∃ y, l' = [.mstBound y])) := by
    have key := mpiMst_total (R := R) (m := m) henv
    cases lb with
    | none => exact ⟨[], rfl, Or.inl ⟨rfl, rfl⟩⟩
    | some a =>
      cases a with
      | oneTree => exact absurd rfl hlb
      | mst =>
        obtain ⟨y, hy⟩ := key 0 false
        exact ⟨[.mstBound y], hy, Or.inr ⟨by simp, y, rfl⟩⟩
      | mstQueue =>
        obtain ⟨y, hy⟩ := key 0 true
        exact ⟨[.mstBound y], hy, Or.inr ⟨by simp, y, rfl⟩⟩
  refine ⟨m.get, p, l', e1, hdim ▸ h2, h3, ?_, k2⟩
  have hpairs : pairs (p ++ [0]) = p.zip (p.tail ++ [0]) := by
    cases p with
    | nil => cases h3
    | cons a t =>
      have := List.zip_append (l₁ := a :: t) (l₂ := t ++ [0]) (r₁ := [0]) (r₂ := []) (by simp)
      simpa [pairs] using this
  rw [hout, k1, ← hpairs]
  unfold MpiEnv.rootAnd
  obtain ⟨k, hk⟩ : ∃ k, env.size = k + 1 := ⟨env.size - 1, by have := henv.size; omega⟩
  rw [hk, List.range_succ_eq_map]
  simp only [List.map_cons, if_true, List.map_map, Nat.add_sub_cancel, List.cons.injEq]
  refine ⟨by simp [Out.andThen], ?_⟩
  rw [List.eq_replicate_iff]
  refine ⟨by simp, ?_⟩
  intro o ho
  obtain ⟨r, -, rfl⟩ := List.mem_map.mp ho
  simp

/-- `C127_christofides_partial` applies to negative costs in double precision -/
example : @doConditionsHold _ binary64.ops (quad (.fin 1) (.fin (-3))) = .ok true ∧ NoLoop (quad (.fin 1) (.fin (-3))) ∧
    (∀ es ∈ quad (.fin 1) (.fin (-3)), ∀ e ∈ es, ∃ v, e.cost = .fin v) ∧ mpi3.Ok ∧ mpi3.dbg = false :=
  ⟨by decide +kernel, quad_noLoop _ _, quad_costs (P := fun x => ∃ v, x = .fin v) ⟨1, rfl⟩ ⟨-3, rfl⟩, mpi3_ok, rfl⟩

/-- **C127 (negation, Christofides)** If all costs are infinite a job of three processes fails, while a release build
on one thread prints the cost 0. -/
theorem C127_christofides_infinite : @doConditionsHold _ binary64.ops (quad .inf .inf) = .ok true ∧
    @MpiRuns _ binary64.ops mpi3 (quad .inf .inf) (.approx .christofides none)
      (List.replicate 3 ⟨[], .error .index⟩) ∧
    @Runs _ binary64.ops env1 (quad .inf .inf) (.approx .christofides .singleThreaded none)
      (.ok [.christofidesWeight (.fin 0)]) := by
  have hacc : @doConditionsHold _ binary64.ops (quad .inf .inf) = .ok true := by decide +kernel
  obtain ⟨m, hm, -⟩ := @instance_total _ binary64.ops _ hacc
  have h1 : ((do @naFromGraph _ binary64.ops (← @parseChecked _ binary64.ops (quad .inf .inf))) >>=
      fun m => @christofidesMpi _ binary64.ops mpi3.dbg m mpi3.rng mpi3.shufs mpi3.size) = .error .index := by
    decide +kernel
  have h2 : ((do @naFromGraph _ binary64.ops (← @parseChecked _ binary64.ops (quad .inf .inf))) >>=
      fun m => @christofidesSeq _ binary64.ops env1.dbg m env1.rng) = .ok (.fin 0, [0, 0]) := by decide +kernel
  rw [hm, rm_bind_ok] at h1 h2
  refine ⟨hacc, ?_, ?_⟩
  · simp only [MpiRuns, hm, mpiApprox, h1]
    rfl
  · simp only [Runs, ApproxRun, hm]
    exact ⟨_, h2.symm, rfl⟩

end

end Walky.Props
