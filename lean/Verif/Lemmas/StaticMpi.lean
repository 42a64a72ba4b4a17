import Verif.Model.Mpi
import Verif.Lemmas.Threaded

/-! # Helper lemmas: the static MPI solver -/

set_option linter.unusedSectionVars false
set_option linter.unusedSimpArgs false

namespace Walky

open FloatOps XNum Spec

theorem countP_set' {α : Type} (p : α → Bool) : ∀ (l : List α) (i : Nat) (a b : α),
    l[i]? = some a → (l.set i b).countP p + (if p a then 1 else 0) =
      l.countP p + (if p b then 1 else 0) := by
  intro l
  induction l with
  | nil => intro i a b h; simp at h
  | cons x l ih =>
    intro i a b h
    cases i with
    | zero =>
      simp at h
      subst h
      simp only [List.set_cons_zero, List.countP_cons]
      omega
    | succ i =>
      simp at h
      have := ih i a b h
      simp only [List.set_cons_succ, List.countP_cons]
      omega

theorem modify_set_self {α : Type} (f : α → α) : ∀ (l : List α) (i : Nat) (a : α), 
    (l.set i a).modify i f = l.set i (f a) := by
  intro l
  induction l with
  | nil => intro i a; simp
  | cons x l ih =>
    intro i a
    cases i with
    | zero => simp
    | succ i => simp [ih]

section
variable {K : Type} [Field K] [LinearOrder K] [IsStrictOrderedRing K]

/-- a local solution: nothing yet, or a tour with its cost -/
def SolOk (N : Nat) (V : List Nat → K → Prop) (s : Solution (XNum K)) : Prop :=
  s = (XNum.inf, []) ∨ (IsTour N s.2 ∧ ∃ w, s.1 = fin w ∧ V s.2 w)

theorem SolOk.proper {N : Nat} {V : List Nat → K → Prop} {s : Solution (XNum K)}
    (h : SolOk N V s) : Proper s.1 := by
  rcases h with h | ⟨-, w, h, -⟩
  · rw [h]; exact proper_inf
  · rw [h]; exact proper_fin _

theorem not_isTour_nil {n : Nat} (h : 0 < n) : ¬ IsTour n [] := by
  intro h'
  have := h'.length
  simp at this
  omega

theorem SolOk.ne {N : Nat} {V : List Nat → K → Prop} {s : Solution (XNum K)}
    (h : SolOk N V s) (hne : s ≠ (XNum.inf, [])) :
    IsTour N s.2 ∧ ∃ w, s.1 = fin w ∧ V s.2 w := by
  rcases h with h | h
  · exact absurd h hne
  · exact h

/-- What the invariants need to know about the search below a prefix with the best known cost `g`: it
does not panic, it finds nothing or a tour with its cost, something if `g` is infinite, and for the
pairs `A` of a bound and a tour it finds a cost below the bound unless `g` is below. -/
def MSearch (N : Nat) (S : XNum K → List Nat → RM (Solution (XNum K))) (V : List Nat → K → Prop)
    (A : K → List Nat → List Nat → Prop) : Prop :=
  ∀ g pre, Proper g → ValidPre N pre → ∃ r, S g pre = .ok r ∧ SolOk N V r ∧
    (∀ q T, IsTour N q → pre <+: q → A T pre q →
      FloatOps.le g (fin T) = true ∨ FloatOps.le r.1 (fin T) = true) ∧
    (g = XNum.inf → IsTour N r.2)

/-- the cost is the length -/
abbrev exactV (c : Nat → Nat → K) : List Nat → K → Prop := fun q w => w = tourCost c q

/-- the search for the tour is not pruned by bounds of at least `T` -/
abbrev exactA (m : Mat (XNum K)) (c : Nat → Nat → K) : K → List Nat → List Nat → Prop :=
  fun T pre q => tourCost c q ≤ T ∧ AlongT c (test5 m) (fun _ => True) T pre q

/-- the search of the MPI solvers below a valid prefix -/
theorem searchMpi_ok {m : Mat (XNum K)} {c : Nat → Nat → K} (hm : Rep m c) (hdim : 0 < m.dim) :
    MSearch m.dim (searchMpi m) (exactV c) (exactA m c) := by
  intro g pre hg hv
  obtain ⟨r, h1, h2, h3, h4, h5⟩ := dfs_exact m c hm (testMpi m g) (fun _ => True) (testMpi_ok hm g)
    hdim (m.dim + 1) pre ((XNum.inf, []), ()) hv (by omega) trivial proper_inf
  have hsol : SolOk m.dim (exactV c) r.1 := by
    rcases h3 with h | ⟨a, b, d, _⟩
    · exact Or.inl h
    · exact Or.inr ⟨a, _, d, rfl⟩
  refine ⟨r.1, ?_, hsol, ?_, ?_⟩
  · unfold searchMpi
    rw [evaluatePath_valid hm hv]
    simp only [rm_bind_ok]
    rw [inf_def, h1]
    rfl
  · rintro q T hq hpq ⟨hT, hal⟩
    have hg' := hg
    rcases hg' with hg' | ⟨y, hg'⟩
    on_goal 2 => by_cases hTy : T ≤ y
    on_goal 3 =>
      left
      rw [hg']
      simpa using (not_le.mp hTy).le
    all_goals
    right
    have hTg : FloatOps.le (fin T) g = true := by
      rw [hg']
      first
        | rfl
        | simpa using hTy
    refine h4 q T hq hpq hT ?_
    intro p hp hl hl2 a b ha hb hTb
    have := hal p hp hl hl2 a (if g <ᶠ b then g else b) ha (by split <;> assumption)
      (by split <;> assumption)
    exact this
  · rintro rfl
    obtain ⟨r', e1, e2, e3, e4, e5, _⟩ := searchPrefix_ok hm hdim hv
    have hleaf : IsTour m.dim (firstLeaf m.dim pre) := by
      unfold IsTour firstLeaf
      refine (List.perm_ext_iff_of_nodup ?_ List.nodup_range).mpr ?_
      · rw [List.nodup_append]
        refine ⟨hv.1, List.nodup_range.filter _, ?_⟩
        intro a ha b hb e
        subst e
        simp at hb
        exact hb.2 ha
      · intro a
        simp only [List.mem_append, List.mem_filter, List.mem_range]
        constructor
        · rintro (h | h)
          · exact hv.2 a h
          · exact h.1
        · intro h
          by_cases ha : a ∈ pre
          · exact Or.inl ha
          · exact Or.inr ⟨h, by simpa using ha⟩
    have h5 := h5 rfl (by
      intro p hp _ hp2 _ _
      obtain ⟨y, hy⟩ := mstBound_fin hm (validPre_prefix hleaf hp).2
      exact ⟨(), by simp [testMpi, hy]⟩)
    rcases hsol with h | h
    · rw [h] at h5; simp at h5
    · exact h.1

/-- `workerRound` for any search -/
def workerRoundG (N : Nat) (S : XNum K → List Nat → RM (Solution (XNum K))) (rank : Nat)
    (w : SWorker (XNum K)) : RM (SWorker (XNum K)) := do
  let (digits, next) ← getNextValue w.digits N
  match next with
  | none => return { w with digits := digits, phase := .done, up := w.up ++ [(negOne, rank)] }
  | some v =>
    if v = w.maxDigits then
      return { w with digits := digits, phase := .done, up := w.up ++ [(negOne, rank)] }
    else if isUnique v then do
      let r ← S w.global v
      let sol := if r.1 <ᶠ w.sol.1 then r else w.sol
      return { w with digits := digits, sol := sol, phase := .wait, up := w.up ++ [(sol.1, rank)] }
    else return { w with digits := digits }

/-- `SStep` for any search -/
inductive SStepG (N : Nat) (S : XNum K → List Nat → RM (Solution (XNum K))) :
    SSys (XNum K) → SSys (XNum K) → Prop
  | round (s : SSys (XNum K)) (i : Nat) (w w' : SWorker (XNum K)) : s.workers[i]? = some w →
      w.phase = .work → workerRoundG N S (i + 1) w = .ok w' →
      SStepG N S s { s with workers := s.workers.set i w' }
  | recv (s : SSys (XNum K)) (i : Nat) (w : SWorker (XNum K)) (g : XNum K) (rest : List (XNum K)) :
      s.workers[i]? = some w → w.phase = .wait → w.down = g :: rest →
      SStepG N S s { s with
        workers := s.workers.set i { w with global := g, phase := .work, down := rest } }
  | root (s : SSys (XNum K)) (i : Nat) (w : SWorker (XNum K)) (msg : XNum K × Nat)
      (rest : List (XNum K × Nat)) :
      s.finished < s.workers.length → s.workers[i]? = some w → w.up = msg :: rest →
      SStepG N S s (SSys.handle { s with workers := s.workers.set i { w with up := rest } } msg)

/-- the workers only compare -/
theorem workerRound_eq {F : FloatOps (XNum K)} (hF : SameCmp F) (m : Mat (XNum K)) :
    @workerRound _ F m = workerRoundG m.dim (@searchMpi _ F m) := by
  funext rank w
  unfold workerRound workerRoundG
  simp only [hF.lt, hF.negOne]
  rfl

theorem shandle_eq {F : FloatOps (XNum K)} (hF : SameCmp F) (s : SSys (XNum K)) (msg : XNum K × Nat) :
    @SSys.handle _ F s msg = @SSys.handle _ (exactOps K) s msg := by
  unfold SSys.handle
  simp only [hF.lt, hF.le, hF.zero]
  rfl

theorem SStep_eq {F : FloatOps (XNum K)} (hF : SameCmp F) (m : Mat (XNum K)) :
    @SStep _ F m = SStepG m.dim (@searchMpi _ F m) := by
  funext s s'
  refine propext ⟨fun h => ?_, fun h => ?_⟩
  · cases h with
    | round i w w' h1 h2 h3 => exact .round s i w w' h1 h2 (by rw [← workerRound_eq hF]; exact h3)
    | recv i w g rest h1 h2 h3 => exact .recv s i w g rest h1 h2 h3
    | root i w msg rest h1 h2 h3 => rw [shandle_eq hF]; exact .root s i w msg rest h1 h2 h3
  · cases h with
    | round i w w' h1 h2 h3 => exact .round s i w w' h1 h2 (by rw [workerRound_eq hF]; exact h3)
    | recv i w g rest h1 h2 h3 => exact .recv s i w g rest h1 h2 h3
    | root i w msg rest h1 h2 h3 => rw [← shandle_eq hF]; exact .root s i w msg rest h1 h2 h3

theorem initStatic_eq {F : FloatOps (XNum K)} (hF : SameCmp F) (m : Mat (XNum K)) (k nW : Nat) :
    @initStatic _ F m k nW = @initStatic _ (exactOps K) m k nW := by
  unfold initStatic
  simp only [hF.inf]
  rfl

variable {N : Nat} {S : XNum K → List Nat → RM (Solution (XNum K))} {V : List Nat → K → Prop}
  {A : K → List Nat → List Nat → Prop}

/-- A prefix worked on by a worker of the static solver with boundary values `lo` and `hi`. If the
two are equal, the worker runs past the end of its chunk. -/
structure SWork (n k lo hi : Nat) (pre : List Nat) : Prop where
  len : pre.length = k
  valid : ValidDigits n pre
  nodup : pre.Nodup
  gt : lo < digitsVal n pre
  lt : digitsVal n pre < hi ∨ hi ≤ lo

/-- the possible combinations of position and messages in transit -/
inductive Shape (rank : Nat) (win : XNum K) : SWorker (XNum K) → Prop
  | work (w : SWorker (XNum K)) : w.phase = .work → w.up = [] → w.down = [] → Shape rank win w
  | sent (w : SWorker (XNum K)) : w.phase = .wait → w.up = [(w.sol.1, rank)] → w.down = [] →
      Shape rank win w
  | answered (w : SWorker (XNum K)) (g : XNum K) : w.phase = .wait → w.up = [] → w.down = [g] →
      Proper g → FloatOps.le win g = true → FloatOps.le win w.sol.1 = true → Shape rank win w
  | stuck (w : SWorker (XNum K)) : w.phase = .wait → w.up = [] → w.down = [] →
      FloatOps.le (fin 0) w.sol.1 = false → Shape rank win w
  | leaving (w : SWorker (XNum K)) : w.phase = .done → w.up = [(fin (-1), rank)] → w.down = [] →
      Shape rank win w
  | left (w : SWorker (XNum K)) : w.phase = .done → w.up = [] → w.down = [] → Shape rank win w

/-- invariant of a worker -/
structure WInv (N : Nat) (V : List Nat → K → Prop) (A : K → List Nat → List Nat → Prop) (k lo hi rank : Nat) (win : XNum K)
    (w : SWorker (XNum K)) : Prop where
  mlen : w.maxDigits.length = k
  mvalid : ValidDigits N w.maxDigits
  mval : digitsVal N w.maxDigits = hi
  len : w.digits.length = k
  valid : ValidDigits N w.digits
  shape : Shape rank win w
  pos : w.phase ≠ .done → lo ≤ digitsVal N w.digits ∧
    (digitsVal N w.digits < hi ∨ hi ≤ lo)
  sol : SolOk N V w.sol
  glob : Proper w.global ∧ FloatOps.le win w.global = true
  init : w.sol = (XNum.inf, []) → w.global = XNum.inf ∧ w.phase ≠ .wait
  seen : ∀ pre, SWork N k lo hi pre →
    (w.phase = .done ∨ digitsVal N pre ≤ digitsVal N w.digits) → IsTour N w.sol.2
  conv : IsTour N w.sol.2 → ∃ pre, SWork N k lo hi pre
  wle : w.phase ≠ .wait → FloatOps.le win w.sol.1 = true
  bound : ∀ pre q T, SWork N k lo hi pre →
    (w.phase = .done ∨ digitsVal N pre ≤ digitsVal N w.digits) →
    IsTour N q → pre <+: q → A T pre q →
    FloatOps.le win (fin T) = true ∨ FloatOps.le w.sol.1 (fin T) = true

theorem WInv.mono {k lo hi rank : Nat} {win win' : XNum K}
    {w : SWorker (XNum K)} (h : WInv N V A k lo hi rank win w) (hle : FloatOps.le win' win = true) :
    WInv N V A k lo hi rank win' w where
  mlen := h.mlen
  mvalid := h.mvalid
  mval := h.mval
  len := h.len
  valid := h.valid
  shape := by
    cases h.shape with
    | work h1 h2 h3 => exact .work _ h1 h2 h3
    | sent h1 h2 h3 => exact .sent _ h1 h2 h3
    | answered g h1 h2 h3 h4 h5 h6 => exact .answered _ g h1 h2 h3 h4 (le_trans' hle h5) (le_trans' hle h6)
    | stuck h1 h2 h3 h4 => exact .stuck _ h1 h2 h3 h4
    | leaving h1 h2 h3 => exact .leaving _ h1 h2 h3
    | left h1 h2 h3 => exact .left _ h1 h2 h3
  pos := h.pos
  sol := h.sol
  glob := ⟨h.glob.1, le_trans' hle h.glob.2⟩
  init := h.init
  seen := h.seen
  conv := h.conv
  wle := fun hp => le_trans' hle (h.wle hp)
  bound := fun pre q T a b d e f => (h.bound pre q T a b d e f).imp (le_trans' hle) id

/-- remaining steps of a worker, roughly -/
def SWorker.measure (n N : Nat) {α : Type} (w : SWorker α) : Nat :=
  match w.phase with
  | .work => 5 * (N - digitsVal n w.digits) + 2
  | .wait => 5 * (N - digitsVal n w.digits) + (if w.up.isEmpty then 3 else 4)
  | .done => w.up.length

theorem workerRound_inv (hS : MSearch N S V A) (hdim : 0 < N)
    {k lo hi rank : Nat} {win : XNum K} {w : SWorker (XNum K)} (h : WInv N V A k lo hi rank win w)
    (hp : w.phase = .work) :
    ∃ w', workerRoundG N S rank w = .ok w' ∧ WInv N V A k lo hi rank win w' ∧
      w'.measure N (N ^ k) < w.measure N (N ^ k) ∧
      FloatOps.le w'.sol.1 w.sol.1 = true ∧ (IsTour N w.sol.2 → IsTour N w'.sol.2) ∧
      (w'.phase = .work ∨ w'.up ≠ []) := by
  obtain ⟨hup, hdown⟩ : w.up = [] ∧ w.down = [] := by
    cases h.shape with
    | work h1 h2 h3 => exact ⟨h2, h3⟩
    | sent h1 h2 h3 => rw [hp] at h1; cases h1
    | answered g h1 h2 h3 h4 h5 h6 => rw [hp] at h1; cases h1
    | stuck h1 h2 h3 h4 => rw [hp] at h1; cases h1
    | leaving h1 h2 h3 => rw [hp] at h1; cases h1
    | left h1 h2 h3 => rw [hp] at h1; cases h1
  have hwle := h.wle (by rw [hp]; simp)
  obtain ⟨hpos1, hpos2⟩ := h.pos (by rw [hp]; simp)
  have hvlt : digitsVal N w.digits < N ^ k := by
    have := digitsVal_lt h.valid
    rwa [h.len] at this
  -- the worker leaves its loop
  have hleave : ∀ l : List Nat, l.length = k → ValidDigits N l →
      (∀ pre, SWork N k lo hi pre → digitsVal N pre ≤ digitsVal N w.digits) →
      WInv N V A k lo hi rank win { w with digits := l, phase := .done, up := w.up ++ [(negOne, rank)] } := by
    intro l hl hlv hall
    refine ⟨h.mlen, h.mvalid, h.mval, hl, hlv, ?_, by simp, h.sol, h.glob, ?_, ?_, h.conv, fun _ => hwle, ?_⟩
    · exact .leaving _ rfl (by simp [hup]) hdown
    · intro e; exact ⟨(h.init e).1, by simp⟩
    · intro pre hw _
      exact h.seen pre hw (Or.inr (hall pre hw))
    · intro pre q T hw _
      exact h.bound pre q T hw (Or.inr (hall pre hw))
  have hmleave : ∀ l : List Nat, SWorker.measure N (N ^ k)
      { w with digits := l, phase := .done, up := w.up ++ [(negOne, rank)] } <
      w.measure N (N ^ k) := by
    intro l
    simp [SWorker.measure, hp, hup]
  unfold workerRoundG
  obtain ⟨l, e1, e2, e3 | e3⟩ := getNextValue_ok h.valid
  · obtain ⟨_, e4, e5⟩ := e3
    have hl : l.length = k := by rw [e1, h.len]
    have hllt : digitsVal N l < N ^ k := by
      have := digitsVal_lt e2
      rwa [hl] at this
    simp only [e4, rm_bind_ok]
    by_cases hmax : l = w.maxDigits
    · rw [if_pos hmax]
      have hv : digitsVal N l = hi := by rw [hmax, h.mval]
      refine ⟨_, rfl, hleave l hl e2 ?_, hmleave l, h.sol.proper.le_refl, id, Or.inr (by simp)⟩
      intro pre hw
      rcases hw.lt with h1 | h1
      · omega
      · omega
    · rw [if_neg hmax]
      have hne : digitsVal N l ≠ hi := by
        intro e
        exact hmax (digitsVal_inj (by rw [hl, h.mlen]) e2 h.mvalid (by rw [e, h.mval]))
      have hpos' : lo ≤ digitsVal N l ∧ (digitsVal N l < hi ∨ hi ≤ lo) :=
        ⟨by omega, by omega⟩
      by_cases hu : isUnique l = true
      · rw [if_pos hu]
        have hw : SWork N k lo hi l := ⟨hl, e2, isUnique_iff.mp hu, by omega, hpos'.2⟩
        obtain ⟨r, hr, hr1, hr2, hr3⟩ := hS _ _ h.glob.1 ⟨hw.nodup, hw.valid⟩
        rw [hr]
        simp only [rm_bind_ok, rm_pure]
        set sol := if FloatOps.lt r.1 w.sol.1 = true then r else w.sol with hsol
        have hsolok : SolOk N V sol := by rw [hsol]; split; exacts [hr1, h.sol]
        have hsle : FloatOps.le sol.1 w.sol.1 = true ∧ FloatOps.le sol.1 r.1 = true := by
          rw [hsol]
          by_cases hlt : FloatOps.lt r.1 w.sol.1 = true
          · rw [if_pos hlt]; exact ⟨le_of_lt' hlt, hr1.proper.le_refl⟩
          · rw [if_neg hlt]
            exact ⟨h.sol.proper.le_refl, Proper.not_lt hr1.proper h.sol.proper (by simpa using hlt)⟩
        have hfin : ∀ s s' : Solution (XNum K), SolOk N V s → SolOk N V s' →
            FloatOps.le s.1 s'.1 = true → IsTour N s'.2 → IsTour N s.2 := by
          intro s s' hs hs' hle ht
          rcases hs with e | e
          · rcases hs' with e' | e'
            · rw [e'] at ht; exact absurd ht (not_isTour_nil hdim)
            · obtain ⟨-, x, e', -⟩ := e'
              rw [e, e'] at hle; simp at hle
          · exact e.1
        have htour : IsTour N sol.2 := by
          by_cases hs : w.sol = (XNum.inf, [])
          · exact hfin _ _ hsolok hr1 hsle.2 (hr3 (h.init hs).1)
          · exact hfin _ _ hsolok h.sol hsle.1 (h.sol.ne hs).1
        refine ⟨_, rfl, ?_, ?_, hsle.1, fun _ => htour, Or.inr (by simp)⟩
        · refine ⟨h.mlen, h.mvalid, h.mval, hl, e2, .sent _ rfl (by simp [hup]) hdown,
            fun _ => hpos', hsolok, h.glob, ?_, fun _ _ _ => htour, fun _ => ⟨l, hw⟩, by simp, ?_⟩
          · intro e
            simp only at e
            rw [e] at htour
            exact absurd htour (not_isTour_nil hdim)
          · intro pre q T hpre hseen hq hpq hA
            simp only [reduceCtorEq, false_or] at hseen
            by_cases he : digitsVal N pre = digitsVal N l
            · have : pre = l := digitsVal_inj (by rw [hpre.len, hl]) hpre.valid e2 he
              subst this
              rcases hr2 q T hq hpq hA with h' | h'
              · exact Or.inl (le_trans' h.glob.2 h')
              · exact Or.inr (le_trans' hsle.2 h')
            · rcases h.bound pre q T hpre (Or.inr (by omega)) hq hpq hA with h' | h'
              · exact Or.inl h'
              · exact Or.inr (le_trans' hsle.1 h')
        · simp only [SWorker.measure, hp, hup]
          simp
          omega
      · rw [if_neg hu]
        refine ⟨_, rfl, ?_, ?_, h.sol.proper.le_refl, id, Or.inl hp⟩
        · have hlow : ∀ pre, SWork N k lo hi pre → digitsVal N pre ≤ digitsVal N l →
              digitsVal N pre ≤ digitsVal N w.digits := by
            intro pre hpre hle
            have : digitsVal N pre ≠ digitsVal N l := by
              intro e
              have : pre = l := digitsVal_inj (by rw [hpre.len, hl]) hpre.valid e2 e
              subst this
              exact hu (isUnique_iff.mpr hpre.nodup)
            omega
          refine ⟨h.mlen, h.mvalid, h.mval, hl, e2, .work _ hp hup hdown, fun _ => hpos', h.sol, h.glob,
            h.init, ?_, h.conv, h.wle, ?_⟩
          · intro pre hpre hs
            simp only [hp, reduceCtorEq, false_or] at hs
            exact h.seen pre hpre (Or.inr (hlow pre hpre hs))
          · intro pre q T hpre hs
            simp only [hp, reduceCtorEq, false_or] at hs
            exact h.bound pre q T hpre (Or.inr (hlow pre hpre hs))
        · simp only [SWorker.measure, hp]
          omega
  · obtain ⟨e4, e5⟩ := e3
    have hl : l.length = k := by rw [e1, h.len]
    simp only [e5, rm_bind_ok]
    refine ⟨_, rfl, hleave l hl e2 ?_, hmleave l, h.sol.proper.le_refl, id, Or.inr (by simp)⟩
    intro pre hw
    have := digitsVal_lt hw.valid
    rw [hw.len] at this
    rw [h.len] at e4
    omega

/-- the coordinator has counted the worker as finished -/
def SWorker.counted {α : Type} (w : SWorker α) : Bool :=
  decide (w.phase ≠ .work) && w.up.isEmpty && w.down.isEmpty

/-- invariant of the system; `lo i`, `hi i` are the boundary values of the worker with rank `i + 1` -/
structure SInv (N : Nat) (V : List Nat → K → Prop) (A : K → List Nat → List Nat → Prop) (k : Nat) (lo hi : Nat → Nat) (nW : Nat)
    (s : SSys (XNum K)) : Prop where
  len : s.workers.length = nW
  wk : ∀ i w, s.workers[i]? = some w → WInv N V A k (lo i) (hi i) (i + 1) s.winner.1 w
  proper : Proper s.winner.1
  win : s.winner = (XNum.inf, 0) ∨ ∃ i w, s.workers[i]? = some w ∧ s.winner.2 = i + 1 ∧
    IsTour N w.sol.2 ∧ FloatOps.le w.sol.1 s.winner.1 = true
  fin : s.finished = s.workers.countP SWorker.counted

/-- sum of the remaining steps -/
def SSys.measure (n N : Nat) {α : Type} (s : SSys α) : Nat :=
  (s.workers.mapIdx fun _ w => w.measure n N).sum

/-- replacing one worker -/
theorem SInv.set {k : Nat} {lo hi : Nat → Nat} {nW : Nat}
    {s : SSys (XNum K)} (h : SInv N V A k lo hi nW s) {i : Nat} {w w' : SWorker (XNum K)}
    (hw : s.workers[i]? = some w) {win : XNum K × Nat} {f : Nat}
    (hw' : WInv N V A k (lo i) (hi i) (i + 1) win.1 w')
    (hle : FloatOps.le win.1 s.winner.1 = true) (hpr : Proper win.1)
    (hsol : FloatOps.le w'.sol.1 w.sol.1 = true) (ht : IsTour N w.sol.2 → IsTour N w'.sol.2)
    (hwin : win = s.winner ∨ (win.2 = i + 1 ∧ IsTour N w'.sol.2 ∧ FloatOps.le w'.sol.1 win.1 = true))
    (hf : f + (if w.counted then 1 else 0) = s.finished + (if w'.counted then 1 else 0)) :
    SInv N V A k lo hi nW ⟨s.workers.set i w', win, f⟩ := by
  have hil := (List.getElem?_eq_some_iff.mp hw).1
  refine ⟨by simp [h.len], ?_, hpr, ?_, ?_⟩
  · intro j u hu
    simp only at hu ⊢
    by_cases hij : i = j
    · subst hij
      rw [List.getElem?_set_self hil] at hu
      injection hu with e
      subst e
      exact hw'
    · rw [List.getElem?_set_ne hij] at hu
      exact (h.wk j u hu).mono hle
  · simp only
    rcases hwin with e | ⟨e1, e2, e3⟩
    · rw [e]
      rcases h.win with h' | ⟨j, u, a1, a2, a3, a4⟩
      · exact Or.inl h'
      · right
        by_cases hij : i = j
        · subst hij
          rw [hw] at a1
          injection a1 with e'
          subst e'
          exact ⟨i, w', List.getElem?_set_self hil, a2, ht a3, le_trans' hsol a4⟩
        · exact ⟨j, u, by rw [List.getElem?_set_ne hij]; exact a1, a2, a3, a4⟩
    · exact Or.inr ⟨i, w', List.getElem?_set_self hil, e1, e2, e3⟩
  · have := countP_set' SWorker.counted s.workers i w w' hw
    rw [← h.fin] at this
    simp only
    omega

theorem SSys.measure_set {n N : Nat} {s : SSys (XNum K)} {i : Nat} {w w' : SWorker (XNum K)}
    (hw : s.workers[i]? = some w) (h : w'.measure n N < w.measure n N) {win : XNum K × Nat} {f : Nat} :
    SSys.measure n N ⟨s.workers.set i w', win, f⟩ < s.measure n N :=
  sum_mapIdx_set_lt (fun _ w => SWorker.measure n N w) _ _ _ _ hw h

theorem sstep_inv (hS : MSearch N S V A) (hdim : 0 < N)
    {k nW : Nat} {lo hi : Nat → Nat} {s s' : SSys (XNum K)} (h : SInv N V A k lo hi nW s)
    (hs : SStepG N S s s') :
    SInv N V A k lo hi nW s' ∧ s'.measure N (N ^ k) < s.measure N (N ^ k) := by
  cases hs with
  | round i w w' h1 h2 h3 =>
    have hW := h.wk i w h1
    obtain ⟨w'', a1, a2, a3, a4, a5, a6⟩ := workerRound_inv hS hdim hW h2
    rw [h3] at a1
    injection a1 with e
    subst e
    refine ⟨h.set h1 a2 h.proper.le_refl h.proper a4 a5 (Or.inl rfl) ?_, SSys.measure_set h1 a3⟩
    have : w.counted = false := by simp [SWorker.counted, h2]
    have : w'.counted = false := by
      rcases a6 with h' | h'
      · simp [SWorker.counted, h']
      · simp [SWorker.counted, h']
    simp [*]
  | recv i w g rest h1 h2 h3 =>
    have hW := h.wk i w h1
    obtain ⟨g', b1, b2, b3, b4, b5⟩ : ∃ g', w.up = [] ∧ w.down = [g'] ∧ Proper g' ∧
        FloatOps.le s.winner.1 g' = true ∧ FloatOps.le s.winner.1 w.sol.1 = true := by
      cases hW.shape with
      | work h1 _ _ => rw [h2] at h1; cases h1
      | sent _ _ h4 => rw [h3] at h4; cases h4
      | answered g h1 h2 h3 h4 h5 h6 => exact ⟨g, h2, h3, h4, h5, h6⟩
      | stuck _ _ h4 _ => rw [h3] at h4; cases h4
      | leaving h1 _ _ => rw [h2] at h1; cases h1
      | left h1 _ _ => rw [h2] at h1; cases h1
    rw [h3] at b2
    injection b2 with e1 e2
    subst e1 e2
    refine ⟨h.set h1 ?_ h.proper.le_refl h.proper hW.sol.proper.le_refl id (Or.inl rfl) ?_,
      SSys.measure_set h1 ?_⟩
    · refine ⟨hW.mlen, hW.mvalid, hW.mval, hW.len, hW.valid, .work _ rfl b1 rfl, ?_, hW.sol, ⟨b3, b4⟩,
        ?_, ?_, hW.conv, fun _ => b5, ?_⟩
      · intro _; exact hW.pos (by simp [h2])
      · intro e; exact absurd h2 (hW.init e).2
      · intro pre hp hs
        simp only [reduceCtorEq, false_or] at hs
        exact hW.seen pre hp (Or.inr hs)
      · intro pre q T hp hs
        simp only [reduceCtorEq, false_or] at hs
        exact hW.bound pre q T hp (Or.inr hs)
    · simp [SWorker.counted, h3]
    · simp [SWorker.measure, h2, b1]
  | root i w msg rest h1 h2 h3 =>
    have hW := h.wk i w h2
    cases hW.shape with
    | work _ h4 _ => rw [h3] at h4; cases h4
    | answered _ _ h4 _ _ _ _ => rw [h3] at h4; cases h4
    | stuck _ h4 _ _ => rw [h3] at h4; cases h4
    | left _ h4 _ => rw [h3] at h4; cases h4
    | leaving h4 h5 h6 =>
      rw [h3] at h5
      injection h5 with e1 e2
      subst e1 e2
      have hneg : FloatOps.le (zero : XNum K) (fin (-1)) = false := by simp
      unfold SSys.handle
      simp only [hneg, Bool.false_eq_true, if_false]
      refine ⟨h.set h2 ?_ h.proper.le_refl h.proper hW.sol.proper.le_refl id (Or.inl rfl) ?_,
        SSys.measure_set h2 ?_⟩
      · exact ⟨hW.mlen, hW.mvalid, hW.mval, hW.len, hW.valid, .left _ h4 rfl h6, hW.pos, hW.sol, hW.glob,
          hW.init, hW.seen, hW.conv, hW.wle, hW.bound⟩
      · simp [SWorker.counted, h3, h4, h6]
      · simp [SWorker.measure, h4, h3]
    | sent h4 h5 h6 =>
      rw [h3] at h5
      injection h5 with e1 e2
      subst e1 e2
      have hi' : i + 1 - 1 = i := by omega
      unfold SSys.handle
      by_cases hpos : FloatOps.le (zero : XNum K) w.sol.1 = true
      · simp only [hpos, if_true, hi', modify_set_self]
        set win : XNum K × Nat :=
          if FloatOps.lt w.sol.1 s.winner.1 = true then (w.sol.1, i + 1) else s.winner with hwin
        have hwle : FloatOps.le win.1 s.winner.1 = true ∧ FloatOps.le win.1 w.sol.1 = true ∧
            Proper win.1 := by
          rw [hwin]
          by_cases hlt : FloatOps.lt w.sol.1 s.winner.1 = true
          · rw [if_pos hlt]; exact ⟨le_of_lt' hlt, hW.sol.proper.le_refl, hW.sol.proper⟩
          · rw [if_neg hlt]
            exact ⟨h.proper.le_refl, Proper.not_lt hW.sol.proper h.proper (by simpa using hlt),
              h.proper⟩
        refine ⟨h.set h2 ?_ hwle.1 hwle.2.2 hW.sol.proper.le_refl id ?_ ?_, SSys.measure_set h2 ?_⟩
        · have hW' := hW.mono hwle.1
          exact ⟨hW'.mlen, hW'.mvalid, hW'.mval, hW'.len, hW'.valid,
            .answered _ win.1 h4 rfl (by simp [h6]) hwle.2.2 hwle.2.2.le_refl hwle.2.1, hW'.pos, hW'.sol,
            hW'.glob, hW'.init, hW'.seen, hW'.conv, hW'.wle, hW'.bound⟩
        · rw [hwin]
          by_cases hlt : FloatOps.lt w.sol.1 s.winner.1 = true
          · right
            rw [if_pos hlt]
            refine ⟨rfl, ?_, hW.sol.proper.le_refl⟩
            rcases hW.sol with e | e
            · rw [e] at hlt; simp at hlt
            · exact e.1
          · left; rw [if_neg hlt]
        · simp [SWorker.counted, h3, h4, h6]
        · simp [SWorker.measure, h4, h3]
      · have hpos' : FloatOps.le (zero : XNum K) w.sol.1 = false := by simpa using hpos
        simp only [hpos', Bool.false_eq_true, if_false]
        refine ⟨h.set h2 ?_ h.proper.le_refl h.proper hW.sol.proper.le_refl id (Or.inl rfl) ?_,
          SSys.measure_set h2 ?_⟩
        · exact ⟨hW.mlen, hW.mvalid, hW.mval, hW.len, hW.valid, .stuck _ h4 rfl h6 hpos', hW.pos,
            hW.sol, hW.glob, hW.init, hW.seen, hW.conv, hW.wle, hW.bound⟩
        · simp [SWorker.counted, h3, h4, h6]
        · simp [SWorker.measure, h4, h3]

/-- with non-negative lengths a state that is not final has a next step -/
theorem sstep_progress (hS : MSearch N S V A) (hdim : 0 < N)
    {k nW : Nat} {lo hi : Nat → Nat} {s : SSys (XNum K)} (h : SInv N V A k lo hi nW s)
    (hnn : ∀ q w, IsTour N q → V q w → 0 ≤ w) (hf : ¬ s.final) : ∃ s', SStepG N S s s' := by
  by_contra hcon
  have hall : ∀ (i : Nat) (w : SWorker (XNum K)), s.workers[i]? = some w →
      (w.phase = .done ∧ w.up = [] ∧ w.down = []) ∨ (w.up ≠ [] ∧ ¬ s.finished < s.workers.length) := by
    intro i w hw
    have hW := h.wk i w hw
    cases hW.shape with
    | work h1 _ _ =>
      obtain ⟨w', a, _⟩ := workerRound_inv hS hdim hW h1
      exact absurd ⟨_, .round s i w w' hw h1 a⟩ hcon
    | sent _ h2 _ =>
      refine Or.inr ⟨by simp [h2], fun h' => hcon ⟨_, .root s i w _ _ h' hw h2⟩⟩
    | answered g h1 h2 h3 _ _ _ => exact absurd ⟨_, .recv s i w g [] hw h1 h3⟩ hcon
    | stuck _ _ _ h4 =>
      exfalso
      rcases hW.sol with e | ⟨e0, y, e2, e1⟩
      · rw [e] at h4; simp at h4
      · rw [e2] at h4
        have := hnn _ _ e0 e1
        simp at h4
        exact absurd this (not_le.mpr h4)
    | leaving _ h2 _ =>
      refine Or.inr ⟨by simp [h2], fun h' => hcon ⟨_, .root s i w _ _ h' hw h2⟩⟩
    | left h1 h2 h3 => exact Or.inl ⟨h1, h2, h3⟩
  by_cases hlt : s.finished < s.workers.length
  · have : s.workers.countP SWorker.counted = s.workers.length := by
      rw [List.countP_eq_length]
      intro w hw
      obtain ⟨i, hi'⟩ := List.mem_iff_getElem?.mp hw
      rcases hall i w hi' with ⟨a, b, d⟩ | ⟨_, h2⟩
      · simp [SWorker.counted, a, b, d]
      · exact absurd hlt h2
    rw [← h.fin] at this
    omega
  · refine hf ⟨hlt, ?_⟩
    have hle : s.workers.countP SWorker.counted ≤ s.workers.length := List.countP_le_length
    have : s.workers.countP SWorker.counted = s.workers.length := by rw [← h.fin] at hle ⊢; omega
    rw [List.countP_eq_length] at this
    intro w hw
    obtain ⟨i, hi'⟩ := List.mem_iff_getElem?.mp hw
    have hc := this w hw
    rcases hall i w hi' with ⟨a, _⟩ | ⟨h1, _⟩
    · exact a
    · simp [SWorker.counted, h1] at hc

/-- once the coordinator stops listening everybody is at the barrier and nothing is in transit -/
theorem finished_all {k nW : Nat} {lo hi : Nat → Nat}
    {s : SSys (XNum K)} (h : SInv N V A k lo hi nW s)
    (hnn : ∀ q w, IsTour N q → V q w → 0 ≤ w) (hf : ¬ s.finished < s.workers.length) :
    ∀ w ∈ s.workers, w.phase = .done ∧ w.up = [] ∧ w.down = [] := by
  have hle : s.workers.countP SWorker.counted ≤ s.workers.length := List.countP_le_length
  have : s.workers.countP SWorker.counted = s.workers.length := by rw [← h.fin] at hle ⊢; omega
  rw [List.countP_eq_length] at this
  intro w hw
  obtain ⟨i, hi'⟩ := List.mem_iff_getElem?.mp hw
  have hc := this w hw
  have hW := h.wk i w hi'
  cases hW.shape with
  | work h1 _ _ => simp [SWorker.counted, h1] at hc
  | sent _ h2 _ => simp [SWorker.counted, h2] at hc
  | answered g _ _ h3 _ _ _ => simp [SWorker.counted, h3] at hc
  | stuck _ _ _ h4 =>
    exfalso
    rcases hW.sol with e | ⟨e0, y, e2, e1⟩
    · rw [e] at h4; simp at h4
    · rw [e2] at h4
      have := hnn _ _ e0 e1
      simp at h4
      exact absurd this (not_le.mpr h4)
  | leaving _ h2 _ => simp [SWorker.counted, h2] at hc
  | left h1 h2 h3 => exact ⟨h1, h2, h3⟩

/-- lower boundary value of the worker with rank `i + 1` -/
abbrev sLo (N nW i : Nat) : Nat := i * (N / nW)
/-- upper boundary value of the worker with rank `i + 1` -/
abbrev sHi (N nW i : Nat) : Nat := i * (N / nW) + N / nW - 1

theorem sinit_inv {m : Mat (XNum K)} {k nW : Nat} (hlt : nW < m.dim ^ k)
    (hdim : 0 < m.dim) :
    ∃ s, initStatic m k nW = .ok s ∧ SInv m.dim V A k (sLo (m.dim ^ k) nW) (sHi (m.dim ^ k) nW) nW s := by
  have hch : ∀ i : Nat, ∃ p : List Nat × List Nat, i < nW → splitChunks k m.dim nW i = .ok p ∧
      p.1.length = k ∧ p.2.length = k ∧ ValidDigits m.dim p.1 ∧ ValidDigits m.dim p.2 ∧
      digitsVal m.dim p.1 = i * (m.dim ^ k / nW) ∧
      digitsVal m.dim p.2 = i * (m.dim ^ k / nW) + m.dim ^ k / nW - 1 := by
    intro i
    by_cases hi : i < nW
    · obtain ⟨lo, hi', a1, a2, a3, a4, a5, a6, a7⟩ := Props.C14_chunk_digits (b := m.dim) (k := k)
        (by omega) hlt hi
      refine ⟨(lo, hi'), fun _ => ⟨a1, a2, a3, a4, a5, a6, ?_⟩⟩
      rw [Nat.add_mul, Nat.one_mul] at a7
      unfold digitsVal
      simp only
      omega
    · exact ⟨([], []), fun h => absurd h hi⟩
  choose p hp using hch
  refine ⟨⟨(List.range nW).map fun i => ⟨(p i).1, (p i).2, (XNum.inf, []), XNum.inf, .work, [], []⟩,
    (XNum.inf, 0), 0⟩, ?_, ⟨by simp, ?_, proper_inf, Or.inl rfl, ?_⟩⟩
  · unfold initStatic
    rw [mapM_ok (g := fun i =>
      (⟨(p i).1, (p i).2, (XNum.inf, []), XNum.inf, .work, [], []⟩ : SWorker (XNum K)))]
    · rfl
    · intro i hi
      rw [(hp i (by simpa using hi)).1]
      rfl
  · intro i t ht
    simp only [List.getElem?_map, Option.map_eq_some_iff] at ht
    obtain ⟨j, hj, rfl⟩ := ht
    have hi : i < nW := by
      have := (List.getElem?_eq_some_iff.mp hj).1
      simpa using this
    rw [List.getElem?_range hi] at hj
    simp only [Option.some.injEq] at hj
    subst hj
    obtain ⟨_, b2, b3, b4, b5, b6, b7⟩ := hp i hi
    have hcs : 1 ≤ m.dim ^ k / nW := Nat.div_pos hlt.le (by omega)
    have hgt : ∀ pre, SWork m.dim k (sLo (m.dim ^ k) nW i) (sHi (m.dim ^ k) nW i) pre →
        ¬ digitsVal m.dim pre ≤ digitsVal m.dim (p i).1 := by
      intro pre h1 h2
      have := h1.gt
      rw [b6] at h2
      unfold sLo at this
      omega
    refine ⟨b3, b5, b7, b2, b4, .work _ rfl rfl rfl, ?_, Or.inl rfl, ⟨proper_inf, by simp⟩, ?_, ?_, ?_,
      fun _ => by simp, ?_⟩
    · intro _
      simp only [b6, sLo, sHi]
      omega
    · intro _; exact ⟨rfl, by simp⟩
    · intro pre h1 h2
      simp only [reduceCtorEq, false_or] at h2
      exact absurd h2 (hgt pre h1)
    · intro h; exact absurd h (not_isTour_nil hdim)
    · intro pre q T h1 h2
      simp only [reduceCtorEq, false_or] at h2
      exact absurd h2 (hgt pre h1)
  · simp only
    symm
    rw [List.countP_eq_zero]
    intro w hw
    simp only [List.mem_map] at hw
    obtain ⟨i, _, rfl⟩ := hw
    simp [SWorker.counted]

theorem ssteps_inv (hS : MSearch N S V A) (hdim : 0 < N)
    {k nW : Nat} {lo hi : Nat → Nat} {s0 s : SSys (XNum K)} {n : Nat} (h : SInv N V A k lo hi nW s0)
    (hs : Steps (SStepG N S) n s0 s) :
    SInv N V A k lo hi nW s ∧ n + s.measure N (N ^ k) ≤ s0.measure N (N ^ k) := by
  induction hs with
  | refl s => exact ⟨h, by omega⟩
  | tail h1 h2 ih =>
    obtain ⟨b1, b2⟩ := ih h
    obtain ⟨c1, c2⟩ := sstep_inv hS hdim b1 h2
    exact ⟨c1, by omega⟩

theorem sexists_final (hS : MSearch N S V A) (hdim : 0 < N)
    {k nW : Nat} {lo hi : Nat → Nat} (hnn : ∀ q w, IsTour N q → V q w → 0 ≤ w) :
    ∀ (L : Nat) (s0 s : SSys (XNum K)) (n : Nat), s.measure N (N ^ k) ≤ L →
      SInv N V A k lo hi nW s → Steps (SStepG N S) n s0 s →
      ∃ n' s', Steps (SStepG N S) n' s0 s' ∧ s'.final := by
  intro L
  induction L with
  | zero =>
    intro s0 s n hN h hs
    by_cases hf : s.final
    · exact ⟨n, s, hs, hf⟩
    · obtain ⟨s', hs'⟩ := sstep_progress hS hdim h hnn hf
      have := (sstep_inv hS hdim h hs').2
      omega
  | succ L ih =>
    intro s0 s n hN h hs
    by_cases hf : s.final
    · exact ⟨n, s, hs, hf⟩
    · obtain ⟨s', hs'⟩ := sstep_progress hS hdim h hnn hf
      obtain ⟨a, b⟩ := sstep_inv hS hdim h hs'
      exact ih s0 s' (n + 1) (by omega) a (.tail hs hs')

end

end Walky
