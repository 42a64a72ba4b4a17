import Verif.Lemmas.StaticMpi

/-! # Helper lemmas: the dynamic MPI solver -/

set_option linter.unusedSectionVars false
set_option linter.unusedSimpArgs false

namespace Walky

open FloatOps XNum Spec

/-- a prefix of three different cities -/
structure Triple (n : Nat) (p : List Nat) : Prop where
  len : p.length = 3
  valid : ValidDigits n p
  nodup : p.Nodup

theorem Triple.validPre {n : Nat} {p : List Nat} (h : Triple n p) : ValidPre n p := ⟨h.nodup, h.valid⟩

theorem Triple.ne {n : Nat} {p : List Nat} (h : Triple n p) : p ≠ [0, 0, 0] := by
  rintro rfl
  have := h.nodup
  simp at this

theorem Triple.not_all {n : Nat} {p : List Nat} (h : Triple n p) : p.all (· == 0) = false := by
  rw [Bool.eq_false_iff]
  intro h'
  rw [List.all_eq_true] at h'
  apply h.ne
  have hl := h.len
  rcases p with _ | ⟨a, _ | ⟨b, _ | ⟨c, _ | ⟨d, t⟩⟩⟩⟩
  · simp at hl
  · simp at hl
  · simp at hl
  · simp at h'
    simp [h']
  · simp at hl

theorem Triple.lt {n : Nat} {p : List Nat} (h : Triple n p) : digitsVal n p < n ^ 3 := by
  have := digitsVal_lt h.valid
  rwa [h.len] at this

/-- the next duplicate-free prefix -/
theorem nextPrefix_ok {n : Nat} : ∀ (fuel : Nat) (p : List Nat), p.length = 3 → ValidDigits n p →
    n ^ 3 - digitsVal n p ≤ fuel →
    (nextPrefix n fuel p = .ok none ∧ ∀ l, Triple n l → digitsVal n l ≤ digitsVal n p) ∨
    (∃ v, nextPrefix n fuel p = .ok (some v) ∧ Triple n v ∧ digitsVal n p < digitsVal n v ∧
      ∀ l, Triple n l → digitsVal n p < digitsVal n l → digitsVal n v ≤ digitsVal n l) := by
  intro fuel
  induction fuel with
  | zero =>
    intro p hl hv hf
    have := digitsVal_lt hv
    rw [hl] at this
    omega
  | succ fuel ih =>
    intro p hl hv hf
    have hlt := digitsVal_lt hv
    rw [hl] at hlt
    obtain ⟨l, e1, e2, e3 | e3⟩ := getNextValue_ok hv
    · obtain ⟨_, e4, e5⟩ := e3
      unfold nextPrefix
      simp only [e4, rm_bind_ok]
      have hl3 : l.length = 3 := by rw [e1, hl]
      by_cases hu : isUnique l = true
      · right
        rw [if_pos hu]
        exact ⟨l, rfl, ⟨hl3, e2, isUnique_iff.mp hu⟩, by omega, fun x _ hx => by omega⟩
      · rw [if_neg hu]
        have hskip : ∀ x, Triple n x → digitsVal n x ≠ digitsVal n l := by
          intro x hx he
          have : x = l := digitsVal_inj (by rw [hx.len, hl3]) hx.valid e2 he
          subst this
          exact hu (isUnique_iff.mpr hx.nodup)
        rcases ih l hl3 e2 (by omega) with ⟨a, b⟩ | ⟨v, a, b, d, e⟩
        · left
          refine ⟨a, fun x hx => ?_⟩
          have h1 := b x hx
          have h2 := hskip x hx
          omega
        · right
          refine ⟨v, a, b, by omega, fun x hx hlt => e x hx ?_⟩
          have := hskip x hx
          omega
    · obtain ⟨e4, e5⟩ := e3
      left
      unfold nextPrefix
      simp only [e5, rm_bind_ok]
      refine ⟨rfl, fun x hx => ?_⟩
      have := hx.lt
      rw [hl] at e4
      omega

section
variable {K : Type} [Field K] [LinearOrder K] [IsStrictOrderedRing K]

/-- `dynWorker` for any search -/
def dynWorkerG (S : XNum K → List Nat → RM (Solution (XNum K))) (rank : Nat) (w : DWorker (XNum K))
    (msg : XNum K × List Nat) : RM (DWorker (XNum K)) :=
  if msg.2.all (· == 0) then .ok { w with done := true }
  else do
    let r ← S msg.1 msg.2
    let sol := if r.1 <ᶠ w.sol.1 then r else w.sol
    return { w with sol := sol, up := w.up ++ [(sol.1, rank)] }

/-- `DStep` for any search -/
inductive DStepG (N : Nat) (S : XNum K → List Nat → RM (Solution (XNum K))) :
    DSys (XNum K) → DSys (XNum K) → Prop
  | recv (s : DSys (XNum K)) (i : Nat) (w w' : DWorker (XNum K)) (msg : XNum K × List Nat)
      (rest : List (XNum K × List Nat)) :
      s.workers[i]? = some w → w.done = false → w.down = msg :: rest →
      dynWorkerG S (i + 1) { w with down := rest } msg = .ok w' →
      DStepG N S s { s with workers := s.workers.set i w' }
  | root (s s' : DSys (XNum K)) (i : Nat) (w : DWorker (XNum K)) (msg : XNum K × Nat)
      (rest : List (XNum K × Nat)) :
      s.waiting < s.workers.length → s.workers[i]? = some w → w.up = msg :: rest →
      DSys.handle { s with workers := s.workers.set i { w with up := rest } } N msg = .ok s' →
      DStepG N S s s'

/-- the workers only compare -/
theorem dynWorker_eq {F : FloatOps (XNum K)} (hF : SameCmp F) (m : Mat (XNum K)) :
    @dynWorker _ F m = dynWorkerG (@searchMpi _ F m) := by
  funext rank w msg
  unfold dynWorker dynWorkerG
  simp only [hF.lt]

theorem dhandle_eq {F : FloatOps (XNum K)} (hF : SameCmp F) (s : DSys (XNum K)) (n : Nat)
    (msg : XNum K × Nat) : @DSys.handle _ F s n msg = @DSys.handle _ (exactOps K) s n msg := by
  unfold DSys.handle
  simp only [hF.lt, hF.le, hF.zero]
  rfl

theorem DStep_eq {F : FloatOps (XNum K)} (hF : SameCmp F) (m : Mat (XNum K)) :
    @DStep _ F m = DStepG m.dim (@searchMpi _ F m) := by
  funext s s'
  refine propext ⟨fun h => ?_, fun h => ?_⟩
  · cases h with
    | recv i w w' msg rest h1 h2 h3 h4 =>
      exact .recv s i w w' msg rest h1 h2 h3 (by rw [← dynWorker_eq hF]; exact h4)
    | root _ i w msg rest h1 h2 h3 h4 =>
      exact .root s s' i w msg rest h1 h2 h3 (by rw [dhandle_eq hF] at h4; exact h4)
  · cases h with
    | recv i w w' msg rest h1 h2 h3 h4 =>
      exact .recv s i w w' msg rest h1 h2 h3 (by rw [dynWorker_eq hF]; exact h4)
    | root _ i w msg rest h1 h2 h3 h4 =>
      exact .root s s' i w msg rest h1 h2 h3 (by rw [dhandle_eq hF]; exact h4)

theorem initDynamic_eq {F : FloatOps (XNum K)} (hF : SameCmp F) (nW : Nat) :
    @initDynamic _ F nW = @initDynamic _ (exactOps K) nW := by
  unfold initDynamic
  simp only [hF.inf]
  rfl

variable {N : Nat} {S : XNum K → List Nat → RM (Solution (XNum K))} {V : List Nat → K → Prop}
  {A : K → List Nat → List Nat → Prop}

/-- the possible combinations of position and messages in transit -/
inductive DShape (n rank : Nat) (win : XNum K) : DWorker (XNum K) → Prop
  | asked (w : DWorker (XNum K)) : w.done = false → w.up = [(w.sol.1, rank)] → w.down = [] →
      DShape n rank win w
  | task (w : DWorker (XNum K)) (g : XNum K) (p : List Nat) : w.done = false → w.up = [] →
      w.down = [(g, p)] → Triple n p → Proper g → FloatOps.le win g = true → DShape n rank win w
  | released (w : DWorker (XNum K)) (g : XNum K) : w.done = false → w.up = [] →
      w.down = [(g, [0, 0, 0])] → DShape n rank win w
  | left (w : DWorker (XNum K)) : w.done = true → w.up = [] → w.down = [] → DShape n rank win w

/-- the worker has been sent the zero prefix -/
def DWorker.free {α : Type} (w : DWorker α) : Bool := w.done || w.down.any (fun x => x.2 == [0, 0, 0])

/-- invariant of a worker -/
structure DWInv (N : Nat) (V : List Nat → K → Prop) (A : K → List Nat → List Nat → Prop) (rank : Nat) (win : XNum K)
    (log : List (Nat × List Nat)) (w : DWorker (XNum K)) : Prop where
  shape : DShape N rank win w
  sol : SolOk N V w.sol
  rep : w.up = [] → FloatOps.le (zero : XNum K) w.sol.1 = true → FloatOps.le win w.sol.1 = true
  conv : IsTour N w.sol.2 → ∃ p, (rank, p) ∈ log ∧ p ≠ [0, 0, 0]
  rel : log.count (rank, [0, 0, 0]) = if w.free then 1 else 0
  tlog : ∀ x ∈ w.down, (rank, x.2) ∈ log
  bound : ∀ p, (rank, p) ∈ log → p ≠ [0, 0, 0] → (∃ g, w.down = [(g, p)]) ∨
    ∀ q T, IsTour N q → p <+: q → A T p q →
      FloatOps.le win (fin T) = true ∨ FloatOps.le w.sol.1 (fin T) = true

theorem DWInv.mono {rank : Nat} {win win' : XNum K}
    {log : List (Nat × List Nat)} {w : DWorker (XNum K)} (h : DWInv N V A rank win log w)
    (hle : FloatOps.le win' win = true) : DWInv N V A rank win' log w where
  shape := by
    cases h.shape with
    | asked h1 h2 h3 => exact .asked _ h1 h2 h3
    | task g p h1 h2 h3 h4 h5 h6 => exact .task _ g p h1 h2 h3 h4 h5 (le_trans' hle h6)
    | released g h1 h2 h3 => exact .released _ g h1 h2 h3
    | left h1 h2 h3 => exact .left _ h1 h2 h3
  sol := h.sol
  rep := fun a b => le_trans' hle (h.rep a b)
  conv := h.conv
  rel := h.rel
  tlog := h.tlog
  bound := fun p a b => (h.bound p a b).imp id (fun f q T d e g => (f q T d e g).imp (le_trans' hle) id)

/-- another rank is sent something -/
theorem DWInv.log_ne {rank : Nat} {win : XNum K}
    {log : List (Nat × List Nat)} {w : DWorker (XNum K)} (h : DWInv N V A rank win log w) {r : Nat}
    {p : List Nat} (hr : r ≠ rank) : DWInv N V A rank win (log ++ [(r, p)]) w where
  shape := h.shape
  sol := h.sol
  rep := h.rep
  conv := fun ht => by
    obtain ⟨p', h1, h2⟩ := h.conv ht
    exact ⟨p', by simp [h1], h2⟩
  rel := by
    rw [List.count_append, h.rel, List.count_eq_zero.mpr]
    · rfl
    · simp
      intro h'
      exact absurd h'.symm hr
  tlog := fun x hx => List.mem_append_left _ (h.tlog x hx)
  bound := fun p' a b => by
    simp only [List.mem_append, List.mem_singleton, Prod.mk.injEq] at a
    rcases a with a | ⟨a, _⟩
    · exact h.bound p' a b
    · exact absurd a.symm hr

/-- the prefixes handed out so far -/
def handed (log : List (Nat × List Nat)) : List (List Nat) :=
  (log.map Prod.snd).filter (fun p => p != [0, 0, 0])

/-- value of the first prefix -/
def dynStart (n : Nat) : Nat := digitsVal n [1, 2, 3]

/-- state of the hand-out -/
structure CurOk (n : Nat) (current : Option (List Nat)) (log : List (Nat × List Nat)) : Prop where
  sorted : (handed log).Pairwise (fun a b => digitsVal n a < digitsVal n b)
  valid : ∀ p ∈ handed log, Triple n p ∧ dynStart n ≤ digitsVal n p
  next : ∀ p, current = some p → Triple n p ∧ dynStart n ≤ digitsVal n p ∧
    (∀ l ∈ handed log, digitsVal n l < digitsVal n p) ∧ (∀ x ∈ log, x.2 ≠ [0, 0, 0])
  complete : ∀ l, Triple n l → dynStart n ≤ digitsVal n l →
    (∀ p, current = some p → digitsVal n l < digitsVal n p) → l ∈ handed log

/-- invariant of the system -/
structure DInv (N : Nat) (V : List Nat → K → Prop) (A : K → List Nat → List Nat → Prop) (nW : Nat) (s : DSys (XNum K)) : Prop where
  len : s.workers.length = nW
  wk : ∀ i w, s.workers[i]? = some w → DWInv N V A (i + 1) s.winner.1 s.log w
  proper : Proper s.winner.1
  win : s.winner = (XNum.inf, 0) ∨ ∃ i w, s.workers[i]? = some w ∧ s.winner.2 = i + 1 ∧
    IsTour N w.sol.2 ∧ FloatOps.le w.sol.1 s.winner.1 = true
  wait : s.waiting = s.workers.countP DWorker.free
  cur : CurOk N s.current s.log

/-- replacing one worker -/
theorem DInv.set {nW : Nat} {s : DSys (XNum K)}
    (h : DInv N V A nW s) {i : Nat} {w w' : DWorker (XNum K)} (hw : s.workers[i]? = some w)
    {win : XNum K × Nat} {cur : Option (List Nat)} {f : Nat} {log : List (Nat × List Nat)}
    (hw' : DWInv N V A (i + 1) win.1 log w')
    (hlog : log = s.log ∨ ∃ p, log = s.log ++ [(i + 1, p)])
    (hle : FloatOps.le win.1 s.winner.1 = true) (hpr : Proper win.1)
    (hsol : FloatOps.le w'.sol.1 w.sol.1 = true) (ht : IsTour N w.sol.2 → IsTour N w'.sol.2)
    (hwin : win = s.winner ∨ (win.2 = i + 1 ∧ IsTour N w'.sol.2 ∧ FloatOps.le w'.sol.1 win.1 = true))
    (hf : f + (if w.free then 1 else 0) = s.waiting + (if w'.free then 1 else 0))
    (hcur : CurOk N cur log) :
    DInv N V A nW ⟨s.workers.set i w', win, cur, f, log⟩ := by
  have hil := (List.getElem?_eq_some_iff.mp hw).1
  refine ⟨by simp [h.len], ?_, hpr, ?_, ?_, hcur⟩
  · intro j u hu
    simp only at hu ⊢
    by_cases hij : i = j
    · subst hij
      rw [List.getElem?_set_self hil] at hu
      injection hu with e
      subst e
      exact hw'
    · rw [List.getElem?_set_ne hij] at hu
      have hj := (h.wk j u hu).mono hle
      rcases hlog with e | ⟨p, e⟩
      · rw [e]; exact hj
      · rw [e]; exact hj.log_ne (by omega)
  · simp only
    rcases hwin with e | ⟨e1, e2, e3⟩
    · rw [e]
      rcases h.win with h' | ⟨j, u, a1, a2, a3, a4⟩
      · exact Or.inl h'
      · right
        by_cases hij : i = j
        · subst hij
          rw [hw] at a1
          injection a1 with e'
          subst e'
          exact ⟨i, w', List.getElem?_set_self hil, a2, ht a3, le_trans' hsol a4⟩
        · exact ⟨j, u, by rw [List.getElem?_set_ne hij]; exact a1, a2, a3, a4⟩
    · exact Or.inr ⟨i, w', List.getElem?_set_self hil, e1, e2, e3⟩
  · have := countP_set' DWorker.free s.workers i w w' hw
    rw [← h.wait] at this
    simp only
    omega

/-- remaining steps of a worker, roughly -/
def DWorker.measure {α : Type} (w : DWorker α) : Nat :=
  if w.done then 0 else if !w.up.isEmpty then 2
  else if w.down.any (fun x => x.2 == [0, 0, 0]) then 1 else 3

/-- remaining prefixes -/
def curMeasure (n : Nat) : Option (List Nat) → Nat
  | none => 0
  | some p => n ^ 3 - digitsVal n p

/-- remaining steps, roughly -/
def DSys.measure (n : Nat) {α : Type} (s : DSys α) : Nat :=
  2 * curMeasure n s.current + (s.workers.mapIdx fun _ w => w.measure).sum

theorem sum_mapIdx_set {α : Type} (f : Nat → α → Nat) : ∀ (l : List α) (i : Nat) (a b : α),
    l[i]? = some a → ((l.set i b).mapIdx f).sum + f i a = (l.mapIdx f).sum + f i b := by
  intro l
  induction l generalizing f with
  | nil => intro i a b h; simp at h
  | cons x l ih =>
    intro i a b h
    cases i with
    | zero =>
      simp at h
      subst h
      simp [List.mapIdx_cons]
      omega
    | succ i =>
      simp at h
      have := ih (fun j => f (j + 1)) i a b h
      simp only [List.set_cons_succ, List.mapIdx_cons, List.sum_cons]
      omega

theorem DSys.measure_set {n : Nat} {s : DSys (XNum K)} {i : Nat} {w w' : DWorker (XNum K)}
    (hw : s.workers[i]? = some w) {win : XNum K × Nat} {cur : Option (List Nat)} {f : Nat}
    {log : List (Nat × List Nat)}
    (h : 2 * curMeasure n cur + w'.measure < 2 * curMeasure n s.current + w.measure) :
    DSys.measure n ⟨s.workers.set i w', win, cur, f, log⟩ < s.measure n := by
  have := sum_mapIdx_set (fun _ w => DWorker.measure w) s.workers i w w' hw
  unfold DSys.measure
  simp only
  omega

/-- a worker handles an answer -/
theorem dynWorker_inv (hS : MSearch N S V A) (hdim : 0 < N)
    {rank : Nat} {win : XNum K} {log : List (Nat × List Nat)} {w : DWorker (XNum K)}
    (h : DWInv N V A rank win log w) (hd : w.done = false) {msg : XNum K × List Nat}
    {rest : List (XNum K × List Nat)} (hdown : w.down = msg :: rest) :
    ∃ w', dynWorkerG S rank { w with down := rest } msg = .ok w' ∧ DWInv N V A rank win log w' ∧
      w'.measure < w.measure ∧ FloatOps.le w'.sol.1 w.sol.1 = true ∧
      (IsTour N w.sol.2 → IsTour N w'.sol.2) ∧ w'.free = w.free := by
  cases h.shape with
  | asked _ _ h3 => rw [hdown] at h3; cases h3
  | left h1 _ _ => rw [hd] at h1; cases h1
  | released g h1 h2 h3 =>
    rw [hdown] at h3
    injection h3 with e1 e2
    subst e1 e2
    have hrel := h.rel
    have hfree : w.free = true := by simp [DWorker.free, hdown]
    rw [hfree] at hrel
    refine ⟨{ w with down := [], done := true }, rfl, ?_, ?_, h.sol.proper.le_refl, id, ?_⟩
    · refine ⟨.left _ rfl h2 rfl, h.sol, h.rep, h.conv, by rw [hrel]; rfl, by simp, ?_⟩
      intro p hp hne
      rcases h.bound p hp hne with ⟨g', hg⟩ | hb
      · rw [hdown] at hg
        injection hg with e1 e2
        injection e1 with _ e3
        exact absurd e3.symm hne
      · exact Or.inr hb
    · simp [DWorker.measure, hd, h2, hdown]
    · rw [hfree]; rfl
  | task g p h1 h2 h3 h4 h5 h6 =>
    rw [hdown] at h3
    injection h3 with e1 e2
    subst e1 e2
    have hne := h4.ne
    have hfree : w.free = false := by simp [DWorker.free, hdown, hd, hne]
    obtain ⟨r, hr, hr1, hr2, _⟩ := hS _ _ h5 h4.validPre
    unfold dynWorkerG
    simp only [h4.not_all, Bool.false_eq_true, if_false, hr, rm_bind_ok, rm_pure]
    set sol := if FloatOps.lt r.1 w.sol.1 = true then r else w.sol with hsol
    have hsolok : SolOk N V sol := by rw [hsol]; split; exacts [hr1, h.sol]
    have hsle : FloatOps.le sol.1 w.sol.1 = true ∧ FloatOps.le sol.1 r.1 = true := by
      rw [hsol]
      by_cases hlt : FloatOps.lt r.1 w.sol.1 = true
      · rw [if_pos hlt]; exact ⟨le_of_lt' hlt, hr1.proper.le_refl⟩
      · rw [if_neg hlt]
        exact ⟨h.sol.proper.le_refl, Proper.not_lt hr1.proper h.sol.proper (by simpa using hlt)⟩
    have ht : IsTour N w.sol.2 → IsTour N sol.2 := by
      intro ht
      rcases hsolok with e | e
      · exfalso
        rcases h.sol with e' | e'
        · rw [e'] at ht; exact not_isTour_nil hdim ht
        · have := hsle.1
          obtain ⟨-, x, e', -⟩ := e'
          rw [e, e'] at this
          simp at this
      · exact e.1
    refine ⟨_, rfl, ?_, ?_, hsle.1, ht, ?_⟩
    · refine ⟨.asked _ hd (by simp [h2]) rfl, hsolok, by simp, ?_, ?_, by simp, ?_⟩
      · intro _
        exact ⟨p, h.tlog (g, p) (by rw [hdown]; simp), hne⟩
      · have := h.rel
        rw [hfree] at this
        rw [this]
        simp [DWorker.free, hd]
      · intro p' hp' hne'
        right
        intro q T hq hpq hA
        rcases h.bound p' hp' hne' with ⟨g', hg⟩ | hb
        · rw [hdown] at hg
          injection hg with e1 _
          injection e1 with e2 e3
          subst e2 e3
          rcases hr2 q T hq hpq hA with h' | h'
          · exact Or.inl (le_trans' h6 h')
          · exact Or.inr (le_trans' hsle.2 h')
        · rcases hb q T hq hpq hA with h' | h'
          · exact Or.inl h'
          · exact Or.inr (le_trans' hsle.1 h')
    · simp [DWorker.measure, hd, h2, hdown, hne]
    · rw [hfree]
      simp [DWorker.free, hd]

theorem handed_append_zero (log : List (Nat × List Nat)) (r : Nat) :
    handed (log ++ [(r, [0, 0, 0])]) = handed log := by
  simp [handed]

theorem handed_append {log : List (Nat × List Nat)} {r : Nat} {p : List Nat} (hp : p ≠ [0, 0, 0]) :
    handed (log ++ [(r, p)]) = handed log ++ [p] := by
  simp [handed, hp]

/-- handing out the current prefix -/
theorem CurOk.advance {n : Nat} {log : List (Nat × List Nat)} {p : List Nat} {r : Nat}
    (h : CurOk n (some p) log) :
    ∃ next, nextPrefix n (n ^ 3 + 1) p = .ok next ∧ CurOk n next (log ++ [(r, p)]) ∧
      curMeasure n next < curMeasure n (some p) := by
  obtain ⟨h1, h2, h3, h4⟩ := h.next p rfl
  have hlt := h1.lt
  have hh := handed_append (log := log) (r := r) h1.ne
  have hsorted : (handed (log ++ [(r, p)])).Pairwise (fun a b => digitsVal n a < digitsVal n b) := by
    rw [hh, List.pairwise_append]
    refine ⟨h.sorted, by simp, ?_⟩
    intro a ha b hb
    simp at hb
    subst hb
    exact h3 a ha
  have hvalid : ∀ l ∈ handed (log ++ [(r, p)]), Triple n l ∧ dynStart n ≤ digitsVal n l := by
    intro l hl
    rw [hh, List.mem_append, List.mem_singleton] at hl
    rcases hl with hl | rfl
    · exact h.valid l hl
    · exact ⟨h1, h2⟩
  have hup : ∀ l, Triple n l → dynStart n ≤ digitsVal n l → digitsVal n l ≤ digitsVal n p →
      l ∈ handed (log ++ [(r, p)]) := by
    intro l hl hs hle
    rw [hh, List.mem_append, List.mem_singleton]
    by_cases he : digitsVal n l = digitsVal n p
    · right
      exact digitsVal_inj (by rw [hl.len, h1.len]) hl.valid h1.valid he
    · left
      refine h.complete l hl hs ?_
      intro p' e
      injection e with e
      subst e
      omega
  rcases nextPrefix_ok (n ^ 3 + 1) p h1.len h1.valid (by omega) with ⟨a, b⟩ | ⟨v, a, b, d, e⟩
  · refine ⟨none, a, ⟨hsorted, hvalid, by simp, ?_⟩, by simp [curMeasure]; omega⟩
    intro l hl hs _
    exact hup l hl hs (b l hl)
  · refine ⟨some v, a, ⟨hsorted, hvalid, ?_, ?_⟩, ?_⟩
    · intro p' e'
      injection e' with e'
      subst e'
      refine ⟨b, by omega, ?_, ?_⟩
      · intro l hl
        rw [hh, List.mem_append, List.mem_singleton] at hl
        rcases hl with hl | rfl
        · have := h3 l hl; omega
        · exact d
      · intro x hx
        rw [List.mem_append, List.mem_singleton] at hx
        rcases hx with hx | rfl
        · exact h4 x hx
        · exact h1.ne
    · intro l hl hs hlt'
      have h5 := hlt' v rfl
      refine hup l hl hs ?_
      by_contra hcon
      have := e l hl (by omega)
      omega
    · have := b.lt
      simp only [curMeasure]
      omega

/-- releasing a worker -/
theorem CurOk.release {n : Nat} {log : List (Nat × List Nat)} {r : Nat}
    (h : CurOk n none log) : CurOk n none (log ++ [(r, [0, 0, 0])]) := by
  refine ⟨?_, ?_, by simp, ?_⟩
  · rw [handed_append_zero]; exact h.sorted
  · rw [handed_append_zero]; exact h.valid
  · rw [handed_append_zero]; exact h.complete

/-- the coordinator handles a message -/
theorem handle_inv {nW : Nat} {s : DSys (XNum K)}
    (h : DInv N V A nW s) {i : Nat} {w : DWorker (XNum K)} (hw : s.workers[i]? = some w)
    {msg : XNum K × Nat} {rest : List (XNum K × Nat)} (hup : w.up = msg :: rest) :
    ∃ s', DSys.handle { s with workers := s.workers.set i { w with up := rest } } N msg = .ok s' ∧
      DInv N V A nW s' ∧ s'.measure N < s.measure N ∧
      (∃ p, s'.log = s.log ++ [(i + 1, p)] ∧ (s.current = none → p = [0, 0, 0])) ∧
      (s.current = none → s'.current = none) := by
  have hW := h.wk i w hw
  cases hW.shape with
  | task _ _ _ h2 _ _ _ _ => rw [hup] at h2; cases h2
  | released _ _ h2 _ => rw [hup] at h2; cases h2
  | left _ h2 _ => rw [hup] at h2; cases h2
  | asked h1 h2 h3 =>
    rw [hup] at h2
    injection h2 with e1 e2
    subst e1 e2
    have hi' : i + 1 - 1 = i := by omega
    set win : XNum K × Nat :=
      if ((FloatOps.le (zero : XNum K) w.sol.1) && FloatOps.lt w.sol.1 s.winner.1) = true
      then (w.sol.1, i + 1) else s.winner with hwin
    have hwle : FloatOps.le win.1 s.winner.1 = true ∧ Proper win.1 ∧
        (FloatOps.le (zero : XNum K) w.sol.1 = true → FloatOps.le win.1 w.sol.1 = true) := by
      rw [hwin]
      by_cases hc : ((FloatOps.le (zero : XNum K) w.sol.1) && FloatOps.lt w.sol.1 s.winner.1) = true
      · rw [if_pos hc]
        rw [Bool.and_eq_true] at hc
        exact ⟨le_of_lt' hc.2, hW.sol.proper, fun _ => hW.sol.proper.le_refl⟩
      · rw [if_neg hc]
        refine ⟨h.proper.le_refl, h.proper, fun h0 => ?_⟩
        rw [h0, Bool.true_and] at hc
        exact Proper.not_lt hW.sol.proper h.proper (by simpa using hc)
    have hwin' : win = s.winner ∨ (win.2 = i + 1 ∧ IsTour N w.sol.2 ∧
        FloatOps.le w.sol.1 win.1 = true) := by
      rw [hwin]
      by_cases hc : ((FloatOps.le (zero : XNum K) w.sol.1) && FloatOps.lt w.sol.1 s.winner.1) = true
      · right
        rw [if_pos hc]
        rw [Bool.and_eq_true] at hc
        refine ⟨rfl, ?_, hW.sol.proper.le_refl⟩
        rcases hW.sol with e | e
        · rw [e] at hc; simp at hc
        · exact e.1
      · left; rw [if_neg hc]
    have hfree : w.free = false := by simp [DWorker.free, h1, h3]
    have hW' := hW.mono hwle.1
    unfold DSys.handle
    simp only [hi', modify_set_self, ← hwin]
    cases hcur : s.current with
    | none =>
      refine ⟨_, rfl, ?_, ?_, ⟨[0, 0, 0], rfl, fun _ => rfl⟩, fun _ => rfl⟩
      · refine h.set hw ?_ (Or.inr ⟨_, rfl⟩) hwle.1 hwle.2.1 hW.sol.proper.le_refl id hwin' ?_
          (CurOk.release (hcur ▸ h.cur))
        · refine ⟨.released _ win.1 h1 rfl (by simp [h3]), hW.sol, fun _ => hwle.2.2, ?_, ?_, ?_, ?_⟩
          · intro ht
            obtain ⟨p, a, b⟩ := hW.conv ht
            exact ⟨p, by simp [a], b⟩
          · rw [List.count_append, hW.rel, hfree]
            simp [DWorker.free, h3]
          · simp [h3]
          · intro p hp hne
            simp only [List.mem_append, List.mem_singleton, Prod.mk.injEq] at hp
            rcases hp with hp | hp
            · rcases hW'.bound p hp hne with ⟨g, hg⟩ | hb
              · rw [h3] at hg; cases hg
              · exact Or.inr hb
            · exact absurd hp.2 hne
        · rw [hfree]
          simp [DWorker.free, h3]
      · refine DSys.measure_set hw ?_
        simp [DWorker.measure, h1, h3, hup, hcur]
    | some p =>
      have hco := h.cur
      rw [hcur] at hco
      obtain ⟨next, a1, a2, a3⟩ := hco.advance (r := i + 1)
      have hT := (hco.next p rfl).1
      simp only [a1, rm_bind_ok, rm_pure]
      refine ⟨_, rfl, ?_, ?_, ⟨p, rfl, by simp⟩, by simp⟩
      · refine h.set hw ?_ (Or.inr ⟨_, rfl⟩) hwle.1 hwle.2.1 hW.sol.proper.le_refl id hwin' ?_ a2
        · refine ⟨.task _ win.1 p h1 rfl (by simp [h3]) hT hwle.2.1 hwle.2.1.le_refl, hW.sol,
            fun _ => hwle.2.2, ?_, ?_, ?_, ?_⟩
          · intro ht
            obtain ⟨p, a, b⟩ := hW.conv ht
            exact ⟨p, by simp [a], b⟩
          · rw [List.count_append, hW.rel, hfree, List.count_eq_zero.mpr]
            · simp [DWorker.free, h3, h1, hT.ne]
            · simp
              exact fun e => hT.ne e.symm
          · simp [h3]
          · intro p' hp hne
            simp only [List.mem_append, List.mem_singleton, Prod.mk.injEq] at hp
            rcases hp with hp | hp
            · rcases hW'.bound p' hp hne with ⟨g, hg⟩ | hb
              · rw [h3] at hg; cases hg
              · exact Or.inr hb
            · left
              exact ⟨win.1, by simp [h3, hp.2]⟩
        · rw [hfree]
          simp [DWorker.free, h3, h1, hT.ne]
      · refine DSys.measure_set hw ?_
        rw [hcur]
        simp [DWorker.measure, h1, h3, hup, hT.ne]
        omega

theorem dstep_inv (hS : MSearch N S V A) (hdim : 0 < N)
    {nW : Nat} {s s' : DSys (XNum K)} (h : DInv N V A nW s) (hs : DStepG N S s s') :
    DInv N V A nW s' ∧ s'.measure N < s.measure N ∧
      (s.current = none → s'.current = none ∧
        ∀ x ∈ s'.log, x.2 ≠ [0, 0, 0] → x ∈ s.log) := by
  cases hs with
  | recv i w w' msg rest h1 h2 h3 h4 =>
    obtain ⟨w'', a1, a2, a3, a4, a5, a6⟩ := dynWorker_inv hS hdim (h.wk i w h1) h2 h3
    rw [h4] at a1
    injection a1 with e
    subst e
    refine ⟨h.set h1 a2 (Or.inl rfl) h.proper.le_refl h.proper a4 a5 (Or.inl rfl) (by rw [a6]) h.cur,
      DSys.measure_set h1 (by omega), fun hc => ⟨hc, fun x hx _ => hx⟩⟩
  | root _ i w msg rest h1 h2 h3 h4 =>
    obtain ⟨s'', a1, a2, a3, ⟨p, a4, a5⟩, a6⟩ := handle_inv h h2 h3
    rw [h4] at a1
    injection a1 with e
    subst e
    refine ⟨a2, a3, fun hc => ⟨a6 hc, ?_⟩⟩
    intro x hx hne
    rw [a4, List.mem_append, List.mem_singleton] at hx
    rcases hx with hx | rfl
    · exact hx
    · exact absurd (a5 hc) hne

/-- a state that is not final has a next step -/
theorem dstep_progress (hS : MSearch N S V A) (hdim : 0 < N)
    {nW : Nat} {s : DSys (XNum K)} (h : DInv N V A nW s) (hf : ¬ s.final) : ∃ s', DStepG N S s s' := by
  by_contra hcon
  have hall : ∀ (i : Nat) (w : DWorker (XNum K)), s.workers[i]? = some w → w.done = true := by
    intro i w hw
    have hW := h.wk i w hw
    by_contra hd
    have hd : w.done = false := by simpa using hd
    cases hdn : w.down with
    | cons msg rest =>
      obtain ⟨w', a, _⟩ := dynWorker_inv hS hdim hW hd hdn
      exact hcon ⟨_, .recv s i w w' msg rest hw hd hdn a⟩
    | nil =>
      cases hW.shape with
      | task g p h1 h2 h3 _ _ _ => rw [hdn] at h3; cases h3
      | released g _ _ h3 => rw [hdn] at h3; cases h3
      | left h1 _ _ => rw [hd] at h1; cases h1
      | asked h1 h2 h3 =>
        have hwt : s.waiting < s.workers.length := by
          have hle : s.workers.countP DWorker.free ≤ s.workers.length := List.countP_le_length
          have hne : s.workers.countP DWorker.free ≠ s.workers.length := by
            intro e
            rw [List.countP_eq_length] at e
            have := e w (List.mem_iff_getElem?.mpr ⟨i, hw⟩)
            simp [DWorker.free, h1, h3] at this
          rw [h.wait]
          omega
        obtain ⟨s', a, _⟩ := handle_inv h hw h2
        exact hcon ⟨s', .root s s' i w _ _ hwt hw h2 a⟩
  refine hf ⟨?_, ?_⟩
  · have : s.workers.countP DWorker.free = s.workers.length := by
      rw [List.countP_eq_length]
      intro w hw
      obtain ⟨i, hi'⟩ := List.mem_iff_getElem?.mp hw
      simp [DWorker.free, hall i w hi']
    rw [h.wait]
    omega
  · intro w hw
    obtain ⟨i, hi'⟩ := List.mem_iff_getElem?.mp hw
    exact hall i w hi'

theorem dinit_inv (hn : 4 ≤ N) (nW : Nat) :
    DInv N V A nW (initDynamic nW) := by
  have hT : Triple N [1, 2, 3] := ⟨rfl, by intro d hd; simp at hd; omega, by simp⟩
  refine ⟨by simp [initDynamic], ?_, proper_inf, Or.inl rfl, ?_, ?_⟩
  · intro i w hw
    simp only [initDynamic, List.getElem?_map, Option.map_eq_some_iff] at hw
    obtain ⟨j, hj, rfl⟩ := hw
    have hi : i < nW := by
      have := (List.getElem?_eq_some_iff.mp hj).1
      simpa using this
    rw [List.getElem?_range hi] at hj
    simp only [Option.some.injEq] at hj
    subst hj
    exact ⟨.asked _ rfl rfl rfl, Or.inl rfl, by simp, fun h => absurd h (not_isTour_nil (by omega)),
      by simp [initDynamic, DWorker.free], by simp, by simp [initDynamic]⟩
  · simp only [initDynamic]
    symm
    rw [List.countP_eq_zero]
    intro w hw
    simp only [List.mem_map] at hw
    obtain ⟨i, _, rfl⟩ := hw
    simp [DWorker.free]
  · refine ⟨by simp [initDynamic, handed], by simp [initDynamic, handed], ?_, ?_⟩
    · intro p e
      simp only [initDynamic, Option.some.injEq] at e
      subst e
      exact ⟨hT, le_rfl, by simp [initDynamic, handed], by simp [initDynamic]⟩
    · intro l _ h1 h2
      have := h2 [1, 2, 3] rfl
      unfold dynStart at h1
      omega

theorem dsteps_inv (hS : MSearch N S V A) (hdim : 0 < N)
    {nW : Nat} {s0 s : DSys (XNum K)} {n : Nat} (h : DInv N V A nW s0) (hs : Steps (DStepG N S) n s0 s) :
    DInv N V A nW s ∧ n + s.measure N ≤ s0.measure N ∧
      (s0.current = none → s.current = none ∧ ∀ x ∈ s.log, x.2 ≠ [0, 0, 0] → x ∈ s0.log) := by
  induction hs with
  | refl s => exact ⟨h, by omega, fun hc => ⟨hc, fun x hx _ => hx⟩⟩
  | tail h1 h2 ih =>
    obtain ⟨b1, b2, b3⟩ := ih h
    obtain ⟨c1, c2, c3⟩ := dstep_inv hS hdim b1 h2
    refine ⟨c1, by omega, fun hc => ?_⟩
    obtain ⟨d1, d2⟩ := b3 hc
    obtain ⟨e1, e2⟩ := c3 d1
    exact ⟨e1, fun x hx hne => d2 x (e2 x hx hne) hne⟩

theorem dexists_final (hS : MSearch N S V A) (hdim : 0 < N)
    {nW : Nat} : ∀ (L : Nat) (s0 s : DSys (XNum K)) (n : Nat), s.measure N ≤ L →
      DInv N V A nW s → Steps (DStepG N S) n s0 s → ∃ n' s', Steps (DStepG N S) n' s0 s' ∧ s'.final := by
  intro L
  induction L with
  | zero =>
    intro s0 s n hN h hs
    by_cases hf : s.final
    · exact ⟨n, s, hs, hf⟩
    · obtain ⟨s', hs'⟩ := dstep_progress hS hdim h hf
      have := (dstep_inv hS hdim h hs').2.1
      omega
  | succ L ih =>
    intro s0 s n hN h hs
    by_cases hf : s.final
    · exact ⟨n, s, hs, hf⟩
    · obtain ⟨s', hs'⟩ := dstep_progress hS hdim h hf
      obtain ⟨a, b, _⟩ := dstep_inv hS hdim h hs'
      exact ih s0 s' (n + 1) (by omega) a (.tail hs hs')

end

end Walky
