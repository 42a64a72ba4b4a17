import Verif.Props.RepeatMpi
import Verif.Props.RobustCli
import Verif.Props.Traffic

/-!
# C127: unusual numbers in MPI jobs

The arithmetic rounds in an arbitrary way; costs may be negative, infinite or so large that sums overflow.
-/

namespace Walky.Props

open FloatOps Spec

/-! ## The dynamic solver -/

section lawfree
variable {α : Type} [FloatOps α]

/-- what a search below a prefix returns: nothing, or a tour whose cost is smaller than something, which is a `P` -/
def SolP (m : Mat α) (P : Solution α → Prop) (r : Solution α) : Prop :=
  r = (inf, []) ∨ (IsTour m.dim r.2 ∧ (∃ y, r.1 <ᶠ y) ∧ P r)

/-- the search of the MPI solvers, for all costs -/
theorem searchMpi_total (m : Mat α) (hinf : eq (inf : α) inf = true) (hdim : 0 < m.dim) (g : α) {pre : List Nat}
    (hv : ValidPre m.dim pre) : ∃ r, searchMpi m g pre = .ok r ∧ SolP m (fun _ => True) r := by
  obtain ⟨x, hx⟩ := evaluatePath_total (m := m) hv.2
  obtain ⟨r, h1, -, h2⟩ := dfs_shape m (testMpi m g) (fun _ => True) (fun _ _ => True) (fun x _ => ∃ y, x <ᶠ y)
    (fun a p x b _ hp _ => by
      obtain ⟨y, hy⟩ := mstBound_total m hinf hp
      exact ⟨_, _, by unfold testMpi; rw [hy]; rfl, trivial⟩)
    (fun _ _ _ _ => trivial) (fun _ _ _ _ _ _ => ⟨trivial, trivial⟩)
    (fun _ _ _ _ _ _ _ _ _ h => ⟨_, h⟩) hdim (m.dim + 1) pre x ((inf, []), ()) hv (by omega) trivial trivial
  refine ⟨r.1, ?_, ?_⟩
  · unfold searchMpi
    rw [hx, rm_bind_ok, h1]
    rfl
  · rcases h2 with h2 | h2
    · left; rw [h2]
    · exact Or.inr ⟨h2.1, h2.2, trivial⟩

/-- what is used of the arithmetic: infinity is not smaller than anything, and everything that is smaller than
something is smaller than infinity -/
structure TopInf (α : Type) [FloatOps α] : Prop where
  top : ∀ y : α, (inf <ᶠ y) = false
  lt : ∀ x y : α, x <ᶠ y → x <ᶠ (inf : α)

/-- invariant after `k` steps -/
structure DAny (m : Mat α) (P : Solution α → Prop) (nW k : Nat) (s : DSys α) : Prop where
  tok : DTok m.dim nW k s
  down : ∀ (i : Nat) w, s.workers[i]? = some w → ∀ x ∈ w.down, Triple m.dim x.2 ∨ x.2 = [0, 0, 0]
  sol : ∀ (i : Nat) w, s.workers[i]? = some w → SolP m P w.sol
  up : ∀ (i : Nat) w, s.workers[i]? = some w → ∀ x ∈ w.up, x = (w.sol.1, i + 1)
  wait : s.waiting = s.workers.countP DWorker.free
  win : s.winner = (inf, 0) ∨ ∃ i w, s.workers[i]? = some w ∧ s.winner.2 = i + 1 ∧ IsTour m.dim w.sol.2 ∧
    (∃ y, s.winner.1 <ᶠ y) ∧ zero ≤ᶠ s.winner.1 ∧ ∃ p, P (s.winner.1, p)
  rep : ∀ (i : Nat) w, s.workers[i]? = some w → w.up = [] → IsTour m.dim w.sol.2 → zero ≤ᶠ w.sol.1 →
    s.winner.2 ≠ 0

theorem dany_init {m : Mat α} {P : Solution α → Prop} {nW : Nat} (hn : 4 ≤ m.dim) : DAny m P nW 0 (initDynamic nW : DSys α) := by
  have hw : ∀ (i : Nat) (w : DWorker α), (initDynamic nW : DSys α).workers[i]? = some w →
      w = { sol := (inf, []), done := false, up := [(inf, i + 1)], down := [] } := by
    intro i w h
    simp only [initDynamic, List.getElem?_map, Option.map_eq_some_iff] at h
    obtain ⟨j, hj, rfl⟩ := h
    obtain ⟨h1, h2⟩ := List.getElem?_eq_some_iff.mp hj
    rw [List.getElem_range] at h2
    subst h2
    rfl
  refine ⟨dtok_init hn, ?_, ?_, ?_, ?_, Or.inl rfl, ?_⟩
  · intro i w h x hx
    rw [hw i w h] at hx
    cases hx
  · intro i w h
    rw [hw i w h]
    exact Or.inl rfl
  · intro i w h x hx
    rw [hw i w h] at hx ⊢
    simpa using hx
  · simp only [initDynamic]
    symm
    rw [List.countP_eq_zero]
    intro w h
    rw [List.mem_map] at h
    obtain ⟨i, -, rfl⟩ := h
    simp [DWorker.free]
  · intro i w h hu
    rw [hw i w h] at hu
    cases hu

/-- one worker is replaced -/
private theorem get_set {β : Type} {l : List β} {i j : Nat} {a b : β} (hi : i < l.length)
    (h : (l.set i a)[j]? = some b) : (i = j ∧ b = a) ∨ (i ≠ j ∧ l[j]? = some b) := by
  by_cases hij : i = j
  · subst hij
    rw [List.getElem?_set_self hi] at h
    cases h
    exact Or.inl ⟨rfl, rfl⟩
  · rw [List.getElem?_set_ne hij] at h
    exact Or.inr ⟨hij, h⟩

/-- a worker with an answer works on it without a panic -/
theorem dynWorker_total (hT : TopInf α) {m : Mat α} {P : Solution α → Prop}
    (hS : ∀ g pre, ValidPre m.dim pre → ∃ r, searchMpi m g pre = .ok r ∧ SolP m P r)
    {w : DWorker α} (hsol : SolP m P w.sol) (rank : Nat) {msg : α × List Nat}
    (hmsg : Triple m.dim msg.2 ∨ msg.2 = [0, 0, 0]) :
    ∃ w', dynWorker m rank w msg = .ok w' ∧ SolP m P w'.sol ∧ (IsTour m.dim w.sol.2 → IsTour m.dim w'.sol.2) ∧
      w'.down = w.down ∧
      ((msg.2 = [0, 0, 0] ∧ w' = { w with done := true }) ∨
        (msg.2 ≠ [0, 0, 0] ∧ w'.done = w.done ∧ w'.up = w.up ++ [(w'.sol.1, rank)])) := by
  unfold dynWorker
  rcases hmsg with h | h
  · rw [h.not_all]
    obtain ⟨r, h1, h2⟩ := hS msg.1 msg.2 h.validPre
    simp only [Bool.false_eq_true, if_false, h1, rm_bind_ok, rm_pure]
    refine ⟨_, rfl, ?_, ?_, rfl, Or.inr ⟨h.ne, rfl, rfl⟩⟩
    · simp only
      split
      · exact h2
      · exact hsol
    · intro ht
      simp only
      split
      · rename_i hlt
        rcases h2 with rfl | h2
        · rw [hT.top] at hlt
          cases hlt
        · exact h2.1
      · exact ht
  · rw [h]
    exact ⟨_, rfl, hsol, id, rfl, Or.inl ⟨rfl, rfl⟩⟩

/-- the coordinator handles a message without a panic -/
theorem dhandle_total {n : Nat} {s : DSys α} (hcur : CurOk n s.current s.log) (msg : α × Nat) :
    ∃ s', s.handle n msg = .ok s' := by
  unfold DSys.handle
  cases hc : s.current with
  | some p =>
    rw [hc] at hcur
    obtain ⟨next, n1, -⟩ := hcur.advance (r := msg.2)
    simp only [n1, rm_bind_ok, rm_pure]
    exact ⟨_, rfl⟩
  | none => exact ⟨_, rfl⟩

/-- what the coordinator does -/
theorem dhandle_spec {n : Nat} {s s' : DSys α} (hcur : CurOk n s.current s.log) {msg : α × Nat}
    (h : s.handle n msg = .ok s') :
    s'.winner = (if (zero ≤ᶠ msg.1) && (msg.1 <ᶠ s.winner.1) then msg else s.winner) ∧
    ∃ g p, (Triple n p ∨ p = [0, 0, 0]) ∧ s'.waiting = s.waiting + (if p = [0, 0, 0] then 1 else 0) ∧
      s'.workers = s.workers.modify (msg.2 - 1) fun w => { w with down := w.down ++ [(g, p)] } := by
  unfold DSys.handle at h
  cases hc : s.current with
  | some p =>
    rw [hc] at hcur h
    obtain ⟨next, n1, -⟩ := hcur.advance (r := msg.2)
    simp only [n1, rm_bind_ok, rm_pure] at h
    cases h
    have hp := (hcur.next p rfl).1
    exact ⟨rfl, _, p, Or.inl hp, by simp [hp.ne], rfl⟩
  | none =>
    rw [hc] at h
    simp only [rm_pure] at h
    cases h
    exact ⟨rfl, _, [0, 0, 0], Or.inr rfl, by simp, rfl⟩

theorem dany_step (hT : TopInf α) {m : Mat α} {P : Solution α → Prop}
    (hS : ∀ g pre, ValidPre m.dim pre → ∃ r, searchMpi m g pre = .ok r ∧ SolP m P r)
    (hdim : 0 < m.dim) {nW k : Nat} {s t : DSys α} (h : DAny m P nW k s) (hst : DStep m s t) :
    DAny m P nW (k + 1) t := by
  have htok0 := dtok_step h.tok hst
  cases hst with
  | recv i w w' msg rest a1 a2 a3 a4 =>
    have hil := (List.getElem?_eq_some_iff.mp a1).1
    obtain ⟨w'', b1, b2, b3, b4, b5⟩ := dynWorker_total hT hS (w := { w with down := rest }) (h.sol i w a1) (i + 1)
      (h.down i w a1 msg (by rw [a3]; simp))
    rw [a4] at b1
    cases b1
    have htok := (h.tok.tok i w a1).1
    rw [a2, a3] at htok
    simp only [List.length_cons, Bool.false_eq_true, if_false] at htok
    have hup : w.up = [] := List.length_eq_zero_iff.mp (by omega)
    have hrest : rest = [] := List.length_eq_zero_iff.mp (by omega)
    simp only [hup, hrest] at b3 b4 b5
    refine ⟨htok0, ?_, ?_, ?_, ?_, ?_, ?_⟩
    · intro j u hu x hx
      rcases get_set hil hu with ⟨rfl, rfl⟩ | ⟨-, hu⟩
      · rw [b4] at hx
        cases hx
      · exact h.down j u hu x hx
    · intro j u hu
      rcases get_set hil hu with ⟨rfl, rfl⟩ | ⟨-, hu⟩
      · exact b2
      · exact h.sol j u hu
    · intro j u hu x hx
      rcases get_set hil hu with ⟨rfl, rfl⟩ | ⟨-, hu⟩
      · rcases b5 with ⟨-, b5⟩ | ⟨-, -, b5⟩
        · rw [b5] at hx
          cases hx
        · rw [b5] at hx
          simpa using hx
      · exact h.up j u hu x hx
    · have := countP_set' DWorker.free s.workers i w w' a1
      rw [← h.wait] at this
      have hfree : DWorker.free w' = DWorker.free w := by
        unfold DWorker.free
        rw [b4, a2, a3, hrest]
        rcases b5 with ⟨c1, c2⟩ | ⟨c1, c2, -⟩
        · rw [c2]
          simp [c1]
        · rw [c2, a2]
          simp [c1]
      rw [hfree] at this
      simp only
      omega
    · simp only
      rcases h.win with c | ⟨j, u, c1, c2, c3, c4⟩
      · exact Or.inl c
      · right
        by_cases hij : i = j
        · subst hij
          rw [a1] at c1
          cases c1
          exact ⟨i, w', List.getElem?_set_self hil, c2, b3 c3, c4⟩
        · exact ⟨j, u, by rw [List.getElem?_set_ne hij]; exact c1, c2, c3, c4⟩
    · intro j u hu hu0 ht hz
      rcases get_set hil hu with ⟨rfl, rfl⟩ | ⟨-, hu⟩
      · rcases b5 with ⟨-, b5⟩ | ⟨-, -, b5⟩
        · rw [b5] at ht hz
          exact h.rep i w a1 hup ht hz
        · rw [b5] at hu0
          simp at hu0
      · exact h.rep j u hu hu0 ht hz
  | root t i w msg rest a0 a1 a2 a3 =>
    have hil := (List.getElem?_eq_some_iff.mp a1).1
    have htok := (h.tok.tok i w a1).1
    rw [a2] at htok
    simp only [List.length_cons] at htok
    have hdown : w.down = [] := List.length_eq_zero_iff.mp (by omega)
    have hrest : rest = [] := List.length_eq_zero_iff.mp (by omega)
    have hdone : w.done = false := by
      cases hd : w.done with
      | false => rfl
      | true => rw [hd] at htok; simp at htok
    have hmsg : msg = (w.sol.1, i + 1) := h.up i w a1 msg (by rw [a2]; simp)
    obtain ⟨b1, g, p, b2, b3, b4⟩ := dhandle_spec (n := m.dim)
      (s := { s with workers := s.workers.set i { w with up := rest } }) h.tok.cur a3
    have hi : msg.2 - 1 = i := by rw [hmsg]; rfl
    simp only at b1 b3 b4
    rw [hi, modify_set_self] at b4
    simp only [hdown, hrest, List.nil_append] at b4
    have hw0 : t.winner = (inf, 0) → w.sol = (inf, []) ∨ (zero ≤ᶠ w.sol.1) = false := by
      intro ht
      rcases h.sol i w a1 with c | ⟨c1, ⟨y, c2⟩, c3⟩
      · exact Or.inl c
      right
      cases hz : zero ≤ᶠ w.sol.1 with
      | false => rfl
      | true =>
        exfalso
        rw [b1, hmsg] at ht
        simp only [hz, Bool.true_and] at ht
        split at ht
        · have := congrArg Prod.snd ht
          simp at this
        · rename_i hlt
          rw [ht] at hlt
          exact hlt (hT.lt _ _ c2)
    have hwin : t.winner = s.winner ∨ (t.winner = (w.sol.1, i + 1) ∧ zero ≤ᶠ w.sol.1 ∧ w.sol.1 <ᶠ s.winner.1) := by
      rw [b1, hmsg]
      simp only
      split
      · rename_i hc
        rw [Bool.and_eq_true] at hc
        exact Or.inr ⟨rfl, hc⟩
      · exact Or.inl rfl
    refine ⟨htok0, ?_, ?_, ?_, ?_, ?_, ?_⟩
    · intro j u hu x hx
      rw [b4] at hu
      rcases get_set hil hu with ⟨rfl, rfl⟩ | ⟨-, hu⟩
      · simp only [List.mem_singleton] at hx
        rw [hx]
        exact b2
      · exact h.down j u hu x hx
    · intro j u hu
      rw [b4] at hu
      rcases get_set hil hu with ⟨rfl, rfl⟩ | ⟨-, hu⟩
      · exact h.sol i w a1
      · exact h.sol j u hu
    · intro j u hu x hx
      rw [b4] at hu
      rcases get_set hil hu with ⟨rfl, rfl⟩ | ⟨-, hu⟩
      · cases hx
      · exact h.up j u hu x hx
    · have := countP_set' DWorker.free s.workers i w { w with up := [], down := [(g, p)] } a1
      rw [← h.wait] at this
      rw [b4, b3]
      simp only [DWorker.free, hdone, hdown, List.any_nil, List.any_cons, Bool.or_false, Bool.false_or,
        Bool.false_eq_true, if_false, beq_iff_eq] at this ⊢
      omega
    · rcases hwin with e | ⟨e1, e2, e3⟩
      · rw [e]
        rcases h.win with c | ⟨j, u, c1, c2, c3, c4⟩
        · exact Or.inl c
        · right
          by_cases hij : i = j
          · subst hij
            rw [a1] at c1
            cases c1
            exact ⟨i, { w with up := [], down := [(g, p)] }, by rw [b4]; exact List.getElem?_set_self hil, c2, c3, c4⟩
          · exact ⟨j, u, by rw [b4, List.getElem?_set_ne hij]; exact c1, c2, c3, c4⟩
      · right
        rcases h.sol i w a1 with c | ⟨c1, c2, c3⟩
        · rw [c, hT.top] at e3
          cases e3
        · refine ⟨i, { w with up := [], down := [(g, p)] }, by rw [b4]; exact List.getElem?_set_self hil,
            by rw [e1], c1, ?_⟩
          rw [e1]
          exact ⟨c2, e2, w.sol.2, c3⟩
    · have hmono : s.winner.2 ≠ 0 → t.winner.2 ≠ 0 := by
        intro h0
        rcases hwin with e | ⟨e1, -⟩
        · rw [e]; exact h0
        · rw [e1]; simp
      intro j u hu hu0 ht hz
      rw [b4] at hu
      rcases get_set hil hu with ⟨rfl, rfl⟩ | ⟨-, hu⟩
      · intro h0
        have hinf0 : t.winner = (inf, 0) := by
          rcases hwin with e | ⟨e1, -⟩
          · rw [e] at h0 ⊢
            rcases h.win with c | ⟨j, u, -, c2, -⟩
            · exact c
            · omega
          · rw [e1] at h0
            simp at h0
        rcases hw0 hinf0 with c | c
        · simp only [c] at ht
          exact not_isTour_nil hdim ht
        · simp only [c] at hz
          cases hz
      · exact hmono (h.rep j u hu hu0 ht hz)

theorem dany_steps (hT : TopInf α) {m : Mat α} {P : Solution α → Prop}
    (hS : ∀ g pre, ValidPre m.dim pre → ∃ r, searchMpi m g pre = .ok r ∧ SolP m P r) (hn : 4 ≤ m.dim) {nW k : Nat}
    {s : DSys α} (hs : Steps (DStep m) k (initDynamic nW) s) : DAny m P nW k s := by
  generalize h0 : (initDynamic nW : DSys α) = s0 at hs
  induction hs with
  | refl => subst h0; exact dany_init hn
  | tail _ h2 ih => exact dany_step hT hS (by omega) (ih h0) h2

/-- no process panics -/
theorem dany_no_panic (hT : TopInf α) {m : Mat α} {P : Solution α → Prop}
    (hS : ∀ g pre, ValidPre m.dim pre → ∃ r, searchMpi m g pre = .ok r ∧ SolP m P r) {nW k : Nat} {s : DSys α}
    (h : DAny m P nW k s) :
    (∀ (i : Nat) w msg rest, s.workers[i]? = some w → w.done = false → w.down = msg :: rest →
      ∃ w', dynWorker m (i + 1) { w with down := rest } msg = .ok w') ∧
    ∀ (i : Nat) w msg rest, s.workers[i]? = some w → w.up = msg :: rest → ∃ s',
      DSys.handle { s with workers := s.workers.set i { w with up := rest } } m.dim msg = .ok s' := by
  refine ⟨fun i w msg rest a1 _ a3 => ?_, fun i w msg rest a1 a2 => ?_⟩
  · obtain ⟨w', h1, -⟩ := dynWorker_total hT hS (w := { w with down := rest }) (h.sol i w a1) (i + 1)
      (h.down i w a1 msg (by rw [a3]; simp))
    exact ⟨w', h1⟩
  · exact dhandle_total (s := { s with workers := s.workers.set i { w with up := rest } }) h.tok.cur msg

/-- somebody can go on -/
theorem dany_progress (hT : TopInf α) {m : Mat α} {P : Solution α → Prop}
    (hS : ∀ g pre, ValidPre m.dim pre → ∃ r, searchMpi m g pre = .ok r ∧ SolP m P r) {nW k : Nat} {s : DSys α}
    (h : DAny m P nW k s) (hf : ¬ s.final) : ∃ s', DStep m s s' := by
  obtain ⟨np1, np2⟩ := dany_no_panic hT hS h
  by_cases hall : ∀ w ∈ s.workers, w.done = true
  · exfalso
    refine hf ⟨?_, hall⟩
    have : s.workers.countP DWorker.free = s.workers.length := by
      rw [List.countP_eq_length]
      intro w hw
      simp [DWorker.free, hall w hw]
    have := h.wait
    omega
  · push Not at hall
    obtain ⟨w, hw, hd⟩ := hall
    obtain ⟨i, hi⟩ := List.mem_iff_getElem?.mp hw
    have hd' : w.done = false := by simpa using hd
    have htok := (h.tok.tok i w hi).1
    rw [hd'] at htok
    simp only [Bool.false_eq_true, if_false] at htok
    cases hdown : w.down with
    | cons msg rest =>
      obtain ⟨w', hw'⟩ := np1 i w msg rest hi hd' hdown
      exact ⟨_, .recv s i w w' msg rest hi hd' hdown hw'⟩
    | nil =>
      cases hup : w.up with
      | nil => rw [hdown, hup] at htok; simp at htok
      | cons msg rest =>
        obtain ⟨s', hs'⟩ := np2 i w msg rest hi hup
        refine ⟨s', .root s s' i w msg rest ?_ hi hup hs'⟩
        rw [h.wait]
        refine lt_of_le_of_ne List.countP_le_length ?_
        intro he
        have := (List.countP_eq_length.mp he) w hw
        simp [DWorker.free, hd', hdown] at this

/-- the number of steps is bounded -/
theorem dany_bound {m : Mat α} (hn : 4 ≤ m.dim) {P : Solution α → Prop} {nW k : Nat} {s : DSys α} (h : DAny m P nW k s) :
    k ≤ 2 * ((m.dim - 1) * ((m.dim - 1) * (m.dim - 2) - 1) + nW) := by
  have hsub : (handed s.log).length ≤ (offers m.dim).length := by
    refine List.Subperm.length_le (List.subperm_of_subset ?_ ?_)
    · exact h.tok.cur.sorted.imp fun hlt e => by rw [e] at hlt; exact lt_irrefl _ hlt
    · intro p hp
      exact (mem_offers hn p).mpr (h.tok.cur.valid p hp)
  rw [offers_length hn] at hsub
  have hc := h.tok.count
  obtain ⟨w1, w2, -⟩ := h.tok.wait
  omega

/-- some execution is complete -/
theorem dany_final (hT : TopInf α) {m : Mat α} {P : Solution α → Prop}
    (hS : ∀ g pre, ValidPre m.dim pre → ∃ r, searchMpi m g pre = .ok r ∧ SolP m P r) (hn : 4 ≤ m.dim) (nW : Nat) :
    ∃ k s, Steps (DStep m) k (initDynamic nW) s ∧ s.final := by
  by_contra hno
  push Not at hno
  have key : ∀ k, ∃ s, Steps (DStep m) k (initDynamic nW) s := by
    intro k
    induction k with
    | zero => exact ⟨_, .refl _⟩
    | succ k ih =>
      obtain ⟨s, hs⟩ := ih
      obtain ⟨s', hs'⟩ := dany_progress hT hS (dany_steps hT hS hn hs) (hno k s hs)
      exact ⟨s', .tail hs hs'⟩
  obtain ⟨s, hs⟩ := key (2 * ((m.dim - 1) * ((m.dim - 1) * (m.dim - 2) - 1) + nW) + 1)
  have := dany_bound hn (dany_steps hT hS hn hs)
  omega

/-- the result of a complete execution -/
theorem dany_result {m : Mat α} {P : Solution α → Prop} (hn : 4 ≤ m.dim) {nW k : Nat} {s : DSys α}
    (h : DAny m P nW k s) (hf : s.final) :
    wrapUp s.winner (s.buffers m.dim) = .error .explicit ∨
    (∃ x w, w ∈ s.workers ∧ wrapUp s.winner (s.buffers m.dim) = .ok (x, w.sol.2) ∧ IsTour m.dim w.sol.2 ∧ P w.sol ∧
      zero ≤ᶠ x ∧ (∃ y, x <ᶠ y) ∧ ∃ p, P (x, p)) ∨
    (wrapUp s.winner (s.buffers m.dim) = .ok (inf, List.replicate m.dim 0) ∧
      ∀ w ∈ s.workers, IsTour m.dim w.sol.2 ∧ P w.sol ∧ (zero ≤ᶠ w.sol.1) = false) := by
  unfold wrapUp DSys.buffers
  rcases h.win with c | ⟨i, w, c1, c2, c3, c4, c5, c6⟩
  · rw [c]
    simp only [idx, List.getElem?_cons_zero, rm_bind_ok]
    split
    · rename_i hall
      refine Or.inr (Or.inr ⟨rfl, ?_⟩)
      intro w hw
      have hlen : w.sol.2.length = m.dim := by
        rw [List.all_eq_true] at hall
        have := hall w.sol.2 (List.mem_cons_of_mem _ (List.mem_map.mpr ⟨w, hw, rfl⟩))
        simpa using this
      obtain ⟨i, hi⟩ := List.mem_iff_getElem?.mp hw
      rcases h.sol i w hi with e | ⟨e1, -, e2⟩
      · rw [e] at hlen
        simp at hlen
        omega
      · refine ⟨e1, e2, ?_⟩
        cases hz : zero ≤ᶠ w.sol.1 with
        | false => rfl
        | true =>
          exfalso
          have htok := (h.tok.tok i w hi).1
          rw [hf.2 w hw] at htok
          simp only [if_true] at htok
          exact h.rep i w hi (List.length_eq_zero_iff.mp (by omega)) e1 hz (by rw [c])
    · exact Or.inl rfl
  · have hidx : idx (List.replicate m.dim 0 :: s.workers.map fun w => w.sol.2) s.winner.2 = .ok w.sol.2 := by
      unfold idx
      rw [c2]
      simp [c1]
    rw [hidx]
    simp only [rm_bind_ok]
    split
    · refine Or.inr (Or.inl ⟨s.winner.1, w, List.mem_of_getElem? c1, rfl, c3, ?_, c5, c4, c6⟩)
      rcases h.sol i w c1 with e | ⟨-, -, e⟩
      · rw [e] at c3
        exact absurd c3 (not_isTour_nil (by omega))
      · exact e
    · exact Or.inl rfl

/-- **C127** (dynamic solver) In every arithmetic in which infinity is the largest number, for all costs, at least
four cities and any number of workers, every order of the messages: the number of steps is bounded, no process panics
before the broadcast, and some process can take a step until all are at the barrier. In a complete execution the
broadcast fails, or all ranks return a tour of all cities with a number that is at least 0, or they return infinity
and the coordinator's buffer of zeros – the latter only if all workers have found tours, of costs that are not at
least 0. -/
theorem C127_dynamic (hT : TopInf α) (hinf : eq (inf : α) inf = true) {m : Mat α} (hn : 4 ≤ m.dim) (nW : Nat) :
    (∃ k s, Steps (DStep m) k (initDynamic nW) s ∧ s.final) ∧
    ∀ k s, Steps (DStep m) k (initDynamic nW) s →
      k ≤ 2 * ((m.dim - 1) * ((m.dim - 1) * (m.dim - 2) - 1) + nW) ∧ (s.final ∨ ∃ s', DStep m s s') ∧
      (∀ (i : Nat) w msg rest, s.workers[i]? = some w → w.done = false → w.down = msg :: rest →
        ∃ w', dynWorker m (i + 1) { w with down := rest } msg = .ok w') ∧
      (∀ (i : Nat) w msg rest, s.workers[i]? = some w → w.up = msg :: rest → ∃ s',
        DSys.handle { s with workers := s.workers.set i { w with up := rest } } m.dim msg = .ok s') ∧
      (s.final →
        wrapUp s.winner (s.buffers m.dim) = .error .explicit ∨
        (∃ x q, wrapUp s.winner (s.buffers m.dim) = .ok (x, q) ∧ IsTour m.dim q ∧ zero ≤ᶠ x ∧ ∃ y, x <ᶠ y) ∨
        (wrapUp s.winner (s.buffers m.dim) = .ok (inf, List.replicate m.dim 0) ∧
          ∀ w ∈ s.workers, IsTour m.dim w.sol.2 ∧ (zero ≤ᶠ w.sol.1) = false)) := by
  have hS : ∀ g pre, ValidPre m.dim pre → ∃ r, searchMpi m g pre = .ok r ∧ SolP m (fun _ => True) r :=
    fun g pre hp => searchMpi_total m hinf (by omega) g hp
  refine ⟨dany_final hT hS hn nW, ?_⟩
  intro k s hs
  have h := dany_steps hT hS hn hs
  obtain ⟨np1, np2⟩ := dany_no_panic hT hS h
  refine ⟨dany_bound hn h, ?_, np1, np2, ?_⟩
  · by_cases hf : s.final
    · exact Or.inl hf
    · exact Or.inr (dany_progress hT hS h hf)
  · intro hf
    rcases dany_result hn h hf with e | ⟨x, w, -, e1, e2, -, e3, e4, -⟩ | ⟨e1, e2⟩
    · exact Or.inl e
    · exact Or.inr (Or.inl ⟨x, _, e1, e2, e3, e4⟩)
    · exact Or.inr (Or.inr ⟨e1, fun w hw => ⟨(e2 w hw).1, (e2 w hw).2.2⟩⟩)

end lawfree

section numbers
variable {K : Type} [Field K] [LinearOrder K] [IsStrictOrderedRing K] {R : Rounding K} {D : K → Prop}

omit [IsStrictOrderedRing K] in
theorem topInf (R : Rounding K) : @TopInf _ R.ops := by
  refine @TopInf.mk _ R.ops ?_ ?_
  · intro y
    cases y <;> rfl
  · intro x y h
    cases x with
    | nan => cases y <;> cases h
    | inf => cases y <;> cases h
    | ninf => rfl
    | fin a => rfl

/-- costs between different cities are infinite or numbers of `D` that are not negative -/
def InfOrPos (D : K → Prop) (m : Mat (XNum K)) : Prop :=
  ∀ i j, i < m.dim → j < m.dim → i ≠ j → m.get i j = .inf ∨ ∃ w, m.get i j = .fin w ∧ D w ∧ 0 ≤ w

/-- the tour contains no infinite edge -/
def FiniteTour (m : Mat (XNum K)) (q : List Nat) : Prop :=
  ∀ e ∈ q.zip (q.tail ++ q.take 1), m.get e.1 e.2 ≠ .inf

/-- the running cost: not a number, infinite, or not negative along a path without infinite edges -/
private def Run (m : Mat (XNum K)) (p : List Nat) (x : XNum K) : Prop :=
  x = .nan ∨ x = .inf ∨ ((∃ a, x = .fin a ∧ 0 ≤ a) ∧ ∀ e ∈ pairs p, m.get e.1 e.2 ≠ .inf)

private theorem evaluatePath_run (h : R.Floors D) {m : Mat (XNum K)} (hm : InfOrPos D m) {p : List Nat}
    (hv : ValidPre m.dim p) {x : XNum K} (hx : @Mat.evaluatePath _ R.ops m p = .ok x) : Run m p x := by
  unfold Mat.evaluatePath at hx
  have key : ∀ (l : List (Nat × Nat)) (a : XNum K), NotNeg a →
      (∀ q ∈ l, q.1 < m.dim ∧ q.2 < m.dim ∧ q.1 ≠ q.2) → ∀ y,
      l.foldlM (fun acc p => do
        let cost ← m.entry p.1 p.2
        return @FloatOps.add _ R.ops acc cost) a = (.ok y : RM (XNum K)) →
      (a = .inf → y = .inf) ∧ (y = .inf ∨ ((∃ v, y = .fin v ∧ 0 ≤ v) ∧ ∀ e ∈ l, m.get e.1 e.2 ≠ .inf)) := by
    intro l
    induction l with
    | nil =>
      intro a ha _ y hy
      have := Except.ok.inj hy
      rw [← this]
      refine ⟨id, ?_⟩
      rcases notNeg_cases ha with e | e
      · exact Or.inl e
      · exact Or.inr ⟨e, by simp⟩
    | cons q l ih =>
      intro a ha hl y hy
      obtain ⟨h1, h2, h3⟩ := hl q (by simp)
      rw [List.foldlM_cons] at hy
      simp only [entry_ok h1 h2, rm_bind_ok, rm_pure] at hy
      have hl' : ∀ q ∈ l, q.1 < m.dim ∧ q.2 < m.dim ∧ q.1 ≠ q.2 := fun q hq => hl q (by simp [hq])
      rcases hm _ _ h1 h2 h3 with e | ⟨w, e, k1, k2⟩
      · rw [e] at hy
        have ha' : @FloatOps.add _ R.ops a .inf = .inf := by
          rcases notNeg_cases ha with rfl | ⟨v, rfl, -⟩ <;> rfl
        rw [ha'] at hy
        have := (ih .inf rfl hl' y hy).1 rfl
        exact ⟨fun _ => this, Or.inl this⟩
      · rw [e] at hy
        have hn : NotNeg (@FloatOps.add _ R.ops a (.fin w)) :=
          notNeg_of_le (by simpa [NotNeg] using k2) (add_floor h ha k1 k2)
        obtain ⟨i1, i2⟩ := ih _ hn hl' y hy
        refine ⟨fun e' => i1 (by rw [e']; rfl), ?_⟩
        rcases i2 with i2 | ⟨i2, i3⟩
        · exact Or.inl i2
        · refine Or.inr ⟨i2, ?_⟩
          intro e' he'
          rcases List.mem_cons.mp he' with rfl | he'
          · rw [e]; simp
          · exact i3 e' he'
  have zero_notNeg : NotNeg (@FloatOps.zero _ R.ops) := by
    change FloatOps.le (XNum.fin 0) (XNum.fin 0) = true
    simp
  split at hx
  · rename_i hl
    have := Except.ok.inj hx
    rw [← this]
    refine Or.inr (Or.inr ⟨⟨0, rfl, le_rfl⟩, ?_⟩)
    rcases p with _ | ⟨a, _ | ⟨b, t⟩⟩
    · simp [pairs]
    · simp [pairs]
    · simp at hl
  · exact Or.inr (key _ _ zero_notNeg (fun q hq => ⟨hv.2 _ (mem_pairs hq).1, hv.2 _ (mem_pairs hq).2,
      pairs_ne hv.1 hq⟩) x hx).2

/-- The search of the MPI solvers with costs that are infinite or not negative finds nothing, or a tour without an
infinite edge with a finite number that is not negative. -/
theorem searchMpi_pos (h : R.Floors D) (hD : D 0) {m : Mat (XNum K)} (hm : InfOrPos D m) (hdim : 2 ≤ m.dim)
    (g : XNum K) {pre : List Nat} (hv : ValidPre m.dim pre) :
    ∃ r, @searchMpi _ R.ops m g pre = .ok r ∧
      @SolP _ R.ops m (fun r => (∃ v, r.1 = .fin v ∧ 0 ≤ v) ∧ FiniteTour m r.2) r := by
  obtain ⟨x, hx⟩ := @evaluatePath_total _ R.ops m _ hv.2
  have hrun := evaluatePath_run h hm hv hx
  obtain ⟨r, h1, -, h2⟩ := @dfs_shape _ R.ops _ m (@testMpi _ R.ops m g) (fun _ => True) (Run m)
    (fun x q => (∃ y, @FloatOps.lt _ R.ops x y = true) ∧ (∃ v, x = .fin v ∧ 0 ≤ v) ∧ FiniteTour m q)
    (fun a p x b _ hp _ => by
      obtain ⟨y, hy⟩ := @mstBound_total _ R.ops m rfl _ hp
      exact ⟨_, _, by unfold testMpi; rw [hy]; rfl, trivial⟩)
    (fun i x _ hq => by
      rcases hq with e | e | ⟨e, -⟩
      · exact Or.inl e
      · exact Or.inr (Or.inl e)
      · exact Or.inr (Or.inr ⟨e, by simp [pairs]⟩))
    (fun p a i x hp hq => by
      have hai : a ≠ i := by
        have := hp.1
        rw [List.nodup_append] at this
        have := this.2.1
        simp at this
        exact this
      have ha := hp.2 a (by simp)
      have hi := hp.2 i (by simp)
      have hpairs : pairs (p ++ [a, i]) = pairs (p ++ [a]) ++ [(a, i)] := pairs_append p a [i]
      rcases hm a i ha hi hai with e | ⟨w, e, k1, k2⟩
      · rw [e]
        rcases hq with rfl | rfl | ⟨⟨v, rfl, hv⟩, -⟩
        · exact ⟨Or.inl rfl, Or.inl rfl⟩
        · exact ⟨Or.inr (Or.inl rfl), Or.inl rfl⟩
        · exact ⟨Or.inr (Or.inl rfl), Or.inl rfl⟩
      · have hfin : ∀ v : K, 0 ≤ v → NotNeg (@FloatOps.add _ R.ops (.fin v) (.fin w)) ∧
            NotNeg (@FloatOps.sub _ R.ops (@FloatOps.add _ R.ops (.fin v) (.fin w)) (.fin w)) := by
          intro v hv
          have hv' : NotNeg (.fin v : XNum K) := by simpa [NotNeg] using hv
          have := add_floor h hv' k1 k2
          exact ⟨notNeg_of_le (by simpa [NotNeg] using k2) this, sub_notNeg h hD this⟩
        rw [e]
        rcases hq with rfl | rfl | ⟨⟨v, rfl, hv⟩, hed⟩
        · exact ⟨Or.inl rfl, Or.inl rfl⟩
        · exact ⟨Or.inr (Or.inl rfl), Or.inr (Or.inl rfl)⟩
        · obtain ⟨f1, f2⟩ := hfin v hv
          constructor
          · rcases notNeg_cases f1 with f1 | f1
            · exact Or.inr (Or.inl f1)
            · refine Or.inr (Or.inr ⟨f1, ?_⟩)
              rw [hpairs]
              intro e' he'
              rcases List.mem_append.mp he' with he' | he'
              · exact hed e' he'
              · rw [List.mem_singleton.mp he', e]
                simp
          · rcases notNeg_cases f2 with f2 | f2
            · exact Or.inr (Or.inl f2)
            · exact Or.inr (Or.inr ⟨f2, hed⟩))
    (fun p x a b best hp ha hb hq hlt => by
      have hp0 : p ≠ [] := by rintro rfl; cases hb
      have hlast : a = p.getLast hp0 := by
        rw [List.getLast?_eq_getLast_of_ne_nil hp0] at ha
        exact (Option.some.inj ha).symm
      have hlen := hp.length
      obtain ⟨t, rfl⟩ : ∃ t, p = b :: t := by
        cases p with
        | nil => cases hb
        | cons c t => cases hb; exact ⟨t, rfl⟩
      have ht : t ≠ [] := by rintro rfl; simp at hlen; omega
      have hab : a ≠ b := by
        have hnd := hp.nodup
        rw [List.nodup_cons] at hnd
        rw [List.getLast_cons ht] at hlast
        rintro rfl
        exact hnd.1 (hlast ▸ List.getLast_mem ht)
      have hbd := hp.mem.mp (List.mem_cons_self (a := b) (l := t))
      have had : a < m.dim := hp.mem.mp (hlast ▸ List.getLast_mem hp0)
      have hedge : (b :: t).zip ((b :: t).tail ++ (b :: t).take 1) = pairs (b :: t) ++ [(a, b)] := by
        have e1 : (b :: t) = (b :: t).dropLast ++ [a] := by
          rw [hlast]; exact (List.dropLast_append_getLast hp0).symm
        have e2 : (b :: t).zip (t ++ [b]) = ((b :: t).dropLast ++ [a]).zip (t ++ [b]) := by rw [← e1]
        have e3 : pairs (b :: t) = (b :: t).dropLast.zip t := by
          have : pairs (b :: t) = ((b :: t).dropLast ++ [a]).zip (t ++ []) := by rw [← e1]; simp [pairs]
          rw [this, List.zip_append (by simp)]
          simp
        simp only [List.tail_cons, List.take_succ_cons, List.take_zero]
        rw [e2, e3, List.zip_append (by simp)]
        simp
      refine ⟨⟨_, hlt⟩, ?_⟩
      unfold FiniteTour
      rw [hedge]
      rcases hq with rfl | rfl | ⟨⟨v, rfl, hv⟩, hed⟩
      · cases best <;> cases hlt
      · rcases hm a b had hbd hab with e | ⟨w, e, -⟩ <;> rw [e] at hlt <;> cases best <;> cases hlt
      · rcases hm a b had hbd hab with e | ⟨w, e, k1, k2⟩
        · rw [e] at hlt
          cases best <;> cases hlt
        · rw [e] at hlt ⊢
          have hv' : NotNeg (.fin v : XNum K) := by simpa [NotNeg] using hv
          have f1 := notNeg_of_le (by simpa [NotNeg] using k2) (add_floor h hv' k1 k2)
          rcases notNeg_cases f1 with f1 | f1
          · rw [f1] at hlt
            cases best <;> cases hlt
          · refine ⟨f1, ?_⟩
            intro e' he'
            rcases List.mem_append.mp he' with he' | he'
            · exact hed e' he'
            · rw [List.mem_singleton.mp he', e]
              simp)
    (by omega) (m.dim + 1) pre x ((.inf, []), ()) hv (by omega) trivial hrun
  refine ⟨r.1, ?_, ?_⟩
  · unfold searchMpi
    rw [hx, rm_bind_ok]
    exact congrArg (fun z => z >>= fun r => (pure r.1 : RM _)) h1
  · rcases h2 with h2 | h2
    · left; rw [h2]; rfl
    · exact Or.inr ⟨h2.1, h2.2.1, h2.2.2⟩

omit [IsStrictOrderedRing K] in
/-- the matrix of an accepted instance -/
theorem matrix {g : Graph (XNum K)} (hacc : @doConditionsHold _ R.ops g = .ok true) :
    ∃ m, (do @naFromGraph _ R.ops (← @parseChecked _ R.ops g)) = .ok m ∧ m.dim = g.length ∧
      (NoLoop g → (∀ (i : Nat) (es : List (Edge (XNum K))), g[i]? = some es → ∀ e ∈ es, m.get i e.dst = e.cost) ∧
        ∀ i j, i < m.dim → j < m.dim → i ≠ j → ∃ es ∈ g, ∃ e ∈ es, m.get i j = e.cost) := by
  obtain ⟨m, hm, hdim⟩ := @instance_total _ R.ops g hacc
  have hm1 : naFromGraph g = .ok m := by
    have hpg : @parseChecked _ R.ops g = .ok g := by
      unfold parseChecked
      rw [hacc]
      rfl
    rw [hpg, rm_bind_ok] at hm
    exact hm
  refine ⟨m, hm, hdim, ?_⟩
  intro hl
  have hcomp := complete_of_accepted (g := g) hacc hl
  obtain ⟨m', a1, a2, a3, a4, -⟩ := naFromGraph_complete hcomp
  rw [hm1] at a1
  cases a1
  refine ⟨a4, ?_⟩
  intro i j hi hj hij
  rw [hdim] at hi hj
  have hg := List.getElem?_eq_getElem hi
  obtain ⟨e, he, hej⟩ := List.mem_map.mp ((hcomp.mem hg).mpr ⟨hj, hij.symm⟩)
  refine ⟨_, List.getElem_mem hi, e, he, ?_⟩
  rw [← hej]
  exact a4 i _ hg e he

omit [IsStrictOrderedRing K] in
/-- **C127** (v1) Every accepted instance with at least four cities, any numbers as costs, any rounding, any number
of processes: the job `walky exact v1 --parallelism mpi` has an outcome, and in every outcome all ranks end in the
same way: they fail without output, or they print the same tour of all cities with the same finite number that is
not negative, or infinity and as many zeros as there are cities. -/
theorem C127_v1 {g : Graph (XNum K)} (hacc : @doConditionsHold _ R.ops g = .ok true) (hn : 4 ≤ g.length)
    (env : MpiEnv (XNum K)) :
    (∃ outs, @MpiRuns _ R.ops env g (.exact .v1) outs) ∧
    ∀ outs, @MpiRuns _ R.ops env g (.exact .v1) outs →
      outs = List.replicate env.size ⟨[], .error .explicit⟩ ∨
      (∃ v q, 0 ≤ v ∧ IsTour g.length q ∧
        outs = List.replicate env.size ⟨[.bestCost (.fin v), .bestPermutation q], .ok ()⟩) ∨
      outs = List.replicate env.size ⟨[.bestCost .inf, .bestPermutation (List.replicate g.length 0)], .ok ()⟩ := by
  obtain ⟨m, hm, hdim, -⟩ := matrix hacc
  obtain ⟨⟨k, s, a1, a2⟩, h2⟩ := @C127_dynamic _ R.ops (topInf R) rfl m (by omega) (env.size - 1)
  simp only [MpiRuns, hm, MpiExactRun]
  refine ⟨⟨_, _, ⟨k, s, a1, a2, rfl⟩, rfl⟩, ?_⟩
  rintro outs ⟨r, ⟨k, s, hs, hf, rfl⟩, rfl⟩
  obtain ⟨-, -, -, -, h⟩ := h2 k s hs
  rw [← hdim]
  rcases h hf with e | ⟨x, q, e, hq, hx, y, hy⟩ | ⟨e, -⟩
  · left
    rw [e]
    rfl
  · right; left
    rw [e]
    cases x with
    | nan => cases hx
    | ninf => cases hx
    | inf => cases y <;> cases hy
    | fin v =>
      refine ⟨v, q, ?_, hq, rfl⟩
      have : FloatOps.le (XNum.fin 0) (XNum.fin v) = true := hx
      simpa using this
  · right; right
    rw [e]
    rfl

omit [IsStrictOrderedRing K] in
theorem infOrPos_of {g : Graph (XNum K)} {m : Mat (XNum K)}
    (hE : ∀ i j, i < m.dim → j < m.dim → i ≠ j → ∃ es ∈ g, ∃ e ∈ es, m.get i j = e.cost)
    (hc : ∀ es ∈ g, ∀ e ∈ es, e.cost = .inf ∨ ∃ w, e.cost = .fin w ∧ D w ∧ 0 ≤ w) : InfOrPos D m := by
  intro i j hi hj hij
  obtain ⟨es, hes, e, he, h⟩ := hE i j hi hj hij
  rw [h]
  exact hc es hes e he

/-- **C127** (v1, costs that are infinite or not negative) Every accepted instance with at least four cities, without
edges from a vertex to itself, whose costs are infinite or numbers of the arithmetic that are not negative, at least
two processes: in every outcome of `walky exact v1 --parallelism mpi` all ranks fail without output, or they print
the same finite number and the same tour of all cities, which contains no infinite edge. Hence all ranks fail in
every job if every tour contains an infinite edge. -/
theorem C127_v1_partial (hF : R.Floors D) (hD : D 0) {g : Graph (XNum K)}
    (hacc : @doConditionsHold _ R.ops g = .ok true) (hl : NoLoop g) (hn : 4 ≤ g.length)
    (hc : ∀ es ∈ g, ∀ e ∈ es, e.cost = .inf ∨ ∃ w, e.cost = .fin w ∧ D w ∧ 0 ≤ w)
    {env : MpiEnv (XNum K)} (hs : 2 ≤ env.size) (outs : List (Out (XNum K)))
    (hout : @MpiRuns _ R.ops env g (.exact .v1) outs) :
    outs = List.replicate env.size ⟨[], .error .explicit⟩ ∨
    ∃ v q, 0 ≤ v ∧ IsTour g.length q ∧
      (∀ i es, g[i]? = some es → ∀ e ∈ es, (i, e.dst) ∈ q.zip (q.tail ++ q.take 1) → e.cost ≠ .inf) ∧
      outs = List.replicate env.size ⟨[.bestCost (.fin v), .bestPermutation q], .ok ()⟩ := by
  obtain ⟨m, hm, hdim, hE⟩ := matrix hacc
  obtain ⟨hE1, hE2⟩ := hE hl
  have hpos := infOrPos_of hE2 hc
  simp only [MpiRuns, hm, MpiExactRun] at hout
  obtain ⟨r, ⟨k, s, hst, hf, rfl⟩, rfl⟩ := hout
  have h := @dany_steps _ R.ops (topInf R) m _
    (fun g pre hp => searchMpi_pos hF hD hpos (by omega) g hp) (by omega) _ _ _ hst
  rcases @dany_result _ R.ops m _ (by omega) _ _ _ h hf with e | ⟨x, w, -, e, hq, ⟨-, hfin⟩, -, -, p, ⟨v, hv, hv0⟩, -⟩ | ⟨-, e⟩
  · left
    rw [e]
    rfl
  · right
    rw [e]
    have hv' : x = .fin v := hv
    subst hv'
    refine ⟨v, w.sol.2, hv0, hdim ▸ hq, ?_, rfl⟩
    intro i es hi e he hmem
    rw [← hE1 i es hi e he]
    exact hfin _ hmem
  · exfalso
    have hlen := (@DAny.tok _ R.ops _ _ _ _ _ h).len
    have hlt : 0 < s.workers.length := by omega
    obtain ⟨-, ⟨⟨v, hv, hv0⟩, -⟩, hz⟩ := e _ (List.getElem_mem hlt)
    rw [hv] at hz
    have : FloatOps.le (XNum.fin 0) (XNum.fin v) = true := by simpa using hv0
    rw [show FloatOps.le (XNum.fin 0) (XNum.fin v) = false from hz] at this
    cases this

omit [IsStrictOrderedRing K] in
/-- the spanning tree bound of a rank -/
theorem mpiMst_total {env : MpiEnv (XNum K)} (henv : env.Ok) {m : Mat (XNum K)} (r : Nat) (queue : Bool) :
    ∃ x, @mpiMst _ R.ops env m r queue = ⟨[.mstBound x], .ok ()⟩ := by
  unfold mpiMst
  cases queue with
  | false =>
    obtain ⟨s, -, -, h⟩ := @primSeq_eq _ R.ops m [] rfl (by simp)
    simp only [Bool.false_eq_true, if_false, h]
    exact ⟨_, rfl⟩
  | true =>
    obtain ⟨t, ht⟩ := @primQueue_total _ R.ops m rfl (env.peek r)
      (fun it l hl => (henv.peek r).some_of_ne it l hl) (fun it l x hx => (henv.peek r).mem it l x hx)
    simp only [if_true, ht]
    exact ⟨_, rfl⟩

omit [IsStrictOrderedRing K] in
/-- **C127** (spanning trees) Every accepted instance, any numbers as costs, any rounding, any number of processes:
with `walky lower-bound mst` and `mst-queue` every rank prints one number. -/
theorem C127_mst {g : Graph (XNum K)} (hacc : @doConditionsHold _ R.ops g = .ok true) {env : MpiEnv (XNum K)}
    (henv : env.Ok) {a : LowerBoundAlgorithm} (ha : a ≠ .oneTree) (outs : List (Out (XNum K)))
    (hout : @MpiRuns _ R.ops env g (.lowerBound a) outs) :
    outs.length = env.size ∧ ∀ o ∈ outs, ∃ x, o = ⟨[.mstBound x], .ok ()⟩ := by
  obtain ⟨m, hm, hdim, -⟩ := matrix hacc
  have key := mpiMst_total (R := R) (m := m) henv
  simp only [MpiRuns, hm] at hout
  subst hout
  cases a with
  | oneTree => exact absurd rfl ha
  | mst =>
    refine ⟨by simp [mpiLowerBound], fun o ho => ?_⟩
    obtain ⟨r, -, rfl⟩ := List.mem_map.mp ho
    exact key r false
  | mstQueue =>
    refine ⟨by simp [mpiLowerBound], fun o ho => ?_⟩
    obtain ⟨r, -, rfl⟩ := List.mem_map.mp ho
    exact key r true

private theorem mapM_total {β γ : Type} {f : β → RM γ} {P : γ → Prop} : ∀ (l : List β),
    (∀ x ∈ l, ∃ y, f x = .ok y ∧ P y) → ∃ ys, l.mapM f = .ok ys ∧ ys.length = l.length ∧ ∀ y ∈ ys, P y
  | [], _ => ⟨[], rfl, rfl, by simp⟩
  | a :: t, h => by
    obtain ⟨y, h1, h2⟩ := h a (by simp)
    obtain ⟨ys, h3, h4, h5⟩ := mapM_total t (fun x hx => h x (List.mem_cons_of_mem _ hx))
    refine ⟨y :: ys, ?_, by simp [h4], ?_⟩
    · rw [List.mapM_cons, h1, rm_bind_ok, h3]
      rfl
    · intro q hq
      rcases List.mem_cons.mp hq with rfl | hq
      · exact h2
      · exact h5 q hq

/-- the 1-tree bound of the job -/
theorem oneTreeLbMpi_pos (hR : R.Signed) {m : Mat (XNum K)} (hm : ∀ i j, i < m.dim → j < m.dim → Pos (m.get i j))
    (hn : 2 ≤ m.dim) {size : Nat} (h1 : 1 ≤ size) (h2 : size ≤ m.dim) {shape : List (XNum K) → RTree (XNum K)}
    (hshape : ∀ l, (shape l).flatten.Perm l) : ∃ w, @oneTreeLbMpi _ R.ops shape size m = .ok w ∧ Pos w := by
  obtain ⟨ls, a1, a2, a3⟩ := mapM_total (f := @oneTreeLocal _ R.ops m size) (P := Pos) (List.range size) (by
    intro r hr
    have hr' : r < size := by simpa using hr
    obtain ⟨ws, b1, b2, b3⟩ := mapM_total (f := @oneTreeWeight _ R.ops m) (P := Pos) (stepBy r size m.dim) (by
      intro i hi
      have hi' : i < m.dim := by simpa using List.mem_of_mem_filter hi
      exact oneTreeWeight_pos hR hm hn hi')
    have hne : ws ≠ [] := by
      rintro rfl
      have : r ∈ stepBy r size m.dim := by
        simp [stepBy]
        omega
      have hz := List.length_eq_zero_iff.mp b2.symm
      rw [hz] at this
      cases this
    obtain ⟨x, e1, e2⟩ := maxByL_pos (R := R) hne b3
    refine ⟨x, ?_, e2⟩
    unfold oneTreeLocal
    rw [b1, rm_bind_ok, e1]
    rfl)
  unfold oneTreeLbMpi
  rw [a1, rm_bind_ok]
  rcases RTree.reduce_sel (f := @mpiMax _ R.ops) (R := fun _ _ => True) (P := Pos) (fun _ _ => trivial)
    (fun _ _ _ _ _ => trivial) (fun a b _ _ => ⟨by unfold mpiMax; split <;> simp, trivial, trivial⟩) (shape ls)
    (fun x hx => a3 x ((hshape ls).subset hx)) with ⟨e, -⟩ | ⟨w, e1, e2, -⟩
  · have hl := (hshape ls).length_eq
    rw [e, a2] at hl
    simp at hl
    omega
  · exact ⟨w, by rw [e1]; rfl, a3 w ((hshape ls).subset e2)⟩

/-- **C127** (1-tree) Every accepted instance with at least two cities whose costs are infinite or not negative,
any rounding that does not change the sign, at most as many processes as cities: with
`walky lower-bound one-tree` the root prints one number, which is infinite or not negative, and all other ranks end
without output. -/
theorem C127_one_tree_partial (hR : R.Signed) {g : Graph (XNum K)} (hacc : @doConditionsHold _ R.ops g = .ok true)
    (hn : 2 ≤ g.length) (hc : ∀ es ∈ g, ∀ e ∈ es, e.cost = .inf ∨ ∃ v, e.cost = .fin v ∧ 0 ≤ v)
    {env : MpiEnv (XNum K)} (henv : env.Ok) (hs : env.size ≤ g.length) (outs : List (Out (XNum K)))
    (hout : @MpiRuns _ R.ops env g (.lowerBound .oneTree) outs) :
    ∃ x, (x = .inf ∨ ∃ v, x = .fin v ∧ 0 ≤ v) ∧
      outs = ⟨[.oneTreeBound x], .ok ()⟩ :: List.replicate (env.size - 1) ⟨[], .ok ()⟩ := by
  obtain ⟨m, hm, hdim, -⟩ := matrix hacc
  have hm1 : naFromGraph g = .ok m := by
    have hpg : @parseChecked _ R.ops g = .ok g := by
      unfold parseChecked
      rw [hacc]
      rfl
    rw [hpg, rm_bind_ok] at hm
    exact hm
  have hpos := (naFromGraph_pred (P := Pos) pos_good.zero pos_good.inf hc hm1).2
  obtain ⟨w, h1, h2⟩ := oneTreeLbMpi_pos hR hpos (by omega) henv.size (by omega) henv.oneTreeShape
  simp only [MpiRuns, hm, mpiLowerBound, h1] at hout
  refine ⟨w, h2, ?_⟩
  rw [hout]
  unfold MpiEnv.rootAnd
  obtain ⟨k, hk⟩ : ∃ k, env.size = k + 1 := ⟨env.size - 1, by have := henv.size; omega⟩
  rw [hk, List.range_succ_eq_map]
  simp only [List.map_cons, if_true, List.map_map, Nat.add_sub_cancel, List.cons.injEq, true_and]
  rw [List.eq_replicate_iff]
  refine ⟨by simp, ?_⟩
  intro o ho
  obtain ⟨r, -, rfl⟩ := List.mem_map.mp ho
  simp

omit [Field K] [LinearOrder K] [IsStrictOrderedRing K] in
theorem bindOk {β γ : Type} {x : RM β} {f : β → RM γ} {r : γ} (h : (x >>= f) = .ok r) :
    ∃ y, x = .ok y ∧ f y = .ok r := by
  cases x with
  | error e => cases h
  | ok y => exact ⟨y, rfl, h⟩

/-- the distances of a nearest neighbour walk -/
private theorem nnLoop_pos (hR : R.Signed) {m : Mat (XNum K)} (hm : ∀ i j, i < m.dim → j < m.dim → Pos (m.get i j)) :
    ∀ (fuel : Nat) (s r : NNState (XNum K)), Pos s.distance → @nnLoop _ R.ops m fuel s = .ok r → Pos r.distance := by
  intro fuel
  induction fuel with
  | zero =>
    intro s r hs h
    unfold nnLoop at h
    split at h
    · cases h
    · rw [← Except.ok.inj h]; exact hs
  | succ fuel ih =>
    intro s r hs h
    unfold nnLoop at h
    split at h
    · obtain ⟨⟨near, d⟩, h1, h2⟩ := bindOk h
      have hd : Pos d := by
        refine foldlM_inv' (P := fun q : Option Nat × XNum K => Pos q.2) ?_ (s := (none, .inf)) (Or.inl rfl) h1
        intro q hq x _ q' hq'
        unfold nnScanStep at hq'
        obtain ⟨v, -, hq'⟩ := bindOk hq'
        split at hq'
        · rw [← Except.ok.inj hq']; exact hq
        · obtain ⟨e, he, hq'⟩ := bindOk hq'
          split at hq'
          · rw [← Except.ok.inj hq']
            unfold Mat.entry at he
            split at he
            · rename_i hlt
              rw [← Except.ok.inj he]
              exact hm _ _ hlt.1 hlt.2
            · cases he
          · rw [← Except.ok.inj hq']; exact hq
      cases near with
      | none => cases h2
      | some x =>
        simp only at h2
        split at h2
        · exact ih _ r (hs.add hR hd) h2
        · cases h2
    · rw [← Except.ok.inj h]; exact hs

private theorem singleNN_pos (hR : R.Signed) {m : Mat (XNum K)}
    (hm : ∀ i j, i < m.dim → j < m.dim → Pos (m.get i j)) {i : Nat} {r : Solution (XNum K)}
    (h : @singleNN _ R.ops m i = .ok r) : Pos r.1 := by
  unfold singleNN at h
  split at h
  · obtain ⟨s, h1, h⟩ := bindOk h
    obtain ⟨d, h2, h⟩ := bindOk h
    rw [← Except.ok.inj h]
    refine Pos.add hR (nnLoop_pos hR hm _ _ _ pos_good.zero h1) ?_
    unfold Mat.entry at h2
    split at h2
    · rename_i hlt
      rw [← Except.ok.inj h2]
      exact hm _ _ hlt.1 hlt.2
    · cases h2
  · cases h

/-- smaller cost, or the same cost and a rank that is not larger -/
private def Before (a b : XNum K × Nat) : Prop := FloatOps.lt a.1 b.1 = true ∨ (a.1 = b.1 ∧ a.2 ≤ b.2)

omit [IsStrictOrderedRing K] in
private theorem before_antisymm {a b : XNum K × Nat} (h1 : Before a b) (h2 : Before b a) : a = b := by
  have key : ∀ x y : XNum K, FloatOps.lt x y = true → FloatOps.lt y x = true → False := by
    intro x y h h'
    cases x <;> cases y <;> first | cases h; done | cases h' | skip
    simp at h h'
    exact lt_asymm h h'
  have irr : ∀ x : XNum K, ¬ FloatOps.lt x x = true := fun x h => key x x h h
  rcases h1 with h1 | ⟨e1, h1⟩ <;> rcases h2 with h2 | ⟨e2, h2⟩
  · exact absurd h2 (fun h => key _ _ h1 h)
  · rw [e2] at h1; exact absurd h1 (irr _)
  · rw [e1] at h2; exact absurd h2 (irr _)
  · exact Prod.ext e1 (le_antisymm h1 h2)

omit [IsStrictOrderedRing K] in
private theorem three_ways {a b : XNum K} (ha : a ≠ .nan) (hb : b ≠ .nan) :
    (FloatOps.lt a b = true ∧ FloatOps.eq a b = false) ∨
    (a = b ∧ FloatOps.lt a b = false ∧ FloatOps.eq a b = true) ∨
    (FloatOps.lt b a = true ∧ FloatOps.lt a b = false ∧ FloatOps.eq a b = false) := by
  cases a <;> cases b <;> first
    | exact absurd rfl ha | exact absurd rfl hb | exact Or.inl ⟨rfl, rfl⟩ | exact Or.inr (Or.inl ⟨rfl, rfl, rfl⟩)
    | exact Or.inr (Or.inr ⟨rfl, rfl, rfl⟩)
    | skip
  rename_i x y
  simp only [XNum.lt_fin, XNum.eq_fin, decide_eq_true_eq, decide_eq_false_iff_not, XNum.fin.injEq]
  rcases lt_trichotomy x y with h | h | h
  · exact Or.inl ⟨h, h.ne⟩
  · exact Or.inr (Or.inl ⟨h, by simp [h], h⟩)
  · exact Or.inr (Or.inr ⟨h, by simp [h.le], h.ne'⟩)

omit [IsStrictOrderedRing K] in
private theorem costRank_sel (t : RTree (XNum K × Nat)) (h : ∀ x ∈ t.flatten, x.1 ≠ .nan) (hne : t.flatten ≠ []) :
    ∃ w, t.reduce (@costRankOp _ R.ops) = some w ∧ w ∈ t.flatten ∧ ∀ x ∈ t.flatten, Before w x := by
  have := RTree.reduce_sel (f := @costRankOp _ R.ops) (R := Before) (P := fun x : XNum K × Nat => x.1 ≠ .nan)
    (fun a _ => Or.inr ⟨rfl, le_rfl⟩)
    (by
      intro a b c h1 h2
      have key : ∀ x y z : XNum K, FloatOps.lt x y = true → FloatOps.lt y z = true → FloatOps.lt x z = true := by
        intro x y z h h'
        cases x <;> cases y <;> cases z <;> first | cases h; done | cases h'; done | rfl | skip
        simp at h h' ⊢
        exact h.trans h'
      rcases h1 with h1 | ⟨e1, h1⟩ <;> rcases h2 with h2 | ⟨e2, h2⟩
      · exact Or.inl (key _ _ _ h1 h2)
      · exact Or.inl (by rw [← e2]; exact h1)
      · exact Or.inl (by rw [e1]; exact h2)
      · exact Or.inr ⟨e1.trans e2, h1.trans h2⟩)
    (by
      rintro ⟨a, r⟩ ⟨b, r'⟩ ha hb
      have hcr : @costRankOp _ R.ops (a, r) (b, r') = costRankOp (a, r) (b, r') := rfl
      rw [hcr]
      unfold costRankOp Before
      rcases three_ways ha hb with ⟨h1, h2⟩ | ⟨h1, h2, h3⟩ | ⟨h1, h2, h3⟩
      · simp only at h1
        simp [h1]
      · simp only at h1 h2 h3
        subst h1
        by_cases h4 : r < r'
        · simp [h2, h3, h4, h4.le]
        · simp [h2, h3, h4, not_lt.mp h4]
      · simp only at h1 h2 h3
        simp [h1, h2, h3])
    t h
  rcases this with ⟨h1, _⟩ | h
  · exact absurd h1 hne
  · exact h

private theorem mapM_either {β γ : Type} {f : β → RM γ} {P : γ → Prop} {Q : Prop} {e : Panic} : ∀ (l : List β),
    (∀ x ∈ l, (∃ y, f x = .ok y ∧ P y) ∨ (f x = .error e ∧ Q)) →
    (∃ ys, l.mapM f = .ok ys ∧ ys.length = l.length ∧ ∀ y ∈ ys, P y) ∨ (l.mapM f = .error e ∧ Q)
  | [], _ => Or.inl ⟨[], rfl, rfl, by simp⟩
  | a :: t, h => by
    rcases h a (by simp) with ⟨y, h1, h2⟩ | ⟨h1, h2⟩
    · rcases mapM_either t (fun x hx => h x (List.mem_cons_of_mem _ hx)) with ⟨ys, h3, h4, h5⟩ | ⟨h3, h4⟩
      · refine Or.inl ⟨y :: ys, ?_, by simp [h4], ?_⟩
        · rw [List.mapM_cons, h1, rm_bind_ok, h3]
          rfl
        · intro q hq
          rcases List.mem_cons.mp hq with rfl | hq
          · exact h2
          · exact h5 q hq
      · refine Or.inr ⟨?_, h4⟩
        rw [List.mapM_cons, h1, rm_bind_ok, h3]
        rfl
    · refine Or.inr ⟨?_, h2⟩
      rw [List.mapM_cons, h1]
      rfl

omit [IsStrictOrderedRing K] in
/-- the nearest neighbour search of the job -/
theorem nnMpi_total {P : XNum K → Prop} (hnan : ∀ x, P x → x ≠ .nan) {m : Mat (XNum K)}
    (hone : ∀ i r, @singleNN _ R.ops m i = .ok r → P r.1)
    {size : Nat} (h1 : 1 ≤ size) (h2 : size ≤ m.dim) {shape : Nat → List (XNum K × Nat) → RTree (XNum K × Nat)}
    (hshape : ∀ r l, (shape r l).flatten.Perm l) :
    (∃ x q, @nnMpi _ R.ops shape size m = .ok (List.replicate size (x, q)) ∧ P x ∧ IsTour m.dim q) ∨
    (@nnMpi _ R.ops shape size m = .error .explicit ∧ ∃ x < m.dim, ∃ y < m.dim, x ≠ y ∧ ¬ FloatOps.lt (m.get x y) .inf = true) := by
  have hloc := mapM_either (f := @nnLocal _ R.ops m size) (e := .explicit)
    (P := fun r : Solution (XNum K) => P r.1 ∧ IsTour m.dim r.2)
    (Q := ∃ x < m.dim, ∃ y < m.dim, x ≠ y ∧ ¬ FloatOps.lt (m.get x y) .inf = true) (List.range size) (by
      intro r hr
      have hr' : r < size := by simpa using hr
      rcases mapM_either (f := @singleNN _ R.ops m) (e := .explicit)
        (P := fun r : Solution (XNum K) => P r.1 ∧ IsTour m.dim r.2)
        (Q := ∃ x < m.dim, ∃ y < m.dim, x ≠ y ∧ ¬ FloatOps.lt (m.get x y) .inf = true) (nnChunk m.dim size r) (by
          intro i hi
          rcases @singleNN_total _ R.ops m i (nnChunk_lt hr' hi) with ⟨s, a1, a2, -⟩ | ⟨a1, x, hx, y, hy, hxy, hn⟩
          · exact Or.inl ⟨s, a1, hone _ _ a1, a2⟩
          · exact Or.inr ⟨a1, x, hx, y, hy, hxy, hn⟩) with ⟨sols, b1, b2, b3⟩ | ⟨b1, b2⟩
      · have hne : sols ≠ [] := by
          rintro rfl
          exact nnChunk_ne_nil (r := r) h1 h2 (List.length_eq_zero_iff.mp b2.symm)
        obtain ⟨y, hy⟩ := minByFirst_isSome (lt := @solLt _ R.ops) hne
        refine Or.inl ⟨y, ?_, b3 y (minByFirst_mem hy)⟩
        unfold nnLocal
        rw [b1, rm_bind_ok, hy]
        rfl
      · refine Or.inr ⟨?_, b2⟩
        unfold nnLocal
        rw [b1]
        rfl)
  unfold nnMpi
  rcases hloc with ⟨ls, a1, a2, a3⟩ | ⟨a1, a2⟩
  · left
    rw [a1]
    simp only [rm_bind_ok]
    simp only [List.length_range] at a2
    obtain ⟨contrib, hcon⟩ : ∃ c, c = (ls.map Prod.fst).zip (List.range size) := ⟨_, rfl⟩
    rw [← hcon]
    have hP : ∀ x ∈ contrib, P x.1 ∧ x.2 < size := by
      rintro ⟨x, j⟩ hx
      rw [hcon] at hx
      obtain ⟨k1, k2⟩ := List.of_mem_zip hx
      obtain ⟨y, hy, rfl⟩ := List.mem_map.mp k1
      exact ⟨(a3 y hy).1, by simpa using k2⟩
    have hne : ∀ r, (shape r contrib).flatten ≠ [] := by
      intro r h0
      have hl := (hshape r contrib).length_eq
      rw [h0, hcon] at hl
      simp [a2] at hl
      omega
    have hred : ∀ r, ∃ w, (shape r contrib).reduce (@costRankOp _ R.ops) = some w ∧ w ∈ contrib ∧
        ∀ x ∈ contrib, Before w x := by
      intro r
      obtain ⟨w, k1, k2, k3⟩ := costRank_sel (R := R) (shape r contrib)
        (fun x hx => hnan _ (hP x ((hshape r contrib).subset hx)).1) (hne r)
      exact ⟨w, k1, (hshape r contrib).subset k2, fun x hx => k3 x ((hshape r contrib).mem_iff.mpr hx)⟩
    obtain ⟨w, -, hw, hmin⟩ := hred 0
    have hall : ∀ r, (shape r contrib).reduce (@costRankOp _ R.ops) = some w := by
      intro r
      obtain ⟨w', k1, k2, k3⟩ := hred r
      rw [k1, before_antisymm (k3 w hw) (hmin w' k2)]
    have hrs : (List.range size).mapM (fun r => unwrapO ((shape r contrib).reduce (@costRankOp _ R.ops))) =
        .ok (List.replicate size w) := by
      rw [mapM_ok (g := fun _ => w) (fun r _ => by rw [hall r]; rfl), List.map_const']
      simp
    rw [hrs]
    obtain ⟨k, rfl⟩ : ∃ k, size = k + 1 := ⟨size - 1, by omega⟩
    have hlt : w.2 < ls.length := by rw [a2]; exact (hP w hw).2
    simp only [rm_bind_ok, List.replicate_succ]
    rw [if_pos (by simp), idx_ok (a := ls[w.2]) (by simp [hlt])]
    refine ⟨w.1, ls[w.2].2, by simp, (hP w hw).1, (a3 _ (List.getElem_mem hlt)).2⟩
  · right
    rw [a1]
    exact ⟨rfl, a2⟩

theorem nnMpi_pos (hR : R.Signed) {m : Mat (XNum K)} (hm : ∀ i j, i < m.dim → j < m.dim → Pos (m.get i j))
    {size : Nat} (h1 : 1 ≤ size) (h2 : size ≤ m.dim) {shape : Nat → List (XNum K × Nat) → RTree (XNum K × Nat)}
    (hshape : ∀ r l, (shape r l).flatten.Perm l) :
    (∃ x q, @nnMpi _ R.ops shape size m = .ok (List.replicate size (x, q)) ∧ Pos x ∧ IsTour m.dim q) ∨
    (@nnMpi _ R.ops shape size m = .error .explicit ∧ ∃ x < m.dim, ∃ y < m.dim, x ≠ y ∧ m.get x y = .inf) := by
  refine (nnMpi_total (P := Pos) ?_ (fun i r h => singleNN_pos hR hm h) h1 h2 hshape).imp_right ?_
  · rintro x (rfl | ⟨v, rfl, -⟩) h <;> cases h
  · rintro ⟨a1, x, hx, y, hy, hxy, hn⟩
    refine ⟨a1, x, hx, y, hy, hxy, ?_⟩
    rcases hm x y hx hy with h | ⟨v, h, -⟩
    · exact h
    · rw [h] at hn
      exact absurd rfl hn

/-- **C127** (nearest neighbour) Every accepted instance with at least one city, without edges from a vertex to
itself, whose costs are infinite or not negative, any rounding that does not change the sign, at most as many
processes as cities, any order of the reduction: in every outcome of `walky approx nearest-neighbour` under MPI all
ranks fail without output, which only happens if a cost is infinite, or all ranks print the same number, which is
infinite or not negative, and the same tour of all cities, followed by a number if a spanning tree bound was asked
for. -/
theorem C127_nearest_neighbour_partial (hR : R.Signed) {g : Graph (XNum K)}
    (hacc : @doConditionsHold _ R.ops g = .ok true) (hl : NoLoop g)
    (hc : ∀ es ∈ g, ∀ e ∈ es, e.cost = .inf ∨ ∃ v, e.cost = .fin v ∧ 0 ≤ v)
    {env : MpiEnv (XNum K)} (henv : env.Ok) (hs : env.size ≤ g.length) {lb : Option LowerBoundAlgorithm}
    (hlb : lb ≠ some .oneTree) (outs : List (Out (XNum K)))
    (hout : @MpiRuns _ R.ops env g (.approx .nearestNeighbour lb) outs) :
    (outs = List.replicate env.size ⟨[], .error .explicit⟩ ∧ ∃ es ∈ g, ∃ e ∈ es, e.cost = .inf) ∨
    ∃ x q, (x = .inf ∨ ∃ v, x = .fin v ∧ 0 ≤ v) ∧ IsTour g.length q ∧ outs.length = env.size ∧
      ∀ o ∈ outs, (lb = none ∧ o = ⟨[.nnWeight x, .nnTour q], .ok ()⟩) ∨
        (lb ≠ none ∧ ∃ y, o = ⟨[.nnWeight x, .nnTour q, .mstBound y], .ok ()⟩) := by
  obtain ⟨m, hm, hdim, hE⟩ := matrix hacc
  have hm1 : naFromGraph g = .ok m := by
    have hpg : @parseChecked _ R.ops g = .ok g := by
      unfold parseChecked
      rw [hacc]
      rfl
    rw [hpg, rm_bind_ok] at hm
    exact hm
  have hpos := (naFromGraph_pred (P := Pos) pos_good.zero pos_good.inf hc hm1).2
  simp only [MpiRuns, hm, mpiApprox] at hout
  rcases nnMpi_pos hR hpos henv.size (by omega) henv.nnShape with ⟨x, q, h1, h2, h3⟩ | ⟨h1, x, hx, y, hy, hxy, h2⟩
  · right
    rw [h1] at hout
    simp only at hout
    refine ⟨x, q, h2, hdim ▸ h3, by rw [hout]; simp, ?_⟩
    intro o ho
    rw [hout] at ho
    obtain ⟨⟨s, r⟩, hmem, rfl⟩ := List.mem_map.mp ho
    have hs' : s = (x, q) := by
      have := (List.mem_zipIdx hmem).2.2
      rw [this]
      simp
    subst hs'
    have key := mpiMst_total (R := R) (m := m) henv
    cases lb with
    | none => exact Or.inl ⟨rfl, rfl⟩
    | some a =>
      right
      refine ⟨by simp, ?_⟩
      cases a with
      | oneTree => exact absurd rfl hlb
      | mst =>
        obtain ⟨y, hy⟩ := key r false
        exact ⟨y, by simp [mpiBoundAfter, hy, Out.andThen]⟩
      | mstQueue =>
        obtain ⟨y, hy⟩ := key r true
        exact ⟨y, by simp [mpiBoundAfter, hy, Out.andThen]⟩
  · left
    rw [h1] at hout
    obtain ⟨es, hes, e, he, h⟩ := (hE hl).2 x y hx hy hxy
    refine ⟨hout, es, hes, e, he, ?_⟩
    rw [← h, h2]

omit [IsStrictOrderedRing K] in
private theorem add_not_nan (hR : ∀ x, R.rnd x ≠ .nan) {a : XNum K} (ha : a ≠ .nan) (v : K) :
    @FloatOps.add _ R.ops a (.fin v) ≠ .nan := by
  cases a with
  | nan => exact absurd rfl ha
  | ninf => intro h; cases h
  | inf => intro h; cases h
  | fin x => exact hR _

omit [IsStrictOrderedRing K] in
private theorem nnLoop_finite (hR : ∀ x, R.rnd x ≠ .nan) {m : Mat (XNum K)}
    (hm : ∀ i j, i < m.dim → j < m.dim → ∃ v, m.get i j = .fin v) :
    ∀ (fuel : Nat) (s r : NNState (XNum K)), s.distance ≠ .nan → @nnLoop _ R.ops m fuel s = .ok r →
      r.distance ≠ .nan := by
  intro fuel
  induction fuel with
  | zero =>
    intro s r hs h
    unfold nnLoop at h
    split at h
    · cases h
    · rw [← Except.ok.inj h]; exact hs
  | succ fuel ih =>
    intro s r hs h
    unfold nnLoop at h
    split at h
    · obtain ⟨⟨near, d⟩, h1, h2⟩ := bindOk h
      have hd : near = none ∨ ∃ v, d = .fin v := by
        refine foldlM_inv' (P := fun q : Option Nat × XNum K => q.1 = none ∨ ∃ v, q.2 = .fin v) ?_
          (s := (none, .inf)) (Or.inl rfl) h1
        intro q hq x _ q' hq'
        unfold nnScanStep at hq'
        obtain ⟨v, -, hq'⟩ := bindOk hq'
        split at hq'
        · rw [← Except.ok.inj hq']; exact hq
        · obtain ⟨e, he, hq'⟩ := bindOk hq'
          split at hq'
          · rw [← Except.ok.inj hq']
            unfold Mat.entry at he
            split at he
            · rename_i hlt
              rw [← Except.ok.inj he]
              exact Or.inr (hm _ _ hlt.1 hlt.2)
            · cases he
          · rw [← Except.ok.inj hq']; exact hq
      cases near with
      | none => cases h2
      | some x =>
        obtain ⟨v, rfl⟩ : ∃ v, d = .fin v := by
          rcases hd with hd | hd
          · cases hd
          · exact hd
        simp only at h2
        split at h2
        · exact ih _ r (add_not_nan hR hs v) h2
        · cases h2
    · rw [← Except.ok.inj h]; exact hs

omit [IsStrictOrderedRing K] in
private theorem singleNN_finite (hR : ∀ x, R.rnd x ≠ .nan) {m : Mat (XNum K)}
    (hm : ∀ i j, i < m.dim → j < m.dim → ∃ v, m.get i j = .fin v) {i : Nat} {r : Solution (XNum K)}
    (h : @singleNN _ R.ops m i = .ok r) : r.1 ≠ .nan := by
  unfold singleNN at h
  split at h
  · obtain ⟨s, h1, h⟩ := bindOk h
    obtain ⟨d, h2, h⟩ := bindOk h
    rw [← Except.ok.inj h]
    unfold Mat.entry at h2
    split at h2
    · rename_i hlt
      obtain ⟨v, hv⟩ := hm _ _ hlt.1 hlt.2
      rw [← Except.ok.inj h2, hv]
      exact add_not_nan hR (nnLoop_finite hR hm _ _ _ (by intro h; cases h) h1) v
    · cases h2
  · cases h

omit [IsStrictOrderedRing K] in
private theorem diag_finite {g : Graph (XNum K)} {m : Mat (XNum K)}
    (hg : ∀ es ∈ g, ∀ e ∈ es, ∃ v, e.cost = .fin v) (h : naFromGraph g = .ok m) :
    ∀ i, ∃ v, m.get i i = .fin v := by
  unfold naFromGraph at h
  refine foldlM_inv' (P := fun m : Mat (XNum K) => ∀ i, ∃ v, m.get i i = .fin v) ?_ ?_ h
  · intro m hm x hx m' hm'
    have hx1 : x.1 ∈ g := by
      obtain ⟨n, hn⟩ := List.mem_iff_getElem?.mp hx
      rw [List.getElem?_zipIdx] at hn
      obtain ⟨y, hy, rfl⟩ := Option.map_eq_some_iff.mp hn
      exact List.mem_of_getElem? hy
    refine foldlM_inv' (P := fun m : Mat (XNum K) => ∀ i, ∃ v, m.get i i = .fin v) ?_ hm hm'
    intro m hm e he m' hm'
    unfold Mat.setEntry at hm'
    split at hm'
    · rw [← Except.ok.inj hm']
      intro i
      simp only [Mat.set]
      split
      · exact hg _ hx1 e he
      · exact hm i
    · cases hm'
  · intro i
    exact ⟨0, by simp [Mat.fromDim]⟩

omit [IsStrictOrderedRing K] in
/-- **C127** (nearest neighbour, negative costs) Every accepted instance with at least one city, without edges from a
vertex to itself, whose costs are finite numbers of any sign, any rounding that never gives NaN, at most as many
processes as cities, any order of the reduction: all ranks of `walky approx nearest-neighbour` under MPI print the same
number, which is not NaN (minus infinity if a sum overflows), and the same tour of all cities, followed by a number if a
spanning tree bound was asked for. -/
theorem C127_nearest_neighbour_finite (hR : ∀ x, R.rnd x ≠ .nan) {g : Graph (XNum K)}
    (hacc : @doConditionsHold _ R.ops g = .ok true) (hl : NoLoop g)
    (hc : ∀ es ∈ g, ∀ e ∈ es, ∃ v, e.cost = .fin v)
    {env : MpiEnv (XNum K)} (henv : env.Ok) (hs : env.size ≤ g.length) {lb : Option LowerBoundAlgorithm}
    (hlb : lb ≠ some .oneTree) (outs : List (Out (XNum K)))
    (hout : @MpiRuns _ R.ops env g (.approx .nearestNeighbour lb) outs) :
    ∃ x q, x ≠ .nan ∧ IsTour g.length q ∧ outs.length = env.size ∧
      ∀ o ∈ outs, (lb = none ∧ o = ⟨[.nnWeight x, .nnTour q], .ok ()⟩) ∨
        (lb ≠ none ∧ ∃ y, o = ⟨[.nnWeight x, .nnTour q, .mstBound y], .ok ()⟩) := by
  obtain ⟨m, hm, hdim, hE⟩ := matrix hacc
  have hm1 : naFromGraph g = .ok m := by
    have hpg : @parseChecked _ R.ops g = .ok g := by
      unfold parseChecked
      rw [hacc]
      rfl
    rw [hpg, rm_bind_ok] at hm
    exact hm
  have hfin : ∀ i j, i < m.dim → j < m.dim → ∃ v, m.get i j = .fin v := by
    intro i j hi hj
    by_cases hij : i = j
    · subst hij
      exact diag_finite hc hm1 i
    · obtain ⟨es, hes, e, he, h⟩ := (hE hl).2 i j hi hj hij
      rw [h]
      exact hc es hes e he
  simp only [MpiRuns, hm, mpiApprox] at hout
  rcases nnMpi_total (P := fun x => x ≠ .nan) (fun _ h => h) (fun i r h => singleNN_finite hR hfin h) henv.size
    (by omega) henv.nnShape with ⟨x, q, h1, h2, h3⟩ | ⟨h1, x, hx, y, hy, hxy, h2⟩
  · rw [h1] at hout
    simp only at hout
    refine ⟨x, q, h2, hdim ▸ h3, by rw [hout]; simp, ?_⟩
    intro o ho
    rw [hout] at ho
    obtain ⟨⟨s, r⟩, hmem, rfl⟩ := List.mem_map.mp ho
    have hs' : s = (x, q) := by
      have := (List.mem_zipIdx hmem).2.2
      rw [this]
      simp
    subst hs'
    have key := mpiMst_total (R := R) (m := m) henv
    cases lb with
    | none => exact Or.inl ⟨rfl, rfl⟩
    | some a =>
      right
      refine ⟨by simp, ?_⟩
      cases a with
      | oneTree => exact absurd rfl hlb
      | mst =>
        obtain ⟨y, hy⟩ := key r false
        exact ⟨y, by simp [mpiBoundAfter, hy, Out.andThen]⟩
      | mstQueue =>
        obtain ⟨y, hy⟩ := key r true
        exact ⟨y, by simp [mpiBoundAfter, hy, Out.andThen]⟩
  · obtain ⟨v, hv⟩ := hfin x y hx hy
    rw [hv] at h2
    exact absurd rfl h2

/-- IEEE double precision never rounds to NaN -/
theorem round64_not_nan (x : ℚ) : binary64.rnd x ≠ .nan := by
  show round64 x ≠ .nan
  unfold round64
  split
  · intro h; cases h
  · split
    · intro h; cases h
    · split <;> intro h <;> cases h

end numbers

/-! ## Examples and negations -/

/-- four cities; the costs of the edges of city 0, and of the other edges -/
def quad (a b : XNum ℚ) : Graph (XNum ℚ) :=
  [[⟨1, a⟩, ⟨2, a⟩, ⟨3, a⟩], [⟨0, a⟩, ⟨2, b⟩, ⟨3, b⟩], [⟨0, a⟩, ⟨1, b⟩, ⟨3, b⟩], [⟨0, a⟩, ⟨1, b⟩, ⟨2, b⟩]]

theorem quad_noLoop (a b : XNum ℚ) : NoLoop (quad a b) := by
  intro i es hi e he
  match i, hi with
  | 0, hi => simp [quad] at hi; subst hi; simp at he; rcases he with rfl | rfl | rfl <;> simp
  | 1, hi => simp [quad] at hi; subst hi; simp at he; rcases he with rfl | rfl | rfl <;> simp
  | 2, hi => simp [quad] at hi; subst hi; simp at he; rcases he with rfl | rfl | rfl <;> simp
  | 3, hi => simp [quad] at hi; subst hi; simp at he; rcases he with rfl | rfl | rfl <;> simp
  | _ + 4, hi => simp [quad] at hi

theorem quad_costs {a b : XNum ℚ} {P : XNum ℚ → Prop} (ha : P a) (hb : P b) :
    ∀ es ∈ quad a b, ∀ e ∈ es, P e.cost := by
  intro es hes e he
  simp [quad] at hes
  rcases hes with rfl | rfl | rfl | rfl <;> simp at he <;> rcases he with rfl | rfl | rfl <;> assumption

/-- `C127_nearest_neighbour_finite` applies to negative costs in double precision; here all ranks print `-10` -/
example : @doConditionsHold _ binary64.ops (quad (.fin (-2)) (.fin (-3))) = .ok true ∧
    (∀ x, binary64.rnd x ≠ .nan) ∧ NoLoop (quad (.fin (-2)) (.fin (-3))) ∧
    (∀ es ∈ quad (.fin (-2)) (.fin (-3)), ∀ e ∈ es, ∃ v, e.cost = .fin v) ∧ mpi3.Ok ∧
    @MpiRuns _ binary64.ops mpi3 (quad (.fin (-2)) (.fin (-3))) (.approx .nearestNeighbour none)
      (List.replicate 3 ⟨[.nnWeight (.fin (-10)), .nnTour [0, 1, 2, 3]], .ok ()⟩) := by
  have hacc : @doConditionsHold _ binary64.ops (quad (.fin (-2)) (.fin (-3))) = .ok true := by decide +kernel
  obtain ⟨m, hm, -⟩ := @instance_total _ binary64.ops _ hacc
  have h1 : ((do @naFromGraph _ binary64.ops (← @parseChecked _ binary64.ops (quad (.fin (-2)) (.fin (-3))))) >>=
      fun m => @nnMpi _ binary64.ops mpi3.nnShape mpi3.size m) = .ok (List.replicate 3 (.fin (-10), [0, 1, 2, 3])) := by
    decide +kernel
  rw [hm, rm_bind_ok] at h1
  refine ⟨hacc, round64_not_nan, quad_noLoop _ _, quad_costs (P := fun x => ∃ v, x = .fin v) ⟨-2, rfl⟩ ⟨-3, rfl⟩,
    mpi3_ok, ?_⟩
  simp only [MpiRuns, hm, mpiApprox, h1]
  rfl

/-- `C127_v1`, `C127_mst` apply to costs of minus infinity, `C127_v1_partial`, `C127_one_tree_partial` and
`C127_nearest_neighbour_partial` to infinite costs, in double precision -/
example : @doConditionsHold _ binary64.ops (quad .ninf (.fin (-3))) = .ok true ∧ mpi3.Ok ∧
    @doConditionsHold _ binary64.ops (quad (.fin 0) .inf) = .ok true ∧ binary64.Signed ∧
    binary64.Floors IsDouble ∧ IsDouble 0 ∧ NoLoop (quad (.fin 0) .inf) ∧
    (∀ es ∈ quad (.fin 0) .inf, ∀ e ∈ es, e.cost = .inf ∨ ∃ w, e.cost = .fin w ∧ IsDouble w ∧ 0 ≤ w) :=
  ⟨by decide +kernel, mpi3_ok, by decide +kernel, signed64, floors64, isDouble_zero, quad_noLoop _ _,
    quad_costs (P := fun x => x = .inf ∨ ∃ w, x = .fin w ∧ IsDouble w ∧ 0 ≤ w)
      (Or.inr ⟨0, rfl, isDouble_zero, le_rfl⟩) (Or.inl rfl)⟩

/-- **C127** (every tour is infinite) Double precision. If the edges of a city are infinite, every job
`walky exact v1 --parallelism mpi` with at least two processes fails, while without MPI `walky exact v3` prints
infinity and an empty tour. -/
theorem C127_v1_infinite : @doConditionsHold _ binary64.ops (quad .inf (.fin 1)) = .ok true ∧
    (∀ env : MpiEnv (XNum ℚ), 2 ≤ env.size →
      (∃ outs, @MpiRuns _ binary64.ops env (quad .inf (.fin 1)) (.exact .v1) outs) ∧
      ∀ outs, @MpiRuns _ binary64.ops env (quad .inf (.fin 1)) (.exact .v1) outs →
        outs = List.replicate env.size ⟨[], .error .explicit⟩) ∧
    @Runs _ binary64.ops env1 (quad .inf (.fin 1)) (.exact .v3 .singleThreaded)
      (.ok [.bestCost .inf, .bestPermutation []]) := by
  have hacc : @doConditionsHold _ binary64.ops (quad .inf (.fin 1)) = .ok true := by decide +kernel
  have one : IsDouble 1 := by
    have := isDouble_pow2 (q := 0) (by norm_num) (by norm_num)
    simpa [pow2] using this
  refine ⟨hacc, ?_, ?_⟩
  · intro env hs
    refine ⟨(C127_v1 hacc (by decide) env).1, fun outs hout => ?_⟩
    rcases C127_v1_partial floors64 isDouble_zero hacc (quad_noLoop _ _) (by decide)
      (quad_costs (P := fun x => x = .inf ∨ ∃ w, x = .fin w ∧ IsDouble w ∧ 0 ≤ w) (Or.inl rfl)
        (Or.inr ⟨1, rfl, one, by norm_num⟩)) hs outs hout with h | ⟨v, q, -, hq, h, -⟩
    · exact h
    · exfalso
      have h4 : (quad .inf (.fin 1)).length = 4 := rfl
      rw [h4] at hq
      have hlen := hq.length
      have h0 : 0 ∈ q := hq.mem.mpr (by decide)
      obtain ⟨k, hk, hk0⟩ := List.mem_iff_getElem.mp h0
      have hl : (q.tail ++ q.take 1).length = q.length := by simp; omega
      have hk' : k < (q.tail ++ q.take 1).length := by omega
      have hmem : (0, (q.tail ++ q.take 1)[k]) ∈ q.zip (q.tail ++ q.take 1) := by
        rw [List.mem_iff_getElem]
        exact ⟨k, by rw [List.length_zip]; omega, by rw [List.getElem_zip, hk0]⟩
      obtain ⟨d, hd⟩ : ∃ d, d = (q.tail ++ q.take 1)[k] := ⟨_, rfl⟩
      rw [← hd] at hmem
      have hdq : d ∈ q := by
        have : d ∈ q.tail ++ q.take 1 := hd ▸ List.getElem_mem hk'
        rcases List.mem_append.mp this with h | h
        · exact List.mem_of_mem_tail h
        · exact List.mem_of_mem_take h
      have hd4 : d < 4 := hq.mem.mp hdq
      have hd0 : d ≠ 0 := by
        rintro rfl
        have hnd := hq.nodup
        rcases q with _ | ⟨x1, _ | ⟨x2, _ | ⟨x3, _ | ⟨x4, _ | ⟨x5, t⟩⟩⟩⟩⟩
        all_goals simp at hlen
        simp at hnd hmem
        omega
      have key : ∀ e ∈ [(⟨1, .inf⟩ : Edge (XNum ℚ)), ⟨2, .inf⟩, ⟨3, .inf⟩], (0, e.dst) ∈ q.zip (q.tail ++ q.take 1) →
          e.cost ≠ .inf := fun e he => h 0 _ rfl e he
      have : d = 1 ∨ d = 2 ∨ d = 3 := by omega
      rcases this with rfl | rfl | rfl
      · exact key ⟨1, .inf⟩ (by simp) hmem rfl
      · exact key ⟨2, .inf⟩ (by simp) hmem rfl
      · exact key ⟨3, .inf⟩ (by simp) hmem rfl
  · have h3 : ((do @naFromGraph _ binary64.ops (← @parseChecked _ binary64.ops (quad .inf (.fin 1)))) >>=
        fun m => @thirdImprovedSolver _ binary64.ops m) = .ok (.inf, []) := by decide +kernel
    obtain ⟨m, hm, -⟩ := @instance_total _ binary64.ops _ hacc
    simp only [Runs, ExactRun, hm]
    rw [hm, rm_bind_ok] at h3
    rw [h3]
    rfl

private def orPanic (o : Option (RM (Solution (XNum ℚ)))) : RM (Solution (XNum ℚ)) :=
  match o with
  | some r => r
  | none => .error .assert

theorem negative_four : ((do @naFromGraph _ binary64.ops (← @parseChecked _ binary64.ops (quad (.fin (-1)) (.fin (-1))))) >>=
    fun m => orPanic (@endD _ binary64.ops m 1 ((true, 0) :: rounds 20 (turn 0)))) = .ok (.inf, [0, 0, 0, 0]) := by
  decide +kernel

/-- **C127 (negation, negative costs)** Double precision, four cities, all costs are -1: every tour costs -4, and
`walky exact v3` prints one. `mpirun -n 2 walky exact -a v1` can print infinity and the "tour" 0, 0, 0, 0. -/
theorem C127_v1_negative : @doConditionsHold _ binary64.ops (quad (.fin (-1)) (.fin (-1))) = .ok true ∧
    (∀ env : MpiEnv (XNum ℚ), env.size = 2 →
      @MpiRuns _ binary64.ops env (quad (.fin (-1)) (.fin (-1))) (.exact .v1)
        (List.replicate 2 ⟨[.bestCost .inf, .bestPermutation [0, 0, 0, 0]], .ok ()⟩)) ∧
    @Runs _ binary64.ops env1 (quad (.fin (-1)) (.fin (-1))) (.exact .v3 .singleThreaded)
      (.ok [.bestCost (.fin (-4)), .bestPermutation [0, 1, 2, 3]]) := by
  have hacc : @doConditionsHold _ binary64.ops (quad (.fin (-1)) (.fin (-1))) = .ok true := by decide +kernel
  obtain ⟨m, hm, -⟩ := @instance_total _ binary64.ops _ hacc
  refine ⟨hacc, ?_, ?_⟩
  · intro env hs
    have h := negative_four
    rw [hm, rm_bind_ok] at h
    simp only [MpiRuns, hm, MpiExactRun, hs]
    refine ⟨.ok (.inf, [0, 0, 0, 0]), ?_, by simp [MpiEnv.all, hs, Out.print]⟩
    cases he : @endD _ binary64.ops m 1 ((true, 0) :: rounds 20 (turn 0)) with
    | none => rw [he] at h; cases h
    | some r =>
      rw [he] at h
      have hr : r = .ok (.inf, [0, 0, 0, 0]) := h
      rw [← hr]
      exact @endD_result _ binary64.ops _ _ _ _ he
  · have h3 : ((do @naFromGraph _ binary64.ops (← @parseChecked _ binary64.ops (quad (.fin (-1)) (.fin (-1))))) >>=
        fun m => @thirdImprovedSolver _ binary64.ops m) = .ok (.fin (-4), [0, 1, 2, 3]) := by decide +kernel
    simp only [Runs, ExactRun, hm]
    rw [hm, rm_bind_ok] at h3
    rw [h3]
    rfl

end Walky.Props
