import Verif.Model.MpiProg
import Verif.Lemmas.Basic
import Verif.Lemmas.Matching

/-! # Helper lemmas: MPI programs rank by rank -/

set_option linter.unusedSectionVars false

namespace Walky

open FloatOps

variable {V R : Type}

/-! ## Executions -/

theorem Steps.trans {σ : Type} {S : σ → σ → Prop} {a b : Nat} {s t u : σ} (h : Steps S a s t)
    (h' : Steps S b t u) : Steps S (a + b) s u := by
  induction h' with
  | refl => exact h
  | tail _ h2 ih => exact .tail (ih h) h2

theorem Steps.single {σ : Type} {S : σ → σ → Prop} {s t : σ} (h : S s t) : Steps S 1 s t :=
  .tail (.refl s) h

theorem Steps.head {σ : Type} {S : σ → σ → Prop} {n : Nat} {s u : σ} (h : Steps S (n + 1) s u) :
    ∃ t, S s t ∧ Steps S n t u := by
  induction n generalizing u with
  | zero =>
    cases h with
    | tail h1 h2 => cases h1; exact ⟨u, h2, .refl u⟩
  | succ n ih =>
    cases h with
    | tail h1 h2 =>
      obtain ⟨t, a, b⟩ := ih h1
      exact ⟨t, a, .tail b h2⟩

/-- If two different steps from the same state always meet again after one step each, and some
execution ends, then all executions end in the same state after the same number of steps. -/
theorem steps_confluent {σ : Type} {S : σ → σ → Prop}
    (hd : ∀ s t u, S s t → S s u → t = u ∨ ∃ v, S t v ∧ S u v) {N : Nat} :
    ∀ {s f : σ}, Steps S N s f → (∀ u, ¬ S f u) → ∀ {k t}, Steps S k s t →
      k ≤ N ∧ Steps S (N - k) t f := by
  have one : ∀ N, ∀ {s f t : σ}, Steps S N s f → (∀ u, ¬ S f u) → S s t →
      1 ≤ N ∧ Steps S (N - 1) t f := by
    intro N
    induction N with
    | zero =>
      intro s f t h hf ht
      cases h
      exact (hf _ ht).elim
    | succ N ih =>
      intro s f t h hf ht
      refine ⟨by omega, ?_⟩
      obtain ⟨u, h1, h2⟩ := h.head
      rcases hd s t u ht h1 with rfl | ⟨v, a, b⟩
      · exact h2
      · obtain ⟨c, d⟩ := ih h2 hf b
        have := (Steps.single a).trans d
        rwa [show 1 + (N - 1) = N + 1 - 1 by omega] at this
  intro s f h hf k t hk
  induction hk with
  | refl => exact ⟨by omega, h⟩
  | @tail k s t u h1 h2 ih =>
    obtain ⟨a, b⟩ := ih h
    obtain ⟨c, d⟩ := one _ b hf h2
    exact ⟨by omega, by rwa [show N - (k + 1) = N - k - 1 by omega]⟩

/-! ## What a rank has handed over only grows -/

/-- `t` continues `s` -/
def Later (s t : Nat → Rank V R) : Prop :=
  ∀ q, (s q).sent <+: (t q).sent ∧ (s q).got <+: (t q).got ∧ (s q).colls <+: (t q).colls

theorem Later.refl (s : Nat → Rank V R) : Later s s :=
  fun _ => ⟨List.prefix_refl _, List.prefix_refl _, List.prefix_refl _⟩

theorem getElem?_prefix {β : Type} {l l' : List β} (h : l <+: l') {i : Nat} {x : β}
    (hx : l[i]? = some x) : l'[i]? = some x := by
  obtain ⟨t, rfl⟩ := h
  have := (List.getElem?_eq_some_iff.mp hx).1
  rw [List.getElem?_append_left this, hx]

theorem rankStep_later {w : World V} {s : Nat → Rank V R} {r : Nat} {x : Rank V R}
    (h : w.rankStep s r = some x) : (s r).sent <+: x.sent ∧ (s r).got <+: x.got ∧
      (s r).colls <+: x.colls := by
  unfold World.rankStep at h
  cases hp : (s r).prog with
  | done => simp [hp] at h
  | fail => simp [hp] at h
  | send dst tag msg next =>
    simp only [hp] at h
    split at h
    · split at h
      · cases h
      · cases h; simp
    · cases h; simp
  | recv src tag next =>
    simp only [hp] at h
    obtain ⟨y, _, rfl⟩ := Option.map_eq_some_iff.mp h
    simp
  | coll c buf next =>
    simp only [hp] at h
    split at h
    · split at h
      · cases h
      · obtain ⟨y, _, rfl⟩ := Option.map_eq_some_iff.mp h
        cases y <;> simp
    · cases h; simp

theorem later_update {w : World V} {s : Nat → Rank V R} {r : Nat} {x : Rank V R}
    (h : w.rankStep s r = some x) : Later s (Function.update s r x) := by
  intro q
  by_cases hq : q = r
  · subst hq
    simpa using rankStep_later h
  · rw [Function.update_of_ne hq]
    exact ⟨List.prefix_refl _, List.prefix_refl _, List.prefix_refl _⟩

/-- more contributions -/
def More (c d : Nat → Option (Coll × List V)) : Prop := ∀ q x, c q = some x → d q = some x

theorem mapM_more {c d : Nat → Option (Coll × List V)} (h : More c d) :
    ∀ {l : List Nat} {r}, l.mapM c = some r → l.mapM d = some r := by
  intro l
  induction l with
  | nil => intro r hr; simpa using hr
  | cons a t ih =>
    intro r hr
    simp only [List.mapM_cons, Option.bind_eq_bind, Option.pure_def, Option.bind_eq_some_iff] at hr ⊢
    obtain ⟨y, h1, z, h2, h3⟩ := hr
    exact ⟨y, h _ _ h1, z, ih h2, h3⟩

theorem contributions_more {w : World V} {c d : Nat → Option (Coll × List V)} (h : More c d) {l}
    (hl : w.contributions c = some l) : w.contributions d = some l := mapM_more h hl

theorem reduced_more {w : World V} {c d : Nat → Option (Coll × List V)} (h : More c d) {o r x}
    (hx : w.reduced o r c = some x) : w.reduced o r d = some x := by
  unfold World.reduced at *
  obtain ⟨l, h1, h2⟩ := Option.map_eq_some_iff.mp hx
  rw [contributions_more h h1, ← h2]
  rfl

theorem collResult_more {w : World V} {c d : Nat → Option (Coll × List V)} (h : More c d) {o r b x}
    (hx : w.collResult o r b c = some x) : w.collResult o r b d = some x := by
  unfold World.collResult at *
  cases o with
  | bcast root =>
    simp only at hx ⊢
    split
    · rename_i hr
      rw [if_pos hr] at hx
      obtain ⟨y, h1, h2⟩ := Option.map_eq_some_iff.mp hx
      rw [h _ _ h1, ← h2]
      rfl
    · rename_i hr
      rwa [if_neg hr] at hx
  | reduce root =>
    simp only at hx ⊢
    split
    · rename_i hr
      rw [if_pos hr] at hx
      exact reduced_more h hx
    · rename_i hr
      rwa [if_neg hr] at hx
  | allReduce => exact reduced_more h hx

theorem isNone_more {w : World V} {c d : Nat → Option (Coll × List V)} (h : More c d)
    (hx : ¬ (w.contributions c).isNone = true) : ¬ (w.contributions d).isNone = true := by
  cases hc : w.contributions c with
  | none => rw [hc] at hx; simp at hx
  | some l => rw [contributions_more h hc]; simp

/-- A step that a rank can do remains possible, with the same effect, whatever other ranks do. -/
theorem rankStep_mono {w : World V} {s t : Nat → Rank V R} (hl : Later s t) {r : Nat}
    (hr : t r = s r) {x : Rank V R} (h : w.rankStep s r = some x) : w.rankStep t r = some x := by
  unfold World.rankStep at *
  rw [hr]
  cases hp : (s r).prog with
  | done => simp [hp] at h
  | fail => simp [hp] at h
  | send dst tag msg next =>
    simp only [hp] at h ⊢
    split
    · rename_i hi
      rw [if_pos hi] at h
      split at h
      · cases h
      · rename_i hn
        rw [if_neg]
        · exact h
        · intro hc
          refine hn ⟨hc.1, lt_of_le_of_lt ?_ hc.2⟩
          exact (((hl dst).2.1).filter _).length_le
    · rename_i hi
      rwa [if_neg hi] at h
  | recv src tag next =>
    simp only [hp] at h ⊢
    obtain ⟨y, h1, h2⟩ := Option.map_eq_some_iff.mp h
    have h3 : ((t src).sentTo r tag)[(s r).gotFrom src tag]? = some y :=
      getElem?_prefix (((hl src).1).filter _) h1
    rw [h3, ← h2]
    rfl
  | coll c buf next =>
    simp only [hp] at h ⊢
    have hm : More (fun q => (s q).colls[(s r).colls.length - 1]?)
        (fun q => (t q).colls[(s r).colls.length - 1]?) := fun q x hx =>
      getElem?_prefix (hl q).2.2 hx
    split
    · rename_i hi
      rw [if_pos hi] at h
      split at h
      · cases h
      · rename_i hn
        rw [if_neg]
        · obtain ⟨y, h1, h2⟩ := Option.map_eq_some_iff.mp h
          rw [collResult_more hm h1, ← h2]
          rfl
        · rintro ⟨h1, h2⟩
          exact isNone_more hm (fun h3 => hn ⟨h1, h3⟩) h2
    · rename_i hi
      rwa [if_neg hi] at h

theorem step_diamond {w : World V} (s t u : Nat → Rank V R) (h : w.Step s t) (h' : w.Step s u) :
    t = u ∨ ∃ v, w.Step t v ∧ w.Step u v := by
  obtain ⟨a, x, ha, hx, rfl⟩ := h
  obtain ⟨b, y, hb, hy, rfl⟩ := h'
  by_cases hab : a = b
  · subst hab
    rw [hx] at hy
    cases hy
    exact .inl rfl
  · refine .inr ⟨Function.update (Function.update s a x) b y, ⟨b, y, hb, ?_, rfl⟩,
      a, x, ha, ?_, Function.update_comm hab _ _ _⟩
    · exact rankStep_mono (later_update hx) (Function.update_of_ne (Ne.symm hab) _ _) hy
    · exact rankStep_mono (later_update hy) (Function.update_of_ne hab _ _) hx

/-- reachable -/
def World.Reach (w : World V) (s t : Nat → Rank V R) : Prop := ∃ n, Steps w.Step n s t

theorem World.Reach.refl {w : World V} (s : Nat → Rank V R) : w.Reach s s := ⟨0, .refl s⟩

theorem World.Reach.trans {w : World V} {s t u : Nat → Rank V R} (h : w.Reach s t)
    (h' : w.Reach t u) : w.Reach s u := by
  obtain ⟨n, a⟩ := h
  obtain ⟨k, b⟩ := h'
  exact ⟨_, a.trans b⟩

theorem reach_step {w : World V} {s : Nat → Rank V R} {r : Nat} (hr : r < w.size) {x : Rank V R}
    (h : w.rankStep s r = some x) : w.Reach s (Function.update s r x) :=
  ⟨1, .single ⟨r, x, hr, h, rfl⟩⟩

/-- All ranks that can do a step do it. -/
theorem reach_all {w : World V} {s : Nat → Rank V R} (x : Nat → Rank V R)
    (h : ∀ r < w.size, w.rankStep s r = some (x r)) :
    w.Reach s fun r => if r < w.size then x r else s r := by
  have key : ∀ k ≤ w.size, w.Reach s (fun r => if r < k then x r else s r) ∧
      Later s (fun r => if r < k then x r else s r) := by
    intro k
    induction k with
    | zero =>
      intro _
      simp only [Nat.not_lt_zero, if_false]
      exact ⟨.refl s, .refl s⟩
    | succ k ih =>
      intro hk
      obtain ⟨h1, h2⟩ := ih (by omega)
      have h3 := h k (by omega)
      have h4 : w.rankStep (fun r => if r < k then x r else s r) k = some (x k) :=
        rankStep_mono h2 (by simp) h3
      have e : Function.update (fun r => if r < k then x r else s r) k (x k) =
          fun r => if r < k + 1 then x r else s r := by
        funext r
        by_cases hr : r = k
        · subst hr; simp
        · rw [Function.update_of_ne hr]
          have : r < k + 1 ↔ r < k := by omega
          simp only [this]
      have h5 := reach_step (w := w) (by omega) h4
      rw [e] at h5
      refine ⟨h1.trans h5, fun q => ?_⟩
      by_cases hq : q < k + 1
      · simp only [hq, if_true]
        exact rankStep_later (h q (by omega))
      · simp only [hq, if_false]
        exact ⟨List.prefix_refl _, List.prefix_refl _, List.prefix_refl _⟩
  exact (key w.size le_rfl).1

/-! ## Collective operations -/

/-- all contributions of an operation that every rank has entered -/
theorem contributions_all {w : World V} {contrib : Nat → Option (Coll × List V)}
    {f : Nat → Coll × List V} (h : ∀ q < w.size, contrib q = some (f q)) :
    w.contributions contrib = some ((List.range w.size).map f) := by
  unfold World.contributions
  have key : ∀ l : List Nat, (∀ q ∈ l, q < w.size) → l.mapM contrib = some (l.map f) := by
    intro l
    induction l with
    | nil => intro _; rfl
    | cons a t ih =>
      intro hl
      simp only [List.mapM_cons, h a (hl a (by simp)), ih fun q hq => hl q (by simp [hq])]
      rfl
  exact key _ (by simp)

/-- the result of a collective operation that all ranks enter -/
def World.allResult (w : World V) (c : Coll) (buf : Nat → List V) (r : Nat) : RM (List V) :=
  match c with
  | .bcast root =>
    if root < w.size ∧ (buf root).length = (buf r).length then .ok (buf root) else .error .explicit
  | .reduce root =>
    if r = root then w.combine r ((List.range w.size).map buf) else .ok (buf r)
  | .allReduce => w.combine r ((List.range w.size).map buf)

theorem collResult_all {w : World V} {contrib : Nat → Option (Coll × List V)} {c : Coll}
    {buf : Nat → List V} (h : ∀ q < w.size, contrib q = some (c, buf q)) (r : Nat) :
    w.collResult c r (buf r) contrib = some (w.allResult c buf r) := by
  have hred : w.reduced c r contrib = some (w.combine r ((List.range w.size).map buf)) := by
    unfold World.reduced
    rw [contributions_all h]
    simp [Function.comp_def]
  unfold World.collResult World.allResult
  cases c with
  | bcast root =>
    simp only
    by_cases hr : root < w.size
    · simp [hr, h root hr]
    · simp [hr]
  | reduce root =>
    simp only
    split
    · exact hred
    · rfl
  | allReduce => exact hred

/-- If all ranks are about to begin the same collective operation, they can all finish it, however MPI
synchronises them. -/
theorem reach_coll {w : World V} {s : Nat → Rank V R} {c : Coll} {buf : Nat → List V}
    {next : Nat → List V → Prog V R} {L : Nat}
    (h : ∀ r < w.size, (s r).prog = .coll c (buf r) (next r) ∧ (s r).inside = false ∧
      (s r).colls.length = L) :
    ∃ t, w.Reach s t ∧ ∀ r < w.size, (t r).prog = .ofRM (w.allResult c buf r) (next r) ∧
      (t r).inside = false ∧ (t r).colls.length = L + 1 ∧ (t r).sent = (s r).sent ∧
      (t r).got = (s r).got := by
  let x : Nat → Rank V R := fun r =>
    { s r with inside := true, colls := (s r).colls ++ [(c, buf r)] }
  have h1 : ∀ r < w.size, w.rankStep s r = some (x r) := by
    intro r hr
    unfold World.rankStep
    simp [(h r hr).1, (h r hr).2.1, x]
  have hs1 := reach_all x h1
  generalize ht : (fun r => if r < w.size then x r else s r) = t at hs1
  have ht' : ∀ r < w.size, t r = x r := fun r hr => by simp [← ht, hr]
  let y : Nat → Rank V R := fun r =>
    { x r with prog := .ofRM (w.allResult c buf r) (next r), inside := false }
  have hlen : ∀ r < w.size, (x r).colls.length = L + 1 := fun r hr => by
    simp [x, (h r hr).2.2]
  have hcon : ∀ q < w.size, (t q).colls[L]? = some (c, buf q) := by
    intro q hq
    rw [ht' q hq]
    simp [x, ← (h q hq).2.2]
  have h2 : ∀ r < w.size, w.rankStep t r = some (y r) := by
    intro r hr
    unfold World.rankStep
    have e1 : (x r).prog = .coll c (buf r) (next r) := (h r hr).1
    have e2 : (x r).inside = true := rfl
    have e3 : w.contributions (fun q => (t q).colls[L]?) =
        some ((List.range w.size).map fun q => (c, buf q)) := contributions_all hcon
    have e4 : w.collResult c r (buf r) (fun q => (t q).colls[L]?) = some (w.allResult c buf r) :=
      collResult_all hcon r
    simp only [ht' r hr, e1, e2, hlen r hr, Nat.add_sub_cancel, e3, e4, Option.isNone_some,
      Bool.false_eq_true, and_false, if_false, if_true, Option.map_some]
    cases hres : w.allResult c buf r <;> simp [y, hres, Prog.ofRM]
  refine ⟨_, hs1.trans (reach_all y h2), fun r hr => ?_⟩
  simp only [hr, if_true]
  exact ⟨rfl, rfl, hlen r hr, rfl, rfl⟩

/-- Nothing happens any more if all ranks have ended. -/
theorem no_step {w : World V} {s : Nat → Rank V R}
    (h : ∀ r < w.size, (∃ x, (s r).prog = .done x) ∨ ∃ e, (s r).prog = .fail e) :
    ∀ u, ¬ w.Step s u := by
  rintro u ⟨r, x, hr, h1, -⟩
  unfold World.rankStep at h1
  rcases h r hr with ⟨y, hy⟩ | ⟨y, hy⟩ <;> simp [hy] at h1

/-- a failed rank stays failed -/
theorem fail_stays {w : World V} {s t : Nat → Rank V R} {n : Nat} (h : Steps w.Step n s t) {r : Nat}
    {e : Panic} (hr : (s r).prog = .fail e) : (t r).prog = .fail e := by
  induction h with
  | refl => exact hr
  | tail _ h2 ih =>
    obtain ⟨q, x, _, h3, rfl⟩ := h2
    by_cases hq : r = q
    · subst hq
      unfold World.rankStep at h3
      simp [ih hr] at h3
    · rw [Function.update_of_ne hq]
      exact ih hr


/-! ## The root collects two messages of every other rank -/

theorem gotFrom_append (s : Rank V R) (a b c d : Nat) (p : Prog V R) (i : Bool) (st : List (Nat × Nat × List V))
    (cs : List (Coll × List V)) : Rank.gotFrom ⟨p, i, st, s.got ++ [(a, b)], cs⟩ c d =
      s.gotFrom c d + if a = c ∧ b = d then 1 else 0 := by
  unfold Rank.gotFrom
  rw [List.filter_append, List.length_append]
  by_cases h : a = c ∧ b = d
  · simp [h]
  · simp [h]

variable {α : Type} [FloatOps α]

theorem asNats_map (l : List Nat) : asNats (l.map (Val.nat : Nat → Val α)) = .ok l := by
  induction l with
  | nil => rfl
  | cons a t ih => simp [asNats, ih]

theorem asNums_map (l : List α) : asNums (l.map Val.num) = .ok l := by
  induction l with
  | nil => rfl
  | cons a t ih => simp [asNums, ih]

theorem reach_gather {w : World (Val α)} {next : α × List Nat → Prog (Val α) R}
    {cost : Nat → α} {ns : Nat → List Nat} {after : Nat → Prog (Val α) R} :
    ∀ (n rk : Nat) (best : α × List Nat) (s : Nat → Rank (Val α) R), 1 ≤ rk → rk + n = w.size →
    (s 0).prog = gatherProg rk best next n → (s 0).inside = false →
    (∀ q, rk ≤ q → ∀ tag, (s 0).gotFrom q tag = 0) →
    (∀ q, rk ≤ q → q < w.size → (s q).prog =
      .send 0 0 [.num (cost q)] (.send 0 1 ((ns q).map .nat) (after q)) ∧ (s q).inside = false ∧
      (s q).sent = []) →
    ∃ t, w.Reach s t ∧
      (t 0).prog = next ((List.range' rk n).foldl
        (fun b q => if cost q <ᶠ b.1 then (cost q, ns q) else b) best) ∧
      (t 0).inside = false ∧ (∀ q, rk ≤ q → q < w.size → (t q).prog = after q ∧
        (t q).inside = false) ∧ (∀ q, q < rk → q ≠ 0 → t q = s q) ∧
      ∀ q, (t q).colls = (s q).colls := by
  intro n
  induction n with
  | zero =>
    intro rk best s h1 h2 h3 h4 h5 h6
    exact ⟨s, .refl s, h3, h4, fun q ha hb => by omega, fun _ _ _ => rfl, fun _ => rfl⟩
  | succ n ih =>
    intro rk best s h1 h2 h3 h4 h5 h6
    obtain ⟨p1, p2, p3⟩ := h6 rk le_rfl (by omega)
    have hne : (0 : Nat) ≠ rk := by omega
    have hne' : rk ≠ (0 : Nat) := by omega
    -- the rank sends its cost
    let r1 : Rank (Val α) R := { s rk with inside := true, sent := [(0, 0, [.num (cost rk)])] }
    have e1 : w.rankStep s rk = some r1 := by
      unfold World.rankStep; simp [p1, p2, p3, r1]
    let s1 := Function.update s rk r1
    -- the root receives it
    let z1 : Rank (Val α) R := { s 0 with
      prog := .recv rk 1 fun v => .ofRM (asNats v) fun ns =>
        gatherProg (rk + 1) (if cost rk <ᶠ best.1 then (cost rk, ns) else best) next n,
      got := (s 0).got ++ [(rk, 0)] }
    have e2 : w.rankStep s1 0 = some z1 := by
      unfold World.rankStep
      simp [s1, Function.update_of_ne hne, h3, gatherProg, h5 rk le_rfl 0, r1, Rank.sentTo, z1, asNum,
        Prog.ofRM]
    let s2 := Function.update s1 0 z1
    -- the send returns
    let r2 : Rank (Val α) R := { r1 with
      prog := .send 0 1 ((ns rk).map .nat) (after rk), inside := false }
    have e3 : w.rankStep s2 rk = some r2 := by
      unfold World.rankStep
      have g : z1.gotFrom rk 0 = 1 := by
        simp only [z1, gotFrom_append, h5 rk le_rfl 0]; simp
      simp [s2, s1, Function.update_of_ne hne', r1, p1, Rank.sentTo, g, r2]
    let s3 := Function.update s2 rk r2
    -- the rank sends its matching
    let r3 : Rank (Val α) R := { r2 with
      inside := true, sent := [(0, 0, [.num (cost rk)]), (0, 1, (ns rk).map .nat)] }
    have e4 : w.rankStep s3 rk = some r3 := by
      unfold World.rankStep; simp [s3, r2, r1, r3]
    let s4 := Function.update s3 rk r3
    -- the root receives it
    let z2 : Rank (Val α) R := { z1 with
      prog := gatherProg (rk + 1) (if cost rk <ᶠ best.1 then (cost rk, ns rk) else best) next n,
      got := z1.got ++ [(rk, 1)] }
    have e5 : w.rankStep s4 0 = some z2 := by
      unfold World.rankStep
      have g : z1.gotFrom rk 1 = 0 := by
        simp only [z1, gotFrom_append, h5 rk le_rfl 1]; simp
      have a1 : s4 0 = z1 := by
        simp [s4, s3, s2, Function.update_of_ne hne]
      have a2 : s4 rk = r3 := by simp [s4]
      have a3 : z1.prog = .recv rk 1 fun v => .ofRM (asNats v) fun ns =>
        gatherProg (rk + 1) (if cost rk <ᶠ best.1 then (cost rk, ns) else best) next n := rfl
      have a4 : (r3.sentTo 0 1)[0]? = some (0, 1, (ns rk).map .nat) := by simp [r3, Rank.sentTo]
      simp only [a1, a3, a2, g, a4]
      simp [z2, asNats_map, Prog.ofRM]
    let s5 := Function.update s4 0 z2
    -- the send returns
    let r4 : Rank (Val α) R := { r3 with prog := after rk, inside := false }
    have e6 : w.rankStep s5 rk = some r4 := by
      unfold World.rankStep
      have g : z2.gotFrom rk 1 = 1 := by
        simp only [z2, gotFrom_append]
        simp only [z1, gotFrom_append, h5 rk le_rfl 1]; simp
      have a1 : s5 rk = r3 := by simp [s5, s4, Function.update_of_ne hne']
      have a2 : s5 0 = z2 := by simp [s5]
      have a3 : r3.prog = .send 0 1 ((ns rk).map .nat) (after rk) := rfl
      have a4 : (r3.sentTo 0 1).length = 1 := by simp [r3, Rank.sentTo]
      have a5 : r3.inside = true := rfl
      simp only [a1, a3, a5, a2, g, a4]
      simp [r4]
    let s6 := Function.update s5 rk r4
    have hrk : rk < w.size := by omega
    have h0 : 0 < w.size := by omega
    have hreach : w.Reach s s6 :=
      (reach_step hrk e1).trans <| (reach_step h0 e2).trans <| (reach_step hrk e3).trans <|
      (reach_step hrk e4).trans <| (reach_step h0 e5).trans (reach_step hrk e6)
    have b0 : s6 0 = z2 := by simp [s6, s5, Function.update_of_ne hne]
    have b1 : s6 rk = r4 := by simp [s6]
    have b2 : ∀ q, q ≠ rk → q ≠ 0 → s6 q = s q := by
      intro q hq hq'
      simp [s6, s5, s4, s3, s2, s1, Function.update_of_ne hq, Function.update_of_ne hq']
    obtain ⟨t, t1, t2, t3, t4, t5, t6⟩ := ih (rk + 1)
      (if cost rk <ᶠ best.1 then (cost rk, ns rk) else best) s6 (by omega) (by omega)
      (by rw [b0]) (by rw [b0]; exact h4)
      (by
        intro q hq tag
        have : rk ≠ q := by omega
        rw [b0]
        simp only [z2, gotFrom_append]
        simp only [z1, gotFrom_append, h5 q (by omega) tag]
        simp [this])
      (by
        intro q hq hq'
        rw [b2 q (by omega) (by omega)]
        exact h6 q (by omega) hq')
    refine ⟨t, hreach.trans t1, ?_, t3, ?_, ?_, ?_⟩
    · rw [t2, List.range'_succ, List.foldl_cons]
    · intro q hq hq'
      by_cases h : q = rk
      · subst h
        rw [t5 q (by omega) (by omega), b1]
        exact ⟨rfl, rfl⟩
      · exact t4 q (by omega) hq'
    · intro q hq hq'
      rw [t5 q (by omega) hq', b2 q (by omega) hq']
    · intro q
      rw [t6]
      by_cases h : q = rk
      · subst h; rw [b1]
      · by_cases h' : q = 0
        · subst h'; rw [b0]
        · rw [b2 q h h']

end Walky
