import Verif.Props.CliMpi
import Verif.Props.Repeat

/-!
# C123: running an exact MPI job twice

A worker prunes with the best cost it has heard of, and the pruning is not safe (C105). What a worker has heard of
depends on the order of the messages.
-/

namespace Walky.Props

open FloatOps Spec

/-! ## One worker -/

section one
variable {α : Type} [FloatOps α]

/-- two runs of a system in which every reachable state has at most one successor, and final states have none -/
theorem steps_unique {σ : Type} {R : σ → σ → Prop} {I F : σ → Prop} (hI : ∀ s t, I s → R s t → I t)
    (hdet : ∀ s t t', I s → R s t → R s t' → t = t') (hF : ∀ s t, I s → F s → ¬ R s t) {s0 : σ} (h0 : I s0)
    {n n' : Nat} {s s' : σ} (h : Steps R n s0 s) (h' : Steps R n' s0 s') (hf : F s) (hf' : F s') : s = s' := by
  have inv : ∀ {n t}, Steps R n s0 t → I t := by
    intro n t ht
    clear h h'
    induction ht with
    | refl => exact h0
    | tail _ h2 ih => exact hI _ _ (ih h0) h2
  -- states after the same number of steps are equal
  have same : ∀ (k : Nat) (t t' : σ), Steps R k s0 t → Steps R k s0 t' → t = t' := by
    intro k
    induction k with
    | zero =>
      intro t t' h1 h2
      cases h1
      cases h2
      rfl
    | succ k ih =>
      intro t t' h1 h2
      cases h1 with
      | tail a1 b1 =>
        cases h2 with
        | tail a2 b2 =>
          have := ih _ _ a1 a2
          subst this
          exact hdet _ _ _ (inv a1) b1 b2
  have pre : ∀ (k : Nat) (n : Nat) (t : σ), Steps R n s0 t → k < n → ∃ u v, Steps R k s0 u ∧ R u v := by
    intro k n
    induction n with
    | zero => intro t _ h; omega
    | succ n ih =>
      intro t h1 h2
      cases h1 with
      | tail a1 b1 =>
        rcases Nat.lt_or_ge k n with h3 | h3
        · exact ih _ a1 h3
        · have : k = n := by omega
          subst this
          exact ⟨_, _, a1, b1⟩
  rcases Nat.lt_trichotomy n n' with hlt | rfl | hlt
  · obtain ⟨u, v, h1, h2⟩ := pre n n' s' h' hlt
    rw [same n u s h1 h] at h2
    exact absurd h2 (hF s v (inv h) hf)
  · exact same n s s' h h'
  · obtain ⟨u, v, h1, h2⟩ := pre n' n s h hlt
    rw [same n' u s' h1 h'] at h2
    exact absurd h2 (hF s' v (inv h') hf')

/-- a single worker of the dynamic solver: at most one message is on its way -/
structure DOne (s : DSys α) : Prop where
  one : ∃ w, s.workers = [w] ∧ w.up.length + w.down.length ≤ 1 ∧ (∀ x ∈ w.up, x.2 = 1) ∧
    (w.done = true → w.up = [] ∧ w.down = [])

/-- **C123, one worker, dynamic.** With two processes – one coordinator and one worker – the dynamic solver always has
the same outcome, in every arithmetic. -/
theorem C123_dynamic_one_worker {m : Mat α} {r r' : RM (Solution α)} (h : DynamicResult m 1 r)
    (h' : DynamicResult m 1 r') : r = r' := by
  obtain ⟨n, s, h1, h2, rfl⟩ := h
  obtain ⟨n', s', h1', h2', rfl⟩ := h'
  have e := steps_unique (R := DStep m) (I := DOne) (F := DSys.final) ?_ ?_ ?_
    (s0 := initDynamic 1) ⟨_, rfl, by simp, by simp, by simp⟩ h1 h1' h2 h2'
  · rw [e]
  · -- the invariant
    rintro s t ⟨w, hw, k1, k2, k3⟩ hst
    cases hst with
    | recv i w' w'' msg rest a1 a2 a3 a4 =>
      have hi : i = 0 := by
        have := (List.getElem?_eq_some_iff.mp a1).1
        rw [hw] at this
        simpa using this
      subst hi
      rw [hw] at a1
      simp only [List.getElem?_cons_zero, Option.some.injEq] at a1
      subst a1
      rw [a3] at k1
      simp only [List.length_cons] at k1
      have hup : w.up = [] := List.length_eq_zero_iff.mp (by omega)
      have hrest : rest = [] := List.length_eq_zero_iff.mp (by omega)
      unfold dynWorker at a4
      refine ⟨w'', by rw [hw]; rfl, ?_⟩
      split at a4
      · cases a4
        simp [hup, hrest]
      · cases hs : searchMpi m msg.1 msg.2 with
        | error e => rw [hs] at a4; cases a4
        | ok x =>
          rw [hs] at a4
          cases a4
          simp [hup, hrest, a2]
    | root s' i w' msg rest a0 a1 a2 a3 =>
      have hi : i = 0 := by
        have := (List.getElem?_eq_some_iff.mp a1).1
        rw [hw] at this
        simpa using this
      subst hi
      rw [hw] at a1
      simp only [List.getElem?_cons_zero, Option.some.injEq] at a1
      subst a1
      rw [a2] at k1 k2
      simp only [List.length_cons] at k1
      have hdown : w.down = [] := List.length_eq_zero_iff.mp (by omega)
      have hrest : rest = [] := List.length_eq_zero_iff.mp (by omega)
      have hr : msg.2 = 1 := k2 _ (by simp)
      have hdone : w.done = false := by
        cases hd : w.done with
        | false => rfl
        | true =>
          have := (k3 hd).1
          rw [a2] at this
          cases this
      unfold DSys.handle at a3
      cases hc : s.current with
      | none =>
        simp only [hc] at a3
        cases a3
        refine ⟨_, by simp only [hw, hr]; rfl, ?_⟩
        simp [hdown, hrest, hdone]
      | some p =>
        simp only [hc] at a3
        cases hn : nextPrefix m.dim (m.dim ^ 3 + 1) p with
        | error e => rw [hn] at a3; cases a3
        | ok q =>
          rw [hn] at a3
          cases a3
          refine ⟨_, by simp only [hw, hr]; rfl, ?_⟩
          simp [hdown, hrest, hdone]
  · -- one successor
    rintro s t t' ⟨w, hw, k1, k2, k3⟩ ht ht'
    have hget : ∀ {i : Nat} {w' : DWorker α}, s.workers[i]? = some w' → i = 0 ∧ w' = w := by
      intro i w' hi
      have hlt := (List.getElem?_eq_some_iff.mp hi).1
      rw [hw] at hlt hi
      have : i = 0 := by simpa using hlt
      subst this
      simp only [List.getElem?_cons_zero, Option.some.injEq] at hi
      exact ⟨rfl, hi.symm⟩
    cases ht with
    | recv i w' w'' msg rest a1 a2 a3 a4 =>
      obtain ⟨rfl, rfl⟩ := hget a1
      cases ht' with
      | recv i w1 w2 msg' rest' b1 b2 b3 b4 =>
        obtain ⟨rfl, rfl⟩ := hget b1
        rw [a3] at b3
        cases b3
        rw [a4] at b4
        cases b4
        rfl
      | root s' i w1 msg' rest' b0 b1 b2 b3 =>
        obtain ⟨rfl, rfl⟩ := hget b1
        rw [a3, b2] at k1
        simp at k1
        omega
    | root s' i w' msg rest a0 a1 a2 a3 =>
      obtain ⟨rfl, rfl⟩ := hget a1
      cases ht' with
      | recv i w1 w2 msg' rest' b1 b2 b3 b4 =>
        obtain ⟨rfl, rfl⟩ := hget b1
        rw [b3, a2] at k1
        simp at k1
        omega
      | root s' i w1 msg' rest' b0 b1 b2 b3 =>
        obtain ⟨rfl, rfl⟩ := hget b1
        rw [a2] at b2
        cases b2
        rw [a3] at b3
        cases b3
        rfl
  · -- the end
    rintro s t ⟨w, hw, k1, k2, k3⟩ ⟨f1, f2⟩ ht
    have hd : w.done = true := f2 w (by simp [hw])
    cases ht with
    | recv i w' w'' msg rest a1 a2 a3 a4 =>
      have hm : w' ∈ s.workers := List.mem_of_getElem? a1
      rw [f2 w' hm] at a2
      cases a2
    | root s' i w' msg rest a0 a1 a2 a3 => exact f1 a0

/-- a single worker of the static solver: at most one message is on its way, and none while the worker works -/
structure SOne (s : SSys α) : Prop where
  one : ∃ w, s.workers = [w] ∧ w.up.length + w.down.length ≤ 1 ∧ (∀ x ∈ w.up, x.2 = 1) ∧
    (w.phase = .work → w.up = [] ∧ w.down = [])

/-- **C123, one worker, static.** The same for the static solver. -/
theorem C123_static_one_worker {m : Mat α} {r r' : RM (Solution α)} (h : StaticResult m 3 1 r)
    (h' : StaticResult m 3 1 r') : r = r' := by
  obtain ⟨s0, n, s, h0, h1, h2, rfl⟩ := h
  obtain ⟨s0', n', s', h0', h1', h2', rfl⟩ := h'
  rw [h0] at h0'
  cases h0'
  have hinit : SOne s0 := by
    unfold initStatic at h0
    cases hc : splitChunks 3 m.dim 1 0 with
    | error e => simp [hc] at h0
    | ok x =>
      simp [hc] at h0
      subst h0
      exact ⟨_, rfl, by simp, by simp, by simp⟩
  have e := steps_unique (R := SStep m) (I := SOne) (F := SSys.final) ?_ ?_ ?_ hinit h1 h1' h2 h2'
  · rw [e]
  · -- the invariant
    rintro s t ⟨w, hw, k1, k2, k3⟩ hst
    have hget : ∀ {i : Nat} {w' : SWorker α}, s.workers[i]? = some w' → i = 0 ∧ w' = w := by
      intro i w' hi
      have hlt := (List.getElem?_eq_some_iff.mp hi).1
      rw [hw] at hlt hi
      have : i = 0 := by simpa using hlt
      subst this
      simp only [List.getElem?_cons_zero, Option.some.injEq] at hi
      exact ⟨rfl, hi.symm⟩
    cases hst with
    | round i w' w'' a1 a2 a3 =>
      obtain ⟨rfl, rfl⟩ := hget a1
      obtain ⟨hup, hdown⟩ := k3 a2
      refine ⟨w'', by rw [hw]; rfl, ?_⟩
      unfold workerRound at a3
      cases hg : getNextValue w'.digits m.dim with
      | error e => rw [hg] at a3; cases a3
      | ok x =>
        obtain ⟨ds, nx⟩ := x
        rw [hg, rm_bind_ok] at a3
        cases nx with
        | none =>
          cases a3
          simp [hup, hdown]
        | some v =>
          simp only at a3
          split at a3
          · cases a3
            simp [hup, hdown]
          · split at a3
            · cases hs : searchMpi m w'.global v with
              | error e => rw [hs] at a3; cases a3
              | ok x =>
                rw [hs] at a3
                cases a3
                simp [hup, hdown]
            · cases a3
              simp [hup, hdown]
    | recv i w' g rest a1 a2 a3 =>
      obtain ⟨rfl, rfl⟩ := hget a1
      rw [a3] at k1
      simp only [List.length_cons] at k1
      have hup : w'.up = [] := List.length_eq_zero_iff.mp (by omega)
      have hrest : rest = [] := List.length_eq_zero_iff.mp (by omega)
      refine ⟨_, by rw [hw]; rfl, ?_⟩
      simp [hup, hrest]
    | root i w' msg rest a0 a1 a2 =>
      obtain ⟨rfl, rfl⟩ := hget a1
      rw [a2] at k1 k2
      simp only [List.length_cons] at k1
      have hdown : w'.down = [] := List.length_eq_zero_iff.mp (by omega)
      have hrest : rest = [] := List.length_eq_zero_iff.mp (by omega)
      have hr : msg.2 = 1 := k2 _ (by simp)
      have hph : w'.phase ≠ .work := by
        intro hp
        have := (k3 hp).1
        rw [a2] at this
        cases this
      unfold SSys.handle
      split
      · refine ⟨_, by simp only [hw, hr]; rfl, ?_⟩
        simp [hdown, hrest, hph]
      · refine ⟨_, by simp only [hw]; rfl, ?_⟩
        simp [hdown, hrest]
  · -- one successor
    rintro s t t' ⟨w, hw, k1, k2, k3⟩ ht ht'
    have hget : ∀ {i : Nat} {w' : SWorker α}, s.workers[i]? = some w' → i = 0 ∧ w' = w := by
      intro i w' hi
      have hlt := (List.getElem?_eq_some_iff.mp hi).1
      rw [hw] at hlt hi
      have : i = 0 := by simpa using hlt
      subst this
      simp only [List.getElem?_cons_zero, Option.some.injEq] at hi
      exact ⟨rfl, hi.symm⟩
    cases ht with
    | round i w' w'' a1 a2 a3 =>
      obtain ⟨rfl, rfl⟩ := hget a1
      cases ht' with
      | round i w1 w2 b1 b2 b3 =>
        obtain ⟨rfl, rfl⟩ := hget b1
        rw [a3] at b3
        cases b3
        rfl
      | recv i w1 g rest b1 b2 b3 =>
        obtain ⟨rfl, rfl⟩ := hget b1
        rw [a2] at b2
        cases b2
      | root i w1 msg rest b0 b1 b2 =>
        obtain ⟨rfl, rfl⟩ := hget b1
        rw [(k3 a2).1] at b2
        cases b2
    | recv i w' g rest a1 a2 a3 =>
      obtain ⟨rfl, rfl⟩ := hget a1
      cases ht' with
      | round i w1 w2 b1 b2 b3 =>
        obtain ⟨rfl, rfl⟩ := hget b1
        rw [a2] at b2
        cases b2
      | recv i w1 g' rest' b1 b2 b3 =>
        obtain ⟨rfl, rfl⟩ := hget b1
        rw [a3] at b3
        cases b3
        rfl
      | root i w1 msg rest' b0 b1 b2 =>
        obtain ⟨rfl, rfl⟩ := hget b1
        rw [a3, b2] at k1
        simp at k1
        omega
    | root i w' msg rest a0 a1 a2 =>
      obtain ⟨rfl, rfl⟩ := hget a1
      cases ht' with
      | round i w1 w2 b1 b2 b3 =>
        obtain ⟨rfl, rfl⟩ := hget b1
        rw [(k3 b2).1] at a2
        cases a2
      | recv i w1 g' rest' b1 b2 b3 =>
        obtain ⟨rfl, rfl⟩ := hget b1
        rw [b3, a2] at k1
        simp at k1
        omega
      | root i w1 msg' rest' b0 b1 b2 =>
        obtain ⟨rfl, rfl⟩ := hget b1
        rw [a2] at b2
        cases b2
        rfl
  · -- the end
    rintro s t - ⟨f1, f2⟩ ht
    cases ht with
    | round i w' w'' a1 a2 a3 =>
      rw [f2 w' (List.mem_of_getElem? a1)] at a2
      cases a2
    | recv i w' g rest a1 a2 a3 =>
      rw [f2 w' (List.mem_of_getElem? a1)] at a2
      cases a2
    | root i w' msg rest a0 a1 a2 => exact f1 a0

/-! ## Following a schedule -/

/-- run the processes of the dynamic solver in the given order: with `(true, i)` the coordinator takes the next message
of worker `i`, with `(false, i)` worker `i` takes its next answer; what is not possible is skipped -/
def followD (m : Mat α) : List (Bool × Nat) → DSys α → RM (DSys α)
  | [], s => .ok s
  | (b, i) :: l, s =>
    match s.workers[i]? with
    | none => followD m l s
    | some w =>
      if b then
        match w.up with
        | [] => followD m l s
        | msg :: rest =>
          if s.waiting < s.workers.length then do
            followD m l (← DSys.handle { s with workers := s.workers.set i { w with up := rest } } m.dim msg)
          else followD m l s
      else
        match w.done, w.down with
        | false, msg :: rest => do
          let w' ← dynWorker m (i + 1) { w with down := rest } msg
          followD m l { s with workers := s.workers.set i w' }
        | _, _ => followD m l s

theorem followD_steps {m : Mat α} {l : List (Bool × Nat)} {s0 s s' : DSys α} {n : Nat}
    (hs : Steps (DStep m) n s0 s) (h : followD m l s = .ok s') : ∃ n', Steps (DStep m) n' s0 s' := by
  induction l generalizing s n with
  | nil =>
    cases h
    exact ⟨n, hs⟩
  | cons x l ih =>
    obtain ⟨b, i⟩ := x
    unfold followD at h
    cases hw : s.workers[i]? with
    | none =>
      rw [hw] at h
      exact ih hs h
    | some w =>
      rw [hw] at h
      simp only at h
      cases b with
      | true =>
        rw [if_pos rfl] at h
        cases hu : w.up with
        | nil =>
          rw [hu] at h
          exact ih hs h
        | cons msg rest =>
          rw [hu] at h
          simp only at h
          by_cases hlt : s.waiting < s.workers.length
          · rw [if_pos hlt] at h
            cases hh : DSys.handle { s with workers := s.workers.set i { w with up := rest } } m.dim msg with
            | error e => rw [hh] at h; cases h
            | ok t =>
              rw [hh, rm_bind_ok] at h
              exact ih (hs.tail (.root s t i w msg rest hlt hw hu hh)) h
          · rw [if_neg hlt] at h
            exact ih hs h
      | false =>
        rw [if_neg (by decide)] at h
        cases hd : w.done with
        | true =>
          rw [hd] at h
          exact ih hs h
        | false =>
          cases hq : w.down with
          | nil =>
            rw [hd, hq] at h
            exact ih hs h
          | cons msg rest =>
            rw [hd, hq] at h
            simp only at h
            cases hh : dynWorker m (i + 1) { w with down := rest } msg with
            | error e => rw [hd] at hh; rw [hh] at h; cases h
            | ok w' =>
              have hh' := hh
              rw [hd] at hh'
              rw [hh', rm_bind_ok] at h
              exact ih (hs.tail (.recv s i w w' msg rest hw hd hq hh)) h

/-- the same for the static solver; with `(false, i)` worker `i` does a round or takes its answer -/
def followS (m : Mat α) : List (Bool × Nat) → SSys α → RM (SSys α)
  | [], s => .ok s
  | (b, i) :: l, s =>
    match s.workers[i]? with
    | none => followS m l s
    | some w =>
      if b then
        match w.up with
        | [] => followS m l s
        | msg :: rest =>
          if s.finished < s.workers.length then
            followS m l (SSys.handle { s with workers := s.workers.set i { w with up := rest } } msg)
          else followS m l s
      else
        match w.phase, w.down with
        | .work, _ => do
          let w' ← workerRound m (i + 1) w
          followS m l { s with workers := s.workers.set i w' }
        | .wait, g :: rest =>
          followS m l { s with workers := s.workers.set i { w with global := g, phase := .work, down := rest } }
        | _, _ => followS m l s

theorem followS_steps {m : Mat α} {l : List (Bool × Nat)} {s0 s s' : SSys α} {n : Nat}
    (hs : Steps (SStep m) n s0 s) (h : followS m l s = .ok s') : ∃ n', Steps (SStep m) n' s0 s' := by
  induction l generalizing s n with
  | nil =>
    cases h
    exact ⟨n, hs⟩
  | cons x l ih =>
    obtain ⟨b, i⟩ := x
    unfold followS at h
    cases hw : s.workers[i]? with
    | none =>
      rw [hw] at h
      exact ih hs h
    | some w =>
      rw [hw] at h
      simp only at h
      cases b with
      | true =>
        rw [if_pos rfl] at h
        cases hu : w.up with
        | nil =>
          rw [hu] at h
          exact ih hs h
        | cons msg rest =>
          rw [hu] at h
          simp only at h
          by_cases hlt : s.finished < s.workers.length
          · rw [if_pos hlt] at h
            exact ih (hs.tail (.root s i w msg rest hlt hw hu)) h
          · rw [if_neg hlt] at h
            exact ih hs h
      | false =>
        rw [if_neg (by decide)] at h
        cases hp : w.phase with
        | work =>
          rw [hp] at h
          simp only at h
          cases hh : workerRound m (i + 1) w with
          | error e => rw [hh] at h; cases h
          | ok w' =>
            rw [hh, rm_bind_ok] at h
            exact ih (hs.tail (.round s i w w' hw hp hh)) h
        | wait =>
          cases hq : w.down with
          | nil =>
            rw [hp, hq] at h
            exact ih hs h
          | cons g rest =>
            rw [hp, hq] at h
            exact ih (hs.tail (.recv s i w g rest hw hp hq)) h
        | done =>
          rw [hp] at h
          exact ih hs h

/-- a schedule `k` times -/
def rounds (k : Nat) (l : List (Bool × Nat)) : List (Bool × Nat) := (List.replicate k l).flatten

/-- worker `i` works, the coordinator answers -/
def turn (i : Nat) : List (Bool × Nat) := [(false, i), (true, i)]

/-- what a schedule of the dynamic solver ends with, if it brings everybody to the barrier -/
def endD (m : Mat α) (nWorkers : Nat) (l : List (Bool × Nat)) : Option (RM (Solution α)) :=
  match followD m l (initDynamic nWorkers) with
  | .error _ => none
  | .ok s => if ¬ s.waiting < s.workers.length ∧ ∀ w ∈ s.workers, w.done = true then
      some (wrapUp s.winner (s.buffers m.dim)) else none

theorem endD_result {m : Mat α} {nWorkers : Nat} {l : List (Bool × Nat)} {r : RM (Solution α)}
    (h : endD m nWorkers l = some r) : DynamicResult m nWorkers r := by
  unfold endD at h
  cases hf : followD m l (initDynamic nWorkers) with
  | error e => rw [hf] at h; cases h
  | ok s =>
    rw [hf] at h
    simp only at h
    split at h
    · rename_i hfin
      obtain ⟨n, hn⟩ := followD_steps (.refl _) hf
      exact ⟨n, s, hn, hfin, (Option.some.inj h).symm⟩
    · cases h

/-- what a schedule of the static solver ends with, if it brings everybody to the barrier -/
def endS (m : Mat α) (nWorkers : Nat) (l : List (Bool × Nat)) : Option (RM (Solution α)) :=
  match initStatic m 3 nWorkers with
  | .error _ => none
  | .ok s0 =>
    match followS m l s0 with
    | .error _ => none
    | .ok s => if ¬ s.finished < s.workers.length ∧ ∀ w ∈ s.workers, w.phase = .done then
        some (wrapUp s.winner (s.buffers m.dim)) else none

theorem endS_result {m : Mat α} {nWorkers : Nat} {l : List (Bool × Nat)} {r : RM (Solution α)}
    (h : endS m nWorkers l = some r) : StaticResult m 3 nWorkers r := by
  unfold endS at h
  cases hi : initStatic m 3 nWorkers with
  | error e => rw [hi] at h; cases h
  | ok s0 =>
    rw [hi] at h
    simp only at h
    cases hf : followS m l s0 with
    | error e => rw [hf] at h; cases h
    | ok s =>
      rw [hf] at h
      simp only at h
      split at h
      · rename_i hfin
        obtain ⟨n, hn⟩ := followS_steps (.refl _) hf
        exact ⟨s0, n, s, hi, hn, hfin, (Option.some.inj h).symm⟩
      · cases h

/-- **C123, one worker.** With two processes – a coordinator and one worker – the exact solvers are reproducible: two
jobs on the same instance print the same on all ranks, or end with the same panic. This holds for any arithmetic and
every instance. -/
theorem C123_one_worker {env env' : MpiEnv α} (h2 : env.size = 2) (h2' : env'.size = 2) {g : Graph α}
    {a : ExactAlgorithm} {outs outs' : List (Out α)} (h : MpiRuns env g (.exact a) outs)
    (h' : MpiRuns env' g (.exact a) outs') : outs = outs' := by
  simp only [MpiRuns] at h h'
  cases hm : (do naFromGraph (← parseChecked g)) with
  | error e =>
    rw [hm] at h h'
    simp only [MpiEnv.all, h2, h2'] at h h'
    rw [h, h']
  | ok m =>
    rw [hm] at h h'
    simp only [MpiExactRun, MpiEnv.all, h2, h2'] at h h'
    cases a with
    | v0 =>
      obtain ⟨r, k1, rfl⟩ := h
      obtain ⟨r', k2, rfl⟩ := h'
      rw [C123_static_one_worker k1 k2]
    | v1 =>
      obtain ⟨r, k1, rfl⟩ := h
      obtain ⟨r', k2, rfl⟩ := h'
      rw [C123_dynamic_one_worker k1 k2]
    | _ => rw [h, h']

end one

/-! ## Any number of workers -/

section numbers
variable {K : Type} [Field K] [LinearOrder K] [IsStrictOrderedRing K]

/-- **C123, exact solvers.** Two jobs of `walky exact mpi` on the same instance, with any numbers of processes and any
message orders: the costs that they print differ at most by a factor of 2, and up to five cities they are equal. (The
dynamic solver can also fail in one job and succeed in the other, unless there is one worker.) -/
theorem C123_exact_costs {g : Graph (XNum K)} (hacc : doConditionsHold g = .ok true)
    (hl : NoLoop g) (hc : NonnegCosts g) (hn : 4 ≤ g.length) {env env' : MpiEnv (XNum K)} (henv : env.Ok)
    (henv' : env'.Ok) (h2 : 2 ≤ env.size) (h2' : 2 ≤ env'.size) {a a' : ExactAlgorithm}
    (ha : a = .v0 ∧ env.size ≤ g.length ∨ a = .v1) (ha' : a' = .v0 ∧ env'.size ≤ g.length ∨ a' = .v1)
    {outs outs' : List (Out (XNum K))} (h : MpiRuns env g (.exact a) outs) (h' : MpiRuns env' g (.exact a') outs') :
    (a = .v1 ∧ env.size ≠ 2 ∧ ∃ e, outs = List.replicate env.size ⟨[], .error e⟩) ∨
    (a' = .v1 ∧ env'.size ≠ 2 ∧ ∃ e, outs' = List.replicate env'.size ⟨[], .error e⟩) ∨
    ∃ w p w' p', outs = List.replicate env.size ⟨[.bestCost (.fin w), .bestPermutation p], .ok ()⟩ ∧
      outs' = List.replicate env'.size ⟨[.bestCost (.fin w'), .bestPermutation p'], .ok ()⟩ ∧
      IsTour g.length p ∧ IsTour g.length p' ∧ w ≤ 2 * w' ∧ w' ≤ 2 * w ∧ (g.length ≤ 5 → w = w') := by
  obtain ⟨opt, -, hall⟩ := C67_mpi_bounds_partial hacc hl hc (by omega)
  have key : ∀ {env : MpiEnv (XNum K)}, env.Ok → 2 ≤ env.size → ∀ {a : ExactAlgorithm},
      (a = .v0 ∧ env.size ≤ g.length ∨ a = .v1) → ∀ {outs : List (Out (XNum K))}, MpiRuns env g (.exact a) outs →
      (a = .v1 ∧ env.size ≠ 2 ∧ ∃ e, outs = List.replicate env.size ⟨[], .error e⟩) ∨
      ∃ w p, outs = List.replicate env.size ⟨[.bestCost (.fin w), .bestPermutation p], .ok ()⟩ ∧
        IsTour g.length p ∧ opt ≤ w ∧ w ≤ 2 * opt ∧ (g.length ≤ 5 → w = opt) := by
    intro env henv h2 a ha outs h
    obtain ⟨-, k0, k1, -⟩ := hall env henv
    rcases ha with ⟨rfl, hs⟩ | rfl
    · exact Or.inr ((k0 h2 hs).2 outs h)
    · rcases (k1 h2 hn).2 outs h with ⟨e1, e2⟩ | e
      · exact Or.inl ⟨rfl, e1, e2⟩
      · exact Or.inr e
  rcases key henv h2 ha h with e | ⟨w, p, e1, e2, e3, e4, e5⟩
  · exact Or.inl e
  rcases key henv' h2' ha' h' with e | ⟨w', p', f1, f2, f3, f4, f5⟩
  · exact Or.inr (Or.inl e)
  refine Or.inr (Or.inr ⟨w, p, w', p', e1, f1, e2, f2, by linarith, by linarith, fun h5 => ?_⟩)
  rw [e5 h5, f5 h5]

/-- an environment -/
def anyEnv : Env (XNum K) where
  dbg := false
  hash := fun _ => 0
  cpus := 8
  starts := List.range
  nnShape := fun l => l.foldr (fun x t => .node (.leaf x) t) .empty
  oneTreeShape := fun l => l.foldr (fun x t => .node (.leaf x) t) .empty
  peek := fun _ l => minByFirst (fun a b => olt a.2 b.2) l
  rng := { vertices := id, edges := fun _ l => l }
  sched := { shape := fun _ l => l.foldr (fun x t => .node (.leaf x) t) .empty
             update := fun _ => List.range, chunks := fun _ => List.range, columns := List.range }

omit [IsStrictOrderedRing K] in
theorem anyEnv_ok : (anyEnv : Env (XNum K)).Ok := by
  have hfl : ∀ {β : Type} (l : List β), (l.foldr (fun x t => RTree.node (.leaf x) t) .empty).flatten = l := by
    intro β l
    induction l with
    | nil => rfl
    | cons x t ih => simp [RTree.flatten, ih]
  exact ⟨show 1 ≤ 8 by decide, fun n => List.Perm.refl _, fun l => hfl l, fun l => hfl l, peekOk_first, ⟨fun l => List.Perm.refl _,
    fun k l => List.Perm.refl _⟩, ⟨fun _ l => hfl l, fun _ n => List.Perm.refl _,
    fun _ n => List.Perm.refl _, fun n => List.Perm.refl _⟩⟩

/-- **C123, the other commands.** Two jobs on the same instance, with any numbers of processes up to the number of
cities: the nearest neighbour weight, the 1-tree bound and the bound by the spanning tree are the same. -/
theorem C123_same_numbers {g : Graph (XNum K)} (hacc : doConditionsHold g = .ok true)
    (hl : NoLoop g) (hc : NonnegCosts g) (hn : 3 ≤ g.length) :
    (∃ w, ∀ env : MpiEnv (XNum K), env.Ok → env.size ≤ g.length → ∃ p, IsTour g.length p ∧
      ∀ outs, MpiRuns env g (.approx .nearestNeighbour none) outs ↔
        outs = List.replicate env.size ⟨[.nnWeight (.fin w), .nnTour p], .ok ()⟩) ∧
    (∃ w, ∀ env : MpiEnv (XNum K), env.Ok → env.size ≤ g.length →
      ∀ outs, MpiRuns env g (.lowerBound .oneTree) outs ↔
        outs = ⟨[.oneTreeBound (.fin w)], .ok ()⟩ :: List.replicate (env.size - 1) ⟨[], .ok ()⟩) ∧
    ∃ w, ∀ env : MpiEnv (XNum K), env.Ok → ∀ a ∈ [LowerBoundAlgorithm.mst, .mstQueue],
      ∀ outs, MpiRuns env g (.lowerBound a) outs ↔ outs = List.replicate env.size ⟨[.mstBound (.fin w)], .ok ()⟩ := by
  obtain ⟨opt, -, hall⟩ := C67_mpi_bounds_partial hacc hl hc hn
  obtain ⟨m, hm, -⟩ := instance_total hacc
  -- the single-threaded programs in one environment have at most one outcome
  have hf : ∀ {x y : RM (List (Line (XNum K)))} {a : LowerBoundAlgorithm},
      Runs anyEnv g (.lowerBound a .singleThreaded) x → Runs anyEnv g (.lowerBound a .singleThreaded) y → x = y := by
    intro x y a hx hy
    simp only [Runs] at hx hy
    rw [hx, hy]
  have hg : ∀ {x y : RM (List (Line (XNum K)))},
      Runs anyEnv g (.approx .nearestNeighbour .singleThreaded none) x →
      Runs anyEnv g (.approx .nearestNeighbour .singleThreaded none) y → x = y := by
    intro x y hx hy
    simp only [Runs, hm, ApproxRun] at hx hy
    obtain ⟨r, h1, rfl⟩ := hx
    obtain ⟨r', h2, rfl⟩ := hy
    rw [h1, h2]
  refine ⟨?_, ?_, ?_⟩
  · by_cases hex : ∃ w p, Runs anyEnv g (.approx .nearestNeighbour .singleThreaded none)
        (.ok [.nnWeight (.fin w), .nnTour p])
    · obtain ⟨w, p, hw⟩ := hex
      refine ⟨w, fun env henv hs => ?_⟩
      obtain ⟨-, -, -, k, -⟩ := hall env henv
      obtain ⟨w', p', k1, k2, k3⟩ := k hs
      obtain ⟨q, hq⟩ := k3 anyEnv anyEnv_ok
      have e := hg hw hq
      simp only [Except.ok.injEq, List.cons.injEq, Line.nnWeight.injEq, XNum.fin.injEq] at e
      rw [e.1]
      exact ⟨p', k1, k2⟩
    · refine ⟨0, fun env henv hs => ?_⟩
      obtain ⟨-, -, -, k, -⟩ := hall env henv
      obtain ⟨w', p', k1, k2, k3⟩ := k hs
      obtain ⟨q, hq⟩ := k3 anyEnv anyEnv_ok
      exact absurd ⟨_, _, hq⟩ hex
  · by_cases hex : ∃ w, Runs anyEnv g (.lowerBound .oneTree .singleThreaded) (.ok [.oneTreeBound (.fin w)])
    · obtain ⟨w, hw⟩ := hex
      refine ⟨w, fun env henv hs => ?_⟩
      obtain ⟨-, -, -, -, -, k, -⟩ := hall env henv
      obtain ⟨w', k2, k3⟩ := k hs
      have e := hf hw (k3 anyEnv)
      simp only [Except.ok.injEq, List.cons.injEq, Line.oneTreeBound.injEq, XNum.fin.injEq] at e
      rw [e.1]
      exact k2
    · refine ⟨0, fun env henv hs => ?_⟩
      obtain ⟨-, -, -, -, -, k, -⟩ := hall env henv
      obtain ⟨w', k2, k3⟩ := k hs
      exact absurd ⟨_, k3 anyEnv⟩ hex
  · by_cases hex : ∃ w, Runs anyEnv g (.lowerBound .mst .singleThreaded) (.ok [.mstBound (.fin w)])
    · obtain ⟨w, hw⟩ := hex
      refine ⟨w, fun env henv => ?_⟩
      obtain ⟨-, -, -, -, -, -, w', k2, k3⟩ := hall env henv
      have e := hf hw (k3 anyEnv)
      simp only [Except.ok.injEq, List.cons.injEq, Line.mstBound.injEq, XNum.fin.injEq] at e
      rw [e.1]
      exact k2
    · refine ⟨0, fun env henv => ?_⟩
      obtain ⟨-, -, -, -, -, -, w', k2, k3⟩ := hall env henv
      exact absurd ⟨_, k3 anyEnv⟩ hex

end numbers

/-! ## Two workers -/

/-- the edge between `a` and `b` -/
def isEdge (i j a b : Nat) : Bool := (i == a && j == b) || (i == b && j == a)

/-- eight cities -/
def c8s (i j : Nat) : ℚ :=
  if i = j then 0 else if isEdge i j 0 4 || isEdge i j 1 4 then 19 else if isEdge i j 0 1 then 15 else 10

/-- eight cities -/
def c8d (i j : Nat) : ℚ :=
  if i = j then 0 else if isEdge i j 2 3 then 19 else if isEdge i j 0 3 || isEdge i j 2 4 then 15 else 10

/-- the complete graph with these costs -/
def graph8 (c : Nat → Nat → ℚ) : Graph (XNum ℚ) :=
  (List.range 8).map fun i => ((List.range 8).erase i).map fun j => ⟨j, .fin (c i j)⟩

/-- the matrix of `graph8` -/
def mat8 (c : Nat → Nat → ℚ) : Mat (XNum ℚ) where
  dim := 8
  get i j := if i < 8 ∧ j < 8 then .fin (c i j) else if i = j then .fin 0 else .inf

local instance {ε α : Type} [DecidableEq ε] [DecidableEq α] : DecidableEq (Except ε α) := fun a b =>
  match a, b with
  | .ok x, .ok y => if h : x = y then isTrue (h ▸ rfl) else isFalse (fun e => h (Except.ok.inj e))
  | .error x, .error y => if h : x = y then isTrue (h ▸ rfl) else isFalse (fun e => h (Except.error.inj e))
  | .ok _, .error _ => isFalse (fun e => by cases e)
  | .error _, .ok _ => isFalse (fun e => by cases e)

theorem mat8_outside {g : Graph (XNum ℚ)} {m : Mat (XNum ℚ)} (h : naFromGraph g = .ok m) :
    m.dim = g.length ∧ ∀ i j, ¬ (i < g.length ∧ j < g.length) → m.get i j = if i = j then .fin 0 else .inf := by
  unfold naFromGraph at h
  refine foldlM_inv' (P := fun m : Mat (XNum ℚ) => m.dim = g.length ∧
    ∀ i j, ¬ (i < g.length ∧ j < g.length) → m.get i j = if i = j then .fin 0 else .inf) ?_ ⟨rfl, fun i j _ => rfl⟩ h
  intro m hm x hx m' hm'
  refine foldlM_inv' (P := fun m : Mat (XNum ℚ) => m.dim = g.length ∧
    ∀ i j, ¬ (i < g.length ∧ j < g.length) → m.get i j = if i = j then .fin 0 else .inf) ?_ hm hm'
  intro m hm e he m' hm'
  unfold Mat.setEntry at hm'
  split at hm'
  · rename_i hlt
    rw [← Except.ok.inj hm']
    refine ⟨hm.1, fun i j hij => ?_⟩
    rw [hm.1] at hlt
    simp only [Mat.set]
    rw [if_neg (by rintro ⟨rfl, rfl⟩; exact hij hlt)]
    exact hm.2 i j hij
  · cases hm'

theorem read8 {c : Nat → Nat → ℚ} (h : (match naFromGraph (graph8 c) with
      | .error _ => false
      | .ok m => (List.range 8).all fun i => (List.range 8).all fun j => decide (m.get i j = .fin (c i j))) = true)
    (hacc : doConditionsHold (graph8 c) = .ok true) :
    (do naFromGraph (← parseChecked (graph8 c))) = .ok (mat8 c) := by
  have hp : parseChecked (graph8 c) = .ok (graph8 c) := by
    simp only [parseChecked, hacc, rm_bind_ok]
    rfl
  rw [hp, rm_bind_ok]
  cases hm : naFromGraph (graph8 c) with
  | error e => rw [hm] at h; cases h
  | ok m =>
    rw [hm] at h
    obtain ⟨h1, h2⟩ := mat8_outside hm
    have hl : (graph8 c).length = 8 := by simp [graph8]
    rw [hl] at h1 h2
    have hg : m.get = (mat8 c).get := by
      funext i j
      by_cases hij : i < 8 ∧ j < 8
      · simp only [List.all_eq_true, List.mem_range, decide_eq_true_eq] at h
        rw [h i hij.1 j hij.2]
        simp [mat8, hij]
      · rw [h2 i j hij]
        simp [mat8, hij]
    cases m
    simp only at h1 hg
    subst h1 hg
    rfl

theorem read8s : (do naFromGraph (← parseChecked (graph8 c8s))) = .ok (mat8 c8s) :=
  read8 (by decide +kernel) (by decide +kernel)

theorem read8d : (do naFromGraph (← parseChecked (graph8 c8d))) = .ok (mat8 c8d) :=
  read8 (by decide +kernel) (by decide +kernel)

theorem graph8_noLoop (c : Nat → Nat → ℚ) : NoLoop (graph8 c) := by
  intro i es hi e he
  unfold graph8 at hi
  rw [List.getElem?_map] at hi
  obtain ⟨k, hk, rfl⟩ := Option.map_eq_some_iff.mp hi
  obtain ⟨j, hj, rfl⟩ := List.mem_map.mp he
  obtain ⟨h1, h2⟩ := List.getElem?_eq_some_iff.mp hk
  rw [List.getElem_range] at h2
  subst h2
  exact ((List.nodup_range).mem_erase_iff.mp hj).1

theorem graph8_nonneg {c : Nat → Nat → ℚ} (h : ∀ i j, 0 ≤ c i j) : NonnegCosts (graph8 c) := by
  intro i es hi e he
  unfold graph8 at hi
  rw [List.getElem?_map] at hi
  obtain ⟨k, hk, rfl⟩ := Option.map_eq_some_iff.mp hi
  obtain ⟨j, hj, rfl⟩ := List.mem_map.mp he
  exact ⟨_, rfl, h _ _⟩

theorem c8s_nonneg (i j : Nat) : 0 ≤ c8s i j := by
  unfold c8s
  split_ifs <;> norm_num

theorem c8d_nonneg (i j : Nat) : 0 ≤ c8d i j := by
  unfold c8d
  split_ifs <;> norm_num

theorem static_worker_one_first : endS (mat8 c8s) 2 (rounds 440 (turn 0) ++ rounds 440 (turn 1)) =
    some (.ok (.fin 85, [0, 1, 2, 3, 4, 5, 6, 7])) := by
  decide +kernel

theorem static_worker_two_first : endS (mat8 c8s) 2 (rounds 440 (turn 1) ++ rounds 440 (turn 0)) =
    some (.ok (.fin 80, [4, 2, 0, 3, 1, 5, 6, 7])) := by
  decide +kernel

/-- **C123, two workers, static distribution.** `mpirun -n 3 walky exact -a v0` on these eight cities can print 85 in
one run and 80 in the next. -/
theorem C123_static_changes : doConditionsHold (graph8 c8s) = .ok true ∧ NoLoop (graph8 c8s) ∧
    NonnegCosts (graph8 c8s) ∧ ∀ env : MpiEnv (XNum ℚ), env.size = 3 →
    MpiRuns env (graph8 c8s) (.exact .v0)
      (List.replicate 3 ⟨[.bestCost (.fin 85), .bestPermutation [0, 1, 2, 3, 4, 5, 6, 7]], .ok ()⟩) ∧
    MpiRuns env (graph8 c8s) (.exact .v0)
      (List.replicate 3 ⟨[.bestCost (.fin 80), .bestPermutation [4, 2, 0, 3, 1, 5, 6, 7]], .ok ()⟩) := by
  refine ⟨by decide +kernel, graph8_noLoop _, graph8_nonneg c8s_nonneg, fun env henv => ?_⟩
  simp only [MpiRuns, read8s, MpiExactRun, MpiEnv.all, henv]
  exact ⟨⟨_, endS_result static_worker_one_first, rfl⟩, _, endS_result static_worker_two_first, rfl⟩

theorem dynamic_worker_two_reports : endD (mat8 c8d) 2 ([(true, 0), (true, 1), (false, 0), (false, 1), (true, 1), (true, 0)] ++
    rounds 340 (turn 0) ++ rounds 5 (turn 1)) = some (.ok (.fin 85, [1, 2, 4, 0, 5, 3, 6, 7])) := by
  decide +kernel

theorem dynamic_worker_one_continues : endD (mat8 c8d) 2 ([(true, 0), (true, 1), (false, 0), (false, 1), (true, 0), (false, 0)] ++
    rounds 340 (turn 0) ++ rounds 5 (turn 1)) = some (.ok (.fin 80, [1, 2, 5, 0, 4, 3, 6, 7])) := by
  decide +kernel

theorem dynamic_worker_two_late : endD (mat8 c8d) 2 (rounds 340 (turn 0) ++ rounds 3 (turn 1)) = some (.error .explicit) := by
  decide +kernel

/-- **C123, two workers, dynamic distribution.** `mpirun -n 3 walky exact -a v1` on these eight cities can print 85 in
one run, print 80 in another one and fail in a third one. -/
theorem C123_dynamic_changes : doConditionsHold (graph8 c8d) = .ok true ∧ NoLoop (graph8 c8d) ∧
    NonnegCosts (graph8 c8d) ∧ ∀ env : MpiEnv (XNum ℚ), env.size = 3 →
    MpiRuns env (graph8 c8d) (.exact .v1)
      (List.replicate 3 ⟨[.bestCost (.fin 85), .bestPermutation [1, 2, 4, 0, 5, 3, 6, 7]], .ok ()⟩) ∧
    MpiRuns env (graph8 c8d) (.exact .v1)
      (List.replicate 3 ⟨[.bestCost (.fin 80), .bestPermutation [1, 2, 5, 0, 4, 3, 6, 7]], .ok ()⟩) ∧
    MpiRuns env (graph8 c8d) (.exact .v1) (List.replicate 3 ⟨[], .error .explicit⟩) := by
  refine ⟨by decide +kernel, graph8_noLoop _, graph8_nonneg c8d_nonneg, fun env henv => ?_⟩
  simp only [MpiRuns, read8d, MpiExactRun, MpiEnv.all, henv]
  exact ⟨⟨_, endD_result dynamic_worker_two_reports, rfl⟩, ⟨_, endD_result dynamic_worker_one_continues, rfl⟩, _, endD_result dynamic_worker_two_late, rfl⟩

/-- both jobs of `C123_static_changes` are within the bounds of `C123_exact_costs` -/
example {outs outs' : List (Out (XNum ℚ))} (h : MpiRuns mpi3 (graph8 c8s) (.exact .v0) outs)
    (h' : MpiRuns mpi3 (graph8 c8s) (.exact .v0) outs') :
    ∃ w p w' p', outs = List.replicate 3 ⟨[.bestCost (.fin w), .bestPermutation p], .ok ()⟩ ∧
      outs' = List.replicate 3 ⟨[.bestCost (.fin w'), .bestPermutation p'], .ok ()⟩ ∧ w ≤ 2 * w' := by
  rcases C123_exact_costs (by decide +kernel) (graph8_noLoop _) (graph8_nonneg c8s_nonneg) (by decide) mpi3_ok mpi3_ok
    (by decide) (by decide) (Or.inl ⟨rfl, by decide⟩) (Or.inl ⟨rfl, by decide⟩) h h' with e | e | e
  · cases e.1
  · cases e.1
  · obtain ⟨w, p, w', p', e1, e2, -, -, e3, -⟩ := e
    exact ⟨w, p, w', p', e1, e2, e3⟩

/-- the six cities with three processes -/
example : ∃ w, ∀ outs, MpiRuns mpi3 six (.lowerBound .oneTree) outs ↔
    outs = ⟨[.oneTreeBound (.fin w)], .ok ()⟩ :: List.replicate 2 ⟨[], .ok ()⟩ := by
  obtain ⟨-, ⟨w, hw⟩, -⟩ := C123_same_numbers C59_threaded.1 six_noLoop six_nonneg (by decide)
  exact ⟨w, hw mpi3 mpi3_ok (by decide)⟩

/-- a job with one worker has an outcome, for the static as for the dynamic solver, so that `C123_one_worker` speaks
about something -/
example : (∃ outs, MpiRuns { mpi3 with size := 2 } six (.exact .v0) outs) ∧
    ∃ outs, MpiRuns { mpi3 with size := 2 } six (.exact .v1) outs := by
  obtain ⟨_, -, h⟩ := C67_mpi_bounds_partial C59_threaded.1 six_noLoop six_nonneg (by decide)
  have hok : ({ mpi3 with size := 2 } : MpiEnv (XNum ℚ)).Ok := by
    have := mpi3_ok
    constructor
    · exact Nat.le_succ 1
    · exact this.2
    · exact this.3
    · exact this.4
    · exact this.5
    · exact this.6
  obtain ⟨-, k0, k1, -⟩ := h _ hok
  exact ⟨(k0 (le_refl 2) (show 2 ≤ 6 by decide)).1, (k1 (le_refl 2) (show 4 ≤ 6 by decide)).1⟩

end Walky.Props
