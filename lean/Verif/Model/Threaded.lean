import Verif.Model.Exact
import Verif.Model.Digits
import Mathlib.Data.List.Dedup

/-!
# Model: the multi-threaded exact solver

Source: `/repo/src/solvers/exact.rs:630-724`.

Every thread is a state machine. One step of a thread is either one round of its `while` loop up to
the point where it waits for the lock (this part touches no shared data), or the update of the
shared best solution while holding the lock. An execution is any sequence of steps of any threads
that are not finished. `rayon::scope` waits for all threads.
-/

namespace Walky

open FloatOps

variable {α : Type} [FloatOps α]

/-- `exact.rs:682-683,904`: the length equals the size of the hash set of the entries. -/
def isUnique (l : List Nat) : Bool := l.length == l.dedup.length

/-- `exact.rs:693-701`: search below one prefix with a fresh result. -/
def searchPrefix (m : Mat α) (pre : List Nat) : RM (Solution α) := do
  let cost ← m.evaluatePath pre
  let r ← dfs m (test5 m) (m.dim + 1) pre cost ((inf, []), ())
  return r.1

/-- State of one thread. -/
structure TState (α : Type) where
  /-- `min_digits` -/
  digits : List Nat
  /-- `max_digits` -/
  maxDigits : List Nat
  /-- result of the search, while waiting for the lock -/
  pending : Option (Solution α)
  /-- the thread has left its loop -/
  done : Bool

/-- One step of a thread with the shared best solution `best`: `exact.rs:707-711` if a result is
pending, otherwise one round of the loop `exact.rs:673-704`. -/
def threadStep (m : Mat α) (t : TState α) (best : Solution α) : RM (TState α × Solution α) :=
  match t.pending with
  | some r => .ok ({ t with pending := none }, if r.1 <ᶠ best.1 then r else best)
  | none => do
    let (digits, next) ← getNextValue t.digits m.dim
    match next with
    | none => return ({ t with digits := digits, done := true }, best)
    | some v =>
      if v = t.maxDigits then return ({ t with digits := digits, done := true }, best)
      else if isUnique v then do
        let r ← searchPrefix m v
        return ({ t with digits := digits, pending := some r }, best)
      else return ({ t with digits := digits }, best)

/-- All threads and the shared `best_known_result`. -/
structure TSys (α : Type) where
  /-- the spawned threads -/
  threads : List (TState α)
  /-- contents of the mutex -/
  best : Solution α

/-- `exact.rs:641,657-672`: the state after spawning. -/
def initThreads (m : Mat α) (prefixLength nThreads : Nat) : RM (TSys α) := do
  let ts ← (List.range nThreads).mapM fun i => do
    let (lo, hi) ← splitChunks prefixLength m.dim nThreads i
    return { digits := lo, maxDigits := hi, pending := none, done := false }
  return { threads := ts, best := (inf, []) }

/-- thread `i` makes a step -/
def TSys.stepOf (m : Mat α) (i : Nat) (s s' : TSys α) : Prop :=
  ∃ t t' b, s.threads[i]? = some t ∧ t.done = false ∧ threadStep m t s.best = .ok (t', b) ∧
    s' = { threads := s.threads.set i t', best := b }

/-- some thread makes a step -/
def TSys.step (m : Mat α) (s s' : TSys α) : Prop := ∃ i, TSys.stepOf m i s s'

/-- all threads have finished -/
def TSys.final (s : TSys α) : Prop := ∀ t ∈ s.threads, t.done = true

/-- `n` consecutive steps -/
inductive Steps {σ : Type} (R : σ → σ → Prop) : Nat → σ → σ → Prop
  | refl (s : σ) : Steps R 0 s s
  | tail {n : Nat} {s t u : σ} : Steps R n s t → R t u → Steps R (n + 1) s u

/-- `exact.rs:636-724` `threaded_solver_generic`: `r` is a possible result. -/
def ThreadedResult (m : Mat α) (prefixLength nThreads : Nat) (r : Solution α) : Prop :=
  if m.dim ≤ nThreads then fifthImprovedSolver m = .ok r
  else ∃ s0 n s, initThreads m prefixLength nThreads = .ok s0 ∧ Steps (TSys.step m) n s0 s ∧
    s.final ∧ r = s.best

end Walky
