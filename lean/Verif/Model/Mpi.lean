import Verif.Model.Threaded

/-!
# Model: the exact MPI solvers

Source: `/repo/src/solvers/exact.rs:789-1260`.

A run of `size` processes is a transition system. Rank 0 is the coordinator, the worker with rank
`r ≥ 1` is entry `r - 1` of the list of workers. Messages between two processes are delivered in
order (a queue per worker and direction); `any_process().receive` takes the oldest message of an
arbitrary worker that has one. Sends are buffered. A process that panics takes no more steps.
-/

namespace Walky

open FloatOps

variable {α : Type} [FloatOps α]

/-- `exact.rs:919-929`, `1237-1247`: search below one prefix with a fresh result, pruning also
against `global`. -/
def searchMpi (m : Mat α) (global : α) (pre : List Nat) : RM (Solution α) := do
  let cost ← m.evaluatePath pre
  let r ← dfs m (testMpi m global) (m.dim + 1) pre cost ((inf, []), ())
  return r.1

/-! ## Static work distribution, `exact.rs:789-962` -/

/-- where a worker of the static solver stands -/
inductive Phase
  /-- at the head of its loop -/
  | work
  /-- waiting for the answer of the coordinator -/
  | wait
  /-- at the final barrier -/
  | done
deriving DecidableEq

/-- State of a worker of the static solver together with its two message queues. -/
structure SWorker (α : Type) where
  /-- `min_digits` -/
  digits : List Nat
  /-- `max_digits` -/
  maxDigits : List Nat
  /-- `local_solution` -/
  sol : Solution α
  /-- `global_best_cost` -/
  global : α
  /-- program position -/
  phase : Phase
  /-- `MPICostRank` messages on their way to the coordinator, oldest first -/
  up : List (α × Nat)
  /-- costs on their way from the coordinator, oldest first -/
  down : List α

/-- All processes of the static solver. -/
structure SSys (α : Type) where
  /-- the worker with rank `i + 1` is entry `i` -/
  workers : List (SWorker α)
  /-- `current_winner` of the coordinator -/
  winner : α × Nat
  /-- `number_of_finished_proceses` of the coordinator -/
  finished : Nat

/-- `exact.rs:885-899`: the workers after splitting the prefixes. -/
def initStatic (m : Mat α) (prefixLength nWorkers : Nat) : RM (SSys α) := do
  let ws ← (List.range nWorkers).mapM fun i => do
    let (lo, hi) ← splitChunks prefixLength m.dim nWorkers i
    return { digits := lo, maxDigits := hi, sol := (inf, []), global := inf, phase := .work,
             up := [], down := [] }
  return { workers := ws, winner := (inf, 0), finished := 0 }

/-- One round of the loop `exact.rs:902-945` up to the receive, or the exit `exact.rs:955`. -/
def workerRound (m : Mat α) (rank : Nat) (w : SWorker α) : RM (SWorker α) := do
  let (digits, next) ← getNextValue w.digits m.dim
  match next with
  | none => return { w with digits := digits, phase := .done, up := w.up ++ [(negOne, rank)] }
  | some v =>
    if v = w.maxDigits then
      return { w with digits := digits, phase := .done, up := w.up ++ [(negOne, rank)] }
    else if isUnique v then do
      let r ← searchMpi m w.global v
      let sol := if r.1 <ᶠ w.sol.1 then r else w.sol
      return { w with digits := digits, sol := sol, phase := .wait, up := w.up ++ [(sol.1, rank)] }
    else return { w with digits := digits }

/-- `exact.rs:853-868`: the coordinator handles a message. -/
def SSys.handle (s : SSys α) (msg : α × Nat) : SSys α :=
  if zero ≤ᶠ msg.1 then
    let win := if msg.1 <ᶠ s.winner.1 then msg else s.winner
    { s with winner := win,
             workers := s.workers.modify (msg.2 - 1) fun w => { w with down := w.down ++ [win.1] } }
  else { s with finished := s.finished + 1 }

/-- One step of one process of the static solver. -/
inductive SStep (m : Mat α) : SSys α → SSys α → Prop
  /-- a worker at the head of its loop, `exact.rs:902-945,955` -/
  | round (s : SSys α) (i : Nat) (w w' : SWorker α) : s.workers[i]? = some w → w.phase = .work →
      workerRound m (i + 1) w = .ok w' → SStep m s { s with workers := s.workers.set i w' }
  /-- a worker receives the answer of the coordinator, `exact.rs:948-949` -/
  | recv (s : SSys α) (i : Nat) (w : SWorker α) (g : α) (rest : List α) :
      s.workers[i]? = some w → w.phase = .wait → w.down = g :: rest →
      SStep m s { s with
        workers := s.workers.set i { w with global := g, phase := .work, down := rest } }
  /-- the coordinator receives a message, `exact.rs:830-869` -/
  | root (s : SSys α) (i : Nat) (w : SWorker α) (msg : α × Nat) (rest : List (α × Nat)) :
      s.finished < s.workers.length → s.workers[i]? = some w → w.up = msg :: rest →
      SStep m s (SSys.handle { s with workers := s.workers.set i { w with up := rest } } msg)

/-- everybody is at the barrier, `exact.rs:830,873,958` -/
def SSys.final (s : SSys α) : Prop :=
  ¬ s.finished < s.workers.length ∧ ∀ w ∈ s.workers, w.phase = .done

/-- `exact.rs:807-815`, `1130-1138`: the wrap-up. `bufs` are the buffers `winner_path` of all ranks.
The broadcast needs buffers of the same length on all ranks; with different lengths the MPI program
is erroneous, which is modelled as a panic. The result is the common return value of all ranks. -/
def wrapUp (winner : α × Nat) (bufs : List (List Nat)) : RM (Solution α) := do
  let b ← idx bufs winner.2
  if bufs.all (fun b' => b'.length == b.length) then return (winner.1, b) else .error .explicit

/-- the buffers `winner_path`: zeros on the coordinator (`exact.rs:798`), local paths on the workers -/
def SSys.buffers (s : SSys α) (n : Nat) : List (List Nat) :=
  List.replicate n 0 :: s.workers.map fun w => w.sol.2

/-- `exact.rs:789-816` `static_mpi_solver_generic` with `nWorkers + 1` processes: `r` is a possible
outcome after everybody has passed the barrier. -/
def StaticResult (m : Mat α) (prefixLength nWorkers : Nat) (r : RM (Solution α)) : Prop :=
  ∃ s0 n s, initStatic m prefixLength nWorkers = .ok s0 ∧ Steps (SStep m) n s0 s ∧ s.final ∧
    r = wrapUp s.winner (s.buffers m.dim)

/-! ## Dynamic work distribution, `exact.rs:1108-1260` -/

/-- State of a worker of the dynamic solver together with its message queues. Unless it is done, it
is about to receive (`exact.rs:1225`). -/
structure DWorker (α : Type) where
  /-- `local_solution` -/
  sol : Solution α
  /-- at the final barrier -/
  done : Bool
  /-- `MPICostRank` messages on their way to the coordinator -/
  up : List (α × Nat)
  /-- `MPICostPath` messages on their way from the coordinator -/
  down : List (α × List Nat)

/-- All processes of the dynamic solver. -/
structure DSys (α : Type) where
  /-- the worker with rank `i + 1` is entry `i` -/
  workers : List (DWorker α)
  /-- `current_winner` -/
  winner : α × Nat
  /-- `current_prefix` -/
  current : Option (List Nat)
  /-- `number_of_waiting_processes` -/
  waiting : Nat
  /-- not in the code: all prefixes sent so far with the receiving rank, oldest first -/
  log : List (Nat × List Nat)

/-- `exact.rs:1144-1158,1216-1221`: the workers have sent their first request. -/
def initDynamic (nWorkers : Nat) : DSys α where
  workers := (List.range nWorkers).map fun i =>
    { sol := (inf, []), done := false, up := [(inf, i + 1)], down := [] }
  winner := (inf, 0)
  current := some [1, 2, 3]
  waiting := 0
  log := []

/-- `exact.rs:1176-1194`: the next duplicate-free prefix; the first argument is fuel. -/
def nextPrefix (n : Nat) : Nat → List Nat → RM (Option (List Nat))
  | 0, _ => .error .fuel
  | fuel + 1, p => do
    let (_, next) ← getNextValue p n
    match next with
    | none => return none
    | some v => if isUnique v then return some v else nextPrefix n fuel v

/-- `exact.rs:1165-1200`: the coordinator handles a message. -/
def DSys.handle (s : DSys α) (n : Nat) (msg : α × Nat) : RM (DSys α) := do
  let win := if (zero ≤ᶠ msg.1) && (msg.1 <ᶠ s.winner.1) then msg else s.winner
  let send (p : List Nat) :=
    s.workers.modify (msg.2 - 1) fun w => { w with down := w.down ++ [(win.1, p)] }
  match s.current with
  | some p => do
    let next ← nextPrefix n (n ^ 3 + 1) p
    return { s with winner := win, workers := send p, current := next, log := s.log ++ [(msg.2, p)] }
  | none => return { s with winner := win, workers := send [0, 0, 0], waiting := s.waiting + 1,
                            log := s.log ++ [(msg.2, [0, 0, 0])] }

/-- `exact.rs:1225-1258`: a worker handles an answer. -/
def dynWorker (m : Mat α) (rank : Nat) (w : DWorker α) (msg : α × List Nat) : RM (DWorker α) :=
  if msg.2.all (· == 0) then .ok { w with done := true }
  else do
    let r ← searchMpi m msg.1 msg.2
    let sol := if r.1 <ᶠ w.sol.1 then r else w.sol
    return { w with sol := sol, up := w.up ++ [(sol.1, rank)] }

/-- One step of one process of the dynamic solver. -/
inductive DStep (m : Mat α) : DSys α → DSys α → Prop
  /-- a worker receives an answer and works on it -/
  | recv (s : DSys α) (i : Nat) (w w' : DWorker α) (msg : α × List Nat) (rest : List (α × List Nat)) :
      s.workers[i]? = some w → w.done = false → w.down = msg :: rest →
      dynWorker m (i + 1) { w with down := rest } msg = .ok w' →
      DStep m s { s with workers := s.workers.set i w' }
  /-- the coordinator receives a message -/
  | root (s s' : DSys α) (i : Nat) (w : DWorker α) (msg : α × Nat) (rest : List (α × Nat)) :
      s.waiting < s.workers.length → s.workers[i]? = some w → w.up = msg :: rest →
      DSys.handle { s with workers := s.workers.set i { w with up := rest } } m.dim msg = .ok s' →
      DStep m s s'

/-- everybody is at the barrier, `exact.rs:1160,1205,1232` -/
def DSys.final (s : DSys α) : Prop :=
  ¬ s.waiting < s.workers.length ∧ ∀ w ∈ s.workers, w.done = true

/-- the buffers `winner_path`, `exact.rs:1121-1128` -/
def DSys.buffers (s : DSys α) (n : Nat) : List (List Nat) :=
  List.replicate n 0 :: s.workers.map fun w => w.sol.2

/-- `exact.rs:1108-1139` `dynamic_mpi_solver` with `nWorkers + 1` processes: `r` is a possible
outcome after everybody has passed the barrier. -/
def DynamicResult (m : Mat α) (nWorkers : Nat) (r : RM (Solution α)) : Prop :=
  ∃ n s, Steps (DStep m) n (initDynamic nWorkers) s ∧ s.final ∧
    r = wrapUp s.winner (s.buffers m.dim)

end Walky
