import Verif.Model.Mpi

/-!
# Model: sends that wait

Source: `/repo/src/solvers/exact.rs:830-958,1160-1258`.

`Model/Mpi.lean` lets every send return at once. MPI's standard send may also wait until the message
is received. Here the steps of `SStep` and `DStep` carry the rank that acts, so that statements can
speak about ranks which are held in a send.
-/

namespace Walky

open FloatOps

variable {α : Type} [FloatOps α]

/-- `SStep` with the rank that acts. -/
inductive SStepBy (m : Mat α) : Nat → SSys α → SSys α → Prop
  | round (s : SSys α) (i : Nat) (w w' : SWorker α) : s.workers[i]? = some w → w.phase = .work →
      workerRound m (i + 1) w = .ok w' → SStepBy m (i + 1) s { s with workers := s.workers.set i w' }
  | recv (s : SSys α) (i : Nat) (w : SWorker α) (g : α) (rest : List α) :
      s.workers[i]? = some w → w.phase = .wait → w.down = g :: rest →
      SStepBy m (i + 1) s { s with
        workers := s.workers.set i { w with global := g, phase := .work, down := rest } }
  | root (s : SSys α) (i : Nat) (w : SWorker α) (msg : α × Nat) (rest : List (α × Nat)) :
      s.finished < s.workers.length → s.workers[i]? = some w → w.up = msg :: rest →
      SStepBy m 0 s (SSys.handle { s with workers := s.workers.set i { w with up := rest } } msg)

/-- a message of the rank has not been received -/
def SSys.pending (s : SSys α) : Nat → Prop
  | 0 => ∃ w ∈ s.workers, w.down ≠ []
  | i + 1 => ∃ w, s.workers[i]? = some w ∧ w.up ≠ []

/-- `DStep` with the rank that acts. -/
inductive DStepBy (m : Mat α) : Nat → DSys α → DSys α → Prop
  | recv (s : DSys α) (i : Nat) (w w' : DWorker α) (msg : α × List Nat) (rest : List (α × List Nat)) :
      s.workers[i]? = some w → w.done = false → w.down = msg :: rest →
      dynWorker m (i + 1) { w with down := rest } msg = .ok w' →
      DStepBy m (i + 1) s { s with workers := s.workers.set i w' }
  | root (s s' : DSys α) (i : Nat) (w : DWorker α) (msg : α × Nat) (rest : List (α × Nat)) :
      s.waiting < s.workers.length → s.workers[i]? = some w → w.up = msg :: rest →
      DSys.handle { s with workers := s.workers.set i { w with up := rest } } m.dim msg = .ok s' →
      DStepBy m 0 s s'

/-- a message of the rank has not been received -/
def DSys.pending (s : DSys α) : Nat → Prop
  | 0 => ∃ w ∈ s.workers, w.down ≠ []
  | i + 1 => ∃ w, s.workers[i]? = some w ∧ w.up ≠ []

end Walky
