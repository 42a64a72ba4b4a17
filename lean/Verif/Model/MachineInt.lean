import Verif.Model.Threaded
import Verif.Model.NearestNeighbour

/-!
# Model: machine integers

The other files model `usize` and `i32` by `Nat`. Here the arithmetic of the prefixes
(`/repo/src/solvers/exact.rs:566-614`, used at `exact.rs:663-668,890-895`) and of the chunks of the nearest
neighbour heuristic (`/repo/src/solvers/approximate/nearest_neighbour.rs:131-148`) is modelled again with the
integers of the machine. Results that do not fit panic in debug builds and wrap around in release builds
(`/repo/Cargo.toml`, `[profile.release]`, does not ask for overflow checks).
-/

namespace Walky

open FloatOps

/-- The machine and the kind of build. -/
structure Target where
  /-- number of bits of `usize` -/
  bits : Nat
  /-- overflow is checked (debug builds) -/
  checked : Bool

/-- The result of an addition, a product or a power in `usize`. -/
def Target.wrap (T : Target) (x : Nat) : RM Nat :=
  if x < 2 ^ T.bits then .ok x else if T.checked then .error .arith else .ok (x % 2 ^ T.bits)

/-- A subtraction in `usize`. -/
def Target.sub (T : Target) (x y : Nat) : RM Nat :=
  if y ≤ x then .ok (x - y) else if T.checked then .error .arith else .ok (2 ^ T.bits + x - y)

/-- `exact.rs:566-583` `split_up_b_ary_number_into_n_chunks`. `number_digits as u32` keeps the low 32 bits.
Conversion into digits (`exact.rs:586-597`) only divides. -/
def splitChunksW (T : Target) (numberDigits basis n k : Nat) : RM (List Nat × List Nat) := do
  let total ← T.wrap (basis ^ (numberDigits % 2 ^ 32))
  if n < total then
    if n = 0 then .error .arith
    else do
      let cs := total / n
      let minV ← T.wrap (k * cs)
      let maxV ← T.wrap (minV + cs)
      let maxV ← T.sub maxV 1
      let a ← convertToBAryDigits minV basis numberDigits
      let b ← convertToBAryDigits maxV basis numberDigits
      return (a, b)
  else .error .assert

/-- The loop of `exact.rs:603-611`, with `*digit += carry` in `usize`. -/
def incRevW (T : Target) (basis : Nat) : Nat → List Nat → RM (List Nat × Bool)
  | _, [] => .ok ([], false)
  | carry, d :: ds => do
    let s ← T.wrap (d + carry)
    if basis = 0 then .error .arith
    else
      if s / basis = 0 then .ok (s % basis :: ds, true)
      else do
        let r ← incRevW T basis (s / basis) ds
        return (s % basis :: r.1, r.2)

/-- `exact.rs:601-614` `get_next_value`. -/
def getNextValueW (T : Target) (digits : List Nat) (basis : Nat) :
    RM (List Nat × Option (List Nat)) := do
  let r ← incRevW T basis 1 digits.reverse
  return (r.1.reverse, if r.2 then some r.1.reverse else none)

variable {α : Type} [FloatOps α]

/-- One step of a thread (`exact.rs:673-711`), see `threadStep`. -/
def threadStepW (T : Target) (m : Mat α) (t : TState α) (best : Solution α) :
    RM (TState α × Solution α) :=
  match t.pending with
  | some r => .ok ({ t with pending := none }, if r.1 <ᶠ best.1 then r else best)
  | none => do
    let (digits, next) ← getNextValueW T t.digits m.dim
    match next with
    | none => return ({ t with digits := digits, done := true }, best)
    | some v =>
      if v = t.maxDigits then return ({ t with digits := digits, done := true }, best)
      else if isUnique v then do
        let r ← searchPrefix m v
        return ({ t with digits := digits, pending := some r }, best)
      else return ({ t with digits := digits }, best)

/-- `exact.rs:641,657-672`: the state after spawning. -/
def initThreadsW (T : Target) (m : Mat α) (prefixLength nThreads : Nat) : RM (TSys α) := do
  let ts ← (List.range nThreads).mapM fun i => do
    let (lo, hi) ← splitChunksW T prefixLength m.dim nThreads i
    return { digits := lo, maxDigits := hi, pending := none, done := false }
  return { threads := ts, best := (inf, []) }

/-- some thread makes a step -/
def TSys.stepW (T : Target) (m : Mat α) (s s' : TSys α) : Prop :=
  ∃ i t t' b, s.threads[i]? = some t ∧ t.done = false ∧ threadStepW T m t s.best = .ok (t', b) ∧
    s' = { threads := s.threads.set i t', best := b }

/-- `exact.rs:636-724` `threaded_solver_generic` on the machine `T`: `r` is a possible result. -/
def ThreadedResultW (T : Target) (m : Mat α) (prefixLength nThreads : Nat) (r : Solution α) : Prop :=
  if m.dim ≤ nThreads then fifthImprovedSolver m = .ok r
  else ∃ s0 n s, initThreadsW T m prefixLength nThreads = .ok s0 ∧ Steps (TSys.stepW T m) n s0 s ∧
    s.final ∧ r = s.best

/-- The result of an operation in `i32`: two's complement if it wraps around. -/
def i32Wrap (checked : Bool) (x : Int) : RM Int :=
  if -2 ^ 31 ≤ x ∧ x < 2 ^ 31 then .ok x else if checked then .error .arith
  else .ok ((x + 2 ^ 31) % 2 ^ 32 - 2 ^ 31)

/-- `nearest_neighbour.rs:131-148`: the start cities of a rank. `dim.try_into().unwrap()` (line 134) panics
if the dimension does not fit into an `i32`, `k.try_into().unwrap()` (line 148) if `k` is negative. Division by
zero panics. -/
def nnChunkI32 (checked : Bool) (dim : Nat) (size rank : Int) : RM (List Nat) := do
  if 2 ^ 31 ≤ dim then .error .unwrap
  else
    let n : Int := dim
    if size = 0 then .error .arith
    else do
      let cs := n.tdiv size
      let start ← i32Wrap checked (cs * rank)
      let stop ← i32Wrap checked (start + cs)
      let last ← i32Wrap checked (size - 1)
      let stop := if rank = last ∧ n.tmod size ≠ 0 then n else stop
      ((List.range (stop - start).toNat).map fun (j : Nat) => start + (j : Int)).mapM fun k =>
        if 0 ≤ k then .ok k.toNat else .error .unwrap

/-- `nearest_neighbour.rs:147-151`: the best local solution. -/
def nnLocalI32 (checked : Bool) (m : Mat α) (size rank : Nat) : RM (Solution α) := do
  let starts ← nnChunkI32 checked m.dim size rank
  let sols ← starts.mapM (singleNN m)
  unwrapO (minByFirst solLt sols)

end Walky
