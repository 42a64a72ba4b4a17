import Verif.Model.Threaded
import Verif.Model.OneTree
import Verif.Model.NearestNeighbour
import Verif.Model.Christofides

/-!
# Model: the MPI programs rank by rank

Source: `/repo/src/one_tree.rs:119-155`, `/repo/src/solvers/approximate/nearest_neighbour.rs:128-185`,
`/repo/src/solvers/approximate/matching.rs:209-368`, `/repo/src/lib.rs:107-126`.

`oneTreeLbMpi`, `nnMpi` and `mpiImproveMatching` describe all processes of a job together. Here every
rank has its own program, which communicates by messages and collective operations. A job is a
transition system: in each step one rank does one thing. An operation that communicates consists of a
first step that hands the data over, and a second step that returns. MPI leaves open whether an
operation returns as soon as its own data allows it, or only when the other ranks take part
(buffered or synchronous sends; broadcasts that do or do not act as barriers); `World.sync` decides
this for every operation of every rank.

Messages between two ranks with the same tag arrive in the order in which they were sent. A process
that panics takes no more steps.
-/

namespace Walky

open FloatOps

/-- The collective operations used. -/
inductive Coll
  | bcast (root : Nat)
  | reduce (root : Nat)
  | allReduce
deriving DecidableEq

/-- A program of one rank: what it does until it ends with a result or a panic. `V` are the elements
of buffers. -/
inductive Prog (V R : Type)
  | done (r : R)
  | fail (e : Panic)
  | send (dst tag : Nat) (msg : List V) (next : Prog V R)
  | recv (src tag : Nat) (next : List V → Prog V R)
  | coll (c : Coll) (buf : List V) (next : List V → Prog V R)

/-- State of a rank. The last three fields record what the rank has handed to MPI. -/
structure Rank (V R : Type) where
  /-- the rest of the program -/
  prog : Prog V R
  /-- the first operation of `prog` has handed over its data and has not returned -/
  inside : Bool
  /-- destination, tag and contents of all messages sent -/
  sent : List (Nat × Nat × List V)
  /-- source and tag of all messages received -/
  got : List (Nat × Nat)
  /-- all collective operations entered, with the contribution of this rank -/
  colls : List (Coll × List V)

/-- What MPI and its implementation decide. -/
structure World (V : Type) where
  /-- number of processes -/
  size : Nat
  /-- result of a reduction on a rank -/
  combine : Nat → List (List V) → RM (List V)
  /-- whether operation number `k` of a rank returns only when the other ranks take part -/
  sync : Nat → Nat → Bool

variable {V R : Type}

/-- number of operations a rank has begun -/
def Rank.count (s : Rank V R) : Nat := s.sent.length + s.got.length + s.colls.length

/-- a rank at the beginning of its program -/
def Rank.start (p : Prog V R) : Rank V R := ⟨p, false, [], [], []⟩

/-- the messages from a rank to `dst` with tag `tag` -/
def Rank.sentTo (s : Rank V R) (dst tag : Nat) : List (Nat × Nat × List V) :=
  s.sent.filter fun x => x.1 = dst ∧ x.2.1 = tag

/-- number of messages received from `src` with tag `tag` -/
def Rank.gotFrom (s : Rank V R) (src tag : Nat) : Nat :=
  (s.got.filter fun x => x.1 = src ∧ x.2 = tag).length

/-- the contributions of all ranks, once all have entered the operation -/
def World.contributions (w : World V) (contrib : Nat → Option (Coll × List V)) :
    Option (List (Coll × List V)) :=
  (List.range w.size).mapM contrib

/-- Result of a reduction, once all ranks have entered it. Operations that do not fit are a
failure. -/
def World.reduced (w : World V) (c : Coll) (rank : Nat) (contrib : Nat → Option (Coll × List V)) :
    Option (RM (List V)) :=
  (w.contributions contrib).map fun l =>
    if l.all (fun x => x.1 = c) then w.combine rank (l.map Prod.snd) else .error .explicit

/-- Result of a collective operation on a rank with buffer `buf`, or `none` if data is missing.
`contrib` are the contributions so far. Broadcasts into buffers of different length are a failure. -/
def World.collResult (w : World V) (c : Coll) (rank : Nat) (buf : List V)
    (contrib : Nat → Option (Coll × List V)) : Option (RM (List V)) :=
  match c with
  | .bcast root =>
    if root < w.size then
      (contrib root).map fun x =>
        if x.1 = c ∧ x.2.length = buf.length then .ok x.2 else .error .explicit
    else some (.error .explicit)
  | .reduce root => if rank = root then w.reduced c rank contrib else some (.ok buf)
  | .allReduce => w.reduced c rank contrib

/-- One step of the given rank, if it can do something. -/
def World.rankStep (w : World V) (s : Nat → Rank V R) (rank : Nat) : Option (Rank V R) :=
  let me := s rank
  match me.prog with
  | .done _ => none
  | .fail _ => none
  | .send dst tag msg next =>
    if me.inside then
      if w.sync rank me.count = true ∧ (s dst).gotFrom rank tag < (me.sentTo dst tag).length then none
      else some { me with prog := next, inside := false }
    else some { me with inside := true, sent := me.sent ++ [(dst, tag, msg)] }
  | .recv src tag next =>
    ((s src).sentTo rank tag)[me.gotFrom src tag]?.map fun x =>
      { me with prog := next x.2.2, got := me.got ++ [(src, tag)] }
  | .coll c buf next =>
    if me.inside then
      let contrib := fun q => (s q).colls[me.colls.length - 1]?
      if w.sync rank me.count = true ∧ (w.contributions contrib).isNone then none
      else (w.collResult c rank buf contrib).map fun r =>
        match r with
        | .ok v => { me with prog := next v, inside := false }
        | .error e => { me with prog := .fail e, inside := false }
    else some { me with inside := true, colls := me.colls ++ [(c, buf)] }

/-- One step of a job. -/
def World.Step (w : World V) (s t : Nat → Rank V R) : Prop :=
  ∃ r x, r < w.size ∧ w.rankStep s r = some x ∧ t = Function.update s r x

/-- the beginning of a job -/
def startJob (p : Nat → Prog V R) : Nat → Rank V R := fun r => Rank.start (p r)

/-! ## The programs -/

/-- elements of buffers: `usize`, `i32` or `f64` -/
inductive Val (α : Type)
  | nat (n : Nat)
  | num (x : α)

variable {α : Type} [FloatOps α]

/-- continue with a value, or panic -/
def Prog.ofRM {β : Type} (x : RM β) (next : β → Prog V R) : Prog V R :=
  match x with
  | .ok b => next b
  | .error e => .fail e

/-- a buffer that holds one `f64` -/
def asNum : List (Val α) → RM α
  | [.num x] => .ok x
  | _ => .error .explicit

/-- a buffer that holds one `usize` -/
def asNat : List (Val α) → RM Nat
  | [.nat x] => .ok x
  | _ => .error .explicit

/-- a buffer that holds one `MPICostRank` (`datastructures/mod.rs`) -/
def asCostRank : List (Val α) → RM (α × Nat)
  | [.num x, .nat r] => .ok (x, r)
  | _ => .error .explicit

/-- a buffer that holds `usize`s -/
def asNats : List (Val α) → RM (List Nat)
  | [] => .ok []
  | .nat n :: t => do return n :: (← asNats t)
  | _ => .error .explicit

/-- a buffer that holds `f64`s -/
def asNums : List (Val α) → RM (List α)
  | [] => .ok []
  | .num x :: t => do return x :: (← asNums t)
  | _ => .error .explicit

/-- `one_tree.rs:120-147` `one_tree_lower_bound_mpi_with_world` on a rank. -/
def oneTreeProg (m : Mat α) (size rank : Nat) : Prog (Val α) α :=
  .ofRM (oneTreeLocal m size rank) fun x =>
    .coll (.reduce 0) [.num x] fun v =>
      if rank = 0 then .ofRM (asNum v) .done else .done inf

/-- `SystemOperation::max()` over all contributions, in the order and tree given by `shape`. -/
def combineMax (shape : List α → RTree α) (ls : List (List (Val α))) : RM (List (Val α)) := do
  let xs ← ls.mapM asNum
  let x ← unwrapO ((shape xs).reduce mpiMax)
  return [.num x]

/-- `nearest_neighbour.rs:128-185` `nearest_neighbour_mpi` on a rank. -/
def nnProg (m : Mat α) (size rank : Nat) : Prog (Val α) (Solution α) :=
  .ofRM (nnLocal m size rank) fun sol =>
    .coll .allReduce [.num sol.1, .nat rank] fun v =>
      .ofRM (asCostRank v) fun win =>
        .coll (.bcast win.2) (sol.2.map .nat) fun p =>
          .ofRM (asNats p) fun path => .done (win.1, path)

/-- The operation `nearest_neighbour.rs:161-176` over all contributions, in the order and tree given
by `shape` for the rank. -/
def combineCostRank (shape : Nat → List (α × Nat) → RTree (α × Nat)) (rank : Nat)
    (ls : List (List (Val α))) : RM (List (Val α)) := do
  let xs ← ls.mapM asCostRank
  let x ← unwrapO ((shape rank xs).reduce costRankOp)
  return [.num x.1, .nat x.2]

/-- `graph.data.as_vec()`: the columns of the matrix one after the other -/
def matToVec (m : Mat α) : List α :=
  (List.range m.dim).flatMap fun j => (List.range m.dim).map fun i => m.get i j

/-- `Matrix::from_vec_generic` -/
def matOfVec (dim : Nat) (v : List α) : Mat α :=
  ⟨dim, fun i j => (v[j * dim + i]?).getD inf⟩

/-- `matching.rs:301-336` `bootstrap_mpi_matching_calc` on a rank: `tries`, `l` and `m` are its
arguments. Line 359 takes the address of `matching[0][0]`. -/
def bootstrapProg (root : Bool) (tries : Nat) (l : List (Nat × Nat)) (m : Mat α)
    (next : Nat → List (Nat × Nat) → Mat α → Prog (Val α) R) : Prog (Val α) R :=
  .coll (.bcast 0) [.nat tries] fun v => .ofRM (asNat v) fun tries =>
  .coll (.bcast 0) [.nat l.length] fun v => .ofRM (asNat v) fun size =>
  .coll (.bcast 0) [.nat m.dim] fun v => .ofRM (asNat v) fun dim =>
  let matching := if root then l else List.replicate size (0, 0)
  if matching.isEmpty then .fail .index else
  .coll (.bcast 0) ((flattenEdges matching).map .nat) fun v => .ofRM (asNats v) fun ns =>
  let vec := if root then matToVec m else List.replicate (dim * dim) zero
  .coll (.bcast 0) (vec.map .num) fun v => .ofRM (asNums v) fun xs =>
  next tries (pairUp ns) (matOfVec dim xs)

/-- `matching.rs:252-264`: the root receives the costs (tag 0) and matchings (tag 1) of the ranks
`rk, rk + 1, …` (`n` of them). -/
def gatherProg (rk : Nat) (best : α × List Nat) (next : α × List Nat → Prog (Val α) R) :
    Nat → Prog (Val α) R
  | 0 => next best
  | n + 1 =>
    .recv rk 0 fun v => .ofRM (asNum v) fun c =>
    .recv rk 1 fun v => .ofRM (asNats v) fun ns =>
    gatherProg (rk + 1) (if c <ᶠ best.1 then (c, ns) else best) next n

/-- `matching.rs:267-280`: the end of `mpi_improve_matching`, on all ranks. -/
def spreadProg (best : α × List Nat) : Prog (Val α) (List (Nat × Nat)) :=
  .coll (.bcast 0) [.num best.1] fun _ =>
  .coll (.bcast 0) (best.2.map .nat) fun v => .ofRM (asNats v) fun ns => .done (pairUp ns)

/-- `matching.rs:228-280`: `mpi_improve_matching` on a rank, after the bootstrap of the root. -/
def improveProg (size rank : Nat) (shuf : Nat → List (Nat × Nat) → List (Nat × Nat)) (tries : Nat)
    (l : List (Nat × Nat)) (m : Mat α) : Prog (Val α) (List (Nat × Nat)) :=
  .ofRM (improveMatching m shuf tries l) fun l' =>
  .ofRM (matchingCost m l') fun cost =>
  if rank = 0 then gatherProg 1 (cost, flattenEdges l') spreadProg (size - 1)
  else
    .send 0 0 [.num cost] <|
    if l'.isEmpty then .fail .index else
    .send 0 1 ((flattenEdges l').map .nat) <|
    spreadProg (cost, flattenEdges l')

/-- The matching of MPI Christofides on a rank: `matching.rs:209-281` on the root, which drops the
values returned by the bootstrap; `lib.rs:115-124` on the other ranks, which start with no tries, an
empty matching and a matrix of dimension 1. -/
def matchingProg (m : Mat α) (shufs : Nat → Nat → List (Nat × Nat) → List (Nat × Nat))
    (size tries : Nat) (l : List (Nat × Nat)) (rank : Nat) : Prog (Val α) (List (Nat × Nat)) :=
  if rank = 0 then
    bootstrapProg true tries l m fun _ _ _ => improveProg size 0 (shufs 0) tries l m
  else
    bootstrapProg false 0 [] (Mat.fromDim 1) fun tries l m =>
      improveProg size rank (shufs rank) tries l m

end Walky
