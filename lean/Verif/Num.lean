import Mathlib.Algebra.Order.Field.Basic
import Mathlib.Algebra.Order.Ring.Rat
import Mathlib.Tactic.NormNum

/-!
# Arithmetic of the model

The Rust code computes with `f64`.  `FloatOps` lists the operations it uses, without
assuming any law, so that everything stated for an arbitrary `FloatOps` also holds for
IEEE double precision.  `XNum K` is the exact instance: the special values of IEEE
arithmetic around a linearly ordered field `K` whose elements are not rounded.
-/

namespace Walky


/-- The operations applied to `f64` values by the code in `/repo/src`
(`datastructures/mod.rs`, `solvers/exact.rs`, `mst.rs`, `one_tree.rs`, ...).
No laws are assumed. -/
class FloatOps (α : Type) where
  /-- `0.0` -/
  zero : α
  /-- `f64::INFINITY` -/
  inf : α
  /-- the literal `1e-10` of `datastructures/mod.rs:63` -/
  tol : α
  /-- the literal `-1.0` of `solvers/exact.rs:955` -/
  negOne : α
  /-- `+` -/
  add : α → α → α
  /-- `-` -/
  sub : α → α → α
  /-- `*` (used by `powi(2)`, `datastructures/nalgebra.rs:19,40`) -/
  mul : α → α → α
  /-- multiplication by `0.5` (`parser.rs:91`) -/
  half : α → α
  /-- `<` (false as soon as one argument is NaN) -/
  lt : α → α → Bool
  /-- `<=` (false as soon as one argument is NaN) -/
  le : α → α → Bool
  /-- `==` (false as soon as one argument is NaN) -/
  eq : α → α → Bool

namespace FloatOps

@[inherit_doc] scoped infixl:65 " +ᶠ " => FloatOps.add
@[inherit_doc] scoped infixl:65 " -ᶠ " => FloatOps.sub
@[inherit_doc] scoped infix:50 " <ᶠ " => FloatOps.lt
@[inherit_doc] scoped infix:50 " ≤ᶠ " => FloatOps.le

variable {α : Type} [FloatOps α]

/-- `f64::is_nan`. -/
def isNaN (x : α) : Bool := !(eq x x)

/-- `OrderedFloat(a) < OrderedFloat(b)`: the total order of the crate `ordered-float`
(used in `mst.rs:291-293`, `386-388`, `nearest_neighbour.rs`), in which NaN equals itself and is
greater than everything else. -/
def olt (a b : α) : Bool :=
  if isNaN a then false else if isNaN b then true else lt a b

/-- `Iterator::sum::<f64>()` and the accumulation loops `acc += x`. -/
def sum (l : List α) : α := l.foldl add zero

end FloatOps

/-- Lean's `Float` is IEEE binary64; law-free theorems apply to it. -/
instance : FloatOps Float where
  zero := 0.0
  inf := 1.0 / 0.0
  tol := 1e-10
  negOne := -1.0
  add := (· + ·)
  sub := (· - ·)
  mul := (· * ·)
  half := (· * 0.5)
  lt a b := decide (a < b)
  le a b := decide (a ≤ b)
  eq a b := a == b

/-- IEEE special values around exact finite values of `K`. -/
inductive XNum (K : Type) where
  /-- not a number -/
  | nan
  /-- negative infinity -/
  | ninf
  /-- a finite number -/
  | fin (x : K)
  /-- positive infinity -/
  | inf
deriving DecidableEq, Repr

namespace XNum

variable {K : Type}

/-- IEEE `<`. -/
def lt [LinearOrder K] : XNum K → XNum K → Bool
  | nan, _ => false
  | _, nan => false
  | ninf, ninf => false
  | ninf, _ => true
  | fin _, ninf => false
  | fin a, fin b => decide (a < b)
  | fin _, inf => true
  | inf, _ => false

/-- IEEE `<=`. -/
def le [LinearOrder K] : XNum K → XNum K → Bool
  | nan, _ => false
  | _, nan => false
  | ninf, _ => true
  | fin _, ninf => false
  | fin a, fin b => decide (a ≤ b)
  | fin _, inf => true
  | inf, inf => true
  | inf, _ => false

/-- IEEE `==`. -/
def beq [LinearOrder K] : XNum K → XNum K → Bool
  | ninf, ninf => true
  | fin a, fin b => decide (a = b)
  | inf, inf => true
  | _, _ => false

section
variable [Field K] [LinearOrder K]

/-- IEEE `+` with exact finite part. -/
def add : XNum K → XNum K → XNum K
  | nan, _ => nan
  | _, nan => nan
  | inf, ninf => nan
  | ninf, inf => nan
  | inf, _ => inf
  | _, inf => inf
  | ninf, _ => ninf
  | _, ninf => ninf
  | fin a, fin b => fin (a + b)

/-- unary minus -/
def neg : XNum K → XNum K
  | nan => nan
  | inf => ninf
  | ninf => inf
  | fin a => fin (-a)

/-- IEEE `-`. -/
def sub : XNum K → XNum K → XNum K
  | fin a, fin b => fin (a - b)
  | x, y => add x (neg y)

/-- IEEE `*` with exact finite part (`0 * inf = nan`). -/
def mul : XNum K → XNum K → XNum K
  | nan, _ => nan
  | _, nan => nan
  | fin a, fin b => fin (a * b)
  | fin a, inf => if a = 0 then nan else if 0 < a then inf else ninf
  | fin a, ninf => if a = 0 then nan else if 0 < a then ninf else inf
  | inf, fin a => if a = 0 then nan else if 0 < a then inf else ninf
  | ninf, fin a => if a = 0 then nan else if 0 < a then ninf else inf
  | inf, inf => inf
  | inf, ninf => ninf
  | ninf, inf => ninf
  | ninf, ninf => inf

/-- multiplication by `0.5` -/
def half : XNum K → XNum K
  | fin a => fin (a / 2)
  | x => x

/-- The exact instance. -/
instance : FloatOps (XNum K) where
  zero := fin 0
  inf := inf
  tol := fin (1 / 10 ^ 10)
  negOne := fin (-1)
  add := add
  sub := sub
  mul := mul
  half := half
  lt := lt
  le := le
  eq := beq

open FloatOps

@[simp] theorem zero_def : (FloatOps.zero : XNum K) = fin 0 := rfl
@[simp] theorem inf_def : (FloatOps.inf : XNum K) = inf := rfl
@[simp] theorem negOne_def : (FloatOps.negOne : XNum K) = fin (-1) := rfl
theorem tol_def : (FloatOps.tol : XNum K) = fin (1 / 10 ^ 10) := rfl
@[simp] theorem add_fin (a b : K) : FloatOps.add (fin a) (fin b) = fin (a + b) := rfl
@[simp] theorem sub_fin (a b : K) : FloatOps.sub (fin a) (fin b) = fin (a - b) := rfl
@[simp] theorem mul_fin (a b : K) : FloatOps.mul (fin a) (fin b) = fin (a * b) := rfl
@[simp] theorem half_fin (a : K) : FloatOps.half (fin a) = fin (a / 2) := rfl
@[simp] theorem half_inf : FloatOps.half (inf : XNum K) = inf := rfl
@[simp] theorem add_inf_fin (a : K) : FloatOps.add inf (fin a) = inf := rfl
@[simp] theorem add_fin_inf (a : K) : FloatOps.add (fin a) inf = inf := rfl
@[simp] theorem add_inf_inf : FloatOps.add inf (inf : XNum K) = inf := rfl
@[simp] theorem lt_fin (a b : K) : FloatOps.lt (fin a) (fin b) = decide (a < b) := rfl
@[simp] theorem le_fin (a b : K) : FloatOps.le (fin a) (fin b) = decide (a ≤ b) := rfl
@[simp] theorem eq_fin (a b : K) : FloatOps.eq (fin a) (fin b) = decide (a = b) := rfl
@[simp] theorem lt_fin_inf (a : K) : FloatOps.lt (fin a) inf = true := rfl
@[simp] theorem le_fin_inf (a : K) : FloatOps.le (fin a) inf = true := rfl
@[simp] theorem lt_inf (x : XNum K) : FloatOps.lt inf x = false := by cases x <;> rfl
@[simp] theorem le_inf_fin (a : K) : FloatOps.le inf (fin a) = false := rfl
@[simp] theorem le_inf_inf : FloatOps.le inf (inf : XNum K) = true := rfl
@[simp] theorem eq_fin_inf (a : K) : FloatOps.eq (fin a) inf = false := rfl
@[simp] theorem eq_inf_inf : FloatOps.eq (inf : XNum K) inf = true := rfl
@[simp] theorem isNaN_fin (a : K) : isNaN (fin a) = false := by simp [isNaN]
@[simp] theorem isNaN_inf : isNaN (inf : XNum K) = false := rfl
@[simp] theorem olt_fin (a b : K) : olt (fin a) (fin b) = decide (a < b) := by simp [olt]
@[simp] theorem olt_fin_inf (a : K) : olt (fin a) inf = true := by simp [olt]
@[simp] theorem olt_inf (x : XNum K) : olt inf x = (isNaN x) := by
  cases x <;> simp [olt, isNaN] 

end

/-- "is not NaN and at most": the order used to compare results in theorems. -/
def Le [LinearOrder K] (x y : XNum K) : Prop := XNum.le x y = true

end XNum

end Walky
