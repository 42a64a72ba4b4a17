import Verif.Num
import Mathlib.Algebra.Order.Floor.Ring
import Mathlib.Data.Rat.Floor
import Mathlib.Algebra.Group.Subgroup.Defs

/-!
# Rounded arithmetic

`Rounding.ops` is the arithmetic of `XNum K` in which every finite result of an operation is rounded,
and `binary64` is the rounding of IEEE double precision (`f64`): nearest, ties to even, gradual
underflow, overflow to the infinities. (The two zeros are not distinguished; they compare equal and the
code never divides.)
-/

namespace Walky

/-- How the exact result of an operation is rounded: to a finite number, or to an infinity. -/
structure Rounding (K : Type) where
  /-- the rounded value -/
  rnd : K → XNum K

/-- The operations of the code in a rounded arithmetic. -/
@[reducible] def Rounding.ops {K : Type} [Field K] [LinearOrder K] (R : Rounding K) :
    FloatOps (XNum K) where
  zero := .fin 0
  inf := .inf
  tol := R.rnd (1 / 10 ^ 10)
  negOne := .fin (-1)
  add x y := match x, y with
    | .fin a, .fin b => R.rnd (a + b)
    | x, y => XNum.add x y
  sub x y := match x, y with
    | .fin a, .fin b => R.rnd (a - b)
    | x, y => XNum.sub x y
  mul x y := match x, y with
    | .fin a, .fin b => R.rnd (a * b)
    | x, y => XNum.mul x y
  half x := match x with
    | .fin a => R.rnd (a / 2)
    | x => x
  lt := XNum.lt
  le := XNum.le
  eq := XNum.beq

/-- `R` does not round the numbers of the group `T` up to the size `N`, nor their halves. -/
structure Rounding.ExactOn {K : Type} [Field K] [LinearOrder K] (R : Rounding K) (T : AddSubgroup K)
    (N : K) : Prop where
  whole : ∀ x ∈ T, |x| ≤ N → R.rnd x = .fin x
  half : ∀ x ∈ T, |x| ≤ N → R.rnd (x / 2) = .fin (x / 2)

/-! ## IEEE double precision -/

/-- `2 ^ q` -/
def pow2 : ℤ → ℚ
  | .ofNat n => ((2 ^ n : ℕ) : ℚ)
  | .negSucc n => 1 / ((2 ^ (n + 1) : ℕ) : ℚ)

/-- nearest integer, ties to even -/
def roundEven (x : ℚ) : ℤ :=
  if x - ⌊x⌋ < 1 / 2 then ⌊x⌋
  else if 1 / 2 < x - ⌊x⌋ then ⌊x⌋ + 1
  else if ⌊x⌋ % 2 = 0 then ⌊x⌋ else ⌊x⌋ + 1

/-- the exponent `e` with `2 ^ e ≤ |x| < 2 ^ (e + 1)` -/
def exponent (x : ℚ) : ℤ :=
  let e : ℤ := (Nat.log2 x.num.natAbs : ℤ) - (Nat.log2 x.den : ℤ)
  if pow2 e ≤ |x| then e else e - 1

/-- exponent of the last of the 53 significant bits, at least `-1074` -/
def quantum (x : ℚ) : ℤ := max (exponent x - 52) (-1074)

/-- the nearest multiple of the last bit -/
def nearest64 (x : ℚ) : ℚ := (roundEven (x / pow2 (quantum x)) : ℚ) * pow2 (quantum x)

/-- rounding of IEEE double precision -/
def round64 (x : ℚ) : XNum ℚ :=
  if x = 0 then .fin 0
  else if pow2 1024 ≤ nearest64 x then .inf
  else if nearest64 x ≤ -pow2 1024 then .ninf
  else .fin (nearest64 x)

/-- IEEE double precision -/
def binary64 : Rounding ℚ := ⟨round64⟩

end Walky
