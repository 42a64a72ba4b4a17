import Verif.Rounding

/-!
# Square root and random numbers in IEEE double precision

`sqrt64` is the correctly rounded square root of IEEE 754 (`f64::sqrt`), `coordinate64` a random
coordinate of the instance generator.
-/

namespace Walky

/-- the last bit of the square root of `x` -/
def sqrtQuantum (x : ℚ) : ℤ := exponent x / 2 - 52

/-- `⌊√x⌋` in units of the last bit -/
def sqrtFloor (x : ℚ) : ℕ := Nat.sqrt ⌊x / pow2 (2 * sqrtQuantum x)⌋.toNat

/-- the square root of `x > 0`, rounded to the nearest number with 53 significant bits. (A square root of
a double is not in the middle between two of them.) -/
def nearestSqrt (x : ℚ) : ℚ :=
  (if x / pow2 (2 * sqrtQuantum x) ≤ ((sqrtFloor x : ℚ) + 1 / 2) ^ 2 then (sqrtFloor x : ℚ)
    else (sqrtFloor x : ℚ) + 1) * pow2 (sqrtQuantum x)

/-- `f64::sqrt`: NaN for negative numbers -/
def sqrt64 : XNum ℚ → XNum ℚ
  | .fin x => if x < 0 then .nan else if x = 0 then .fin 0 else .fin (nearestSqrt x)
  | .inf => .inf
  | _ => .nan

/-- `gen_matrix_fast/src/main.rs:59-64`: `rand::random::<f64>() * 20.0 - 10.0`. A random `f64` is
`k * 2⁻⁵³` for a random number `k` of 53 bits (`rand` 0.8). -/
def coordinate64 (k : Nat) : XNum ℚ :=
  binary64.ops.sub (binary64.ops.mul (.fin (k * pow2 (-53))) (.fin 20)) (.fin 10)

end Walky
