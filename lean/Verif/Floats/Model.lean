import Verif.RealConv.Props
import Mathlib.Algebra.Order.Round
import Mathlib.Data.Int.Log

/-!
Arithmetic on reals.  The runtime (src/runtime/interp.c:1312-1342 `SMLNEGFLOAT` … `SMLDIVFLOAT`, and mosml.c) computes with
C doubles: the exact result is rounded to a nearest double.  A real is a rational here; `Nearest fl` says that `fl`
rounds to a nearest number with 53 significant bits.  Ties may go either way, so that what is proved for every such
`fl` does not depend on the way of breaking ties.  Simplification: exponents are without bounds (no overflow to
infinity, no underflow); the sign of zero and NaN are not modelled.
-/
namespace Mosml.Floats
open Mosml.RealConv (IsDouble)

/-- IEEE 754 rounding to nearest, without bounds on the exponent -/
structure Nearest (fl : ℚ → ℚ) : Prop where
  isDouble : ∀ x, IsDouble (fl x)
  near : ∀ x y, IsDouble y → |fl x - x| ≤ |y - x|

/-- the distance between neighbouring doubles of the size of x -/
def ulp (x : ℚ) : ℚ := (2 : ℚ) ^ (Int.log 2 |x| - 52)

/-- nearest integer, ties to even -/
def rne (x : ℚ) : Int :=
  let f := ⌊x⌋
  if x - f < 1 / 2 then f else if 1 / 2 < x - f then f + 1 else if f % 2 = 0 then f else f + 1

/-- IEEE 754 round to nearest, ties to even: what the hardware computes -/
def rnd (x : ℚ) : ℚ := if x = 0 then 0 else (rne (x / ulp x) : Int) * ulp x

end Mosml.Floats
