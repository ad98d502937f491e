import Verif.Ints.Model
import Mathlib.Data.Rat.Floor

/-!
Conversion of reals to ints: src/runtime/mosml.c:136-245 (`sml_floor`, `sml_ceil`, `sml_round`,
`sml_trunc`).  A double is a finite rational number, an infinity or a NaN; which rationals are doubles is
said by `IsDouble` (in Spec).  `(long) r` truncates and is undefined behaviour when the result does not fit
(`Out.trap`); `(double) i` rounds to nearest, ties to even, with 53 significant bits.
-/
namespace Mosml.RealConv
open Mosml.Ints

inductive Dbl where
  | fin (r : ℚ)
  | pinf
  | ninf
  | nan

/-- IEEE comparison `a < b` (false on NaN) -/
def Dbl.lt : Dbl → Dbl → Bool
  | .nan, _ => false
  | _, .nan => false
  | .fin a, .fin b => a < b
  | .ninf, .ninf => false
  | .ninf, _ => true
  | _, .ninf => false
  | .pinf, _ => false
  | _, .pinf => true

/-- IEEE comparison `a <= b` -/
def Dbl.le : Dbl → Dbl → Bool
  | .nan, _ => false
  | _, .nan => false
  | .fin a, .fin b => a ≤ b
  | .ninf, _ => true
  | _, .ninf => false
  | .pinf, .pinf => true
  | .pinf, _ => false
  | _, .pinf => true

/-- the magnitude of `(double) n` for an integer: 53 significant bits, round to nearest, ties to even -/
def roundMag (n : Nat) : Nat :=
  if n < 2 ^ 53 then n
  else
    let q := 2 ^ (Nat.log2 n - 52)
    let lo := n / q
    let rest := n % q
    if 2 * rest < q then lo * q
    else if q < 2 * rest then (lo + 1) * q
    else if lo % 2 = 0 then lo * q else (lo + 1) * q

/-- C conversion `(double) i` of an integer -/
def toDouble (i : Int) : Int := if i < 0 then -(roundMag i.natAbs : Int) else roundMag i.natAbs

/-- C conversion `(long) r`: truncation; undefined behaviour (`none`) if it does not fit or r is not finite -/
def castLong : Dbl → Option Int
  | .fin r =>
    let i := if r < 0 then ⌈r⌉ else ⌊r⌋
    if -9223372036854775808 ≤ i ∧ i < 9223372036854775808 then some i else none
  | _ => none

/-- mlvalues.h:65-66 -/
def maxLong : Int := 4611686018427387903
def minLong : Int := -4611686018427387904

/-- `(double) i` as a double -/
def dbl (i : Int) : Dbl := .fin (toDouble i : Int)

/-- `v = Val_long(i); if (Long_val(v) != i) goto raise; return v` -/
def retChecked (i : Int) : Out Value :=
  let w := BitVec.ofInt 64 i
  if longVal (valLong w) != w then .overflow else .val (valLong w)

/-- mosml.c:136-158 sml_floor.  `(double) Max_long + 1` is a double addition, rounded. -/
def smlFloor (r : Dbl) : Out Value :=
  if Dbl.le (.fin 0) r then
    if Dbl.le (dbl (toDouble maxLong + 1)) r then .overflow
    else match castLong r with
      | none => .trap
      | some i => retChecked i
  else if Dbl.lt r (dbl minLong) then .overflow
  else match castLong r with
    | none => .trap
    | some i => if Dbl.lt r (dbl i) then retChecked (i - 1) else retChecked i

/-- mosml.c:160-182 sml_ceil -/
def smlCeil (r : Dbl) : Out Value :=
  if Dbl.le (.fin 0) r then
    if Dbl.lt (dbl maxLong) r then .overflow
    else match castLong r with
      | none => .trap
      | some i => if Dbl.lt (dbl i) r then retChecked (i + 1) else retChecked i
  else if Dbl.le r (dbl (minLong - 1)) then .overflow
  else match castLong r with
    | none => .trap
    | some i => retChecked i

/-- C `rint` in the default rounding mode: nearest integer, ties to even.  The result of `rint` on a double
is always a double. -/
def rint : Dbl → Dbl
  | .fin r =>
    let f := ⌊r⌋
    let d := r - f
    if d < 1 / 2 then .fin f
    else if 1 / 2 < d then .fin (f + 1 : Int)
    else if f % 2 = 0 then .fin f else .fin (f + 1 : Int)
  | d => d

/-- mosml.c:192-224 sml_round (the branch with `rint`; the MSDOS/hpux/WIN32 branch is not modelled) -/
def smlRound (f : Dbl) : Out Value :=
  let r := rint f
  if Dbl.lt (dbl maxLong) r || Dbl.lt r (dbl minLong) then .overflow
  else match castLong r with
    | none => .trap
    | some i => .val (valLong (BitVec.ofInt 64 i))

/-- mosml.c:226-241 sml_trunc -/
def smlTrunc (r : Dbl) : Out Value :=
  if Dbl.le (dbl (maxLong + 1)) r || Dbl.le r (dbl (minLong - 1)) then .overflow
  else match castLong r with
    | none => .trap
    | some i => .val (valLong (BitVec.ofInt 64 i))

end Mosml.RealConv
