import Verif.Ints.Props

/-!
SML integer operations at the level of mathematical integers, for use by the models of library code
written in SML.  `none` means that an exception is raised (Overflow; Div for a zero divisor).  The
theorems tie them to the instructions, including the misbehaviour of multiplication (C02).
-/
namespace Mosml.Ints

/-- result of an SML integer expression: `none` is Overflow -/
def chk (n : Int) : Option Int := if InRange n then some n else none

/-- `x + y` (interp.c:1427 SMLADDINT, see `iadd_spec`) -/
def iadd (x y : Int) : Option Int := chk (x + y)
/-- `x - y` (interp.c:1433 SMLSUBINT) -/
def isub (x y : Int) : Option Int := chk (x - y)
/-- `~x` (interp.c:1405 SMLNEGINT) -/
def ineg (x : Int) : Option Int := chk (-x)
/-- `x * y` (interp.c:1443 SMLMULINT, which raises Overflow whenever both magnitudes reach 2^31) -/
def imul (x y : Int) : Option Int :=
  if 2147483648 ≤ x.natAbs ∧ 2147483648 ≤ y.natAbs then none else chk (x * y)
/-- `x div y` (interp.c:1468 SMLDIVINT); only used with `y ≠ 0` -/
def idiv (x y : Int) : Option Int := if y = 0 then none else chk (x.fdiv y)
/-- `x mod y` (interp.c:1490 SMLMODINT); only used with `y ≠ 0` -/
def imod (x y : Int) : Option Int := if y = 0 then none else chk (x.fmod y)

/-- the instruction outcome corresponding to `chk` -/
def outOf : Option Int → Out Value
  | some n => .val (enc n)
  | none => .overflow

theorem outOf_chk (n : Int) : outOf (chk n) = exactOr n := by
  unfold chk exactOr; split <;> rfl

theorem iadd_spec {x y : Int} (hx : InRange x) (hy : InRange y) :
    smlAdd (enc x) (enc y) = outOf (iadd x y) := by
  rw [iadd, outOf_chk, C01_add hx hy]; rfl
theorem isub_spec {x y : Int} (hx : InRange x) (hy : InRange y) :
    smlSub (enc x) (enc y) = outOf (isub x y) := by
  rw [isub, outOf_chk, C01_sub hx hy]; rfl
theorem ineg_spec {x : Int} (hx : InRange x) : smlNeg (enc x) = outOf (ineg x) := by
  rw [ineg, outOf_chk, C01_neg hx]; rfl
theorem imul_spec {x y : Int} (hx : InRange x) (hy : InRange y) :
    smlMul (enc x) (enc y) = outOf (imul x y) := by
  rw [smlMul_eq hx hy, imul]
  have h : ∀ n : Int, mag n = n.natAbs := by intro n; unfold mag; split <;> omega
  by_cases hc : 2147483648 ≤ x.natAbs ∧ 2147483648 ≤ y.natAbs
  · rw [if_pos (by rw [h, h]; omega), if_pos hc]; rfl
  · rw [if_neg (by rw [h, h]; omega), if_neg hc, outOf_chk]
theorem idiv_spec {x y : Int} (hx : InRange x) (hy : InRange y) (h0 : y ≠ 0) :
    smlDiv (enc x) (enc y) = outOf (idiv x y) := by
  rw [smlDiv_eq hx hy, if_neg h0, idiv, if_neg h0, outOf_chk]
theorem imod_spec {x y : Int} (hx : InRange x) (hy : InRange y) (h0 : y ≠ 0) :
    smlMod (enc x) (enc y) = outOf (imod x y) := by
  rw [smlMod_eq hx hy, if_neg h0, imod, if_neg h0, outOf_chk, exactOr, if_pos]
  have h1 : 0 ≤ x.fmod y ∧ x.fmod y < y ∨ y < x.fmod y ∧ x.fmod y ≤ 0 := by
    rw [fmod_signs x y h0]
    split
    · have := Int.emod_nonneg (-x) (b := -y) (by omega)
      have := Int.emod_lt_of_pos (-x) (b := -y) (by omega)
      omega
    · have := Int.emod_nonneg x h0
      have := Int.emod_lt_of_pos x (b := y) (by omega)
      omega
  unfold InRange minInt maxInt at *; omega

theorem chk_some {n : Int} (h : InRange n) : chk n = some n := by rw [chk, if_pos h]
theorem chk_none {n : Int} (h : ¬ InRange n) : chk n = none := by rw [chk, if_neg h]

theorem imul_small {x y : Int} (h : x.natAbs < 2147483648) : imul x y = chk (x * y) := by
  rw [imul, if_neg (by omega)]

end Mosml.Ints
