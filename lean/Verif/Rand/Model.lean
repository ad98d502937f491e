import Verif.Floats.Model

/-!
src/mosmllib/Random.sml.  `fl` is the rounding of reals (Verif/Floats/Model.lean).  A generator is the contents of its
`seedref`; each function returns the value and the new contents.  `ovf` stands for the exception Overflow, raised by
`floor`.  `newgen` (lines 26-33) reads the clock and is not modelled.
-/
namespace Mosml.Rand

inductive Res (α : Type) where
  | ok (v : α)
  | fail
  | ovf
  deriving DecidableEq

/-- src/runtime/mosml.c:136-158 `sml_floor` on a finite double, as characterised by `C08_floor` -/
def floor (x : ℚ) : Res Int :=
  if -4611686018427387904 ≤ ⌊x⌋ ∧ ⌊x⌋ ≤ 4611686018427387903 then .ok ⌊x⌋ else .ovf

variable (fl : ℚ → ℚ)

/-- interp.c:1309 `real` on an int -/
def real (n : Int) : ℚ := fl n

/-- Random.sml:11-12 -/
def a : ℚ := 16807
def m : ℚ := 2147483647

/-- Random.sml:17-19 -/
def nextrand (seed : ℚ) : Res ℚ :=
  let t := fl (a * seed)
  match floor (fl (t / m)) with
  | .ok k => .ok (fl (t - fl (m * real fl k)))
  | .fail => .fail
  | .ovf => .ovf

/-- Random.sml:21-22 -/
def newgenseed (seed : ℚ) : Res ℚ := if seed = 0 then .fail else nextrand fl seed

/-- Random.sml:35-36: the random number and the new seed -/
def random (seed : ℚ) : Res (ℚ × ℚ) :=
  match nextrand fl seed with
  | .ok s => .ok (fl (seed / m), s)
  | .fail => .fail
  | .ovf => .ovf

/-- Random.sml:39-40.  The argument `i` counts down to 0; a negative `n` is not modelled (the loop does not end before
the memory is full). -/
def randomlistH : Nat → ℚ → List ℚ → Res (List ℚ × ℚ)
  | 0, seed, res => .ok (res, seed)
  | i + 1, seed, res =>
    match nextrand fl seed with
    | .ok s => randomlistH i s (fl (seed / m) :: res)
    | .fail => .fail
    | .ovf => .ovf

/-- Random.sml:38-41 -/
def randomlist (n : Nat) (seed0 : ℚ) : Res (List ℚ × ℚ) := randomlistH fl n seed0 []

/-- Random.sml:47, 57 -/
def scale (min max : Int) : ℚ := fl (fl (real fl max - real fl min) / m)

/-- Random.sml:50, 63 `floor(real min + scale * seed)` -/
def pick (min max : Int) (seed : ℚ) : Res Int := floor (fl (real fl min + fl (scale fl min max * seed)))

/-- Random.sml:43-51.  The seed is updated before `floor`. -/
def range (min max : Int) (seed : ℚ) : Res (Int × ℚ) :=
  if min ≥ max then .fail else
  match nextrand fl seed with
  | .ok s => match pick fl min max seed with
    | .ok v => .ok (v, s)
    | .fail => .fail
    | .ovf => .ovf
  | .fail => .fail
  | .ovf => .ovf

/-- Random.sml:60-63.  `nextrand seed` is evaluated before the next element (left to right). -/
def rangelistH (min max : Int) : Nat → ℚ → List Int → Res (List Int × ℚ)
  | 0, seed, res => .ok (res, seed)
  | i + 1, seed, res =>
    match nextrand fl seed with
    | .ok s => match pick fl min max seed with
      | .ok v => rangelistH min max i s (v :: res)
      | .fail => .fail
      | .ovf => .ovf
    | .fail => .fail
    | .ovf => .ovf

/-- Random.sml:53-65 -/
def rangelist (min max : Int) (n : Nat) (seed0 : ℚ) : Res (List Int × ℚ) :=
  if min ≥ max then .fail else rangelistH fl min max n seed0 []

end Mosml.Rand
