import Verif.RealText.Model

/-!
The functions of src/mosmllib/Time.sml.  A time is a real: a number of microseconds.  Reals, rounding and Overflow are as in
Verif/Floats/Model.lean and Verif/RealText/Model.lean.  `now` (the system clock) is left out.
-/
namespace Mosml.Times
open Mosml.RealText (Str R Exn chkf nextReal decval isDigit Fmt fmtFix)
open Mosml.Num (isSpace)

variable (fl : ℚ → ℚ)

/-- mosml.c:222-241 `sml_trunc` (see also Verif/RealConv/Model.lean) -/
def trunc (r : ℚ) : R Int :=
  if r ≥ 2 ^ 62 ∨ r ≤ -2 ^ 62 then .error .overflow else .ok (if 0 ≤ r then ⌊r⌋ else ⌈r⌉)

/-- Time.sml:19 -/
def fromSeconds (s : Int) : R ℚ := chkf fl (1000000 * fl s)

/-- Time.sml:21 -/
def fromMilliseconds (ms : Int) : R ℚ := chkf fl (1000 * fl ms)

/-- Time.sml:23 -/
def fromMicroseconds (us : Int) : ℚ := fl us

/-- Time.sml:25 -/
def toSeconds (r : ℚ) : R Int := do let q ← chkf fl (r / 1000000); trunc q

/-- Time.sml:27 -/
def toMilliseconds (r : ℚ) : R Int := do let q ← chkf fl (r / 1000); trunc q

/-- Time.sml:29 -/
def toMicroseconds (r : ℚ) : R Int := trunc r

/-- Time.sml:31 -/
def fromReal (r : ℚ) : R ℚ := chkf fl (r * 1000000)

/-- Time.sml:33 -/
def toReal (r : ℚ) : R ℚ := chkf fl (r / 1000000)

/-- Time.sml:37-38 -/
def fmt (p : Int) (r : ℚ) : R Fmt := do
  let x ← chkf fl (r / 1000000)
  .ok (fmtFix (if p > 0 then p else 0) x)

/-- Time.sml:40 -/
def toString (t : ℚ) : R Fmt := fmt fl 3 t

/-- Time.sml:46-47, for non-negative arguments (it is applied to 7 - decs with decs ≤ 7) -/
def pow10 : Nat → Int
  | 0 => 1
  | n + 1 => 10 * pow10 n

/-- Time.sml:48-53.  The integers are below 10^9 (7 digits). -/
def mktime (neg : Bool) (intgv : ℚ) (decs : Nat) (fracv : Int) : R ℚ := do
  let usecs := (pow10 (7 - decs) * fracv + 5) / 10
  let t ← chkf fl (intgv * 1000000)
  let res ← chkf fl (t + fl usecs)
  .ok (if neg then -res else res)

/-- Time.sml:54-58 -/
def skipdigs : Str → Str
  | [] => []
  | c :: rest => if isDigit c then skipdigs rest else c :: rest

/-- Time.sml:59-67 -/
def frac (neg : Bool) (intgv : ℚ) (decs : Nat) (fracv : Int) : Str → R (Option (ℚ × Str))
  | [] => do let t ← mktime fl neg intgv decs fracv; .ok (some (t, []))
  | c :: rest =>
    if decs ≥ 7 then do let t ← mktime fl neg intgv decs fracv; .ok (some (t, skipdigs (c :: rest)))
    else if isDigit c then frac neg intgv (decs + 1) (10 * fracv + decval c) rest
    else do let t ← mktime fl neg intgv decs fracv; .ok (some (t, c :: rest))

/-- Time.sml:68-75 -/
def intg (neg : Bool) (intgv : ℚ) : Str → R (Option (ℚ × Str))
  | [] => do let t ← mktime fl neg intgv 6 0; .ok (some (t, []))
  | c :: rest =>
    if c = 46 then frac fl neg intgv 0 0 rest
    else if isDigit c then do let v ← nextReal fl intgv (decval c); intg neg v rest
    else do let t ← mktime fl neg intgv 6 0; .ok (some (t, c :: rest))

/-- Time.sml:76-89 -/
def nbr (neg : Bool) : Str → R (Option (ℚ × Str))
  | [] => .ok none
  | c :: rest =>
    if c = 46 then
      match rest with
      | [] => .ok none
      | c :: rest => if isDigit c then frac fl neg 0 1 (decval c) rest else .ok none
    else if isDigit c then intg fl neg (fl (decval c)) rest
    else .ok none

/-- Time.sml:42-97 -/
def scan (source : Str) : R (Option (ℚ × Str)) :=
  match source.dropWhile isSpace with
  | [] => .ok none
  | c :: rest =>
    if c = 43 then nbr fl false rest
    else if c = 126 then nbr fl true rest
    else if c = 45 then nbr fl true rest
    else nbr fl false (c :: rest)

/-- Time.sml:99 -/
def fromString (s : Str) : R (Option ℚ) := do
  match ← scan fl s with
  | none => .ok none
  | some (r, _) => .ok (some r)

/-- Time.sml:101-102 -/
def compare (x y : ℚ) : Ordering := if x < y then .lt else if x > y then .gt else .eq

/-- Time.sml:104 -/
def add (x y : ℚ) : R ℚ := chkf fl (x + y)

/-- Time.sml:105 -/
def sub (x y : ℚ) : R ℚ := chkf fl (x - y)

end Mosml.Times
