import Verif.Floats.Model
import Verif.Num.Model
import Verif.RealText.Spec

/-!
Text conversion of reals: `fmt` with FIX and `scan` of src/mosmllib/Real.sml, and the primitive
`sml_general_string_of_float` of src/runtime/mosml.c.  Characters are their codes; a character source is the list of the
remaining characters.  `fl` is the rounding of reals (Verif/Floats/Model.lean); results above `maxdouble` raise Overflow
(interp.c:1305-1307).
-/
namespace Mosml.RealText
open Mosml.Num (printfDigits mkSMLMinus isSpace)
open Mosml.Floats

/-! ### Printing -/

/-- C `sprintf("%.*f", n, |x|)`: correctly rounded, ties to even -/
def fixAbs (n : Nat) (x : ℚ) : Str :=
  let N := (rne (|x| * 10 ^ n)).toNat
  let frac := printfDigits 10 (N % 10 ^ n)
  printfDigits 10 (N / 10 ^ n) ++ (if n = 0 then [] else 46 :: (List.replicate (n - frac.length) 48 ++ frac))

/-- C `sprintf("%.*f", n, x)` -/
def sprintfF (n : Nat) (x : ℚ) : Str := if x < 0 then 45 :: fixAbs n x else fixAbs n x

/-- the outcomes of `fmt`; `smash` is a write beyond the end of the C array `format_buffer` -/
inductive Fmt where
  | str (s : Str)
  | size
  | smash
  deriving DecidableEq

/-- mosml.c:1166-1184 with the format "%.nf": `format_buffer` has 512 bytes, one is for the final NUL -/
def generalString (n : Nat) (x : ℚ) : Fmt :=
  let s := sprintfF n x
  if s.length + 1 > 512 then .smash else .str (mkSMLMinus s)

/-- Real.sml:54-56 -/
def fmtFix (n : Int) (x : ℚ) : Fmt := if n < 0 ∨ n > 400 then .size else generalString n.toNat x

/-! ### Scanning -/

/-- the exception Overflow -/
inductive Exn where | overflow
  deriving DecidableEq

abbrev R := Except Exn

/-- fail.c:27 `MAXDOUBLE/2` -/
def maxdouble : ℚ := (2 ^ 53 - 1) * 2 ^ 970

/-- interp.c:1305-1307 `Check_float` after rounding -/
def chkf (fl : ℚ → ℚ) (x : ℚ) : R ℚ :=
  if fl x > maxdouble ∨ fl x < -maxdouble then .error .overflow else .ok (fl x)

/-- an SML int: 63 bits -/
def chki (x : Int) : R Int := if -2 ^ 62 ≤ x ∧ x < 2 ^ 62 then .ok x else .error .overflow

/-- Real.sml:66 -/
def decval (c : Nat) : Int := (c : Int) - 48

/-- Char.sml:55 -/
def isDigit (c : Nat) : Bool := 48 ≤ c && c ≤ 57

/-- Real.sml:67-71, with fuel (`pow10` gives enough) -/
def pow10F (fl : ℚ → ℚ) : Nat → Nat → R ℚ
  | 0, _ => .ok 1
  | _ + 1, 0 => .ok 1
  | f + 1, n + 1 =>
    if (n + 1) % 2 = 0 then do
      let x ← pow10F fl f ((n + 1) / 2)
      chkf fl (x * x)
    else do
      let x ← pow10F fl f n
      chkf fl (10 * x)

def pow10 (fl : ℚ → ℚ) (n : Int) : R ℚ := pow10F fl n.toNat n.toNat

/-- Real.sml:72-76 -/
def pointsym : Str → Bool × Str
  | [] => (false, [])
  | c :: rest => if c = 46 then (true, rest) else (false, c :: rest)

/-- Real.sml:77-83 -/
def esym : Str → Bool × Str
  | [] => (false, [])
  | c :: rest => if c = 101 ∨ c = 69 then (true, rest) else (false, c :: rest)

/-- Real.sml:85-92 `digs` -/
def digs {S T : Type} (next : S → Int → R S) (final : S → R T) (state : S) : Str → R (Option T × Str)
  | [] => do let v ← final state; .ok (some v, [])
  | c :: rest =>
    if isDigit c then do
      let st ← next state (decval c)
      digs next final st rest
    else do let v ← final state; .ok (some v, c :: rest)

/-- Real.sml:84-99 -/
def scandigs {S T : Type} (first : Int → S) (next : S → Int → R S) (final : S → R T) : Str → R (Option T × Str)
  | [] => .ok (none, [])
  | c :: rest => if isDigit c then digs next final (first (decval c)) rest else .ok (none, c :: rest)

variable (fl : ℚ → ℚ)

/-- Real.sml:102-103.  `10.0 * res + real cval` -/
def nextReal (res : ℚ) (cval : Int) : R ℚ := do
  let t ← chkf fl (10 * res)
  chkf fl (t + fl cval)

def getint : Str → R (Option ℚ × Str) := scandigs (fun c => fl c) (nextReal fl) (fun x => .ok x)

/-- Real.sml:104-107 -/
def getfrac : Str → R (Option ℚ × Str) :=
  scandigs (fun cval => ((1 : Int), fl cval))
    (fun (decs, frac) cval => do
      let d ← chki (decs + 1)
      let f ← nextReal fl frac cval
      .ok (d, f))
    (fun (decs, frac) => do
      let p ← pow10 fl decs
      chkf fl (frac / p))

/-- Real.sml:108 -/
def getexp : Str → R (Option Int × Str) :=
  scandigs (fun c => c) (fun res cval => do let t ← chki (10 * res); chki (t + cval)) (fun x => .ok x)

/-- Real.sml:110-115 -/
def sign : Str → Bool × Str
  | 43 :: rest => (true, rest)
  | 45 :: rest => (false, rest)
  | 126 :: rest => (false, rest)
  | src => (true, src)

/-- Real.sml:122-123 -/
def mkres (manpos : Bool) (v : ℚ) (rest : Str) : R (Option (ℚ × Str)) := .ok (some (if manpos then v else -v, rest))

/-- Real.sml:125-136 -/
def expopt (manpos : Bool) (manval : ℚ) (src : Str) : R (Option (ℚ × Str)) := do
  let (es, src1) := esym src
  let (exppos, src2) := sign src1
  let (expv, rest) ← getexp src2
  match es, expv with
  | _, none => mkres manpos manval src
  | true, some exp =>
    let p ← pow10 fl exp
    if exppos then do let v ← chkf fl (manval * p); mkres manpos v rest
    else do let v ← chkf fl (manval / p); mkres manpos v rest
  | _, _ => .ok none

/-- Real.sml:65-145 -/
def scan (source : Str) : R (Option (ℚ × Str)) := do
  let src := source.dropWhile isSpace
  let (manpos, src1) := sign src
  let (intg, src2) ← getint fl src1
  let (decpt, src3) := pointsym src2
  let (frac, src4) ← getfrac fl src3
  match intg, decpt, frac with
  | none, true, some fval => expopt fl manpos fval src4
  | some _, false, some _ => .ok none
  | some ival, true, none => mkres manpos ival src2
  | some ival, false, none => expopt fl manpos ival src2
  | some ival, _, some fval => do let v ← chkf fl (ival + fval); expopt fl manpos v src4
  | _, _, _ => .ok none

/-- StringCvt.sml:30-37 and Real.sml:147 -/
def fromString (s : Str) : R (Option ℚ) := do
  match ← scan fl s with
  | none => .ok none
  | some (r, _) => .ok (some r)

end Mosml.RealText
