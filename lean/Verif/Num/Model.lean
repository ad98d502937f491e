import Verif.Ints.Sml

/-!
Text conversion of ints and words: src/runtime/mosml.c (C primitives), src/mosmllib/Int.mlp and
src/mosmllib/Word.mlp.  Characters are their codes (`Nat`, below 256 for real characters), strings are
lists of codes; a C string ends at its first 0 byte.
-/
namespace Mosml.Num
open Mosml.Ints

abbrev Str := List Nat

/-! ### C primitives -/

/-- mosml.c:296-319 scandec.  `unsigned long` arithmetic (mod 2^64).  `none` is the exception Failure.
A list stands for the bytes up to the terminating NUL; a 0 byte inside the list also ends the scan. -/
def scandecLoop (max : Nat) (res : Nat) : Str → Option Nat
  | [] => some res
  | c :: p =>
    if 48 ≤ c ∧ c ≤ 57 then
      let d := c - 48
      if res > max / 10 ∨ (res = max / 10 ∧ max % 10 ≤ d) then none
      else scandecLoop max ((10 * res + d) % 2 ^ 64) p
    else if c ≠ 0 then none else some res

def scandec (p : Str) (max : Nat) : Option Nat := scandecLoop max 0 p

/-- C `toupper` in the C locale. -/
def toupper (c : Nat) : Nat := if 97 ≤ c ∧ c ≤ 122 then c - 32 else c

/-- mosml.c:327-332: value of a hexadecimal digit, `none` when the loop breaks. -/
def hexDigit (c0 : Nat) : Option Nat :=
  let c := toupper c0
  if 48 ≤ c ∧ c ≤ 57 then some (c - 48)
  else if 65 ≤ c ∧ c ≤ 70 then some (c + 10 - 65)
  else none

/-- mosml.c:321-346 scanhex -/
def scanhexLoop (max : Nat) (res : Nat) : Str → Option Nat
  | [] => some res
  | c :: p =>
    match hexDigit c with
    | some d =>
      if res > max / 16 ∨ (res = max / 16 ∧ max % 16 ≤ d) then none
      else scanhexLoop max ((16 * res + d) % 2 ^ 64) p
    | none => if c ≠ 0 then none else some res

def scanhex (p : Str) (max : Nat) : Option Nat := scanhexLoop max 0 p

/-- `(unsigned long) Min_long` (mlvalues.h:66) -/
def uMinLong : Nat := 2 ^ 64 - 2 ^ 62

/-- mosml.c:360-366: apply the sign, tag, and check; `none` is Failure.
`res = sign * scan(...)` is computed in `unsigned long` and converted to `long`. -/
def signCheck (neg : Bool) (u : Nat) : Option Value :=
  let res : Value := if neg then BitVec.ofNat 64 ((2 ^ 64 - 1) * u) else BitVec.ofNat 64 u
  if longVal (valLong res) != res then none else some (valLong res)

/-- mosml.c:348-369 sml_int_of_string -/
def intOfString (s : Str) : Option Value :=
  match s with
  | 126 :: p => (scandec p uMinLong).bind (signCheck true)
  | p => (scandec p uMinLong).bind (signCheck false)

/-- mosml.c:1194-1220 sml_int_of_hex (argument of the form [~]0x...; `p += 2` skips the prefix). -/
def intOfHex (s : Str) : Option Value :=
  match s with
  | 126 :: p => (scanhex (p.drop 2) uMinLong).bind (signCheck true)
  | p => (scanhex (p.drop 2) uMinLong).bind (signCheck false)

/-- `2 * (unsigned long) Min_long`, reduced mod 2^64 -/
def wordMax : Nat := (2 * uMinLong) % 2 ^ 64

/-- mosml.c:1222-1236 sml_word_of_hex (argument 0wx...) -/
def wordOfHex (s : Str) : Option Value :=
  (scanhex (s.drop 3) wordMax).map fun r => valLong (BitVec.ofNat 64 r)

/-- mosml.c:1238-1251 sml_word_of_dec (argument 0w...) -/
def wordOfDec (s : Str) : Option Value :=
  (scandec (s.drop 2) wordMax).map fun r => valLong (BitVec.ofNat 64 r)

/-- Digits of a natural number, least significant last, upper case (the behaviour of C `printf` for
`%ld`, `%lu` and `%lX` without flags: no leading zeros, `0` for zero). -/
def digitChar (d : Nat) : Nat := if d < 10 then 48 + d else 55 + d

def printfDigits (base : Nat) (n : Nat) : Str :=
  if _h : n < base ∨ base < 2 then [digitChar n]
  else printfDigits base (n / base) ++ [digitChar (n % base)]
termination_by n
decreasing_by
  have : ¬ n < base := fun hh => _h (Or.inl hh)
  have : ¬ base < 2 := fun hh => _h (Or.inr hh)
  exact Nat.div_lt_self (by omega) (by omega)

/-- C `sprintf("%ld", n)` -/
def printfLd (n : Int) : Str :=
  if n < 0 then 45 :: printfDigits 10 n.natAbs else printfDigits 10 n.natAbs

/-- mosml.c:466-486 mkSMLMinus: drop `+`, `-` to `~`, `e` to `E`, drop one zero after the exponent. -/
def mkSMLMinusLoop (justafterexp : Bool) : Str → Str
  | [] => []
  | c :: p =>
    if c = 43 then mkSMLMinusLoop justafterexp p
    else if c = 45 then 126 :: mkSMLMinusLoop justafterexp p
    else if c = 101 then 69 :: mkSMLMinusLoop true p
    else if c = 48 then
      if justafterexp then mkSMLMinusLoop false p else 48 :: mkSMLMinusLoop false p
    else c :: mkSMLMinusLoop false p

def mkSMLMinus (s : Str) : Str := mkSMLMinusLoop false s

/-- mosml.c:488-495 sml_string_of_int -/
def stringOfInt (arg : Value) : Str := mkSMLMinus (printfLd (longVal arg).toInt)

/-- mosml.c:1253-1259 sml_hexstring_of_word: `sprintf("0wx%lX", Long_val((unsigned long)arg))`. -/
def hexstringOfWord (arg : Value) : Str := [48, 119, 120] ++ printfDigits 16 (arg >>> 1).toNat

/-! ### Int.mlp -/

/-- StringCvt.sml:20 radix -/
inductive Radix where | bin | oct | dec | hex
deriving DecidableEq, Repr

/-- Int.mlp:51-56: the factor for each radix. -/
def Radix.factor : Radix → Nat | .bin => 2 | .oct => 8 | .dec => 10 | .hex => 16

/-- Int.mlp:52-56 and Char.sml:55,57: isDigit for each radix. -/
def Radix.isDigit : Radix → Nat → Bool
  | .bin, c => 48 ≤ c && c ≤ 49
  | .oct, c => 48 ≤ c && c ≤ 55
  | .dec, c => 48 ≤ c && c ≤ 57
  | .hex, c => (48 ≤ c && c ≤ 57) || (97 ≤ c && c ≤ 102) || (65 ≤ c && c ≤ 70)

/-- Char.sml:63 isSpace -/
def isSpace (c : Nat) : Bool := c == 32 || (9 ≤ c && c ≤ 13)

/-- Int.mlp:29-31 hexval (`ord c` is below 256, so only `mod` with positive divisor). -/
def hexval (c : Nat) : Int := if 48 ≤ c && c ≤ 57 then (c : Int) - 48 else ((c : Int) - 55).fmod 32

/-- Int.mlp:32 prhex -/
def prhex (i : Int) : Nat := if i < 10 then (i + 48).toNat else (i + 55).toNat

/-- Int.mlp:36-37: `h n res`, with fuel.  The fuel given by `conv` suffices (`conv_spec`). -/
def convH (radix : Int) : Nat → Int → Str → Str
  | 0, _, res => res
  | f + 1, n, res => if n = 0 then res else convH radix f (n.fdiv radix) (prhex (n.fmod radix) :: res)

/-- Int.mlp:35-48 conv.  `div`/`mod` are SML's; no subexpression overflows because the divisor is never
`~1` (C03), so plain `fdiv`/`fmod` are used; `~(i mod (~radix))` is a small number. -/
def conv (radix : Int) (i : Int) : Str :=
  let fuel := i.natAbs + 1
  if i < 0 then
    let last := -(i.fmod (-radix))
    let first := i.fdiv (-radix)
    126 :: convH radix fuel first [prhex last]
  else convH radix fuel (i.fdiv radix) [prhex (i.fmod radix)]

/-- Int.mlp:93-96 fmt -/
def intFmt (r : Radix) (i : Int) : Str := conv r.factor i

/-- Result of a scan function on a character source that is a list: NONE, SOME(value, rest), or the
exception Overflow. -/
inductive Scan (α : Type) where
  | none
  | some (v : α) (rest : Str)
  | overflow
deriving DecidableEq, Repr

/-- Int.mlp:63-70 digr with next_val (Int.mlp:60-62). -/
def digr (r : Radix) (sgn : Int) (res : Int) : Str → Scan Int
  | [] => .some res []
  | c :: rest =>
    if r.isDigit c then
      match imul r.factor res with
      | Option.none => .overflow
      | Option.some p =>
        match (if sgn = 1 then iadd p (hexval c) else isub p (hexval c)) with
        | Option.none => .overflow
        | Option.some v => digr r sgn v rest
    else .some res (c :: rest)

/-- Int.mlp:58-71 dig1 (argument: the source whose `getc` is inspected). -/
def dig1 (r : Radix) (sgn : Int) : Str → Scan Int
  | [] => .none
  | c :: rest => if r.isDigit c then digr r sgn (sgn * hexval c) rest else .none

/-- Int.mlp:72-75 getdigs -/
def getdigs (r : Radix) (sgn : Int) (after0 inp : Str) : Scan Int :=
  match dig1 r sgn inp with
  | .none => .some 0 after0
  | res => res

/-- Int.mlp:76-85 hexopt -/
def hexopt (r : Radix) (sgn : Int) : Str → Scan Int
  | [] => .none
  | 48 :: after0 =>
    if r ≠ .hex then getdigs r sgn after0 after0
    else
      match after0 with
      | [] => .some 0 after0
      | 120 :: rest => getdigs r sgn after0 rest
      | 88 :: rest => getdigs r sgn after0 rest
      | inp => getdigs r sgn after0 inp
  | inp => dig1 r sgn inp

/-- Int.mlp:50-91 scan, on a list source (`getc` takes the head). -/
def intScan (r : Radix) (src : Str) : Scan Int :=
  match src.dropWhile isSpace with
  | [] => .none
  | 126 :: rest => hexopt r (-1) rest
  | 45 :: rest => hexopt r (-1) rest
  | 43 :: rest => hexopt r 1 rest
  | inp => hexopt r 1 inp

/-! ### Word.mlp -/

/-- Word.mlp:87-92 hexval, on word values (`mod` of non-negative words). -/
def whexval (c : Nat) : Nat := if 48 ≤ c && c ≤ 57 then c - 48 else (c - 55) % 32

/-- Word.mlp:94-96 prhex -/
def wprhex (i : Nat) : Nat := if i < 10 then i + 48 else i + 55

/-- Word.mlp:99-101 `h`, with fuel -/
def wconvH (radix : Nat) : Nat → Nat → Str → Str
  | 0, _, res => res
  | f + 1, n, res => if n = 0 then res else wconvH radix f (n / radix) (wprhex (n % radix) :: res)

/-- Word.mlp:98-103 conv; word `div`/`mod` are unsigned (C04). -/
def wordFmt (r : Radix) (w : Nat) : Str :=
  wconvH r.factor (w + 1) (w / r.factor) [wprhex (w % r.factor)]

/-- Word.mlp:117-125 digr: arithmetic modulo 2^63 (C04), no overflow test. -/
def wdigr (r : Radix) (res : Nat) : Str → Option (Nat × Str)
  | [] => some (res, [])
  | c :: rest =>
    if r.isDigit c then wdigr r ((r.factor * res % W + whexval c) % W) rest
    else some (res, c :: rest)

/-- Word.mlp:115-128 dig1 -/
def wdig1 (r : Radix) : Str → Option (Nat × Str)
  | [] => none
  | c :: rest => if r.isDigit c then wdigr r (whexval c) rest else none

/-- Word.mlp:129-132 getdigs -/
def wgetdigs (r : Radix) (after0 src : Str) : Option (Nat × Str) :=
  match wdig1 r src with
  | none => some (0, after0)
  | res => res

/-- Word.mlp:133-140 hexprefix -/
def whexprefix (r : Radix) (after0 src : Str) : Option (Nat × Str) :=
  if r ≠ .hex then wgetdigs r after0 src
  else
    match src with
    | 120 :: rest => wgetdigs r after0 rest
    | 88 :: rest => wgetdigs r after0 rest
    | _ :: _ => wgetdigs r after0 src
    | [] => some (0, after0)

/-- Word.mlp:106-150 scan, on a list source. -/
def wordScan (r : Radix) (src : Str) : Option (Nat × Str) :=
  match src.dropWhile isSpace with
  | 48 :: after0 =>
    match after0 with
    | 119 :: src2 => whexprefix r after0 src2
    | _ :: _ => whexprefix r after0 after0
    | [] => some (0, after0)
  | [] => none
  | source => wdig1 r source

end Mosml.Num
