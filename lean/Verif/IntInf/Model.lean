import Verif.Num.Model
import Verif.Num.Spec

/-!
# Model of `IntInf` (src/dynlibs/intinf/IntInf.sml over src/dynlibs/intinf/intinf.c)

A `largeint` is a finalized block holding an `MP_INT`; every SML function makes a fresh one, lets one GMP
function fill it, and never changes it again, so that a `largeint` is modelled by the number it holds.
The GMP functions themselves are not in the repository; they are taken at their documented meaning:
`mpz_fdiv_*` rounds down, `mpz_tdiv_*` rounds towards zero, `mpz_sizeinbase x 2` is the number of bits of
`|x|` (1 for 0), `mpz_get_str` writes lower-case digits, `mpz_set_str` reads an optional `-` and digits
of either case. Not modelled: running out of memory, the `Size` exception of `revimplode` (only for more
than `String.maxSize` digits), the finalization of blocks.
-/
namespace Mosml.IntInf
open Mosml.Ints Mosml.Num

/-- outcome of an operation: a value or one of the exceptions -/
inductive Res (α : Type) where
  | val (a : α)
  | div
  | overflow
  | domain
  | fail
deriving DecidableEq, Repr

/-- intinf.c:272-281 largeint_cmp: the sign of `mpz_cmp` -/
def largeintCmp (a b : Int) : Int := if a < b then -1 else if a > b then 1 else 0

/-- intinf.c:283-292 largeint_cmp_si -/
def largeintCmpSi (a si : Int) : Int := if a < si then -1 else if a > si then 1 else 0

/-- intinf.c:199-206 largeint_to_si, for a number that fits a C `long` (IntInf.toInt calls it only
after comparing): `Val_long` drops the top bit, and `Long_val` shows whether that lost anything. -/
def largeintToSi (a : Int) : Res Int :=
  let tmp := BitVec.ofInt 64 a
  let res := (tmp <<< 1) + 1
  if (res.sshiftRight 1) ≠ tmp then .overflow else .val (res.sshiftRight 1).toInt

/-- intinf.c:294-295 largeint_sizeinbase for base 2 -/
def sizeinbase2 (a : Int) : Nat := if a = 0 then 1 else Nat.log2 a.natAbs + 1

/-- IntInf.sml:80-83 fromInt; intinf.c:180-185 largeint_make_si -/
def fromInt (si : Int) : Int := if si = 0 then 0 else if si = 1 then 1 else if si = -1 then -1 else si

/-- IntInf.sml:85-94 toInt (Int.minInt and Int.maxInt are `SOME`) -/
def toInt (li : Int) : Res Int :=
  if largeintCmpSi li minInt ≠ -1 ∧ largeintCmpSi li maxInt ≠ 1 then largeintToSi li else .overflow

/-- IntInf.sml:99 sign -/
def sign (li : Int) : Int := largeintCmpSi li 0

/-- IntInf.sml:101 sameSign -/
def sameSign (a b : Int) : Bool := sign a == sign b

/-- IntInf.sml:103-108 compare -/
def compare (a b : Int) : Res Ordering :=
  if largeintCmp a b = -1 then .val .lt
  else if largeintCmp a b = 0 then .val .eq
  else if largeintCmp a b = 1 then .val .gt
  else .fail

/-- IntInf.sml:110-112 ~; intinf.c:208-212 -/
def neg (a : Int) : Int := -a

/-- IntInf.sml:114-115 abs -/
def abs (a : Int) : Int := if sign a = -1 then neg a else a

/-- IntInf.sml:117-121 div; intinf.c:253-257 mpz_fdiv_q -/
def div (a b : Int) : Res Int := if sign b = 0 then .div else .val (Int.fdiv a b)
/-- IntInf.sml:123-130 mod; intinf.c:259-263 mpz_fdiv_r -/
def mod (a b : Int) : Res Int := if sign b = 0 then .div else .val (Int.fmod a b)
/-- IntInf.sml:132-136 quot; intinf.c:233-237 mpz_tdiv_q -/
def quot (a b : Int) : Res Int := if sign b = 0 then .div else .val (Int.tdiv a b)
/-- IntInf.sml:138-142 rem; intinf.c:239-243 mpz_tdiv_r -/
def rem (a b : Int) : Res Int := if sign b = 0 then .div else .val (Int.tmod a b)
/-- IntInf.sml:144-152 divMod; intinf.c:265-270 mpz_fdiv_qr -/
def divMod (a b : Int) : Res (Int × Int) :=
  if sign b = 0 then .div else .val (Int.fdiv a b, Int.fmod a b)
/-- IntInf.sml:154-159 quotRem; intinf.c:245-250 mpz_tdiv_qr -/
def quotRem (a b : Int) : Res (Int × Int) :=
  if sign b = 0 then .div else .val (Int.tdiv a b, Int.tmod a b)

/-- IntInf.sml:161-163 log2 -/
def log2 (li : Int) : Res Nat := if sign li ≤ 0 then .domain else .val (sizeinbase2 li)

/-- IntInf.sml:165-174 pow; intinf.c:332-336 mpz_pow_ui -/
def pow (li exp : Int) : Res Int :=
  if exp < 0 then
    if sign li = 0 then .div
    else if largeintCmp li 1 = 0 then .val 1
    else if largeintCmp li (-1) = 0 then .val (-1)
    else .val 0
  else if exp = 0 then .val 1
  else .val (li ^ exp.toNat)

/-- IntInf.sml:243-246 the comparisons -/
def lt (a b : Int) : Bool := largeintCmp a b < 0
def le (a b : Int) : Bool := largeintCmp a b ≤ 0
def gt (a b : Int) : Bool := largeintCmp a b > 0
def ge (a b : Int) : Bool := largeintCmp a b ≥ 0
/-- IntInf.sml:248-249 -/
def eq (a b : Int) : Bool := largeintCmp a b = 0
def ne (a b : Int) : Bool := largeintCmp a b ≠ 0
/-- IntInf.sml:251 -/
def min (a b : Int) : Int := if lt a b then a else b
/-- IntInf.sml:253 -/
def max (a b : Int) : Int := if gt a b then a else b
/-- IntInf.sml:255-257; intinf.c:214-218 -/
def add (a b : Int) : Int := a + b
/-- IntInf.sml:259-261; intinf.c:220-224 -/
def sub (a b : Int) : Int := a - b
/-- IntInf.sml:263-265; intinf.c:226-230 -/
def mul (a b : Int) : Int := a * b

/-- the lower-case form of a hexadecimal digit -/
def lower (c : Nat) : Nat := if 65 ≤ c ∧ c ≤ 70 then c + 32 else c

/-- GMP's `mpz_get_str` for bases 2, 8, 10, 16: optional `-`, then lower-case digits -/
def mpzGetStr (base : Nat) (a : Int) : Str :=
  (if a < 0 then [45] else []) ++ (printfDigits base a.natAbs).map lower

/-- intinf.c:316-330 largeint_get_str: a leading `-` becomes `~` -/
def getStr (a : Int) (base : Nat) : Str :=
  match mpzGetStr base a with
  | 45 :: ds => 126 :: ds
  | s => s

/-- IntInf.sml:176-183 fmt -/
def fmt (r : Radix) (li : Int) : Str :=
  match r with
  | .bin => getStr li 2
  | .oct => getStr li 8
  | .dec => getStr li 10
  | .hex => getStr li 16

/-- IntInf.sml:185 toString -/
def toString (li : Int) : Str := getStr li 10

/-- GMP's `mpz_set_str` on strings without blanks (scan passes no others): `none` is the error return -/
def mpzSetStr (s : Str) (base : Nat) : Option Int :=
  match s with
  | 45 :: ds => if ds ≠ [] ∧ ∀ c ∈ ds, IsDig base c then some (-(numVal base ds : Int)) else none
  | ds => if ds ≠ [] ∧ ∀ c ∈ ds, IsDig base c then some (numVal base ds) else none

/-- intinf.c:304-314 largeint_set_str: a leading `~` is read as `-`; `none` stands for `Fail` -/
def setStr (s : Str) (base : Nat) : Option Int :=
  match s with
  | 126 :: ds => mpzSetStr (45 :: ds) base
  | s => mpzSetStr s base

/-- IntInf.sml:213-219 makelarge with revimplode (:205-211) -/
def makelarge (r : Radix) (digits src : Str) : Option (Int × Str) :=
  match setStr digits.reverse r.factor with
  | some v => some (v, src)
  | none => none

/-- IntInf.sml:223-228 digr -/
def digr (r : Radix) (digits : Str) : Str → Option (Int × Str)
  | [] => makelarge r digits []
  | c :: rest => if r.isDigit c then digr r (c :: digits) rest else makelarge r digits (c :: rest)

/-- IntInf.sml:221-232 dig1 -/
def dig1 (r : Radix) (digits : Str) : Str → Option (Int × Str)
  | [] => none
  | c :: rest => if r.isDigit c then digr r (c :: digits) rest else none

/-- IntInf.sml:233-237 sign -/
def scanSign (r : Radix) : Str → Option (Int × Str)
  | [] => none
  | 126 :: rest => dig1 r [45] rest
  | 45 :: rest => dig1 r [45] rest
  | 43 :: rest => dig1 r [] rest
  | inp => dig1 r [] inp

/-- IntInf.sml:195-238 scan, on a list source -/
def scan (r : Radix) (src : Str) : Option (Int × Str) := scanSign r (src.dropWhile isSpace)

/-- IntInf.sml:240 fromString = scanString (scan DEC) -/
def fromString (s : Str) : Option Int := (scan .dec s).map Prod.fst

end Mosml.IntInf
