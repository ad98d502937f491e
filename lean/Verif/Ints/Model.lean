/-
Model of the integer and word instructions of the bytecode interpreter
(src/runtime/interp.c, src/runtime/mlvalues.h, src/runtime/mosml.c, src/mosmllib/Word.mlp),
64-bit configuration.  A `value` (C `long`, mlvalues.h:38) is a `BitVec 64`.

Signed C arithmetic wraps (see DESIGN.md, trusted base).  Division instructions make the trapping
cases (division by zero, LONG_MIN / -1) and shifts by an out-of-range count a distinct outcome
`trap`, so that "it never happens" is part of the theorems.
-/
namespace Mosml.Ints

/-- A machine word holding an ML value; mlvalues.h:38 `typedef long value`. -/
abbrev Value := BitVec 64

/-- Outcome of an instruction: a value in the accumulator, one of the two SML exceptions, or
undefined behaviour / hardware trap of the C code. -/
inductive Out (α : Type) where
  | val (v : α)
  | overflow
  | div
  | trap
deriving DecidableEq, Repr

/-- mlvalues.h:63 `#define Val_long(x) (((long)(x) << 1) + 1)` -/
def valLong (x : Value) : Value := (x <<< 1) + 1

/-- mlvalues.h:64 `#define Long_val(x) ((x) >> 1)` (arithmetic shift). -/
def longVal (v : Value) : Value := v.sshiftRight 1

/-- The idiom `accu = Val_long(tmp); if (Long_val(accu) != tmp) goto raise_overflow;`
(e.g. interp.c:1407-1409). -/
def checked (tmp : Value) : Out Value :=
  if longVal (valLong tmp) != tmp then .overflow else .val (valLong tmp)

/-- C signed `/`: truncating; undefined (x86: SIGFPE) for divisor 0 and LONG_MIN / -1. -/
def cDiv (a b : Value) : Out Value :=
  if b = 0 ∨ (a = BitVec.intMin 64 ∧ b = -1) then .trap else .val (a.sdiv b)

/-- C signed `%`: sign of the dividend; undefined in the same cases as `/`. -/
def cMod (a b : Value) : Out Value :=
  if b = 0 ∨ (a = BitVec.intMin 64 ∧ b = -1) then .trap else .val (a.srem b)

/-- Sequencing of outcomes. -/
def Out.bind {α β : Type} (x : Out α) (f : α → Out β) : Out β :=
  match x with
  | .val v => f v
  | .overflow => .overflow
  | .div => .div
  | .trap => .trap

/-- interp.c:1405-1410 SMLNEGINT -/
def smlNeg (accu : Value) : Out Value := checked (- longVal accu)

/-- interp.c:1415-1420 SMLSUCCINT -/
def smlSucc (accu : Value) : Out Value := checked (longVal accu + 1)

/-- interp.c:1421-1426 SMLPREDINT -/
def smlPred (accu : Value) : Out Value := checked (longVal accu - 1)

/-- interp.c:1427-1432 SMLADDINT; `s` is `*sp` (the first operand), `accu` the second. -/
def smlAdd (s accu : Value) : Out Value := checked (longVal s + longVal accu)

/-- interp.c:1433-1438 SMLSUBINT -/
def smlSub (s accu : Value) : Out Value := checked (longVal s - longVal accu)

/-- mosml.c:126-134 sml_abs_int -/
def smlAbs (x : Value) : Out Value :=
  let tmp := longVal x
  let tmp := if tmp.slt 0 then -tmp else tmp
  checked tmp

/-- interp.c:1440 `#define ChunkLen (4 * sizeof(value) - 1)` -/
def chunkLen : Nat := 31

/-- interp.c:1441 `#define MaxChunk ((1L << ChunkLen) - 1)` -/
def maxChunk : Value := (1 <<< chunkLen) - 1

/-- interp.c:1450-1464: the part of SMLMULINT after the signs have been removed. -/
def mulMag (neg : Bool) (x y : Value) : Out Value :=
  let (x, y) := if x.slt y then (y, x) else (x, y)
  if maxChunk.slt y then .overflow
  else if x.sle maxChunk then
    .val (valLong (if neg then -(x * y) else x * y))
  else
    let tmp := (x.sshiftRight chunkLen) * y
    if (maxChunk + 1).slt tmp then .overflow
    else
      let tmp := (tmp <<< chunkLen) + (x &&& maxChunk) * y
      let tmp := if neg then -tmp else tmp
      checked tmp

/-- interp.c:1443-1466 SMLMULINT -/
def smlMul (s accu : Value) : Out Value :=
  let x := longVal s
  let y := longVal accu
  let neg := x.slt 0
  let x := if x.slt 0 then -x else x
  let neg := if y.slt 0 then !neg else neg
  let y := if y.slt 0 then -y else y
  mulMag neg x y

/-- interp.c:1468-1488 SMLDIVINT -/
def smlDiv (s accu : Value) : Out Value :=
  let tmp := longVal accu
  let a := longVal s
  if tmp = 0 then .div
  else
    let a := if tmp.slt 0 then -a else a
    let tmp := if tmp.slt 0 then -tmp else tmp
    if (0 : Value).sle a then
      (cDiv a tmp).bind checked
    else
      let a := -a
      (cMod a tmp).bind fun r =>
        (cDiv a tmp).bind fun q =>
          checked (if r = 0 then -q else -q - 1)

/-- interp.c:1490-1511 SMLMODINT -/
def smlMod (s accu : Value) : Out Value :=
  let y := longVal accu
  let tmp := y
  let a := longVal s
  if tmp = 0 then .div
  else
    let a := if tmp.slt 0 then -a else a
    let tmp := if tmp.slt 0 then -tmp else tmp
    (if (0 : Value).sle a then cMod a tmp
     else (cMod (-a) tmp).bind fun r => .val (if r = 0 then 0 else tmp - r)).bind fun t =>
    checked (if y.slt 0 then -t else t)

/-- interp.c:1538-1548 SMLQUOTINT: works on the doubled numbers `*sp - 1` and `accu - 1`. -/
def smlQuot (s accu : Value) : Out Value :=
  let tmp := accu - 1
  if tmp = 0 then .div
  else (cDiv (s - 1) tmp).bind checked

/-- interp.c:1549-1556 SMLREMINT -/
def smlRem (s accu : Value) : Out Value :=
  let tmp := accu - 1
  if tmp = 0 then .div
  else (cMod (s - 1) tmp).bind fun r => .val (1 + r)

/-! ### Word (unsigned) instructions -/

/-- interp.c:1212-1214 ADDINT -/
def wAdd (s accu : Value) : Value := s + (accu - 1)
/-- interp.c:1215-1217 SUBINT -/
def wSub (s accu : Value) : Value := s - (accu - 1)
/-- interp.c:1218-1220 MULINT (`*sp++ >> 1` is a signed shift) -/
def wMul (s accu : Value) : Value := 1 + (s.sshiftRight 1) * (accu - 1)
/-- interp.c:1221-1229 DIVINT -/
def wDiv (s accu : Value) : Out Value :=
  let tmp := accu - 1
  if tmp = 0 then .div else .val (valLong ((s - 1).udiv tmp))
/-- interp.c:1231-1239 MODINT -/
def wMod (s accu : Value) : Out Value :=
  let tmp := accu - 1
  if tmp = 0 then .div else .val (1 + (s - 1).umod tmp)
/-- interp.c:1241-1242 ANDINT -/
def wAnd (s accu : Value) : Value := accu &&& s
/-- interp.c:1243-1244 ORINT -/
def wOr (s accu : Value) : Value := accu ||| s
/-- interp.c:1245-1246 XORINT -/
def wXor (s accu : Value) : Value := 1 + (accu ^^^ s)

/-- A C shift count must be in `[0, 64)`; otherwise the behaviour is undefined. -/
def shiftCount (k : Value) (f : Nat → Value) : Out Value :=
  if 0 ≤ k.toInt ∧ k.toInt < 64 then .val (f k.toNat) else .trap

/-- interp.c:1247-1248 SHIFTLEFTINT -/
def wShl (s accu : Value) : Out Value :=
  shiftCount (longVal accu) fun k => 1 + ((s - 1) <<< k)
/-- interp.c:1249-1250 SHIFTRIGHTINTSIGNED -/
def wSar (s accu : Value) : Out Value :=
  shiftCount (longVal accu) fun k => 1 ||| ((s - 1).sshiftRight k)
/-- interp.c:1251-1252 SHIFTRIGHTINTUNSIGNED -/
def wShr (s accu : Value) : Out Value :=
  shiftCount (longVal accu) fun k => 1 ||| ((s - 1) >>> k)

/-- interp.c:1254-1267 `inttest` (LTINT etc.): comparisons on the raw tagged words. -/
def ltInt (s accu : Value) : Bool := s.slt accu
def leInt (s accu : Value) : Bool := s.sle accu
def gtInt (s accu : Value) : Bool := accu.slt s
def geInt (s accu : Value) : Bool := accu.sle s
def eqInt (s accu : Value) : Bool := s == accu
/-- interp.c:1273-1284 `unsigntest` (LTUNSIGN etc.) -/
def ltUnsign (s accu : Value) : Bool := s.ult accu
def leUnsign (s accu : Value) : Bool := s.ule accu
def gtUnsign (s accu : Value) : Bool := accu.ult s
def geUnsign (s accu : Value) : Bool := accu.ule s

/-! ### Word.mlp wrappers -/

/-- The tagged representation of the SML constants used by Word.mlp (`fromInt i`). -/
def cst (i : Int) : Value := BitVec.ofInt 64 (2 * i + 1)

/-- Word.mlp:17-24 (`WORDSIZE`) and Word.mlp:59-61 `<<`: guard, then the primitive. -/
def wordShl (w k : Value) : Out Value :=
  if geInt k (cst 63) || ltInt k (cst 0) then .val (cst 0) else wShl w k
/-- Word.mlp:63-65 `>>` -/
def wordShr (w k : Value) : Out Value :=
  if geInt k (cst 63) || ltInt k (cst 0) then .val (cst 0) else wShr w k
/-- Word.mlp:67-74 `~>>` -/
def wordSar (w k : Value) : Out Value :=
  if geInt k (cst 63) || ltInt k (cst 0) then
    if geInt w (cst 0) then .val (cst 0) else .val (cst (-1))
  else wSar w k
/-- Word.mlp:55 `notb x = xorb_ x (fromInt ~1)` -/
def wordNotb (w : Value) : Value := wXor w (cst (-1))
/-- Word.mlp:57 `val ~ = fn w => fromInt(~(toInt w))`, where `toInt` is at that point still the
identity (Word.mlp:35) and `~` is the checked integer negation. -/
def wordNeg (w : Value) : Out Value := smlNeg w
/-- Word.mlp:170-172: final `toInt`: `if w > MAXPOS then raise Overflow else toIntX w`. -/
def wordToInt (w : Value) : Out Value :=
  if gtUnsign w (cst 0x3FFFFFFFFFFFFFFF) then .overflow else .val w

end Mosml.Ints
