import Verif.Ints.Model
import Verif.Num.Model

/-!
Model of src/mosmllib/Word8.sml.  The arithmetic is at the level of the instructions of the bytecode
interpreter (`Verif/Ints/Model.lean`): a value of type `Word8.word` is a machine word, and every
primitive declared in Word8.sml:10-27 is the instruction that the primitive's name stands for
(`"identity"` is no instruction at all).  The comparisons and `div`, `mod` at type `word8` are those of
`word` (src/compiler/Ovlres.sml:96-104).  The text functions work on character lists as in
`Verif/Num/Model.lean`; their arithmetic is that of `int` (`imul`, `iadd`: none when Overflow is raised).
-/
namespace Mosml.Word8
open Mosml.Ints Mosml.Num

/-- Word8.sml:23 `norm w = andb_ w (fromInt_ 255)` -/
def norm (w : Value) : Value := wAnd w (cst 255)

/-- Word8.sml:28-31 toIntX: `toInt w < 128` is the comparison of ints. -/
def toIntX (w : Value) : Value := if ltInt w (cst 128) then w else wOr w (cst (-256))

/-- Word8.sml:32 fromInt -/
def fromInt (n : Value) : Value := norm n

/-- Word8.sml:39 toLarge (`"identity"`); Word8.sml:27 toInt is the same. -/
def toLarge (w : Value) : Value := w

/-- Word8.sml:41-44 toLargeX -/
def toLargeX (w : Value) : Value := if ltInt w (cst 128) then toLarge w else toLarge (wOr w (cst (-256)))

/-- Word8.sml:45 fromLarge -/
def fromLarge (w : Value) : Value := norm w

/-- Word8.sml:52 orb -/
def orb (x y : Value) : Value := wOr x y
/-- Word8.sml:53 andb -/
def andb (x y : Value) : Value := wAnd x y
/-- Word8.sml:54 xorb -/
def xorb (x y : Value) : Value := wXor x y
/-- Word8.sml:55 notb -/
def notb (x : Value) : Value := norm (wXor x (cst (-1)))

/-- Word8.sml:57 `~`: `fromInt(~(toInt w))`, the inner `~` is the checked negation of ints. -/
def neg (w : Value) : Out Value := (smlNeg w).bind fun n => .val (fromInt n)

/-- Word8.sml:59-61 `<<` -/
def shl (w k : Value) : Out Value :=
  if geInt k (cst 8) || ltInt k (cst 0) then .val (cst 0) else (wShl w k).bind fun v => .val (norm v)

/-- Word8.sml:63-65 `>>` -/
def shr (w k : Value) : Out Value :=
  if geInt k (cst 8) || ltInt k (cst 0) then .val (cst 0) else wShr w k

/-- Word8.sml:67-74 `~>>` -/
def sar (w k : Value) : Out Value :=
  if ltInt w (cst 128) then
    if geInt k (cst 8) || ltInt k (cst 0) then .val (cst 0) else wShr w k
  else
    if geInt k (cst 8) || ltInt k (cst 0) then .val (norm (cst (-1)))
    else (wSar (wOr w (cst (-256))) k).bind fun v => .val (norm v)

/-- Word8.sml:158 `+` -/
def add (x y : Value) : Value := norm (wAdd x y)
/-- Word8.sml:159 `-` -/
def sub (x y : Value) : Value := norm (wSub x y)
/-- Word8.sml:160 `*` -/
def mul (x y : Value) : Value := norm (wMul x y)
/-- Word8.sml:161 `div` (Ovlres.sml:99: divWord) -/
def div (x y : Value) : Out Value := wDiv x y
/-- Word8.sml:162 `mod` (Ovlres.sml:100: modWord) -/
def mod (x y : Value) : Out Value := wMod x y

/-- Word8.sml:164 min (Ovlres.sml:102: gtWord) -/
def min (x y : Value) : Value := if gtUnsign x y then y else x
/-- Word8.sml:165 max -/
def max (x y : Value) : Value := if gtUnsign x y then x else y

/-- Word8.sml:166-167 compare -/
def compare (x y : Value) : Ordering := if ltUnsign x y then .lt else if gtUnsign x y then .gt else .eq

/-! ### Text -/

/-- Word8.sml:91-96 conv and 148-151 fmt; `h` is the same loop as in Int.mlp (`Num.convH`, with fuel).
Argument: the int that `toInt w` is. -/
def fmt (r : Radix) (n : Int) : Str :=
  convH r.factor (n.natAbs + 1) (n.fdiv r.factor) [prhex (n.fmod r.factor)]

/-- Word8.sml:108-110 return -/
def ret (res : Int) (src : Str) : Scan Int := if res < 256 then .some res src else .overflow

/-- Word8.sml:114-121 digr -/
def digr (r : Radix) (res : Int) : Str → Scan Int
  | [] => ret res []
  | c :: rest =>
    if r.isDigit c then
      match imul r.factor res with
      | Option.none => .overflow
      | Option.some p =>
        match iadd p (hexval c) with
        | Option.none => .overflow
        | Option.some v => digr r v rest
    else ret res (c :: rest)

/-- Word8.sml:111-124 dig1 (argument: the source whose `getc` is inspected) -/
def dig1 (r : Radix) : Str → Scan Int
  | [] => .none
  | c :: rest => if r.isDigit c then digr r (hexval c) rest else .none

/-- Word8.sml:125-128 getdigs -/
def getdigs (r : Radix) (after0 src : Str) : Scan Int :=
  match dig1 r src with
  | .none => ret 0 after0
  | res => res

/-- Word8.sml:129-136 hexprefix -/
def hexprefix (r : Radix) (after0 src : Str) : Scan Int :=
  if r ≠ .hex then getdigs r after0 src
  else
    match src with
    | 120 :: rest => getdigs r after0 rest
    | 88 :: rest => getdigs r after0 rest
    | _ :: _ => getdigs r after0 src
    | [] => ret 0 after0

/-- Word8.sml:99-146 scan, on a list source (`getc` takes the head) -/
def scan (r : Radix) (src : Str) : Scan Int :=
  match src.dropWhile isSpace with
  | 48 :: after0 =>
    match after0 with
    | 119 :: src2 => hexprefix r after0 src2
    | _ :: _ => hexprefix r after0 after0
    | [] => ret 0 after0
  | [] => .none
  | source => dig1 r source

end Mosml.Word8
