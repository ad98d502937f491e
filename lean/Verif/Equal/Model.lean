import Verif.Strings.Model

/-!
Polymorphic equality (src/runtime/mosml.c:56-103) and the generic hash (src/runtime/hash.c), on a heap of blocks.

A value is an immediate integer, a preallocated atom, or the address of a heap block (mlvalues.h).  Strings and
reals in the heap are kept abstractly as their characters (see the string model for the block layout) and the 64
bits of the double.
-/
namespace Mosml.Equal
open Mosml.Strings (Bytes)

/-- src/runtime/mlvalues.h:6-20: long, atom, or block address -/
inductive Val where
  | long (n : Int)
  | atom (tag : Nat)
  | ptr (a : Nat)
deriving DecidableEq, Repr

/-- src/runtime/mlvalues.h:131-200: heap blocks by tag.  `block` covers all tags below 251 (tuples, constructors,
closures 249, references 250); `raw` the tags 251 (Weak), 252 (Abstract), 255 (Final), whose contents neither
equality on admissible types nor the hash looks into (Weak blocks are always behind a reference). -/
inductive Obj where
  | block (tag : Nat) (fields : List Val)
  | str (s : Bytes)
  | dbl (bits : Nat)
  | raw (tag : Nat)
deriving DecidableEq, Repr

abbrev Heap := Nat → Option Obj

def Obj.tag : Obj → Nat
  | .block t _ => t
  | .str _ => 253
  | .dbl _ => 254
  | .raw t => t

/-- outcome of `=`: a truth value or the exception raised by invalid_argument -/
inductive Res where | tt | ff | exn
deriving DecidableEq, Repr

/-- C `==` on doubles given by their 64 bits (IEEE 754): NaN is equal to nothing, the zeros are equal. -/
def isNaN (b : Nat) : Bool := b / 2 ^ 52 % 2048 == 2047 && b % 2 ^ 52 != 0
def dblEq (b1 b2 : Nat) : Bool :=
  !isNaN b1 && !isNaN b2 && (b1 == b2 || (b1 % 2 ^ 63 == 0 && b2 % 2 ^ 63 == 0))

/-- `register int len = string_length(v1)` converted back to an unsigned long in the comparison (mosml.c:73-75) -/
def lenInt (n : Nat) : Nat := Mosml.Strings.intVal n

/-- mosml.c:76-82 the comparison loop -/
def strLoop : Nat → Bytes → Bytes → Bool
  | 0, _, _ => true
  | n + 1, p1, p2 => if p1.headD 0 ≠ p2.headD 0 then false else strLoop n p1.tail p2.tail

/-- mosml.c:71-83 -/
def strEq (s1 s2 : Bytes) : Bool :=
  if lenInt s1.length ≠ s2.length then false else strLoop s1.length s1 s2

/-- mosml.c:93-101: all fields but the last by a call, the last by the jump; `none`: still running -/
def eqFields (eq : Val → Val → Option Res) : List Val → List Val → Option Res
  | [x], [y] => eq x y
  | x :: xs, y :: ys =>
    match eq x y with
    | some .tt => eqFields eq xs ys
    | r => r
  | _, _ => some .ff

/-- mosml.c:69-102: two different heap blocks -/
def eqObj (eq : Val → Val → Option Res) (o1 o2 : Obj) : Option Res :=
  if o1.tag = o2.tag then
    match o1, o2 with
    | .str s1, .str s2 => some (if strEq s1 s2 then .tt else .ff)
    | .dbl b1, .dbl b2 => some (if dblEq b1 b2 then .tt else .ff)
    | .raw _, .raw _ => some .ff
    | .block t f1, .block _ f2 =>
      if t = 250 then some .ff
      else if t = 249 then some .exn
      else if f1.length = f2.length then eqFields eq f1 f2
      else some .ff
    | _, _ => some .ff
  else some .ff

/-- mosml.c:59-103 sml_equal_aux.  `fuel` bounds the number of nested calls and jumps; `none`: not finished. -/
def eqAux : Nat → Heap → Val → Val → Option Res
  | 0, _, _, _ => none
  | n + 1, h, v1, v2 =>
    if v1 = v2 then some .tt
    else match v1, v2 with
      | .ptr a, .ptr b =>
        match h a, h b with
        | some o1, some o2 => eqObj (eqAux n h) o1 o2
        | _, _ => some .ff
      | _, _ => some .ff

/-! ### hash -/

/-- the three C statics -/
structure HSt where
  accu : Nat
  limit : Int
  count : Int
deriving DecidableEq, Repr

/-- hash.c:43-46, unsigned long arithmetic -/
def combine (st : HSt) (x : Int) : HSt := { st with accu := ((st.accu * 65599 + x) % 2 ^ 64).toNat }
def combineSmall (st : HSt) (x : Nat) : HSt := { st with accu := (st.accu * 19 + x) % 2 ^ 64 }

/-- hash.c:90-92 / 107-109 -/
def combineBytes (st : HSt) : Bytes → HSt
  | [] => st
  | b :: bs => combineBytes (combineSmall st b) bs

/-- hash.c:94-95: `for (i=1; i+127 < len; i*=2)`.  The fuel is the length (i at least doubles). -/
def combineTail (s : Bytes) : Nat → Nat → HSt → HSt
  | 0, _, st => st
  | n + 1, i, st =>
    if i + 127 < s.length then combineTail s n (i * 2) (combineSmall st (s.getD (127 + i) 0)) else st

/-- the eight bytes of a double, least significant first -/
def dblBytes (b : Nat) : Bytes := (List.range 8).map fun i => b / 256 ^ i % 256

/-- hash.c:122-126: fields from the last to the first (argument: reversed list) -/
def hashFields (f : Val → HSt → Option HSt) : List Val → HSt → Option HSt
  | [], st => some st
  | v :: vs, st => (f v st).bind (hashFields f vs)

/-- hash.c:63-133: hash_aux after the tests of the limits -/
def hashStep (f : Val → HSt → Option HSt) (h : Heap) (v : Val) (st : HSt) : Option HSt :=
  let dec := { st with count := st.count - 1 }
  match v with
  | .long k => some (combine dec k)
  | .atom t => some (combineSmall dec t)
  | .ptr a =>
    match h a with
    | none => some (combine st a)
    | some (.str s) => some (combineTail s s.length 1 (combineBytes dec (s.take 128)))
    | some (.dbl b) => some (combineBytes dec (dblBytes b))
    | some (.raw _) => some st
    | some (.block t vs) =>
      if t = 250 then some (combineSmall dec t)
      else hashFields f vs.reverse (combineSmall dec t)

/-- hash.c:48-134 hash_aux with `safe = 0`.  `none`: fuel exhausted. -/
def hashAux : Nat → Heap → Val → HSt → Option HSt
  | 0, _, _, _ => none
  | n + 1, h, v, st =>
    let st := { st with limit := st.limit - 1 }
    if st.count < 0 ∨ st.limit < 0 then some st
    else hashStep (hashAux n h) h v st

/-- hash.c:14-25 hash_univ_param -/
def hashParam (fuel : Nat) (h : Heap) (count limit : Int) (v : Val) : Option Nat :=
  (hashAux fuel h v { accu := 0, limit := limit, count := count }).map fun st => st.accu % 2 ^ 30

/-- Polyhash.sml hash = hash_param 50 500 -/
def polyhash (h : Heap) (v : Val) : Option Nat := hashParam 501 h 50 500 v

end Mosml.Equal
