import Verif.Ints.Sml

/-!
# Model of `PackRealBig`, `PackRealLittle` and the byte functions of `Mosml`

A `real` is modelled by the 64 bits of its IEEE representation, a byte by a number, a byte vector or the
contents of a byte array by a list. The machine is little-endian (`MOSML_BIG_ENDIAN` undefined), as the
supported ones are. The conversion between `double` and `float`, made by the C compiler, is a parameter.
Reading outside a vector is modelled as 0; it does not happen, since the primitives are applied only to
vectors of the right length.
-/
namespace Mosml.PackReal
open Mosml.Ints

/-- outcome of an operation: a value or one of the exceptions -/
inductive Res (α : Type) where
  | val (a : α)
  | subscript
  | overflow
  | fail
deriving DecidableEq, Repr

/-- sequencing: an exception ends the evaluation -/
def Res.bind {α β : Type} (x : Res α) (f : α → Res β) : Res β :=
  match x with
  | .val a => f a
  | .subscript => .subscript
  | .overflow => .overflow
  | .fail => .fail

/-- the `k` bytes of an object in memory, on a little-endian machine -/
def bytesLE : Nat → Nat → List Nat
  | 0, _ => []
  | k + 1, n => n % 256 :: bytesLE k (n / 256)

/-- the bytes of a double in memory -/
def memBytes (d : BitVec 64) : List Nat := bytesLE 8 d.toNat

/-- the double with the given bytes in memory, on a little-endian machine -/
def ofMem (b : List Nat) : BitVec 64 := BitVec.ofNat 64 (b.foldr (fun x a => x + 256 * a) 0)

/-- mosml.c:1497-1501 one step of the loop: exchange bytes `i` and `7-i` -/
def swapStep (b : List Nat) (i : Nat) : List Nat :=
  let tmp := b.getD i 0
  (b.set i (b.getD (7 - i) 0)).set (7 - i) tmp

/-- mosml.c:1484-1506 doubletow8vec -/
def doubleToVec (d : BitVec 64) : List Nat := (List.range 4).foldl swapStep (memBytes d)

/-- mosml.c:1459-1480 w8vectodouble -/
def vecToDouble (v : List Nat) : BitVec 64 := ofMem ((List.range 8).map fun i => v.getD (7 - i) 0)

/-- Word8VectorSlice.sml:30-38 and Word8ArraySlice.sml:41-49 slice with `SOME n`: start and length -/
def slice (a : List Nat) (i n : Int) : Res (Nat × Nat) :=
  if 0 ≤ i ∧ 0 ≤ n ∧ n ≤ a.length - i then .val (i.toNat, n.toNat) else .subscript

/-- Word8VectorSlice.sml:51-58 and Word8ArraySlice.sml:62-70 vector -/
def sliceVector (a : List Nat) (s : Nat × Nat) : List Nat :=
  (List.range s.2).map fun j => a.getD (s.1 + j) 0

/-- Word8Array.mlp:81-86 copyVec: the new contents of the array -/
def copyVec (src dst : List Nat) (di : Int) : Res (List Nat) :=
  if di < 0 then .subscript
  else match iadd di src.length with
    | none => .overflow
    | some e =>
      if e > dst.length then .subscript
      else .val ((List.range dst.length).map fun j =>
        if di.toNat ≤ j ∧ j < di.toNat + src.length then src.getD (j - di.toNat) 0 else dst.getD j 0)

/-- `i*bytesPerElem`, which may raise Overflow -/
def offset (i : Int) : Res Int :=
  match imul i 8 with
  | some o => .val o
  | none => .overflow

/-! ### PackRealBig.sml -/
namespace Big
/-- PackRealBig.sml:12 -/
def toBytes (d : BitVec 64) : List Nat := doubleToVec d

/-- PackRealBig.sml:14-19 -/
def fromBytes (v : List Nat) : Res (BitVec 64) :=
  if v.length = 8 then .val (vecToDouble v)
  else (slice v 0 8).bind fun s => .val (vecToDouble (sliceVector v s))

/-- PackRealBig.sml:21-22 subVec, :24-25 subArr -/
def subVec (v : List Nat) (i : Int) : Res (BitVec 64) :=
  (offset i).bind fun o => (slice v o 8).bind fun s => fromBytes (sliceVector v s)

/-- PackRealBig.sml:27-28 -/
def update (a : List Nat) (i : Int) (d : BitVec 64) : Res (List Nat) :=
  (offset i).bind fun o => copyVec (toBytes d) a o
end Big

/-! ### PackRealLittle.sml -/
namespace Little
/-- PackRealLittle.sml:8-13 reverse, by reverse_gen -/
def reverse (v : List Nat) : List Nat := (List.range v.length).map fun i => v.getD (v.length - 1 - i) 0

/-- PackRealLittle.sml:8-11 reverse_gen on a slice -/
def reverseSlice (a : List Nat) (s : Nat × Nat) : List Nat :=
  (List.range s.2).map fun i => a.getD (s.1 + (s.2 - 1 - i)) 0

/-- PackRealLittle.sml:17 -/
def toBytes (d : BitVec 64) : List Nat := reverse (Big.toBytes d)

/-- PackRealLittle.sml:18 -/
def fromBytes (v : List Nat) : Res (BitVec 64) := Big.fromBytes (reverse v)

/-- PackRealLittle.sml:19-22 subVec, :24-27 subArr -/
def subVec (v : List Nat) (i : Int) : Res (BitVec 64) :=
  (offset i).bind fun o => (slice v o 8).bind fun s => Big.fromBytes (reverseSlice v s)

/-- PackRealLittle.sml:29-30 -/
def update (a : List Nat) (i : Int) (d : BitVec 64) : Res (List Nat) :=
  (offset i).bind fun o => copyVec (toBytes d) a o
end Little

/-! ### Mosml.mlp -/

/-- Mosml.mlp:13-17 vecDouble -/
def vecDouble (v : List Nat) : Res (BitVec 64) := if v.length = 8 then .val (vecToDouble v) else .fail

/-- Mosml.mlp:19 floatVec; mosml.c:1437-1454 floattow8vec. `conv` is the C conversion `(float)`. -/
def floatVec (conv : BitVec 64 → BitVec 32) (d : BitVec 64) : Res (List Nat) :=
  .val ((List.range 4).map fun i => (bytesLE 4 (conv d).toNat).getD (3 - i) 0)

/-- Mosml.mlp:23-27 vecFloat; mosml.c:1418-1432 w8vectofloat. `conv` is the conversion to double. -/
def vecFloat (conv : BitVec 32 → BitVec 64) (v : List Nat) : Res (BitVec 64) :=
  if v.length = 4 then
    .val (conv (BitVec.ofNat 32 (((List.range 4).map fun i => v.getD (3 - i) 0).foldr (fun x a => x + 256 * a) 0)))
  else .fail

end Mosml.PackReal
