import Verif.Emit.Syntax
import Verif.Strings.Lemmas
import Verif.Equal.Model

/-!
# Comparisons and conditional jumps

The values that comparisons work on, what the interpreter's comparison instructions do
with them (src/runtime/interp.c), and how the code generator turns a comparison in a
condition into a conditional jump (src/compiler/Back.sml).
-/

namespace Mosml.Cond
open Mosml.Emit (Cmp CmpKind Test Zam Op Glob SC)
open Mosml.Strings (Bytes Blk compareStrings tagged)
open Mosml.Equal (isNaN)

/-- A string block with the given characters (the layout is that of alloc_string,
src/runtime/alloc.c, see `Mosml.Strings`). -/
abbrev strBlk (s : Bytes) : Blk := Mosml.Strings.mkStr s

/-- Values in registers and on the stack: integers, words and characters (as the
integer with the same bits), atoms (the booleans are Atom(0) and Atom(1)), reals by
their 64 bits, strings, and addresses of other blocks. -/
inductive Val where
  | int (i : Int)
  | atom (t : Nat)
  | real (b : Nat)
  | str (s : Bytes)
  | ptr (a : Nat)
deriving DecidableEq, Repr

/-- The six C operators on numbers. -/
def cmpInt (c : Cmp) (x y : Int) : Bool :=
  match c with
  | .eq => x == y
  | .ne => x != y
  | .lt => x < y
  | .gt => x > y
  | .le => x ≤ y
  | .ge => x ≥ y

/-- The tagged machine word of an integer, read as unsigned long. -/
def unsTagged (i : Int) : Int := (2 * i + 1) % 2 ^ 64

/-- The number that orders doubles other than NaN: sign and magnitude. -/
def dblKey (b : Nat) : Int := if b < 2 ^ 63 then b else -((b - 2 ^ 63 : Nat) : Int)

/-- The six C operators on doubles given by their bits (IEEE 754): with a NaN, `!=`
holds and the others do not. -/
def cmpDbl (c : Cmp) (x y : Nat) : Bool :=
  if isNaN x || isNaN y then c == .ne else cmpInt c (dblKey x) (dblKey y)

/-- The comparison instructions: x is popped, y is in accu.
* EQ .. GEINT (interp.c:1245-1259) compare the machine words; for EQ and NEQ these may
  also be addresses.  Of boxed reals and strings the model does not know the address.
* EQUNSIGN .. (interp.c:1265-1275), EQFLOAT .. (interp.c:1348-1358),
* EQSTRING .. (interp.c:1364-1374): compare_strings against the tagged zero. -/
def compareVals (k : CmpKind) (c : Cmp) (x y : Val) : Option Bool :=
  match k, x, y with
  | .int, .int a, .int b => some (cmpInt c (2 * a + 1) (2 * b + 1))
  | .int, .atom a, .atom b =>
      match c with | .eq => some (a == b) | .ne => some (a != b) | _ => none
  | .int, .ptr a, .ptr b =>
      match c with | .eq => some (a == b) | .ne => some (a != b) | _ => none
  | .word, .int a, .int b => some (cmpInt c (unsTagged a) (unsTagged b))
  | .float, .real a, .real b => some (cmpDbl c a b)
  | .str, .str s, .str t => some (cmpInt c (tagged (compareStrings (strBlk s) (strBlk t))) (tagged 0))
  | _, _, _ => none

/-- accu and the stack -/
structure M where
  accu : Val
  stack : List Val

/-- Where control goes: on to the next instruction, or to a label. -/
inductive Out where
  | fall (m : M)
  | jump (l : Nat) (m : M)

/-- The value of a constant loaded (the slot holds the constant: C55, C56). -/
def atomVal : SC → Option Val
  | .int i => some (.int i)
  | .word i => some (.int i)
  | .char c => some (.int c)
  | .real b => some (.real b)
  | .str s => some (.str s)
  | .block t _ [] => some (.atom t)
  | .block _ _ (_ :: _) => none

/-- Atom(b) for a C truth value -/
def boolAtom (b : Bool) : Val := .atom (if b then 1 else 0)

/-- Tag_val(accu) != 0, interp.c:1038-1048 -/
def truth : Val → Option Bool
  | .atom t => some (t != 0)
  | _ => none

/-- `if b branch else go on` -/
def branchOn (b : Bool) (l : Nat) (m : M) : Out := if b then .jump l m else .fall m

/-- One elementary action; `none`: not covered (other actions, ill-typed operands). -/
def step (op : Op Nat Glob) (m : M) : Option Out :=
  match op.kind, op.nums, op.labels, op.globs with
  | .push, _, _, _ => some (.fall ⟨m.accu, m.accu :: m.stack⟩)
  | .const, [r], _, _ => some (.fall ⟨.int ((r - 1) / 2), m.stack⟩)
  | .atom, [t], _, _ => some (.fall ⟨.atom t.toNat, m.stack⟩)
  | .getglobal, _, _, [.lit c] => (atomVal c).map fun v => .fall ⟨v, m.stack⟩
  | .cmp k c, _, _, _ =>
      match m.stack with
      | x :: s => (compareVals k c x m.accu).map fun b => .fall ⟨boolAtom b, s⟩
      | [] => none
  | .branchcmp c, _, [l], _ =>
      match m.stack with
      | x :: s => (compareVals .int c x m.accu).map fun b => branchOn b l ⟨m.accu, s⟩
      | [] => none
  | .branchif, _, [l], _ => (truth m.accu).map fun b => branchOn b l m
  | .branchifnot, _, [l], _ => (truth m.accu).map fun b => branchOn (!b) l m
  | .popbranchifnot, _, [l], _ =>
      match m.stack with
      | x :: s => (truth m.accu).map fun b => branchOn (!b) l ⟨x, s⟩
      | [] => none
  | _, _, _, _ => none

/-- A sequence of actions, up to the first jump. -/
def exec : List (Op Nat Glob) → M → Option Out
  | [], m => some (.fall m)
  | op :: ops, m =>
      (step op m).bind fun
        | .fall m' => exec ops m'
        | .jump l m' => some (.jump l m')

/-- The actions of a sequence of instructions. -/
def execZ (zs : List Zam) (m : M) : Option Out := exec (zs.flatMap Zam.ops) m

/-! ## The code generator -/

/-- `invertPrimTest`, Back.sml:229-237. -/
def invertPrim : Cmp → Cmp
  | .eq => .ne
  | .ne => .eq
  | .lt => .ge
  | .le => .gt
  | .gt => .le
  | .ge => .lt

/-- `invertBoolTest`, Back.sml:239-247; `none` is fatalError. -/
def invertTest : Test → Option Test
  | .eq => some .noteq
  | .noteq => some .eq
  | .int t => some (.int (invertPrim t))
  | .float t => some (.float (invertPrim t))
  | .str t => some (.str (invertPrim t))
  | .word t => some (.word (invertPrim t))
  | _ => none

/-- The clause of `compexp` for a test applied to its arguments, Back.sml:565-572: the
code that follows the code for the arguments, given the code that comes after. -/
def compTest (t : Test) : List Zam → Option (List Zam)
  | .branchif l :: C => some (.test t l :: C)
  | .branchifnot l :: C => (invertTest t).map fun t' => .test t' l :: C
  | C => some (.prim (.test t) :: C)

/-- The clause for `not`, Back.sml:557-564. -/
def compNot : List Zam → List Zam
  | .branchif l :: C => .branchifnot l :: C
  | .branchifnot l :: C => .branchif l :: C
  | C => .prim (.simple .not) :: C

/-- `testForAtom`, Back.sml:251-257. -/
def testForAtom : SC → Option Test
  | .int x => some (.intNoteqImm x)
  | .word x => some (.wordNoteqImm x)
  | .char x => some (.intNoteqImm x)
  | .real x => some (.floatNoteqImm x)
  | .str x => some (.strNoteqImm x)
  | .block _ _ _ => none

end Mosml.Cond
