import Verif.Emit.Opcodes
import Verif.Emit.Syntax

/-!
# Decoding bytecode as the interpreter does

`table` lists, opcode by opcode, the operands that src/runtime/interp.c:288-1600 reads
(u8pc, s16pc, u16pc, s32pc, u32pc, interp.c:224-236) and the actions it performs.  The
operand formats are also those of src/runtime/expand.c:68-340, which translates
bytecode to threaded code.  The byte order is little endian (src/runtime/unalignd.h:9-20).
-/

namespace Mosml.Emit

/-- Operand formats: a byte, a signed or unsigned 16-bit word, a signed 32-bit word, a
branch offset relative to the operand itself, a slot number of 32 or 16 bits, a block
header (size and tag, mlvalues.h `Wosize_hd`, `Tag_hd`), a counted table of branch
offsets, all relative to the start of the table (interp.c:237, JUMPSWITCHINDEX). -/
inductive Arg where
  | u8 | s16 | u16 | s32 | label | slot32 | slot16 | header | table
  deriving DecidableEq

/-- Operands read: numbers, branch targets (byte positions), slots. -/
structure Args where
  nums : List Int := []
  labels : List Int := []
  slots : List Nat := []

/-- `u16` on the bytes from a position. -/
def getU16 : List Nat → Option (Nat × List Nat)
  | b0 :: b1 :: r => some (b0 + 256 * b1, r)
  | _ => none

/-- `u32`. -/
def getU32 : List Nat → Option (Nat × List Nat)
  | b0 :: b1 :: b2 :: b3 :: r => some (b0 + 256 * b1 + 65536 * b2 + 16777216 * b3, r)
  | _ => none

/-- Reading an unsigned number of `2 * half` values as a signed one. -/
def signed (half : Int) (n : Int) : Int := if n < half then n else n - 2 * half

/-- `s32`. -/
def getS32 (bs : List Nat) : Option (Int × List Nat) :=
  (getU32 bs).map fun (n, r) => (signed 2147483648 n, r)

/-- A table of `n` branch offsets relative to `orig`. -/
def readTable (orig : Nat) : Nat → List Nat → Option (List Int × List Nat)
  | 0, bs => some ([], bs)
  | n + 1, bs =>
    (getS32 bs).bind fun (v, r) =>
    (readTable orig n r).map fun (vs, r') => (((orig : Int) + v) :: vs, r')

/-- Reading one operand at position `p`: its contribution, its length and the bytes
that follow. -/
def Arg.read (p : Nat) (bs : List Nat) : Arg → Option (Args × Nat × List Nat)
  | .u8 => match bs with
      | b :: r => some ({ nums := [(b : Int)] }, 1, r)
      | [] => none
  | .s16 => (getU16 bs).map fun (n, r) => ({ nums := [signed 32768 n] }, 2, r)
  | .u16 => (getU16 bs).map fun (n, r) => ({ nums := [(n : Int)] }, 2, r)
  | .s32 => (getS32 bs).map fun (v, r) => ({ nums := [v] }, 4, r)
  | .label => (getS32 bs).map fun (v, r) => ({ labels := [(p : Int) + v] }, 4, r)
  | .slot32 => (getU32 bs).map fun (n, r) => ({ slots := [n] }, 4, r)
  | .slot16 => (getU16 bs).map fun (n, r) => ({ slots := [n] }, 2, r)
  | .header => (getU32 bs).map fun (n, r) =>
      ({ nums := [((n % 256 : Nat) : Int), ((n / 1024 : Nat) : Int)] }, 4, r)
  | .table => match bs with
      | n :: r => (readTable (p + 1) n r).map fun (vs, r') =>
          ({ nums := [(n : Int)], labels := vs }, 1 + 4 * n, r')
      | [] => none

/-- Reading all operands. -/
def readArgs (p : Nat) (bs : List Nat) : List Arg → Option (Args × Nat × List Nat)
  | [] => some ({}, 0, bs)
  | a :: as =>
    (a.read p bs).bind fun (x, k, r) =>
    (readArgs (p + k) r as).map fun (y, k', r') =>
      ({ nums := x.nums ++ y.nums, labels := x.labels ++ y.labels,
         slots := x.slots ++ y.slots }, k + k', r')

/-- Decoded actions: targets are byte positions, slots are numbers. -/
abbrev Raw := Op Int Nat

/-- `Val_int`, mlvalues.h. -/
def valInt (i : Int) : Int := 2 * i + 1

/-- An opcode's operands and actions. -/
structure Entry where
  args : List Arg
  ops : List Int → List Int → List Nat → List Raw

/-- The interpreter's instructions in the order of src/runtime/instruct.h. -/
def table : List Entry := [
  /- CONSTBYTE -/ ⟨[.u8], fun ns _ _ => [{ kind := .const, nums := ns }]⟩,
  /- CONSTSHORT -/ ⟨[.s16], fun ns _ _ => [{ kind := .const, nums := ns }]⟩,
  /- SWITCH -/ ⟨[.table], fun ns ls _ => [{ kind := .switch, nums := ns, labels := ls }]⟩,
  /- BRANCH -/ ⟨[.label], fun _ ls _ => [{ kind := .branch, labels := ls }]⟩,
  /- BRANCHIF -/ ⟨[.label], fun _ ls _ => [{ kind := .branchif, labels := ls }]⟩,
  /- BRANCHIFNOT -/ ⟨[.label], fun _ ls _ => [{ kind := .branchifnot, labels := ls }]⟩,
  /- POPBRANCHIFNOT -/ ⟨[.label], fun _ ls _ => [{ kind := .popbranchifnot, labels := ls }]⟩,
  /- BRANCHIFNEQTAG -/ ⟨[.u8, .label], fun ns ls _ => [{ kind := .branchifneqtag, nums := ns, labels := ls }]⟩,
  /- BRANCHIFEQ -/ ⟨[.label], fun _ ls _ => [{ kind := .branchcmp .eq, labels := ls }]⟩,
  /- BRANCHIFNEQ -/ ⟨[.label], fun _ ls _ => [{ kind := .branchcmp .ne, labels := ls }]⟩,
  /- BRANCHIFLT -/ ⟨[.label], fun _ ls _ => [{ kind := .branchcmp .lt, labels := ls }]⟩,
  /- BRANCHIFGT -/ ⟨[.label], fun _ ls _ => [{ kind := .branchcmp .gt, labels := ls }]⟩,
  /- BRANCHIFLE -/ ⟨[.label], fun _ ls _ => [{ kind := .branchcmp .le, labels := ls }]⟩,
  /- BRANCHIFGE -/ ⟨[.label], fun _ ls _ => [{ kind := .branchcmp .ge, labels := ls }]⟩,
  /- BRANCHINTERVAL -/ ⟨[.label, .label], fun _ ls _ => [{ kind := .branchinterval, labels := ls }]⟩,
  /- C_CALL1 -/ ⟨[.slot16], fun _ _ gs => [{ kind := .ccall, nums := [1], globs := gs }]⟩,
  /- C_CALL2 -/ ⟨[.slot16], fun _ _ gs => [{ kind := .ccall, nums := [2], globs := gs }]⟩,
  /- C_CALL3 -/ ⟨[.slot16], fun _ _ gs => [{ kind := .ccall, nums := [3], globs := gs }]⟩,
  /- C_CALL4 -/ ⟨[.slot16], fun _ _ gs => [{ kind := .ccall, nums := [4], globs := gs }]⟩,
  /- C_CALL5 -/ ⟨[.slot16], fun _ _ gs => [{ kind := .ccall, nums := [5], globs := gs }]⟩,
  /- C_CALLN -/ ⟨[.u8, .slot16], fun ns _ gs => [{ kind := .ccall, nums := ns, globs := gs }]⟩,
  /- MAKEBLOCK -/ ⟨[.header], fun ns _ _ => [{ kind := .makeblock, nums := ns }]⟩,
  /- MAKEBLOCK1 -/ ⟨[.u8], fun ns _ _ => [{ kind := .makeblock, nums := ns ++ [1] }]⟩,
  /- MAKEBLOCK2 -/ ⟨[.u8], fun ns _ _ => [{ kind := .makeblock, nums := ns ++ [2] }]⟩,
  /- MAKEBLOCK3 -/ ⟨[.u8], fun ns _ _ => [{ kind := .makeblock, nums := ns ++ [3] }]⟩,
  /- MAKEBLOCK4 -/ ⟨[.u8], fun ns _ _ => [{ kind := .makeblock, nums := ns ++ [4] }]⟩,
  /- TAGOF -/ ⟨[], fun _ _ _ => [{ kind := .prim .tagOf }]⟩,
  /- ACCESS -/ ⟨[.u16], fun ns _ _ => [{ kind := .acc, nums := ns }]⟩,
  /- ACC0 -/ ⟨[], fun _ _ _ => [{ kind := .acc, nums := [0] }]⟩,
  /- ACC1 -/ ⟨[], fun _ _ _ => [{ kind := .acc, nums := [1] }]⟩,
  /- ACC2 -/ ⟨[], fun _ _ _ => [{ kind := .acc, nums := [2] }]⟩,
  /- ACC3 -/ ⟨[], fun _ _ _ => [{ kind := .acc, nums := [3] }]⟩,
  /- ACC4 -/ ⟨[], fun _ _ _ => [{ kind := .acc, nums := [4] }]⟩,
  /- ACC5 -/ ⟨[], fun _ _ _ => [{ kind := .acc, nums := [5] }]⟩,
  /- ACC6 -/ ⟨[], fun _ _ _ => [{ kind := .acc, nums := [6] }]⟩,
  /- ACC7 -/ ⟨[], fun _ _ _ => [{ kind := .acc, nums := [7] }]⟩,
  /- PUSHACC -/ ⟨[.u16], fun ns _ _ => [{ kind := .push }, { kind := .acc, nums := ns }]⟩,
  /- PUSHACC0 -/ ⟨[], fun _ _ _ => [{ kind := .push }, { kind := .acc, nums := [0] }]⟩,
  /- PUSHACC1 -/ ⟨[], fun _ _ _ => [{ kind := .push }, { kind := .acc, nums := [1] }]⟩,
  /- PUSHACC2 -/ ⟨[], fun _ _ _ => [{ kind := .push }, { kind := .acc, nums := [2] }]⟩,
  /- PUSHACC3 -/ ⟨[], fun _ _ _ => [{ kind := .push }, { kind := .acc, nums := [3] }]⟩,
  /- PUSHACC4 -/ ⟨[], fun _ _ _ => [{ kind := .push }, { kind := .acc, nums := [4] }]⟩,
  /- PUSHACC5 -/ ⟨[], fun _ _ _ => [{ kind := .push }, { kind := .acc, nums := [5] }]⟩,
  /- PUSHACC6 -/ ⟨[], fun _ _ _ => [{ kind := .push }, { kind := .acc, nums := [6] }]⟩,
  /- PUSHACC7 -/ ⟨[], fun _ _ _ => [{ kind := .push }, { kind := .acc, nums := [7] }]⟩,
  /- ENVACC -/ ⟨[.u16], fun ns _ _ => [{ kind := .envfield, nums := ns }]⟩,
  /- ENV1 -/ ⟨[], fun _ _ _ => [{ kind := .envfield, nums := [1] }]⟩,
  /- ENV2 -/ ⟨[], fun _ _ _ => [{ kind := .envfield, nums := [2] }]⟩,
  /- ENV3 -/ ⟨[], fun _ _ _ => [{ kind := .envfield, nums := [3] }]⟩,
  /- ENV4 -/ ⟨[], fun _ _ _ => [{ kind := .envfield, nums := [4] }]⟩,
  /- ENV5 -/ ⟨[], fun _ _ _ => [{ kind := .envfield, nums := [5] }]⟩,
  /- ENV6 -/ ⟨[], fun _ _ _ => [{ kind := .envfield, nums := [6] }]⟩,
  /- ENV7 -/ ⟨[], fun _ _ _ => [{ kind := .envfield, nums := [7] }]⟩,
  /- PUSHENVACC -/ ⟨[.u16], fun ns _ _ => [{ kind := .push }, { kind := .envfield, nums := ns }]⟩,
  /- PUSHENV1 -/ ⟨[], fun _ _ _ => [{ kind := .push }, { kind := .envfield, nums := [1] }]⟩,
  /- PUSHENV2 -/ ⟨[], fun _ _ _ => [{ kind := .push }, { kind := .envfield, nums := [2] }]⟩,
  /- PUSHENV3 -/ ⟨[], fun _ _ _ => [{ kind := .push }, { kind := .envfield, nums := [3] }]⟩,
  /- PUSHENV4 -/ ⟨[], fun _ _ _ => [{ kind := .push }, { kind := .envfield, nums := [4] }]⟩,
  /- PUSHENV5 -/ ⟨[], fun _ _ _ => [{ kind := .push }, { kind := .envfield, nums := [5] }]⟩,
  /- PUSHENV6 -/ ⟨[], fun _ _ _ => [{ kind := .push }, { kind := .envfield, nums := [6] }]⟩,
  /- PUSHENV7 -/ ⟨[], fun _ _ _ => [{ kind := .push }, { kind := .envfield, nums := [7] }]⟩,
  /- PUSH_ENV1_APPLY1 -/ ⟨[], fun _ _ _ => [{ kind := .push }, { kind := .envfield, nums := [1] }, { kind := .call, nums := [1] }]⟩,
  /- PUSH_ENV1_APPLY2 -/ ⟨[], fun _ _ _ => [{ kind := .push }, { kind := .envfield, nums := [1] }, { kind := .call, nums := [2] }]⟩,
  /- PUSH_ENV1_APPLY3 -/ ⟨[], fun _ _ _ => [{ kind := .push }, { kind := .envfield, nums := [1] }, { kind := .call, nums := [3] }]⟩,
  /- PUSH_ENV1_APPLY4 -/ ⟨[], fun _ _ _ => [{ kind := .push }, { kind := .envfield, nums := [1] }, { kind := .call, nums := [4] }]⟩,
  /- PUSH_ENV1_APPTERM1 -/ ⟨[.u16], fun ns _ _ => [{ kind := .push }, { kind := .envfield, nums := [1] }, { kind := .appterm, nums := 1 :: ns }]⟩,
  /- PUSH_ENV1_APPTERM2 -/ ⟨[.u16], fun ns _ _ => [{ kind := .push }, { kind := .envfield, nums := [1] }, { kind := .appterm, nums := 2 :: ns }]⟩,
  /- PUSH_ENV1_APPTERM3 -/ ⟨[.u16], fun ns _ _ => [{ kind := .push }, { kind := .envfield, nums := [1] }, { kind := .appterm, nums := 3 :: ns }]⟩,
  /- PUSH_ENV1_APPTERM4 -/ ⟨[.u16], fun ns _ _ => [{ kind := .push }, { kind := .envfield, nums := [1] }, { kind := .appterm, nums := 4 :: ns }]⟩,
  /- PUSHATOM -/ ⟨[.u8], fun ns _ _ => [{ kind := .push }, { kind := .atom, nums := ns }]⟩,
  /- ATOM -/ ⟨[.u8], fun ns _ _ => [{ kind := .atom, nums := ns }]⟩,
  /- PUSHATOM0 -/ ⟨[], fun _ _ _ => [{ kind := .push }, { kind := .atom, nums := [0] }]⟩,
  /- ATOM0 -/ ⟨[], fun _ _ _ => [{ kind := .atom, nums := [0] }]⟩,
  /- ATOM1 -/ ⟨[], fun _ _ _ => [{ kind := .atom, nums := [1] }]⟩,
  /- ATOM2 -/ ⟨[], fun _ _ _ => [{ kind := .atom, nums := [2] }]⟩,
  /- ATOM3 -/ ⟨[], fun _ _ _ => [{ kind := .atom, nums := [3] }]⟩,
  /- ATOM4 -/ ⟨[], fun _ _ _ => [{ kind := .atom, nums := [4] }]⟩,
  /- ATOM5 -/ ⟨[], fun _ _ _ => [{ kind := .atom, nums := [5] }]⟩,
  /- ATOM6 -/ ⟨[], fun _ _ _ => [{ kind := .atom, nums := [6] }]⟩,
  /- ATOM7 -/ ⟨[], fun _ _ _ => [{ kind := .atom, nums := [7] }]⟩,
  /- ATOM8 -/ ⟨[], fun _ _ _ => [{ kind := .atom, nums := [8] }]⟩,
  /- ATOM9 -/ ⟨[], fun _ _ _ => [{ kind := .atom, nums := [9] }]⟩,
  /- CONSTINT -/ ⟨[.s32], fun ns _ _ => [{ kind := .const, nums := ns.map valInt }]⟩,
  /- PUSHCONSTINT -/ ⟨[.s32], fun ns _ _ => [{ kind := .push }, { kind := .const, nums := ns.map valInt }]⟩,
  /- CONST0 -/ ⟨[], fun _ _ _ => [{ kind := .const, nums := [valInt 0] }]⟩,
  /- CONST1 -/ ⟨[], fun _ _ _ => [{ kind := .const, nums := [valInt 1] }]⟩,
  /- CONST2 -/ ⟨[], fun _ _ _ => [{ kind := .const, nums := [valInt 2] }]⟩,
  /- CONST3 -/ ⟨[], fun _ _ _ => [{ kind := .const, nums := [valInt 3] }]⟩,
  /- PUSHCONST0 -/ ⟨[], fun _ _ _ => [{ kind := .push }, { kind := .const, nums := [valInt 0] }]⟩,
  /- PUSHCONST1 -/ ⟨[], fun _ _ _ => [{ kind := .push }, { kind := .const, nums := [valInt 1] }]⟩,
  /- PUSHCONST2 -/ ⟨[], fun _ _ _ => [{ kind := .push }, { kind := .const, nums := [valInt 2] }]⟩,
  /- PUSHCONST3 -/ ⟨[], fun _ _ _ => [{ kind := .push }, { kind := .const, nums := [valInt 3] }]⟩,
  /- GETFIELD -/ ⟨[.u16], fun ns _ _ => [{ kind := .getfield, nums := ns }]⟩,
  /- GETFIELD0 -/ ⟨[], fun _ _ _ => [{ kind := .getfield, nums := [0] }]⟩,
  /- GETFIELD1 -/ ⟨[], fun _ _ _ => [{ kind := .getfield, nums := [1] }]⟩,
  /- GETFIELD2 -/ ⟨[], fun _ _ _ => [{ kind := .getfield, nums := [2] }]⟩,
  /- GETFIELD3 -/ ⟨[], fun _ _ _ => [{ kind := .getfield, nums := [3] }]⟩,
  /- GETFIELD0_0 -/ ⟨[], fun _ _ _ => [{ kind := .getfield, nums := [0] }, { kind := .getfield, nums := [0] }]⟩,
  /- GETFIELD0_1 -/ ⟨[], fun _ _ _ => [{ kind := .getfield, nums := [0] }, { kind := .getfield, nums := [1] }]⟩,
  /- GETFIELD1_0 -/ ⟨[], fun _ _ _ => [{ kind := .getfield, nums := [1] }, { kind := .getfield, nums := [0] }]⟩,
  /- GETFIELD1_1 -/ ⟨[], fun _ _ _ => [{ kind := .getfield, nums := [1] }, { kind := .getfield, nums := [1] }]⟩,
  /- SETFIELD -/ ⟨[.u16], fun ns _ _ => [{ kind := .setfield, nums := ns }]⟩,
  /- SETFIELD0 -/ ⟨[], fun _ _ _ => [{ kind := .setfield, nums := [0] }]⟩,
  /- SETFIELD1 -/ ⟨[], fun _ _ _ => [{ kind := .setfield, nums := [1] }]⟩,
  /- SETFIELD2 -/ ⟨[], fun _ _ _ => [{ kind := .setfield, nums := [2] }]⟩,
  /- SETFIELD3 -/ ⟨[], fun _ _ _ => [{ kind := .setfield, nums := [3] }]⟩,
  /- GETGLOBAL -/ ⟨[.slot32], fun _ _ gs => [{ kind := .getglobal, globs := gs }]⟩,
  /- PUSH_GETGLOBAL -/ ⟨[.slot32], fun _ _ gs => [{ kind := .push }, { kind := .getglobal, globs := gs }]⟩,
  /- PUSH_GETGLOBAL_APPLY1 -/ ⟨[.slot32], fun _ _ gs => [{ kind := .push }, { kind := .getglobal, globs := gs }, { kind := .call, nums := [1] }]⟩,
  /- PUSH_GETGLOBAL_APPLY2 -/ ⟨[.slot32], fun _ _ gs => [{ kind := .push }, { kind := .getglobal, globs := gs }, { kind := .call, nums := [2] }]⟩,
  /- PUSH_GETGLOBAL_APPLY3 -/ ⟨[.slot32], fun _ _ gs => [{ kind := .push }, { kind := .getglobal, globs := gs }, { kind := .call, nums := [3] }]⟩,
  /- PUSH_GETGLOBAL_APPLY4 -/ ⟨[.slot32], fun _ _ gs => [{ kind := .push }, { kind := .getglobal, globs := gs }, { kind := .call, nums := [4] }]⟩,
  /- PUSH_GETGLOBAL_APPTERM1 -/ ⟨[.u16, .slot32], fun ns _ gs => [{ kind := .push }, { kind := .getglobal, globs := gs }, { kind := .appterm, nums := 1 :: ns }]⟩,
  /- PUSH_GETGLOBAL_APPTERM2 -/ ⟨[.u16, .slot32], fun ns _ gs => [{ kind := .push }, { kind := .getglobal, globs := gs }, { kind := .appterm, nums := 2 :: ns }]⟩,
  /- PUSH_GETGLOBAL_APPTERM3 -/ ⟨[.u16, .slot32], fun ns _ gs => [{ kind := .push }, { kind := .getglobal, globs := gs }, { kind := .appterm, nums := 3 :: ns }]⟩,
  /- PUSH_GETGLOBAL_APPTERM4 -/ ⟨[.u16, .slot32], fun ns _ gs => [{ kind := .push }, { kind := .getglobal, globs := gs }, { kind := .appterm, nums := 4 :: ns }]⟩,
  /- SETGLOBAL -/ ⟨[.slot32], fun _ _ gs => [{ kind := .setglobal, globs := gs }]⟩,
  /- PUSH_RETADDR -/ ⟨[.label], fun _ ls _ => [{ kind := .pushRetaddr, labels := ls }]⟩,
  /- APPLY -/ ⟨[.u8], fun ns _ _ => [{ kind := .enter, nums := ns }]⟩,
  /- APPLY1 -/ ⟨[], fun _ _ _ => [{ kind := .call, nums := [1] }]⟩,
  /- APPLY2 -/ ⟨[], fun _ _ _ => [{ kind := .call, nums := [2] }]⟩,
  /- APPLY3 -/ ⟨[], fun _ _ _ => [{ kind := .call, nums := [3] }]⟩,
  /- APPLY4 -/ ⟨[], fun _ _ _ => [{ kind := .call, nums := [4] }]⟩,
  /- APPTERM -/ ⟨[.u8, .u16], fun ns _ _ => [{ kind := .appterm, nums := ns }]⟩,
  /- APPTERM1 -/ ⟨[.u16], fun ns _ _ => [{ kind := .appterm, nums := 1 :: ns }]⟩,
  /- APPTERM2 -/ ⟨[.u16], fun ns _ _ => [{ kind := .appterm, nums := 2 :: ns }]⟩,
  /- APPTERM3 -/ ⟨[.u16], fun ns _ _ => [{ kind := .appterm, nums := 3 :: ns }]⟩,
  /- APPTERM4 -/ ⟨[.u16], fun ns _ _ => [{ kind := .appterm, nums := 4 :: ns }]⟩,
  /- RESTART -/ ⟨[], fun _ _ _ => [{ kind := .restart }]⟩,
  /- GRAB -/ ⟨[.u8], fun ns _ _ => [{ kind := .grab, nums := ns }]⟩,
  /- RETURN1 -/ ⟨[], fun _ _ _ => [{ kind := .ret, nums := [1] }]⟩,
  /- RETURN2 -/ ⟨[], fun _ _ _ => [{ kind := .ret, nums := [2] }]⟩,
  /- RETURN -/ ⟨[.u16], fun ns _ _ => [{ kind := .ret, nums := ns }]⟩,
  /- CLOSURE -/ ⟨[.u8, .label], fun ns ls _ => [{ kind := .closure, nums := ns, labels := ls }]⟩,
  /- CLOSREC -/ ⟨[.u8, .label], fun ns ls _ => [{ kind := .closrec, nums := ns, labels := ls }]⟩,
  /- DUMMY -/ ⟨[.u16], fun ns _ _ => [{ kind := .dummy, nums := ns }]⟩,
  /- UPDATE -/ ⟨[], fun _ _ _ => [{ kind := .prim .update }]⟩,
  /- PUSHTRAP -/ ⟨[.label], fun _ ls _ => [{ kind := .pushtrap, labels := ls }]⟩,
  /- RAISE -/ ⟨[], fun _ _ _ => [{ kind := .prim .raise }]⟩,
  /- POPTRAP -/ ⟨[], fun _ _ _ => [{ kind := .poptrap }]⟩,
  /- SWAP -/ ⟨[], fun _ _ _ => [{ kind := .prim .swap }]⟩,
  /- PUSH -/ ⟨[], fun _ _ _ => [{ kind := .push }]⟩,
  /- POP -/ ⟨[.u16], fun ns _ _ => [{ kind := .pop, nums := ns }]⟩,
  /- ASSIGN -/ ⟨[.u16], fun ns _ _ => [{ kind := .assign, nums := ns }]⟩,
  /- BOOLNOT -/ ⟨[], fun _ _ _ => [{ kind := .prim .not }]⟩,
  /- ADDINT -/ ⟨[], fun _ _ _ => [{ kind := .prim .addint }]⟩,
  /- SUBINT -/ ⟨[], fun _ _ _ => [{ kind := .prim .subint }]⟩,
  /- MULINT -/ ⟨[], fun _ _ _ => [{ kind := .prim .mulint }]⟩,
  /- DIVINT -/ ⟨[], fun _ _ _ => [{ kind := .prim .divint }]⟩,
  /- MODINT -/ ⟨[], fun _ _ _ => [{ kind := .prim .modint }]⟩,
  /- ANDINT -/ ⟨[], fun _ _ _ => [{ kind := .prim .andint }]⟩,
  /- ORINT -/ ⟨[], fun _ _ _ => [{ kind := .prim .orint }]⟩,
  /- XORINT -/ ⟨[], fun _ _ _ => [{ kind := .prim .xorint }]⟩,
  /- SHIFTLEFTINT -/ ⟨[], fun _ _ _ => [{ kind := .prim .shiftleftint }]⟩,
  /- SHIFTRIGHTINTSIGNED -/ ⟨[], fun _ _ _ => [{ kind := .prim .shiftrightintsigned }]⟩,
  /- SHIFTRIGHTINTUNSIGNED -/ ⟨[], fun _ _ _ => [{ kind := .prim .shiftrightintunsigned }]⟩,
  /- EQ -/ ⟨[], fun _ _ _ => [{ kind := .cmp .int .eq }]⟩,
  /- NEQ -/ ⟨[], fun _ _ _ => [{ kind := .cmp .int .ne }]⟩,
  /- LTINT -/ ⟨[], fun _ _ _ => [{ kind := .cmp .int .lt }]⟩,
  /- GTINT -/ ⟨[], fun _ _ _ => [{ kind := .cmp .int .gt }]⟩,
  /- LEINT -/ ⟨[], fun _ _ _ => [{ kind := .cmp .int .le }]⟩,
  /- GEINT -/ ⟨[], fun _ _ _ => [{ kind := .cmp .int .ge }]⟩,
  /- FLOATOFINT -/ ⟨[], fun _ _ _ => [{ kind := .prim .floatofint }]⟩,
  /- SMLNEGFLOAT -/ ⟨[], fun _ _ _ => [{ kind := .prim .smlnegfloat }]⟩,
  /- SMLADDFLOAT -/ ⟨[], fun _ _ _ => [{ kind := .prim .smladdfloat }]⟩,
  /- SMLSUBFLOAT -/ ⟨[], fun _ _ _ => [{ kind := .prim .smlsubfloat }]⟩,
  /- SMLMULFLOAT -/ ⟨[], fun _ _ _ => [{ kind := .prim .smlmulfloat }]⟩,
  /- SMLDIVFLOAT -/ ⟨[], fun _ _ _ => [{ kind := .prim .smldivfloat }]⟩,
  /- INTOFFLOAT -/ ⟨[], fun _ _ _ => [{ kind := .prim .intoffloat }]⟩,
  /- EQFLOAT -/ ⟨[], fun _ _ _ => [{ kind := .cmp .float .eq }]⟩,
  /- NEQFLOAT -/ ⟨[], fun _ _ _ => [{ kind := .cmp .float .ne }]⟩,
  /- LTFLOAT -/ ⟨[], fun _ _ _ => [{ kind := .cmp .float .lt }]⟩,
  /- GTFLOAT -/ ⟨[], fun _ _ _ => [{ kind := .cmp .float .gt }]⟩,
  /- LEFLOAT -/ ⟨[], fun _ _ _ => [{ kind := .cmp .float .le }]⟩,
  /- GEFLOAT -/ ⟨[], fun _ _ _ => [{ kind := .cmp .float .ge }]⟩,
  /- STRINGLENGTH -/ ⟨[], fun _ _ _ => [{ kind := .prim .stringlength }]⟩,
  /- GETSTRINGCHAR -/ ⟨[], fun _ _ _ => [{ kind := .prim .getstringchar }]⟩,
  /- SETSTRINGCHAR -/ ⟨[], fun _ _ _ => [{ kind := .prim .setstringchar }]⟩,
  /- EQSTRING -/ ⟨[], fun _ _ _ => [{ kind := .cmp .str .eq }]⟩,
  /- NEQSTRING -/ ⟨[], fun _ _ _ => [{ kind := .cmp .str .ne }]⟩,
  /- LTSTRING -/ ⟨[], fun _ _ _ => [{ kind := .cmp .str .lt }]⟩,
  /- GTSTRING -/ ⟨[], fun _ _ _ => [{ kind := .cmp .str .gt }]⟩,
  /- LESTRING -/ ⟨[], fun _ _ _ => [{ kind := .cmp .str .le }]⟩,
  /- GESTRING -/ ⟨[], fun _ _ _ => [{ kind := .cmp .str .ge }]⟩,
  /- MAKEVECTOR -/ ⟨[], fun _ _ _ => [{ kind := .prim .makevector }]⟩,
  /- VECTLENGTH -/ ⟨[], fun _ _ _ => [{ kind := .prim .vectlength }]⟩,
  /- GETVECTITEM -/ ⟨[], fun _ _ _ => [{ kind := .prim .getvectitem }]⟩,
  /- SETVECTITEM -/ ⟨[], fun _ _ _ => [{ kind := .prim .setvectitem }]⟩,
  /- SMLNEGINT -/ ⟨[], fun _ _ _ => [{ kind := .prim .smlnegint }]⟩,
  /- SMLSUCCINT -/ ⟨[], fun _ _ _ => [{ kind := .prim .smlsuccint }]⟩,
  /- SMLPREDINT -/ ⟨[], fun _ _ _ => [{ kind := .prim .smlpredint }]⟩,
  /- SMLADDINT -/ ⟨[], fun _ _ _ => [{ kind := .prim .smladdint }]⟩,
  /- SMLSUBINT -/ ⟨[], fun _ _ _ => [{ kind := .prim .smlsubint }]⟩,
  /- SMLMULINT -/ ⟨[], fun _ _ _ => [{ kind := .prim .smlmulint }]⟩,
  /- SMLDIVINT -/ ⟨[], fun _ _ _ => [{ kind := .prim .smldivint }]⟩,
  /- SMLMODINT -/ ⟨[], fun _ _ _ => [{ kind := .prim .smlmodint }]⟩,
  /- MAKEREFVECTOR -/ ⟨[], fun _ _ _ => [{ kind := .prim .makerefvector }]⟩,
  /- SMLQUOTINT -/ ⟨[], fun _ _ _ => [{ kind := .prim .smlquotint }]⟩,
  /- SMLREMINT -/ ⟨[], fun _ _ _ => [{ kind := .prim .smlremint }]⟩,
  /- CHECK_SIGNALS -/ ⟨[], fun _ _ _ => [{ kind := .checkSignals }]⟩,
  /- STOP -/ ⟨[], fun _ _ _ => [{ kind := .stop }]⟩,
  /- EQUNSIGN -/ ⟨[], fun _ _ _ => [{ kind := .cmp .word .eq }]⟩,
  /- NEQUNSIGN -/ ⟨[], fun _ _ _ => [{ kind := .cmp .word .ne }]⟩,
  /- LTUNSIGN -/ ⟨[], fun _ _ _ => [{ kind := .cmp .word .lt }]⟩,
  /- GTUNSIGN -/ ⟨[], fun _ _ _ => [{ kind := .cmp .word .gt }]⟩,
  /- LEUNSIGN -/ ⟨[], fun _ _ _ => [{ kind := .cmp .word .le }]⟩,
  /- GEUNSIGN -/ ⟨[], fun _ _ _ => [{ kind := .cmp .word .ge }]⟩]

/-- Decoding the instruction at position `p`, `bs` being the code from there on: the
actions, the position and the code of the next instruction. -/
def decode1 (p : Nat) (bs : List Nat) : Option (List Raw × Nat × List Nat) :=
  match bs with
  | [] => none
  | b :: r =>
    (table[b]?).bind fun e =>
    (readArgs (p + 1) r e.args).map fun (x, k, r') =>
      (e.ops x.nums x.labels x.slots, p + 1 + k, r')

/-- Decoding from position `p` to position `q` gives the actions `ops`. -/
inductive Decodes : Nat → List Nat → List Raw → Nat → List Nat → Prop where
  | nil (p : Nat) (bs : List Nat) : Decodes p bs [] p bs
  | step {p p' q : Nat} {bs bs' cs : List Nat} {xs ys : List Raw} :
      decode1 p bs = some (xs, p', bs') → Decodes p' bs' ys q cs →
      Decodes p bs (xs ++ ys) q cs

end Mosml.Emit
