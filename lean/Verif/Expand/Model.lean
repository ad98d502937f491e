import Verif.Emit.Decode

/-!
# Expansion of bytecode to threaded code (src/runtime/expand.c)

With THREADED and DIRECT_JUMP the runtime does not interpret bytecode: `expandcode`
turns a block of bytecode into an array of words.  An opcode becomes the address of its
code in the interpreter (`jumptable[op]`), an operand becomes a word, a branch offset
becomes the address of the word where the expansion of the target begins.
`buildrealmap` computes that address for every bytecode position beforehand.

Simplifications: `jumptable` is one-to-one, so `jumptable[op]` is written `instr op`; a
pointer into `realprog` is its index; a number is an integer (all of them fit in a
32-bit field, hence in a word; the casts of expand.c:526-659 preserve them).  Reading
the bytecode or `realaddress` outside their bounds, writing `realprog` outside its
bounds, and a bad opcode (`fatal_error`) are the outcome `none`.
-/

namespace Mosml.Expand

open Mosml.Emit

/-- A word of `realprog`. -/
inductive Word where
  /-- `jumptable[op]` -/
  | instr (op : Nat)
  /-- an immediate operand -/
  | num (v : Int)
  /-- `realprog + i` -/
  | addr (i : Int)
  deriving DecidableEq, Repr

/-- Operand formats in expand.c: a byte; a 32-bit label; 16 bits signed and unsigned; 32
bits unsigned and signed; a byte and as many labels. -/
inductive Opd where
  | u8 | lab | s16 | u16 | u32 | s32 | table
  deriving DecidableEq, Repr

/-- The cases of `buildrealmap`, src/runtime/expand.c:69-331. -/
def mapCases : List (List Nat × List Opd) := [
  /- line 71 -/ ([Opc.SWAP, Opc.PUSH, Opc.PUSHACC0, Opc.ACC0, Opc.PUSHACC1, Opc.ACC1, Opc.PUSHACC2,
    Opc.ACC2, Opc.PUSHACC3, Opc.ACC3, Opc.PUSHACC4, Opc.ACC4, Opc.PUSHACC5, Opc.ACC5,
    Opc.PUSHACC6, Opc.ACC6, Opc.PUSHACC7, Opc.ACC7, Opc.PUSHENV1, Opc.ENV1, Opc.PUSHENV2,
    Opc.ENV2, Opc.PUSHENV3, Opc.ENV3, Opc.PUSHENV4, Opc.ENV4, Opc.PUSHENV5, Opc.ENV5,
    Opc.PUSHENV6, Opc.ENV6, Opc.PUSHENV7, Opc.ENV7, Opc.PUSH_ENV1_APPLY1,
    Opc.PUSH_ENV1_APPLY2, Opc.PUSH_ENV1_APPLY3, Opc.PUSH_ENV1_APPLY4, Opc.APPLY1, Opc.APPLY2,
    Opc.APPLY3, Opc.APPLY4, Opc.RETURN1, Opc.RETURN2, Opc.RESTART, Opc.UPDATE,
    Opc.CHECK_SIGNALS, Opc.PUSHATOM0, Opc.ATOM0, Opc.ATOM1, Opc.ATOM2, Opc.ATOM3, Opc.ATOM4,
    Opc.ATOM5, Opc.ATOM6, Opc.ATOM7, Opc.ATOM8, Opc.ATOM9, Opc.GETFIELD0, Opc.GETFIELD1,
    Opc.GETFIELD2, Opc.GETFIELD3, Opc.GETFIELD0_0, Opc.GETFIELD0_1, Opc.GETFIELD1_0,
    Opc.GETFIELD1_1, Opc.SETFIELD0, Opc.SETFIELD1, Opc.SETFIELD2, Opc.SETFIELD3,
    Opc.VECTLENGTH, Opc.GETVECTITEM, Opc.SETVECTITEM, Opc.GETSTRINGCHAR, Opc.SETSTRINGCHAR,
    Opc.BOOLNOT, Opc.POPTRAP, Opc.RAISE, Opc.PUSHCONST0, Opc.CONST0, Opc.PUSHCONST1,
    Opc.CONST1, Opc.PUSHCONST2, Opc.CONST2, Opc.PUSHCONST3, Opc.CONST3, Opc.ADDINT,
    Opc.SUBINT, Opc.MULINT, Opc.DIVINT, Opc.MODINT, Opc.ANDINT, Opc.ORINT, Opc.XORINT,
    Opc.SHIFTLEFTINT, Opc.SHIFTRIGHTINTSIGNED, Opc.SHIFTRIGHTINTUNSIGNED, Opc.TAGOF, Opc.EQ,
    Opc.NEQ, Opc.LTINT, Opc.GTINT, Opc.LEINT, Opc.GEINT, Opc.EQUNSIGN, Opc.NEQUNSIGN,
    Opc.LTUNSIGN, Opc.GTUNSIGN, Opc.LEUNSIGN, Opc.GEUNSIGN, Opc.FLOATOFINT, Opc.SMLNEGFLOAT,
    Opc.SMLADDFLOAT, Opc.SMLSUBFLOAT, Opc.SMLMULFLOAT, Opc.SMLDIVFLOAT, Opc.INTOFFLOAT,
    Opc.EQFLOAT, Opc.NEQFLOAT, Opc.LTFLOAT, Opc.GTFLOAT, Opc.LEFLOAT, Opc.GEFLOAT,
    Opc.STRINGLENGTH, Opc.EQSTRING, Opc.NEQSTRING, Opc.LTSTRING, Opc.GTSTRING, Opc.LESTRING,
    Opc.GESTRING, Opc.MAKEVECTOR, Opc.SMLNEGINT, Opc.SMLSUCCINT, Opc.SMLPREDINT,
    Opc.SMLADDINT, Opc.SMLSUBINT, Opc.SMLMULINT, Opc.SMLDIVINT, Opc.SMLMODINT,
    Opc.MAKEREFVECTOR, Opc.SMLQUOTINT, Opc.SMLREMINT, Opc.STOP],
    []),
  /- line 215 -/ ([Opc.APPLY, Opc.GRAB, Opc.PUSHATOM, Opc.ATOM, Opc.MAKEBLOCK1, Opc.MAKEBLOCK2,
    Opc.MAKEBLOCK3, Opc.MAKEBLOCK4, Opc.CONSTBYTE],
    [.u8]),
  /- line 230 -/ ([Opc.PUSH_RETADDR, Opc.PUSHTRAP, Opc.BRANCH, Opc.BRANCHIF, Opc.BRANCHIFNOT,
    Opc.POPBRANCHIFNOT, Opc.BRANCHIFEQ, Opc.BRANCHIFNEQ, Opc.BRANCHIFLT, Opc.BRANCHIFGT,
    Opc.BRANCHIFLE, Opc.BRANCHIFGE],
    [.lab]),
  /- line 249 -/ ([Opc.BRANCHINTERVAL],
    [.lab, .lab]),
  /- line 255 -/ ([Opc.CONSTSHORT],
    [.s16]),
  /- line 260 -/ ([Opc.PUSHACC, Opc.ACCESS, Opc.POP, Opc.ASSIGN, Opc.PUSHENVACC, Opc.ENVACC, Opc.DUMMY,
    Opc.RETURN, Opc.APPTERM1, Opc.APPTERM2, Opc.APPTERM3, Opc.APPTERM4,
    Opc.PUSH_ENV1_APPTERM1, Opc.PUSH_ENV1_APPTERM2, Opc.PUSH_ENV1_APPTERM3,
    Opc.PUSH_ENV1_APPTERM4, Opc.GETFIELD, Opc.SETFIELD, Opc.C_CALL1, Opc.C_CALL2, Opc.C_CALL3,
    Opc.C_CALL4, Opc.C_CALL5],
    [.u16]),
  /- line 287 -/ ([Opc.MAKEBLOCK, Opc.SETGLOBAL, Opc.GETGLOBAL, Opc.PUSH_GETGLOBAL,
    Opc.PUSH_GETGLOBAL_APPLY1, Opc.PUSH_GETGLOBAL_APPLY2, Opc.PUSH_GETGLOBAL_APPLY3,
    Opc.PUSH_GETGLOBAL_APPLY4],
    [.u32]),
  /- line 299 -/ ([Opc.PUSHCONSTINT, Opc.CONSTINT],
    [.s32]),
  /- line 305 -/ ([Opc.CLOSURE, Opc.CLOSREC, Opc.BRANCHIFNEQTAG],
    [.u8, .lab]),
  /- line 313 -/ ([Opc.APPTERM, Opc.C_CALLN],
    [.u8, .u16]),
  /- line 320 -/ ([Opc.PUSH_GETGLOBAL_APPTERM1, Opc.PUSH_GETGLOBAL_APPTERM2, Opc.PUSH_GETGLOBAL_APPTERM3,
    Opc.PUSH_GETGLOBAL_APPTERM4],
    [.u16, .u32]),
  /- line 330 -/ ([Opc.SWITCH],
    [.table])]

/-- The cases of `expandcode`, src/runtime/expand.c:368-661. -/
def expCases : List (List Nat × List Opd) := [
  /- line 371 -/ ([Opc.SWAP, Opc.PUSH, Opc.PUSHACC0, Opc.ACC0, Opc.PUSHACC1, Opc.ACC1, Opc.PUSHACC2,
    Opc.ACC2, Opc.PUSHACC3, Opc.ACC3, Opc.PUSHACC4, Opc.ACC4, Opc.PUSHACC5, Opc.ACC5,
    Opc.PUSHACC6, Opc.ACC6, Opc.PUSHACC7, Opc.ACC7, Opc.PUSHENV1, Opc.ENV1, Opc.PUSHENV2,
    Opc.ENV2, Opc.PUSHENV3, Opc.ENV3, Opc.PUSHENV4, Opc.ENV4, Opc.PUSHENV5, Opc.ENV5,
    Opc.PUSHENV6, Opc.ENV6, Opc.PUSHENV7, Opc.ENV7, Opc.PUSH_ENV1_APPLY1,
    Opc.PUSH_ENV1_APPLY2, Opc.PUSH_ENV1_APPLY3, Opc.PUSH_ENV1_APPLY4, Opc.APPLY1, Opc.APPLY2,
    Opc.APPLY3, Opc.APPLY4, Opc.RETURN1, Opc.RETURN2, Opc.RESTART, Opc.UPDATE,
    Opc.CHECK_SIGNALS, Opc.PUSHATOM0, Opc.ATOM0, Opc.ATOM1, Opc.ATOM2, Opc.ATOM3, Opc.ATOM4,
    Opc.ATOM5, Opc.ATOM6, Opc.ATOM7, Opc.ATOM8, Opc.ATOM9, Opc.GETFIELD0, Opc.GETFIELD1,
    Opc.GETFIELD2, Opc.GETFIELD3, Opc.GETFIELD0_0, Opc.GETFIELD0_1, Opc.GETFIELD1_0,
    Opc.GETFIELD1_1, Opc.SETFIELD0, Opc.SETFIELD1, Opc.SETFIELD2, Opc.SETFIELD3,
    Opc.VECTLENGTH, Opc.GETVECTITEM, Opc.SETVECTITEM, Opc.GETSTRINGCHAR, Opc.SETSTRINGCHAR,
    Opc.BOOLNOT, Opc.POPTRAP, Opc.RAISE, Opc.PUSHCONST0, Opc.CONST0, Opc.PUSHCONST1,
    Opc.CONST1, Opc.PUSHCONST2, Opc.CONST2, Opc.PUSHCONST3, Opc.CONST3, Opc.ADDINT,
    Opc.SUBINT, Opc.MULINT, Opc.DIVINT, Opc.MODINT, Opc.ANDINT, Opc.ORINT, Opc.XORINT,
    Opc.SHIFTLEFTINT, Opc.SHIFTRIGHTINTSIGNED, Opc.SHIFTRIGHTINTUNSIGNED, Opc.TAGOF, Opc.EQ,
    Opc.NEQ, Opc.LTINT, Opc.GTINT, Opc.LEINT, Opc.GEINT, Opc.EQUNSIGN, Opc.NEQUNSIGN,
    Opc.LTUNSIGN, Opc.GTUNSIGN, Opc.LEUNSIGN, Opc.GEUNSIGN, Opc.FLOATOFINT, Opc.SMLNEGFLOAT,
    Opc.SMLADDFLOAT, Opc.SMLSUBFLOAT, Opc.SMLMULFLOAT, Opc.SMLDIVFLOAT, Opc.INTOFFLOAT,
    Opc.EQFLOAT, Opc.NEQFLOAT, Opc.LTFLOAT, Opc.GTFLOAT, Opc.LEFLOAT, Opc.GEFLOAT,
    Opc.STRINGLENGTH, Opc.EQSTRING, Opc.NEQSTRING, Opc.LTSTRING, Opc.GTSTRING, Opc.LESTRING,
    Opc.GESTRING, Opc.MAKEVECTOR, Opc.SMLNEGINT, Opc.SMLSUCCINT, Opc.SMLPREDINT,
    Opc.SMLADDINT, Opc.SMLSUBINT, Opc.SMLMULINT, Opc.SMLDIVINT, Opc.SMLMODINT,
    Opc.MAKEREFVECTOR, Opc.SMLQUOTINT, Opc.SMLREMINT, Opc.STOP],
    []),
  /- line 516 -/ ([Opc.APPLY, Opc.GRAB, Opc.PUSHATOM, Opc.ATOM, Opc.MAKEBLOCK1, Opc.MAKEBLOCK2,
    Opc.MAKEBLOCK3, Opc.MAKEBLOCK4, Opc.CONSTBYTE],
    [.u8]),
  /- line 531 -/ ([Opc.PUSH_RETADDR, Opc.PUSHTRAP, Opc.BRANCH, Opc.BRANCHIF, Opc.BRANCHIFNOT,
    Opc.POPBRANCHIFNOT, Opc.BRANCHIFEQ, Opc.BRANCHIFNEQ, Opc.BRANCHIFLT, Opc.BRANCHIFGT,
    Opc.BRANCHIFLE, Opc.BRANCHIFGE],
    [.lab]),
  /- line 551 -/ ([Opc.BRANCHINTERVAL],
    [.lab, .lab]),
  /- line 560 -/ ([Opc.CONSTSHORT],
    [.s16]),
  /- line 567 -/ ([Opc.PUSHACC, Opc.ACCESS, Opc.POP, Opc.ASSIGN, Opc.PUSHENVACC, Opc.ENVACC, Opc.DUMMY,
    Opc.RETURN, Opc.APPTERM1, Opc.APPTERM2, Opc.APPTERM3, Opc.APPTERM4,
    Opc.PUSH_ENV1_APPTERM1, Opc.PUSH_ENV1_APPTERM2, Opc.PUSH_ENV1_APPTERM3,
    Opc.PUSH_ENV1_APPTERM4, Opc.GETFIELD, Opc.SETFIELD, Opc.C_CALL1, Opc.C_CALL2, Opc.C_CALL3,
    Opc.C_CALL4, Opc.C_CALL5],
    [.u16]),
  /- line 596 -/ ([Opc.MAKEBLOCK, Opc.SETGLOBAL, Opc.GETGLOBAL, Opc.PUSH_GETGLOBAL,
    Opc.PUSH_GETGLOBAL_APPLY1, Opc.PUSH_GETGLOBAL_APPLY2, Opc.PUSH_GETGLOBAL_APPLY3,
    Opc.PUSH_GETGLOBAL_APPLY4],
    [.u32]),
  /- line 610 -/ ([Opc.PUSHCONSTINT, Opc.CONSTINT],
    [.s32]),
  /- line 618 -/ ([Opc.CLOSURE, Opc.CLOSREC, Opc.BRANCHIFNEQTAG],
    [.u8, .lab]),
  /- line 628 -/ ([Opc.APPTERM, Opc.C_CALLN],
    [.u8, .u16]),
  /- line 637 -/ ([Opc.PUSH_GETGLOBAL_APPTERM1, Opc.PUSH_GETGLOBAL_APPTERM2, Opc.PUSH_GETGLOBAL_APPTERM3,
    Opc.PUSH_GETGLOBAL_APPTERM4],
    [.u16, .u32]),
  /- line 648 -/ ([Opc.SWITCH],
    [.table])]

/-- The operands of an opcode according to one of the two `switch` statements. -/
def operands (cases : List (List Nat × List Opd)) (op : Nat) : Option (List Opd) :=
  (cases.find? fun c => c.1.contains op).map (·.2)

/-- How far one operand moves `pc` and `realsize` in `buildrealmap`
(expand.c:211-337; SHORT is 2 and LONG is 4, lines 19-20). -/
def Opd.sizes (bs : List Nat) : Opd → Option (Nat × Nat)
  | .u8 => some (1, 1)
  | .s16 | .u16 => some (2, 1)
  | .lab | .u32 | .s32 => some (4, 1)
  | .table => match bs with
      | n :: _ => some (1 + 4 * n, 1 + n)
      | [] => none

/-- All operands of an instruction. -/
def sizes : List Opd → List Nat → Option (Nat × Nat)
  | [], _ => some (0, 0)
  | a :: as, bs =>
    (a.sizes bs).bind fun (k, w) =>
    (sizes as (bs.drop k)).map fun (k', w') => (k + k', w + w')

/-- The loop of `buildrealmap`, expand.c:63-343: `pc`, `realsize` and the array
`realaddress`.  The result is `realsize` and the array.  (`fuel` bounds the number of
rounds; `pc` grows in each.) -/
def mapLoop (code : List Nat) : Nat → Nat → Nat → List Int → Option (Nat × List Int)
  | 0, _, _, _ => none
  | fuel + 1, pc, realsize, real =>
    match code[pc]? with
    | none => some (realsize, real)
    | some op =>
      (operands mapCases op).bind fun as =>
      (sizes as (code.drop (pc + 1))).bind fun (k, w) =>
      mapLoop code fuel (pc + 1 + k) (realsize + 1 + w) (real.set pc (realsize : Int))

/-- `buildrealmap`, expand.c:52-349. -/
def buildrealmap (code : List Nat) : Option (Nat × List Int) :=
  mapLoop code (code.length + 1) 0 0 (List.replicate code.length (-1))

/-- `REALADDR(pc, offset)`, expand.c:353-354, with `i = pc + offset`. -/
def realaddr (real : List Int) (i : Int) : Option Word :=
  if 0 ≤ i then (real[i.toNat]?).map Word.addr else none

/-- The labels of a SWITCH, all relative to the start of the table (`pc1`),
expand.c:648-659. -/
def labels (real : List Int) (orig : Nat) : Nat → List Nat → Option (List Word)
  | 0, _ => some []
  | n + 1, bs =>
    (getS32 bs).bind fun (v, r) =>
    (realaddr real ((orig : Int) + v)).bind fun w =>
    (labels real orig n r).map fun ws => w :: ws

/-- The words written for one operand at position `p`, and the bytes read
(expand.c:513-661). -/
def Opd.words (real : List Int) (p : Nat) (bs : List Nat) : Opd → Option (List Word × Nat)
  | .u8 => match bs with
      | b :: _ => some ([.num (b : Int)], 1)
      | [] => none
  | .s16 => (getU16 bs).map fun (n, _) => ([.num (signed 32768 n)], 2)
  | .u16 => (getU16 bs).map fun (n, _) => ([.num (n : Int)], 2)
  | .u32 => (getU32 bs).map fun (n, _) => ([.num (n : Int)], 4)
  | .s32 => (getS32 bs).map fun (v, _) => ([.num v], 4)
  | .lab => (getS32 bs).bind fun (v, _) =>
      (realaddr real ((p : Int) + v)).map fun w => ([w], 4)
  | .table => match bs with
      | n :: r => (labels real (p + 1) n r).map fun ws => (.num (n : Int) :: ws, 1 + 4 * n)
      | [] => none

/-- All operands of an instruction. -/
def words (real : List Int) : Nat → List Opd → List Nat → Option (List Word × Nat)
  | _, [], _ => some ([], 0)
  | p, a :: as, bs =>
    (a.words real p bs).bind fun (ws, k) =>
    (words real (p + k) as (bs.drop k)).map fun (ws', k') => (ws ++ ws', k + k')

/-- The loop of `expandcode`, expand.c:366-666; `done` is `realprog[0 .. codeptr-1]`.
A write at or beyond `realsize` is out of bounds. -/
def expLoop (code : List Nat) (realsize : Nat) (real : List Int) :
    Nat → Nat → List Word → Option (List Word)
  | 0, _, _ => none
  | fuel + 1, pc, done =>
    match code[pc]? with
    | none => some done
    | some op =>
      (operands expCases op).bind fun as =>
      (words real (pc + 1) as (code.drop (pc + 1))).bind fun (ws, k) =>
      if done.length + 1 + ws.length ≤ realsize then
        expLoop code realsize real fuel (pc + 1 + k) (done ++ .instr op :: ws)
      else none

/-- `expandcode`, expand.c:357-674. -/
def expandcode (code : List Nat) : Option (List Word) :=
  (buildrealmap code).bind fun (realsize, real) =>
  expLoop code realsize real (code.length + 1) 0 []

/-! ## Reading threaded code

The macros of interp.c:190-202: every operand is a word, SHORT and LONG are 1, a label
is an address to jump to, entry `i` of a SWITCH is the word `i` places after the count. -/

/-- The table of a SWITCH. -/
def treadTable : Nat → List Word → Option (List Int × List Word)
  | 0, ws => some ([], ws)
  | n + 1, .addr i :: ws => (treadTable n ws).map fun (is, r) => (i :: is, r)
  | _ + 1, _ => none

/-- Reading one operand (as `Arg.read` does in bytecode): its contribution, its length in
words and what follows. -/
def tread (ws : List Word) : Arg → Option (Args × Nat × List Word)
  | .u8 | .s16 | .u16 | .s32 => match ws with
      | .num v :: r => some ({ nums := [v] }, 1, r)
      | _ => none
  | .label => match ws with
      | .addr i :: r => some ({ labels := [i] }, 1, r)
      | _ => none
  | .slot32 | .slot16 => match ws with
      | .num v :: r => some ({ slots := [v.toNat] }, 1, r)
      | _ => none
  | .header => match ws with
      | .num v :: r => some ({ nums := [v % 256, v / 1024] }, 1, r)
      | _ => none
  | .table => match ws with
      | .num n :: r => (treadTable n.toNat r).map fun (is, r') =>
          ({ nums := [n], labels := is }, 1 + n.toNat, r')
      | _ => none

/-- Reading all operands. -/
def treadArgs (ws : List Word) : List Arg → Option (Args × Nat × List Word)
  | [] => some ({}, 0, ws)
  | a :: as =>
    (tread ws a).bind fun (x, k, r) =>
    (treadArgs r as).map fun (y, k', r') =>
      ({ nums := x.nums ++ y.nums, labels := x.labels ++ y.labels,
         slots := x.slots ++ y.slots }, k + k', r')

/-- Fetching the instruction at index `q`, `ws` being the words from there on: the
actions (interp.c executes the same code for an opcode in both modes), and the index of
the next instruction. -/
def tdecode1 (q : Nat) (ws : List Word) : Option (List Raw × Nat × List Word) :=
  match ws with
  | .instr b :: r =>
    (table[b]?).bind fun e =>
    (treadArgs r e.args).map fun (x, k, r') =>
      (e.ops x.nums x.labels x.slots, q + 1 + k, r')
  | _ => none

end Mosml.Expand
