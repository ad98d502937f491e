import Verif.Emit.Opcodes
import Verif.Emit.Syntax

/-!
# Bytecode emission

Model of src/compiler/Buffcode.sml, Labels.sml, Reloc.sml, Emitcode.sml and
Emit_phr.sml:23-35.  `emitZam` and `emit` give the sequence of calls the emitter makes
to the buffer, the label table and the relocation table; `Call.run` executes one.
An error (`fatalError`, `raise Toplevel`) is `none`.
-/

namespace Mosml.Emit

/-- An elementary step of the emitter.
* `out`, `short`, `long`: Buffcode.sml:27-45;
* `label back l`: `out_label_with_orig` (Labels.sml:49-63), the origin lying `back`
  bytes before the current position (0 for `out_label`, Labels.sml:65; for the i-th
  entry of a switch table the origin was read before the table, i.e. 4i bytes earlier,
  Emitcode.sml:166-175);
* `define`: `define_label`;
* the others: Reloc.sml:21-40. -/
inductive Call where
  | out (b : Int)
  | short (s : Int)
  | long (l : Int)
  | label (back l : Nat)
  | define (l : Nat)
  | slotLit (c : SC)
  | slotGet (u : Uid)
  | slotSet (u : Uid)
  | slotPrim (name : String)

/-- `label_definition`, src/compiler/Labels.sml:7-9. -/
inductive LabelDef where
  | defined (pos : Nat)
  | undefined (pending : List (Nat × Nat))
  deriving DecidableEq

/-- Relocation entries other than literals: `reloc_info`, src/compiler/Code_dec.sml. -/
inductive Reloc where
  | getglobal (u : Uid)
  | setglobal (u : Uid)
  | primitive (name : String)

/-- The emitter's state: `out_buffer`, `out_position` (Buffcode.sml:15-16),
`label_table` (Labels.sml:12), the literal table and the relocation list (the latter in
reverse, as in Reloc.sml:16-18). -/
structure St where
  buf : List Nat
  pos : Nat
  labels : List LabelDef
  lits : List (SC × List Nat)
  relocs : List (Reloc × Nat)

/-- `rshiftuns_` on the 63-bit integers of the 64-bit runtime. -/
def shiftUns (v : Int) (k : Nat) : Int := (v % 2 ^ 63) / 2 ^ k

/-- `rshiftsig_`. -/
def shiftSig (v : Int) (k : Nat) : Int := v / 2 ^ k

/-- `andb_ v 255`, a byte. -/
def byteOf (v : Int) : Nat := (v % 256).toNat

/-- `out`, Buffcode.sml:27-33: the buffer doubles when it is full. -/
def St.out (st : St) (b : Int) : St :=
  let buf := if st.pos < st.buf.length then st.buf
             else st.buf ++ List.replicate st.buf.length 0
  { st with buf := buf.set st.pos (byteOf b), pos := st.pos + 1 }

/-- `out_short`, Buffcode.sml:35-37. -/
def St.outShort (st : St) (s : Int) : St := (st.out s).out (shiftUns s 8)

/-- `out_long`, Buffcode.sml:39-45. -/
def St.outLong (st : St) (l : Int) : St :=
  (((st.out l).out (shiftUns l 8)).out (shiftUns l 16)).out (shiftSig l 24)

/-- `extend_label_table`, Labels.sml:19-26. -/
def extendTable (tbl : List LabelDef) (needed : Nat) : List LabelDef :=
  tbl ++ List.replicate ((needed / tbl.length + 1) * tbl.length - tbl.length) (.undefined [])

/-- The table is extended when a label lies outside, Labels.sml:30-31, 53-54. -/
def ensure (tbl : List LabelDef) (l : Nat) : List LabelDef :=
  if l < tbl.length then tbl else extendTable tbl l

/-- `define_label`, Labels.sml:28-47.  The pending references are patched in the order
of the list, by moving the output position back and forth. -/
def St.define (st : St) (l : Nat) : Option St :=
  let tbl := ensure st.labels l
  match tbl[l]? with
  | some (.undefined pending) =>
      let st1 := { st with labels := tbl.set l (.defined st.pos) }
      let st2 := pending.foldl
        (fun s (p, orig) => ({ s with pos := p } : St).outLong ((st.pos : Int) - orig)) st1
      some { st2 with pos := st.pos }
  | _ => none

/-- `out_label_with_orig`, Labels.sml:49-63. -/
def St.outLabel (st : St) (orig l : Nat) : Option St :=
  let tbl := ensure st.labels l
  match tbl[l]? with
  | some (.defined d) => some (({ st with labels := tbl } : St).outLong ((d : Int) - orig))
  | some (.undefined pending) =>
      some (({ st with labels := tbl.set l (.undefined ((st.pos, orig) :: pending)) } : St).outLong 0)
  | none => none

/-- The literal table: a position is added to the entry whose key is the `same`
constant, or a new entry is made (Reloc.sml:20-27).  `same k c` is the comparison of
the hash table (Hasht.sml:117-140): equal hash codes and `k = c`. -/
def addLit (same : SC → SC → Bool) (c : SC) (p : Nat) :
    List (SC × List Nat) → List (SC × List Nat)
  | [] => [(c, [p])]
  | (k, ps) :: rest =>
      if same k c then (k, p :: ps) :: rest else (k, ps) :: addLit same c p rest

/-- One step of the emitter. -/
def Call.run (same : SC → SC → Bool) (st : St) : Call → Option St
  | .out b => some (st.out b)
  | .short s => some (st.outShort s)
  | .long l => some (st.outLong l)
  | .label back l => st.outLabel (st.pos - back) l
  | .define l => st.define l
  | .slotLit c => some (({ st with lits := addLit same c st.pos st.lits } : St).outLong 0)
  | .slotGet u =>
      some (({ st with relocs := (.getglobal u, st.pos) :: st.relocs } : St).outLong 0)
  | .slotSet u =>
      some (({ st with relocs := (.setglobal u, st.pos) :: st.relocs } : St).outLong 0)
  | .slotPrim f =>
      some (({ st with relocs := (.primitive f, st.pos) :: st.relocs } : St).outShort 0)

/-- A sequence of steps. -/
def runCalls (same : SC → SC → Bool) : List Call → St → Option St
  | [], st => some st
  | c :: cs, st => (c.run same st).bind (runCalls same cs)

/-! ## Emitcode.sml -/

/-- `out` of an opcode. -/
abbrev o (n : Nat) : Call := .out n

/-- `out_bool_test`, Emitcode.sml:38-46: the opcode for a comparison. -/
def cmpCode (base : Nat) : Cmp → Nat
  | .eq => base
  | .ne => base + 1
  | .lt => base + 2
  | .gt => base + 3
  | .le => base + 4
  | .ge => base + 5

/-- `out_int_const`, Emitcode.sml:48-65. -/
def outIntConst (i : Int) : List Call :=
  if -32768 ≤ i ∧ i ≤ 32767 then
    if 0 ≤ i ∧ i ≤ 3 then [.out (Opc.CONST0 + i)]
    else
      let ii1 := i + i + 1
      if 0 ≤ ii1 ∧ ii1 ≤ 255 then [o Opc.CONSTBYTE, .out ii1]
      else if -32768 ≤ ii1 ∧ ii1 ≤ 32767 then [o Opc.CONSTSHORT, .short ii1]
      else [o Opc.CONSTINT, .long i]
  else if -1073741824 ≤ i ∧ i ≤ 1073741823 then [o Opc.CONSTINT, .long i]
  else [o Opc.GETGLOBAL, .slotLit (.int i)]

/-- `out_push_int_const`, Emitcode.sml:70-87. -/
def outPushIntConst (i : Int) : List Call :=
  if -32768 ≤ i ∧ i ≤ 32767 then
    if 0 ≤ i ∧ i ≤ 3 then [.out (Opc.PUSHCONST0 + i)]
    else
      let ii1 := i + i + 1
      if 0 ≤ ii1 ∧ ii1 ≤ 255 then [o Opc.PUSH, o Opc.CONSTBYTE, .out ii1]
      else if -32768 ≤ ii1 ∧ ii1 ≤ 32767 then [o Opc.PUSH, o Opc.CONSTSHORT, .short ii1]
      else [o Opc.PUSHCONSTINT, .long i]
  else if -1073741824 ≤ i ∧ i ≤ 1073741823 then [o Opc.PUSHCONSTINT, .long i]
  else [o Opc.PUSH_GETGLOBAL, .slotLit (.int i)]

/-- `out_header`, Emitcode.sml:95-101 (`lshift_` and `rshiftuns_` on a size, which is
positive). -/
def outHeader (n tag : Nat) : List Call :=
  [.out tag, .out (n * 4), .out (n / 64), .out (n / 16384)]

/-- `opcode_for_primitive` and `opcode_for_float_primitive`, Prim_opc.sml:5-53. -/
def primCode : Prim → Nat
  | .update => Opc.UPDATE | .raise => Opc.RAISE | .not => Opc.BOOLNOT
  | .tagOf => Opc.TAGOF | .addint => Opc.ADDINT | .subint => Opc.SUBINT
  | .mulint => Opc.MULINT | .divint => Opc.DIVINT | .modint => Opc.MODINT
  | .andint => Opc.ANDINT | .orint => Opc.ORINT | .xorint => Opc.XORINT
  | .shiftleftint => Opc.SHIFTLEFTINT
  | .shiftrightintsigned => Opc.SHIFTRIGHTINTSIGNED
  | .shiftrightintunsigned => Opc.SHIFTRIGHTINTUNSIGNED
  | .intoffloat => Opc.INTOFFLOAT | .stringlength => Opc.STRINGLENGTH
  | .getstringchar => Opc.GETSTRINGCHAR | .setstringchar => Opc.SETSTRINGCHAR
  | .makevector => Opc.MAKEVECTOR | .vectlength => Opc.VECTLENGTH
  | .getvectitem => Opc.GETVECTITEM | .setvectitem => Opc.SETVECTITEM
  | .smlnegint => Opc.SMLNEGINT | .smlsuccint => Opc.SMLSUCCINT
  | .smlpredint => Opc.SMLPREDINT | .smladdint => Opc.SMLADDINT
  | .smlsubint => Opc.SMLSUBINT | .smlmulint => Opc.SMLMULINT
  | .smldivint => Opc.SMLDIVINT | .smlmodint => Opc.SMLMODINT
  | .makerefvector => Opc.MAKEREFVECTOR
  | .smlquotint => Opc.SMLQUOTINT | .smlremint => Opc.SMLREMINT | .swap => Opc.SWAP
  | .floatofint => Opc.FLOATOFINT | .smlnegfloat => Opc.SMLNEGFLOAT
  | .smladdfloat => Opc.SMLADDFLOAT | .smlsubfloat => Opc.SMLSUBFLOAT
  | .smlmulfloat => Opc.SMLMULFLOAT | .smldivfloat => Opc.SMLDIVFLOAT

/-- The constants, Emitcode.sml:105-110. -/
def outQuote : SC → List Call
  | .int i => outIntConst i
  | .word w => outIntConst w
  | .char c => outIntConst c
  | .block t _ [] => if t < 10 then [o (Opc.ATOM0 + t)] else [o Opc.ATOM, .out t]
  | c => [o Opc.GETGLOBAL, .slotLit c]

/-- The tests in branches, Emitcode.sml:176-206. -/
def outTest (l : Nat) : Test → List Call
  | .eq => [o Opc.BRANCHIFEQ, .label 0 l]
  | .noteq => [o Opc.BRANCHIFNEQ, .label 0 l]
  | .intNoteqImm i =>
      o Opc.PUSH :: outPushIntConst i ++ [o Opc.EQ, o Opc.POPBRANCHIFNOT, .label 0 l]
  | .int c => [o (cmpCode Opc.BRANCHIFEQ c), .label 0 l]
  | .floatNoteqImm b =>
      [o Opc.PUSH, o Opc.PUSH_GETGLOBAL, .slotLit (.real b), o Opc.EQFLOAT,
       o Opc.POPBRANCHIFNOT, .label 0 l]
  | .float c => [o (cmpCode Opc.EQFLOAT c), o Opc.BRANCHIF, .label 0 l]
  | .strNoteqImm s =>
      [o Opc.PUSH, o Opc.PUSH_GETGLOBAL, .slotLit (.str s), o Opc.EQSTRING,
       o Opc.POPBRANCHIFNOT, .label 0 l]
  | .str c => [o (cmpCode Opc.EQSTRING c), o Opc.BRANCHIF, .label 0 l]
  | .wordNoteqImm w =>
      o Opc.PUSH :: outPushIntConst w ++ [o Opc.EQUNSIGN, o Opc.POPBRANCHIFNOT, .label 0 l]
  | .word c => [o (cmpCode Opc.EQUNSIGN c), o Opc.BRANCHIF, .label 0 l]
  | .noteqtag t => [o Opc.BRANCHIFNEQTAG, .out t, .label 0 l]

/-- The tests as primitives, Emitcode.sml:218-226. -/
def outTestPrim : Test → Option (List Call)
  | .eq => some [o Opc.EQ]
  | .noteq => some [o Opc.NEQ]
  | .int c => some [o (cmpCode Opc.EQ c)]
  | .float c => some [o (cmpCode Opc.EQFLOAT c)]
  | .str c => some [o (cmpCode Opc.EQSTRING c)]
  | .word c => some [o (cmpCode Opc.EQUNSIGN c)]
  | _ => none

/-- `checkArguments` and `checkBranches`, Emitcode.sml:22-27. -/
def guard8 (n : Nat) (cs : List Call) : Option (List Call) :=
  if n > 255 then none else some cs

/-- `checkLocals` and `checkFields`, Emitcode.sml:32-36. -/
def guard16 (n : Nat) (cs : List Call) : Option (List Call) :=
  if n > 65535 then none else some cs

/-- The table of a switch: entry `i` has its origin `4 * i` bytes back. -/
def switchTable (i : Nat) : List Nat → List Call
  | [] => []
  | l :: ls => .label (4 * i) l :: switchTable (i + 1) ls

/-- `emit_zam`, Emitcode.sml:103-247.  Opcodes computed by subtraction
(`APPLY1 + n - 1`) are computed on the integers, as in the code. -/
def emitZam : Zam → Option (List Call)
  | .quote c => some (outQuote c)
  | .getGlobal u => some [o Opc.GETGLOBAL, .slotGet u]
  | .setGlobal u => some [o Opc.SETGLOBAL, .slotSet u]
  | .getfield n =>
      guard16 n (if n < 4 then [o (Opc.GETFIELD0 + n)] else [o Opc.GETFIELD, .short n])
  | .setfield n =>
      guard16 n (if n < 4 then [o (Opc.SETFIELD0 + n)] else [o Opc.SETFIELD, .short n])
  | .access n =>
      guard16 n (if n < 8 then [o (Opc.ACC0 + n)] else [o Opc.ACCESS, .short n])
  | .envacc m =>
      let n := m + 1
      guard16 n (if n < 8 then [o (Opc.ENV1 + m)] else [o Opc.ENVACC, .short n])
  | .assign n => guard16 n [o Opc.ASSIGN, .short n]
  | .apply n =>
      guard8 n (if n < 5 then [.out ((Opc.APPLY1 : Int) + n - 1)] else [o Opc.APPLY, .out n])
  | .appterm n z =>
      (guard8 n (if n < 5 then [.out ((Opc.APPTERM1 : Int) + n - 1)]
                 else [o Opc.APPTERM, .out n])).bind fun cs =>
      guard16 z (cs ++ [.short z])
  | .pop n => guard16 n [o Opc.POP, .short n]
  | .grab n => guard8 n [o Opc.GRAB, .out n]
  | .ret n =>
      guard16 n (if n < 3 then [.out ((Opc.RETURN1 : Int) + n - 1)] else [o Opc.RETURN, .short n])
  | .makeblock t n =>
      if n = 0 then none
      else if n < 5 then some [.out ((Opc.MAKEBLOCK1 : Int) + n - 1), .out t]
      else some (o Opc.MAKEBLOCK :: outHeader n t)
  | .label l => some [.define l]
  | .closure l n => some [o Opc.CLOSURE, .out n, .label 0 l]
  | .closurerec l n => some [o Opc.CLOSREC, .out ((n : Int) - 1), .label 0 l]
  | .pushtrap l => some [o Opc.PUSHTRAP, .label 0 l]
  | .pushRetaddr l => some [o Opc.PUSH_RETADDR, .label 0 l]
  | .branch l => some [o Opc.BRANCH, .label 0 l]
  | .branchif l => some [o Opc.BRANCHIF, .label 0 l]
  | .branchifnot l => some [o Opc.BRANCHIFNOT, .label 0 l]
  | .strictbranchif l => some [o Opc.BRANCHIF, .label 0 l]
  | .strictbranchifnot l => some [o Opc.BRANCHIFNOT, .label 0 l]
  | .switch ls =>
      guard8 ls.length (o Opc.SWITCH :: .out ls.length :: switchTable 0 ls)
  | .test t l => some (outTest l t)
  | .branchinterval low high l1 l2 =>
      some (outPushIntConst low ++
        (if low ≠ high then outPushIntConst high else [o Opc.PUSH]) ++
        [o Opc.BRANCHINTERVAL, .label 0 l1, .label 0 l2])
  | .prim (.dummy n) => guard16 n [o Opc.DUMMY, .short n]
  | .prim (.test t) => outTestPrim t
  | .prim (.atom t) => some (if t < 10 then [o (Opc.ATOM0 + t)] else [o Opc.ATOM, .out t])
  | .prim (.ccall f n) =>
      some ((if n ≤ 5 then [.out ((Opc.C_CALL1 : Int) + n - 1)] else [o Opc.C_CALLN, .out n])
        ++ [.slotPrim f])
  | .prim .identity => some []
  | .prim (.simple p) => some [o (primCode p)]
  | .push => some [o Opc.PUSH]
  | .raise => some [o Opc.RAISE]
  | .restart => some [o Opc.RESTART]
  | .poptrap => some [o Opc.POPTRAP]
  | .checkSignals => some [o Opc.CHECK_SIGNALS]

/-- What `emit` writes for a pushed constant, Emitcode.sml:252-261. -/
def outPushQuote : SC → List Call
  | .int i => outPushIntConst i
  | .word w => outPushIntConst w
  | .char c => outPushIntConst c
  | .block t _ [] => if t = 0 then [o Opc.PUSHATOM0] else [o Opc.PUSHATOM, .out t]
  | c => [o Opc.PUSH_GETGLOBAL, .slotLit c]

/-- `emit` chooses, from the instructions at the head, what to write and how many
instructions are covered by it (Emitcode.sml:249-325, in the order of the clauses). -/
def emitHead : List Zam → Option (List Call × List Zam)
  | [] => none
  | .push :: .quote c :: C => some (outPushQuote c, C)
  | .push :: .access n :: C =>
      (guard16 n (if n < 8 then [o (Opc.PUSHACC0 + n)] else [o Opc.PUSHACC, .short n])).map (·, C)
  | .push :: .envacc 0 :: .apply n :: C =>
      (guard8 n (if n < 5 then [.out ((Opc.PUSH_ENV1_APPLY1 : Int) + n - 1)]
                 else [o Opc.PUSHENV1, o Opc.APPLY, .out n])).map (·, C)
  | .push :: .envacc 0 :: .appterm n z :: C =>
      ((if n < 5 then some [.out ((Opc.PUSH_ENV1_APPTERM1 : Int) + n - 1)]
        else guard8 n [o Opc.PUSHENV1, o Opc.APPTERM, .out n]).bind fun cs =>
      guard16 z (cs ++ [.short z])).map (·, C)
  | .push :: .envacc m :: C =>
      let n := m + 1
      (guard16 n (if n < 8 then [o (Opc.PUSHENV1 + m)] else [o Opc.PUSHENVACC, .short n])).map (·, C)
  | .push :: .getGlobal u :: .apply n :: C =>
      (if n < 5 then some [.out ((Opc.PUSH_GETGLOBAL_APPLY1 : Int) + n - 1), .slotGet u]
       else guard8 n [o Opc.PUSH_GETGLOBAL, .slotGet u, o Opc.APPLY, .out n]).map (·, C)
  | .push :: .getGlobal u :: .appterm n z :: C =>
      (if n < 5 then
         guard16 z [.out ((Opc.PUSH_GETGLOBAL_APPTERM1 : Int) + n - 1), .short z, .slotGet u]
       else
         (guard8 n [o Opc.PUSH_GETGLOBAL, .slotGet u, o Opc.APPTERM, .out n]).bind fun cs =>
         guard16 z (cs ++ [.short z])).map (·, C)
  | .push :: .getGlobal u :: C => some ([o Opc.PUSH_GETGLOBAL, .slotGet u], C)
  | .getfield 0 :: .getfield 0 :: C => some ([o Opc.GETFIELD0_0], C)
  | .getfield 0 :: .getfield 1 :: C => some ([o Opc.GETFIELD0_1], C)
  | .getfield 1 :: .getfield 0 :: C => some ([o Opc.GETFIELD1_0], C)
  | .getfield 1 :: .getfield 1 :: C => some ([o Opc.GETFIELD1_1], C)
  | z :: C => (emitZam z).map (·, C)

/-- Every clause of `emit` consumes at least one instruction. -/
theorem emitHead_lt {zs : List Zam} {cs : List Call} {C : List Zam}
    (h : emitHead zs = some (cs, C)) : C.length < zs.length := by
  rw [emitHead.eq_def] at h
  split at h
  case h_1 => cases h
  all_goals
    first
    | (cases h; simp only [List.length_cons]; omega)
    | (rw [Option.map_eq_some_iff] at h
       obtain ⟨_, _, h⟩ := h
       cases h; simp only [List.length_cons]; omega)

/-- `emit`, Emitcode.sml:249-325. -/
def emit (zs : List Zam) : Option (List Call) :=
  match zs with
  | [] => some []
  | z :: zs' =>
    match _h : emitHead (z :: zs') with
    | none => none
    | some (cs, C) => (emit C).map (cs ++ ·)
  termination_by zs.length
  decreasing_by exact emitHead_lt _h

/-- A phrase is initialisation code and function code, Instruct.sml:43-48; emission
puts a jump between them (Emit_phr.sml:28-33). -/
def phraseCode (inits funcs : List Zam) : List Zam :=
  if funcs.isEmpty then inits else inits ++ [.branch 0] ++ funcs ++ [.label 0]

/-- `emit_phrase`, Emit_phr.sml:23-35: `emit` is called on the four pieces in turn.
The buffer keeps the bytes of the previous phrase. -/
def emitPhrase (same : SC → SC → Bool) (buf : List Nat) (inits funcs : List Zam) :
    Option St :=
  let st0 : St := { buf := buf, pos := 0, labels := List.replicate 16 (.undefined []),
                    lits := [], relocs := [] }
  if funcs.isEmpty then (emit inits).bind (runCalls same · st0)
  else do
    let c1 ← emit inits
    let c2 ← emit [.branch 0]
    let c3 ← emit funcs
    let c4 ← emit [.label 0]
    runCalls same (c1 ++ c2 ++ c3 ++ c4) st0

/-- `loadZamPhrase`, Load_phr.sml:36-50: a phrase entered interactively; the code is not
copied but patched in the output buffer. -/
def emitLoad (same : SC → SC → Bool) (buf : List Nat) (inits funcs : List Zam) : Option St := do
  let c1 ← emit inits
  let c2 ← emit funcs
  runCalls same (c1 ++ [o Opc.STOP] ++ c2)
    { buf := buf, pos := 0, labels := List.replicate 16 (.undefined []), lits := [], relocs := [] }

end Mosml.Emit
