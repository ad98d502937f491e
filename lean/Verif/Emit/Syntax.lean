import Verif.Util

/-!
# Instructions of the abstract machine, and what the bytecode means

* `Zam` is the instruction type the code generator hands to the emitter
  (src/compiler/Instruct.sml:7-41).
* `Op` is the vocabulary in which the interpreter's actions are described
  (src/runtime/interp.c): one `Op` per elementary action.  A fused opcode such as
  PUSH_ENV1_APPLY2 (interp.c:363-374) is several `Op`s.
-/

namespace Mosml.Emit

/-- Structured constants: `StructConstant` and `SCon`, src/compiler/Const.sml:24-37.
`QUOTEsc` (a reference to an already built object) is not modelled.  Reals are kept
as the 64 bits of their representation, words as the integer with the same
representation (Emitcode.sml:66-68). -/
inductive SC where
  | int (i : Int)
  | word (w : Int)
  | char (c : Nat)
  | real (bits : Nat)
  | str (s : List Nat)
  | block (tag span : Nat) (args : List SC)

/-- Unique names of global variables: `QualifiedIdent * int`, src/compiler/Const.sml:7-11
(the characters of the qualified identifier, and a stamp). -/
abbrev Uid := List Nat × Nat

/-- The six comparisons, in the order of the opcodes (src/runtime/instruct.h:17-22). -/
inductive Cmp where
  | eq | ne | lt | gt | le | ge
  deriving DecidableEq, Repr

/-- What is compared (interp.c:1245-1276, 1349-1375). -/
inductive CmpKind where
  | int | float | str | word
  deriving DecidableEq, Repr

/-- Primitives without operand: src/compiler/Prim.sml:10-48 restricted to those of
src/compiler/Prim_opc.sml:5-53. -/
inductive Prim where
  | update | raise | not | tagOf
  | addint | subint | mulint | divint | modint | andint | orint | xorint
  | shiftleftint | shiftrightintsigned | shiftrightintunsigned | intoffloat
  | stringlength | getstringchar | setstringchar
  | makevector | vectlength | getvectitem | setvectitem
  | smlnegint | smlsuccint | smlpredint | smladdint | smlsubint | smlmulint
  | smldivint | smlmodint | makerefvector | smlquotint | smlremint | swap
  | floatofint | smlnegfloat | smladdfloat | smlsubfloat | smlmulfloat | smldivfloat
  deriving DecidableEq, Repr

/-- `bool_test`, src/compiler/Prim.sml:54-70. -/
inductive Test where
  | eq | noteq
  | int (c : Cmp) | intNoteqImm (i : Int)
  | float (c : Cmp) | floatNoteqImm (bits : Nat)
  | str (c : Cmp) | strNoteqImm (s : List Nat)
  | word (c : Cmp) | wordNoteqImm (w : Int)
  | noteqtag (tag : Nat)

/-- The primitives the emitter distinguishes, src/compiler/Emitcode.sml:214-241. -/
inductive PrimI where
  | dummy (n : Nat)
  | test (t : Test)
  | atom (t : Nat)
  | ccall (name : String) (arity : Nat)
  | identity
  | simple (p : Prim)

/-- `ZamInstruction`, src/compiler/Instruct.sml:7-41.  Labels are natural numbers:
`Nolabel` = ~1 makes the emitter stop (Labels.sml:51, Emitcode.sml:155). -/
inductive Zam where
  | quote (c : SC)
  | getGlobal (u : Uid)
  | setGlobal (u : Uid)
  | access (n : Nat)
  | envacc (n : Nat)
  | assign (n : Nat)
  | getfield (n : Nat)
  | setfield (n : Nat)
  | push
  | pop (n : Nat)
  | restart
  | grab (n : Nat)
  | apply (n : Nat)
  | appterm (n z : Nat)
  | pushRetaddr (l : Nat)
  | checkSignals
  | ret (n : Nat)
  | closure (l n : Nat)
  | closurerec (l n : Nat)
  | raise
  | makeblock (tag n : Nat)
  | prim (p : PrimI)
  | pushtrap (l : Nat)
  | poptrap
  | label (l : Nat)
  | branch (l : Nat)
  | branchif (l : Nat)
  | branchifnot (l : Nat)
  | strictbranchif (l : Nat)
  | strictbranchifnot (l : Nat)
  | test (t : Test) (l : Nat)
  | branchinterval (low high : Int) (l1 l2 : Nat)
  | switch (ls : List Nat)

/-- What a slot operand refers to: a literal, a global variable read or written, or a
C primitive (`reloc_info`, src/compiler/Code_dec.sml). -/
inductive Glob where
  | lit (c : SC)
  | get (u : Uid)
  | set (u : Uid)
  | cprim (name : String)

/-- The elementary actions of the interpreter. -/
inductive Kind where
  /-- `*--sp = accu` -/
  | push
  /-- `accu = sp[n]` -/
  | acc
  /-- `accu = Field(env, n)` -/
  | envfield
  /-- `sp[n] = accu; accu = Val_unit` -/
  | assign
  /-- `sp += n` -/
  | pop
  /-- `accu = raw`, the tagged machine word -/
  | const
  /-- `accu = Atom(t)` -/
  | atom
  | getglobal | setglobal
  /-- `accu = Field(accu, n)` -/
  | getfield
  | setfield
  /-- allocate a block with tag and size given -/
  | makeblock
  /-- push a return frame below n arguments and enter the closure in accu -/
  | call
  /-- enter the closure in accu with n arguments; the return frame is there already -/
  | enter
  /-- tail call with n arguments, discarding a frame of z words -/
  | appterm
  | grab | restart
  /-- discard n words and return -/
  | ret
  | closure | closrec | pushRetaddr | pushtrap | poptrap
  | branch | branchif | branchifnot
  /-- as branchifnot, but accu is restored from the stack first -/
  | popbranchifnot
  | branchifneqtag
  | branchcmp (c : Cmp)
  | branchinterval
  | switch
  | prim (p : Prim)
  | cmp (k : CmpKind) (c : Cmp)
  | ccall
  | dummy
  | checkSignals
  | stop
  deriving DecidableEq, Repr

/-- An action with its numeric operands, its branch targets and the slots it refers
to.  In decoded code targets are byte positions and slots are numbers; in the
description of a `Zam` instruction they are labels and `Glob`s. -/
structure Op (L G : Type) where
  kind : Kind
  nums : List Int := []
  labels : List L := []
  globs : List G := []

/-- Two actions agree: same kind and numbers, targets and slots correspond. -/
structure Op.Agrees {L L' G G' : Type} (RL : L → L' → Prop) (RG : G → G' → Prop)
    (a : Op L G) (b : Op L' G') : Prop where
  kind : a.kind = b.kind
  nums : a.nums = b.nums
  labels : List.Forall₂ RL a.labels b.labels
  globs : List.Forall₂ RG a.globs b.globs

/-! ## The intended meaning of an instruction -/

/-- Integers that an instruction can hold: 31 bits (src/compiler/Config.mlp:13-14). -/
def fits31 (i : Int) : Prop := -1073741824 ≤ i ∧ i ≤ 1073741823

instance (i : Int) : Decidable (fits31 i) := by unfold fits31; infer_instance

/-- Loading an integer: immediate if it has 31 bits, otherwise from its literal slot. -/
def loadInt (i : Int) : Op Nat Glob :=
  if fits31 i then { kind := .const, nums := [2 * i + 1] }
  else { kind := .getglobal, globs := [.lit (.int i)] }

/-- Loading a structured constant. -/
def loadConst : SC → Op Nat Glob
  | .int i => loadInt i
  | .word w => loadInt w
  | .char c => loadInt c
  | .block t _ [] => { kind := .atom, nums := [(t : Int)] }
  | c => { kind := .getglobal, globs := [.lit c] }

/-- The actions prescribed by a test that leaves a boolean in accu. -/
def Test.kind? : Test → Option Kind
  | .eq => some (.cmp .int .eq)
  | .noteq => some (.cmp .int .ne)
  | .int c => some (.cmp .int c)
  | .float c => some (.cmp .float c)
  | .str c => some (.cmp .str c)
  | .word c => some (.cmp .word c)
  | _ => none

/-- Comparing accu with a constant and jumping if they differ, accu preserved. -/
def neqImm (k : CmpKind) (load : Op Nat Glob) (l : Nat) : List (Op Nat Glob) :=
  [{ kind := .push }, { kind := .push }, load, { kind := .cmp k .eq },
   { kind := .popbranchifnot, labels := [l] }]

/-- The actions prescribed by a test and branch (the branch is taken if the test holds). -/
def Test.branch (l : Nat) : Test → List (Op Nat Glob)
  | .eq => [{ kind := .branchcmp .eq, labels := [l] }]
  | .noteq => [{ kind := .branchcmp .ne, labels := [l] }]
  | .int c => [{ kind := .branchcmp c, labels := [l] }]
  | .float c => [{ kind := .cmp .float c }, { kind := .branchif, labels := [l] }]
  | .str c => [{ kind := .cmp .str c }, { kind := .branchif, labels := [l] }]
  | .word c => [{ kind := .cmp .word c }, { kind := .branchif, labels := [l] }]
  | .intNoteqImm i => neqImm .int (loadInt i) l
  | .wordNoteqImm w => neqImm .word (loadInt w) l
  | .floatNoteqImm b => neqImm .float { kind := .getglobal, globs := [.lit (.real b)] } l
  | .strNoteqImm s => neqImm .str { kind := .getglobal, globs := [.lit (.str s)] } l
  | .noteqtag t => [{ kind := .branchifneqtag, nums := [(t : Int)], labels := [l] }]

/-- The actions prescribed by an instruction. -/
def Zam.ops : Zam → List (Op Nat Glob)
  | .quote c => [loadConst c]
  | .getGlobal u => [{ kind := .getglobal, globs := [.get u] }]
  | .setGlobal u => [{ kind := .setglobal, globs := [.set u] }]
  | .access n => [{ kind := .acc, nums := [(n : Int)] }]
  | .envacc n => [{ kind := .envfield, nums := [(n : Int) + 1] }]
  | .assign n => [{ kind := .assign, nums := [(n : Int)] }]
  | .getfield n => [{ kind := .getfield, nums := [(n : Int)] }]
  | .setfield n => [{ kind := .setfield, nums := [(n : Int)] }]
  | .push => [{ kind := .push }]
  | .pop n => [{ kind := .pop, nums := [(n : Int)] }]
  | .restart => [{ kind := .restart }]
  | .grab n => [{ kind := .grab, nums := [(n : Int)] }]
  | .apply n =>
      if n < 5 then [{ kind := .call, nums := [(n : Int)] }]
      else [{ kind := .enter, nums := [(n : Int)] }]
  | .appterm n z => [{ kind := .appterm, nums := [(n : Int), (z : Int)] }]
  | .pushRetaddr l => [{ kind := .pushRetaddr, labels := [l] }]
  | .checkSignals => [{ kind := .checkSignals }]
  | .ret n => [{ kind := .ret, nums := [(n : Int)] }]
  | .closure l n => [{ kind := .closure, nums := [(n : Int)], labels := [l] }]
  | .closurerec l n => [{ kind := .closrec, nums := [(n : Int) - 1], labels := [l] }]
  | .raise => [{ kind := .prim .raise }]
  | .makeblock t n => [{ kind := .makeblock, nums := [(t : Int), (n : Int)] }]
  | .prim (.dummy n) => [{ kind := .dummy, nums := [(n : Int)] }]
  | .prim (.test t) =>
      match t.kind? with
      | some k => [{ kind := k }]
      | none => []
  | .prim (.atom t) => [{ kind := .atom, nums := [(t : Int)] }]
  | .prim (.ccall f n) => [{ kind := .ccall, nums := [(n : Int)], globs := [.cprim f] }]
  | .prim .identity => []
  | .prim (.simple p) => [{ kind := .prim p }]
  | .pushtrap l => [{ kind := .pushtrap, labels := [l] }]
  | .poptrap => [{ kind := .poptrap }]
  | .label _ => []
  | .branch l => [{ kind := .branch, labels := [l] }]
  | .branchif l => [{ kind := .branchif, labels := [l] }]
  | .branchifnot l => [{ kind := .branchifnot, labels := [l] }]
  | .strictbranchif l => [{ kind := .branchif, labels := [l] }]
  | .strictbranchifnot l => [{ kind := .branchifnot, labels := [l] }]
  | .test t l => t.branch l
  | .branchinterval low high l1 l2 =>
      [{ kind := .push }, loadInt low, { kind := .push }] ++
      -- accu still holds the lower bound: nothing to load if the bounds are equal
      (if low = high then [] else [loadInt high]) ++
      [{ kind := .branchinterval, labels := [l1, l2] }]
  | .switch ls => [{ kind := .switch, nums := [(ls.length : Int)], labels := ls }]

end Mosml.Emit
