import Verif.Util

/-!
# The code generator and the abstract machine

Sources:
* `src/compiler/Lambda.sml` (the intermediate language),
* `src/compiler/Back.sml` (`UNdeBruijn`, `compileExp`, `compileRest`,
  `compileLambda`),
* `src/compiler/Instruct.sml` (the instructions),
* `src/runtime/interp.c` (what the instructions do).

What is modelled of the intermediate language: variables, constants,
application, functions, `let`, `letrec` of functions, conditionals,
sequences, `andalso`, `orelse`, `raise`, `handle`, static failure and its
handlers, and the primitives of `Prim` below.

What is not modelled here: references and assignment (and so the rewriting of
local references into stack cells, `Back.sml:295-349, 366-384`), `while`,
the switches `Lcase` and `Lswitch`, shared nodes `Lshared`, `Lunspec`, global
variables, and the encoding of instructions as bytes (`Emitcode.sml`).
-/

namespace Mosml.Zam

/-- Structured constants, `Const.sml`: an atom or a block of constants.  Of the
atoms only integers and strings are kept. -/
inductive Const
  | int (z : Int)
  | str (s : String)
  | block (tag : Nat) (fields : List Const)

/-- The integer operations that check for overflow: `Psmladdint`,
`Psmlsubint`, `Psmlmulint` of `Prim.sml`. -/
inductive Arith
  | add | sub | mul
  deriving DecidableEq

/-- `PTeq` ... `PTge` of `Prim.sml`, used in `Pint_test`. -/
inductive Cmp
  | eq | ne | lt | gt | le | ge
  deriving DecidableEq

/-- The primitives of `Prim.sml` that the model knows. -/
inductive Prim
  /-- `Pmakeblock (CONtag (tag, span))` -/
  | makeblock (tag span : Nat)
  /-- `Pfield` -/
  | field (i : Nat)
  /-- `Praise` -/
  | raise
  /-- `Pnot` -/
  | not
  /-- `Ptest (Pint_test t)` -/
  | test (t : Cmp)
  | arith (op : Arith)
  /-- `Psmlsuccint`, made by the code generator only. -/
  | succ
  /-- `Psmlpredint`, made by the code generator only. -/
  | pred
  /-- `Pidentity` -/
  | identity
  /-- `Pclosure (lbl, size)`, made by `UNdeBruijn` only. -/
  | closure (lbl n : Nat)
  /-- `Pdummy`, made by the code generator only. -/
  | dummy (n : Nat)
  /-- `Pupdate`, made by the code generator only. -/
  | update
  deriving DecidableEq

/-- `datatype Lambda` (`Lambda.sml:8-28`). -/
inductive Lam
  | var (n : Int)
  | const (c : Const)
  | apply (f : Lam) (args : List Lam)
  | fn (body : Lam)
  | lett (args : List Lam) (body : Lam)
  | letrec (args : List Lam) (body : Lam)
  | prim (p : Prim) (args : List Lam)
  | staticfail
  | statichandle (body handler : Lam)
  | handle (body handler : Lam)
  | cond (c a b : Lam)
  | seq (a b : Lam)
  | andalso (a b : Lam)
  | orelse (a b : Lam)

/-- `datatype ZamInstruction` (`Instruct.sml:7-41`).  `fatal` stands for the
places where the code generator calls `fatalError`: no code is made then.
`C31_no_fatal` says it never shows up. -/
inductive Instr
  | quote (c : Const)
  | access (n : Nat)
  | envacc (n : Nat)
  | getfield (n : Nat)
  | push
  | pop (n : Nat)
  | restart
  | grab (n : Nat)
  | apply (n : Nat)
  | appterm (n z : Nat)
  | pushRetaddr (l : Nat)
  | ret (n : Nat)
  | closure (l n : Nat)
  | closurerec (l n : Nat)
  | raise
  | makeblock (tag n : Nat)
  | prim (p : Prim)
  | pushtrap (l : Nat)
  | poptrap
  | label (l : Nat)
  | branch (l : Nat)
  | branchif (l : Nat)
  | branchifnot (l : Nat)
  | strictbranchif (l : Nat)
  | strictbranchifnot (l : Nat)
  | test (t : Cmp) (l : Nat)
  | fatal

abbrev Code := List Instr

/-! ## Lifting functions (`UNdeBruijn`) -/

/-- An entry of `stillToCompile` (`Back.sml:262-264`): label, number of
arguments, free variables and body.  The largest depth `md` is left out: it
only sizes an array. -/
structure Func where
  lbl : Nat
  nargs : Nat
  fv : List Int
  body : Lam

/-- What `UNdeBruijn` changes as it goes: the free variables of the function
at hand (`fv`, l.281), the label counter (l.15) and `stillToCompile`. -/
structure LSt where
  fv : List Int
  lbl : Nat
  funs : List Func

/-- `ins` (`Back.sml:284-288`): insertion into a list in descending order. -/
def ins (x : Int) : List Int → List Int
  | [] => [x]
  | y :: r => if x > y then x :: y :: r else if x = y then y :: r else y :: ins x r

/-- `extClo` (`Back.sml:290-292`). -/
def extClo (id : Int) (fv : List Int) : List Int :=
  if id ≥ 0 then fv else ins id fv

/-- The number of `Lfn` that `liftfn` (`Back.sml:429-432`) goes through. -/
def nest : Lam → Nat
  | .fn b => nest b + 1
  | _ => 0

/-- The body under those `Lfn`. -/
def strip : Lam → Lam
  | .fn b => strip b
  | e => e

mutual

/-- `lftexp` (`Back.sml:351-413`).  With `inFn` set it is `liftfn`
(`Back.sml:429-432`), which first counts the `Lfn` it stands before.  A
function met by `lftexp` is lifted by a new run of `UNdeBruijn`
(`Back.sml:364-366`): `liftfn 1` with no free variables, then `liftbd`
(`Back.sml:415-427`), and the variables of the closure made there are lifted
once more (l.366): `Lvar (-1 - id)` at depth `depth` is `depth + id`. -/
def lft (depth : Nat) (inFn : Bool) : Lam → LSt → Lam × LSt
  | .var n, s =>
    let id : Int := (depth : Int) - n - 1
    (.var id, { s with fv := extClo id s.fv })
  | .const c, s => (.const c, s)
  | .apply f args, s =>
    let r := lft depth false f s
    let q := lftList depth args r.2
    (.apply r.1 q.1, q.2)
  | .fn b, s =>
    if inFn then lft (depth + 1) true b s
    else
      let r := lft 1 true b { fv := [], lbl := s.lbl, funs := s.funs }
      let lbl := r.2.lbl + 1
      let fre := r.2.fv.map (fun id : Int => (depth : Int) - (-1 - id) - 1)
      (.prim (.closure lbl r.2.fv.length) (fre.map .var),
       { fv := fre.foldl (fun fv id => extClo id fv) s.fv
         lbl := lbl
         funs := { lbl := lbl, nargs := nest b + 1, fv := r.2.fv, body := r.1 } :: r.2.funs })
  | .lett args body, s =>
    match args, body with
    | [arg], .prim p [.var 0] =>
      let r := lft depth false arg s
      (.prim p [r.1], r.2)
    | args, body =>
      let q := lftArgs depth args s
      let r := lft (depth + args.length) false body q.2
      (.lett q.1 r.1, r.2)
  | .letrec args body, s =>
    let q := lftList (depth + args.length) args s
    let r := lft (depth + args.length) false body q.2
    (.letrec q.1 r.1, r.2)
  | .prim p args, s =>
    let q := lftList depth args s
    (.prim p q.1, q.2)
  | .staticfail, s => (.staticfail, s)
  | .statichandle a b, s =>
    let r := lft depth false a s
    let q := lft depth false b r.2
    (.statichandle r.1 q.1, q.2)
  | .handle a b, s =>
    let r := lft depth false a s
    let q := lft (depth + 1) false b r.2
    (.handle r.1 q.1, q.2)
  | .cond c a b, s =>
    let r := lft depth false c s
    let q := lft depth false a r.2
    let t := lft depth false b q.2
    (.cond r.1 q.1 t.1, t.2)
  | .seq a b, s =>
    let r := lft depth false a s
    let q := lft depth false b r.2
    (.seq r.1 q.1, q.2)
  | .andalso a b, s =>
    let r := lft depth false a s
    let q := lft depth false b r.2
    (.andalso r.1 q.1, q.2)
  | .orelse a b, s =>
    let r := lft depth false a s
    let q := lft depth false b r.2
    (.orelse r.1 q.1, q.2)

/-- `List.map (lftexp depth)` -/
def lftList (depth : Nat) : List Lam → LSt → List Lam × LSt
  | [], s => ([], s)
  | e :: es, s =>
    let r := lft depth false e s
    let q := lftList depth es r.2
    (r.1 :: q.1, q.2)

/-- `lift_args` (`Back.sml:385-388`): each argument of a `let` one deeper than
the one before. -/
def lftArgs (depth : Nat) : List Lam → LSt → List Lam × LSt
  | [], s => ([], s)
  | e :: es, s =>
    let r := lft depth false e s
    let q := lftArgs (depth + 1) es r.2
    (r.1 :: q.1, q.2)

end

/-! ## Helpers of the code generator -/

/-- `labelCode` (`Back.sml:47-56`), with the label counter before and after. -/
def labelCode (C : Code) (k : Nat) : Nat × Code × Nat :=
  match C with
  | .branch l :: _ => (l, C, k)
  | .label l :: _ => (l, C, k)
  | _ => (k + 1, .label (k + 1) :: C, k + 1)

/-- `makeBranch` (`Back.sml:60-70`). -/
def makeBranch (C : Code) (k : Nat) : Instr × Code × Nat :=
  match C with
  | .ret n :: _ => (.ret n, C, k)
  | .branch l :: _ => (.branch l, C, k)
  | .raise :: _ => (.raise, C, k)
  | .label _ :: .ret n :: _ => (.ret n, C, k)
  | .label l :: _ => (.branch l, C, k)
  | _ => (.branch (k + 1), .label (k + 1) :: C, k + 1)

/-- `discardDeadCode` (`Back.sml:74-81`). -/
def discard : Code → Code
  | [] => []
  | .label l :: C => .label l :: C
  | .restart :: C => .restart :: C
  | _ :: C => discard C

/-- `isReturn` (`Back.sml:9-12`). -/
def isReturn : Code → Bool
  | .ret _ :: _ => true
  | .label _ :: .ret _ :: _ => true
  | _ => false

/-- `addPop` (`Back.sml:131-141`). -/
def addPop (n : Nat) : Code → Code
  | .pop m :: C => if n = 0 then .pop m :: C else addPop (n + m) C
  | .ret m :: C => if n = 0 then .ret m :: C else .ret (n + m) :: C
  | .label l :: .ret m :: C =>
    if n = 0 then .label l :: .ret m :: C else .ret (n + m) :: .label l :: .ret m :: C
  | .raise :: C => .raise :: C
  | C => if n = 0 then C else .pop n :: C

/-- The environment of `findEnv` (`Back.sml:83-108`): free variables in a list,
the stack positions of the others in an array.  The array is updated in place
in the code; only entries from the current depth on are ever written, and an
entry is read only below the current depth, so that a function does as well. -/
structure CEnv where
  fv : List Int
  va : Nat → Option Nat

/-- `findEnv`, the part for free variables. -/
def findFv (n : Int) (i : Nat) : List Int → Instr
  | [] => .fatal
  | x :: r => if x = n then .envacc i else findFv n (i + 1) r

/-- `findEnv` (`Back.sml:97-108`). -/
def findEnv (env : CEnv) (sz : Nat) (n : Int) : Instr :=
  if n < 0 then findFv n 0 env.fv
  else
    match env.va n.toNat with
    | none => .fatal
    | some i => .access (sz - i)

/-- `bindEnv` (`Back.sml:120-127`). -/
def bind (env : CEnv) (n z : Nat) : CEnv :=
  { env with va := fun m => if m = n then some z else env.va m }

/-- The bindings that `complet` (`Back.sml:497-505`) makes on its way to the
body. -/
def bindMany (env : CEnv) (dp sz : Nat) : Nat → CEnv
  | 0 => env
  | n + 1 => bindMany (bind env dp (sz + 1)) (dp + 1) (sz + 1) n

/-- `invertPrimTest` (`Back.sml:233-243`). -/
def invert : Cmp → Cmp
  | .eq => .ne
  | .ne => .eq
  | .lt => .ge
  | .le => .gt
  | .gt => .le
  | .ge => .lt

def isSf : Lam → Bool
  | .staticfail => true
  | _ => false

/-- Where `Lstaticfail` goes: a label and a stack size.  `none` is
`(Nolabel, 0)`. -/
abbrev Sf := Option (Nat × Nat)

/-- Is `e` `Lstaticfail`, and does it fail to the same stack size?
(`Back.sml:722, 725`) -/
def sfHere (e : Lam) (sf : Sf) (sz : Nat) : Option Nat :=
  if isSf e then
    match sf with
    | some (l, tsz) => if sz = tsz then some l else none
    | none => none
  else none

/-- A constant is not loaded when the code that follows overwrites the
accumulator (`Back.sml:470-476`). -/
def quoteOr (c : Const) (C : Code) : Code :=
  match C with
  | .quote _ :: _ => C
  | .access _ :: _ => C
  | .envacc _ :: _ => C
  | _ => .quote c :: C

mutual

/-- `compexp` (`Back.sml:464-681`).  The last argument and the second result
are the label counter.  In SML the continuation is made before the call, so
the counter goes through the continuation first. -/
def compexp (env : CEnv) (sf : Sf) (sz dp : Nat) : Lam → Code → Nat → Code × Nat
  | .var n, C, k => (findEnv env sz n :: C, k)
  | .const c, C, k => (quoteOr c C, k)
  | .apply f args, C, k =>
    let na := args.length
    if isReturn C then
      let r := compexp env sf (sz + na) dp f (.appterm na (sz + na) :: discard C) k
      compRL env sf (sz + na - 1) dp args (.push :: r.1) r.2
    else if na < 5 then
      let r := compexp env sf (sz + na) dp f (.apply na :: C) k
      compRL env sf (sz + na - 1) dp args (.push :: r.1) r.2
    else
      let lc := labelCode C k
      let r := compexp env sf (sz + 3 + na) dp f (.apply na :: lc.2.1) lc.2.2
      let q := compRL env sf (sz + 3 + na - 1) dp args (.push :: r.1) r.2
      (.pushRetaddr lc.1 :: q.1, q.2)
  | .fn _, C, k => (.fatal :: C, k)
  | .lett args body, C, k =>
    let na := args.length
    let r := compexp (bindMany env dp sz na) sf (sz + na) (dp + na) body (addPop na C) k
    compLets env sf sz dp args r.1 r.2
  | .letrec args body, C, k =>
    let na := args.length
    let env' := bindMany env dp sz na
    let r := compexp env' sf (sz + na) (dp + na) body (addPop na C) k
    if args.length = 1 then compOne env' sf sz dp args r.1 r.2
    else
      let q := compRecs env' sf (sz + na) (dp + na) na args r.1 r.2
      (dummies args q.1, q.2)
  | .prim p args, C, k =>
    match p, args with
    | .arith .add, [e, .const (.int 1)] => compexp env sf sz dp e (.prim .succ :: C) k
    | .arith .sub, [e, .const (.int 1)] => compexp env sf sz dp e (.prim .pred :: C) k
    | .field i, es => compLR env sf sz dp es (.getfield i :: C) k
    | .makeblock tag _, es => compLR env sf sz dp es (.makeblock tag es.length :: C) k
    | .not, [e] =>
      (match C with
       | .branchif l :: C' => compexp env sf sz dp e (.branchifnot l :: C') k
       | .branchifnot l :: C' => compexp env sf sz dp e (.branchif l :: C') k
       | C => compexp env sf sz dp e (.prim .not :: C) k)
    | .test t, es =>
      (match C with
       | .branchif l :: C' => compLR env sf sz dp es (.test t l :: C') k
       | .branchifnot l :: C' => compLR env sf sz dp es (.test (invert t) l :: C') k
       | C => compLR env sf sz dp es (.prim (.test t) :: C) k)
    | .raise, es => compLR env sf sz dp es (.raise :: discard C) k
    | .closure lbl csz, es => compRL env sf (sz + es.length - 1) dp es (.closure lbl csz :: C) k
    | .identity, es => compLR env sf sz dp es C k
    | p, es => compLR env sf sz dp es (.prim p :: C) k
  | .staticfail, C, k =>
    (match sf with
     | some (l, tsz) => (addPop (sz - tsz) (.branch l :: discard C), k)
     | none => (.fatal :: C, k))
  | .statichandle body handler, C, k =>
    if isSf handler then compexp env sf sz dp body C k
    else
      let mb := makeBranch C k
      let r := compexp env sf sz dp handler mb.2.1 mb.2.2
      let lc := labelCode r.1 r.2
      compexp env (some (lc.1, sz)) sz dp body (mb.1 :: discard lc.2.1) lc.2.2
  | .handle body handler, C, k =>
    let mb := makeBranch C k
    let l2 := mb.2.2 + 1
    let r := compexp (bind env dp (sz + 1)) sf (sz + 1) (dp + 1) handler (addPop 1 mb.2.1) l2
    let q := compexp env sf (sz + 4) dp body
      (.poptrap :: mb.1 :: .label l2 :: .push :: r.1) r.2
    (.pushtrap l2 :: q.1, q.2)
  | .cond c a b, C, k =>
    (match sfHere a sf sz with
     | some l =>
       let r := compexp env sf sz dp b C k
       compexp env sf sz dp c (.branchif l :: r.1) r.2
     | none =>
       match sfHere b sf sz with
       | some l =>
         let r := compexp env sf sz dp a C k
         compexp env sf sz dp c (.branchifnot l :: r.1) r.2
       | none =>
         let mb := makeBranch C k
         let r := compexp env sf sz dp b mb.2.1 mb.2.2
         let lc := labelCode r.1 r.2
         let q := compexp env sf sz dp a (mb.1 :: discard lc.2.1) lc.2.2
         compexp env sf sz dp c (.branchifnot lc.1 :: q.1) q.2)
  | .seq a b, C, k =>
    let r := compexp env sf sz dp b C k
    compexp env sf sz dp a r.1 r.2
  | .andalso a b, C, k =>
    (match C with
     | .branch l :: _ =>
       let r := compexp env sf sz dp b C k
       compexp env sf sz dp a (.strictbranchifnot l :: r.1) r.2
     | .branchifnot l :: _ =>
       let r := compexp env sf sz dp b C k
       compexp env sf sz dp a (.branchifnot l :: r.1) r.2
     | .branchif l :: C' =>
       let lc := labelCode C' k
       let r := compexp env sf sz dp b (.branchif l :: lc.2.1) lc.2.2
       compexp env sf sz dp a (.branchifnot lc.1 :: r.1) r.2
     | .label l :: _ =>
       let r := compexp env sf sz dp b C k
       compexp env sf sz dp a (.strictbranchifnot l :: r.1) r.2
     | C =>
       let r := compexp env sf sz dp b (.label (k + 1) :: C) (k + 1)
       compexp env sf sz dp a (.strictbranchifnot (k + 1) :: r.1) r.2)
  | .orelse a b, C, k =>
    (match C with
     | .branch l :: _ =>
       let r := compexp env sf sz dp b C k
       compexp env sf sz dp a (.strictbranchif l :: r.1) r.2
     | .branchif l :: _ =>
       let r := compexp env sf sz dp b C k
       compexp env sf sz dp a (.branchif l :: r.1) r.2
     | .branchifnot l :: C' =>
       let lc := labelCode C' k
       let r := compexp env sf sz dp b (.branchifnot l :: lc.2.1) lc.2.2
       compexp env sf sz dp a (.branchif lc.1 :: r.1) r.2
     | .label l :: _ =>
       let r := compexp env sf sz dp b C k
       compexp env sf sz dp a (.strictbranchif l :: r.1) r.2
     | C =>
       let r := compexp env sf sz dp b (.label (k + 1) :: C) (k + 1)
       compexp env sf sz dp a (.strictbranchif (k + 1) :: r.1) r.2)

/-- `compExpList'` (`Back.sml:684-687`): arguments from right to left.  `sz` is
the stack size at the first argument, the last one to be evaluated. -/
def compRL (env : CEnv) (sf : Sf) (sz dp : Nat) : List Lam → Code → Nat → Code × Nat
  | [], C, k => (C, k)
  | [e], C, k => compexp env sf sz dp e C k
  | e :: es, C, k =>
    let r := compexp env sf sz dp e C k
    compRL env sf (sz - 1) dp es (.push :: r.1) r.2

/-- `compExpListLR'` (`Back.sml:693-696`): arguments from left to right. -/
def compLR (env : CEnv) (sf : Sf) (sz dp : Nat) : List Lam → Code → Nat → Code × Nat
  | [], C, k => (C, k)
  | [e], C, k => compexp env sf sz dp e C k
  | e :: es, C, k =>
    let r := compLR env sf (sz + 1) dp es C k
    compexp env sf sz dp e (.push :: r.1) r.2

/-- `complet` (`Back.sml:497-505`), given the code of the body. -/
def compLets (env : CEnv) (sf : Sf) (sz dp : Nat) : List Lam → Code → Nat → Code × Nat
  | [], C, k => (C, k)
  | e :: es, C, k =>
    let r := compLets (bind env dp (sz + 1)) sf (sz + 1) (dp + 1) es C k
    compexp env sf sz dp e (.push :: r.1) r.2

/-- A `letrec` of one function (`Back.sml:506-519`), given the code of the
body. -/
def compOne (env : CEnv) (sf : Sf) (sz dp : Nat) : List Lam → Code → Nat → Code × Nat
  | [.prim (.closure lbl _) []], C, k => (.closure lbl 0 :: .push :: C, k)
  | [.prim (.closure lbl csz) (.var n :: rest)], C, k =>
    if n = dp then
      compRL env sf (sz + rest.length - 1) dp rest (.closurerec lbl csz :: .push :: C) k
    else
      compRL env sf (sz + (rest.length + 1) - 1) dp (.var n :: rest)
        (.closure lbl csz :: .push :: C) k
  | _, C, k => (.fatal :: C, k)

/-- `comparg` (`Back.sml:524-530`), given the code of the body: the closures of
a `letrec`. -/
def compRecs (env : CEnv) (sf : Sf) (sz dp i : Nat) : List Lam → Code → Nat → Code × Nat
  | [], C, k => (C, k)
  | .prim (.closure lbl csz) fre :: es, C, k =>
    let r := compRecs env sf sz dp (i - 1) es C k
    compRL env sf (sz + fre.length - 1) dp fre
      (.closure lbl csz :: .push :: .access i :: .prim .update :: r.1) r.2
  | _ :: _, C, k => (.fatal :: C, k)

/-- `initarg` (`Back.sml:531-541`), given the code that follows: room for the
closures of a `letrec`. -/
def dummies : List Lam → Code → Code
  | [], C => C
  | .prim (.closure _ csz) _ :: es, C => .prim (.dummy csz) :: .push :: dummies es C
  | _ :: _, C => .fatal :: C

end

/-- `inienv` (`Back.sml:831-834`): argument `a` of a function of `nargs`
arguments is at stack position `nargs - a`. -/
def iniEnv (fv : List Int) (nargs : Nat) : CEnv :=
  { fv := fv, va := fun a => if a < nargs then some (nargs - a) else none }

/-- One round of `compileRest` (`Back.sml:828-842`). -/
def compileFunc (f : Func) (C : Code) (k : Nat) : Code × Nat :=
  let r := compexp (iniEnv f.fv f.nargs) none f.nargs f.nargs f.body
    (.ret f.nargs :: discard C) k
  (if f.nargs > 1 then .restart :: .label f.lbl :: .grab (f.nargs - 1) :: r.1
   else .label f.lbl :: r.1, r.2)

/-- `compileRest` (`Back.sml:828-845`); the compilation of a function pushes
nothing on `stillToCompile`, as all of the functions have been lifted. -/
def compileRest : List Func → Code → Nat → Code × Nat
  | [], C, k => (C, k)
  | f :: fs, C, k =>
    let r := compileFunc f C k
    compileRest fs r.1 r.2

/-- What `compileLambda` (`Back.sml:847-857`) makes. -/
structure Phrase where
  inits : Code
  funcs : Code

/-- `compileLambda` (`Back.sml:847-857`).  A phrase that is itself a function
is lifted like any other (`liftit`, l.434-437). -/
def compileLambda (e : Lam) : Phrase :=
  let r := lft 0 false e { fv := [], lbl := 0, funs := [] }
  let c := compexp { fv := [], va := fun _ => none } none 0 0 r.1 [] r.2.lbl
  { inits := c.1, funcs := (compileRest r.2.funs [] c.2).1 }

/-! ## The machine (`interp.c`) -/

/-- Values.  Blocks other than closures are never changed in this fragment and
nothing looks at their addresses, so they are trees; closures are in a heap,
as `letrec` makes cycles. -/
inductive MVal
  | int (z : Int)
  | str (s : String)
  | block (tag : Nat) (fields : List MVal)
  | addr (a : Nat)

/-- A word of the stack: a value, a code pointer, a number (`extra_args`) or a
stack pointer (the link of a trap frame, as a height). -/
inductive Slot
  | v (x : MVal)
  | pc (c : Code)
  | n (k : Nat)
  | link (h : Nat)

/-- A block with tag `Closure_tag`: code pointer and the fields after it. -/
structure Obj where
  code : Code
  fields : List MVal

/-- The registers (`interp.c:190-230`).  A code pointer is the rest of the
code; `trap` is the height of the stack at the innermost trap frame, 0 if
there is none. -/
structure State where
  code : Code
  acc : MVal
  env : MVal
  stack : List Slot
  extra : Nat
  trap : Nat
  heap : List Obj

inductive Out
  | next (s : State)
  | halt (v : MVal)
  | uncaught (v : MVal)
  | stuck

mutual
def Const.toM : Const → MVal
  | .int z => .int z
  | .str s => .str s
  | .block t l => .block t (Const.toMs l)
def Const.toMs : List Const → List MVal
  | [] => []
  | c :: cs => c.toM :: Const.toMs cs
end

/-- `Atom(b)` -/
def mbool (b : Bool) : MVal := .block (if b then 1 else 0) []

def munit : MVal := .block 0 []

/-- The integers are those of a 64 bit machine. -/
def inRange (z : Int) : Bool := decide (-4611686018427387904 ≤ z ∧ z ≤ 4611686018427387903)

def arithI : Arith → Int → Int → Int
  | .add, a, b => a + b
  | .sub, a, b => a - b
  | .mul, a, b => a * b

def cmpI : Cmp → Int → Int → Bool
  | .eq, a, b => decide (a = b)
  | .ne, a, b => decide (a ≠ b)
  | .lt, a, b => decide (a < b)
  | .gt, a, b => decide (a > b)
  | .le, a, b => decide (a ≤ b)
  | .ge, a, b => decide (a ≥ b)

/-- The exception that `raise_overflow` (`interp.c`) raises: a block of the
name and unit.  The name is a reference in the program; here it is a string. -/
def moverflow : MVal := .block 0 [.str "Overflow", munit]

/-- The values on top of the stack; `none` if they are not values. -/
def takeVals : Nat → List Slot → Option (List MVal)
  | 0, _ => some []
  | n + 1, .v x :: s => (takeVals n s).map (x :: ·)
  | _ + 1, _ => none

/-- `raise_exception` (`interp.c:1083-1098`). -/
def doRaise (v : MVal) (s : State) : Out :=
  if s.trap = 0 then .uncaught v
  else
    match s.stack.drop (s.stack.length - s.trap) with
    | .pc c :: .link h :: .v e :: .n x :: rest =>
      .next { code := c, acc := v, env := e, stack := rest, extra := x, trap := h, heap := s.heap }
    | _ => .stuck

/-- `pc = Code_val(accu); env = accu` (`apply`, `appterm`, `interp.c:695-700,
412-415`). -/
def enter (f : MVal) (stack : List Slot) (extra : Nat) (s : State) : Out :=
  match f with
  | .addr a =>
    (match s.heap[a]? with
     | some o => .next { s with code := o.code, acc := f, env := f, stack := stack, extra := extra }
     | none => .stuck)
  | _ => .stuck

/-- The end of `RETURN` (`interp.c:574-586`) and of a `GRAB` that does not have
its arguments (l.630-633). -/
def popFrame (stack : List Slot) (v : MVal) (heap : List Obj) (s : State) : Out :=
  match stack with
  | .pc c :: .v e :: .n x :: rest =>
    .next { s with code := c, acc := v, env := e, stack := rest, extra := x, heap := heap }
  | _ => .stuck

/-- Integer results with overflow check (`interp.c:1415-1450`). -/
def smlint (z : Int) (C : Code) (stack : List Slot) (s : State) : Out :=
  if inRange z then .next { s with code := C, acc := .int z, stack := stack }
  else doRaise moverflow { s with stack := stack }

/-- The branch to a label. -/
def jump (L : Nat → Option Code) (l : Nat) (s : State) : Out :=
  match L l with
  | some C => .next { s with code := C }
  | none => .stuck

/-- `Tag_val(accu)` -/
def tagOf : MVal → Option Nat
  | .block t _ => some t
  | _ => none

/-- One instruction (`interp.c:280-1450`).  `L` gives the code after a label;
the machine stops at the end of the code.  `GRAB` makes a closure with the
address `pc - 3` of the `RESTART` before it (l.622-627); `compileRest` puts a
`RESTART` before each `GRAB`. -/
def step (L : Nat → Option Code) (s : State) : Out :=
  match s.code with
  | [] => .halt s.acc
  | .quote c :: C => .next { s with code := C, acc := c.toM }
  | .access n :: C =>
    (match s.stack[n]? with
     | some (.v x) => .next { s with code := C, acc := x }
     | _ => .stuck)
  | .envacc n :: C =>
    (match s.env with
     | .addr a =>
       (match s.heap[a]? with
        | some o =>
          (match o.fields[n]? with
           | some x => .next { s with code := C, acc := x }
           | none => .stuck)
        | none => .stuck)
     | _ => .stuck)
  | .getfield n :: C =>
    (match s.acc with
     | .block _ l =>
       (match l[n]? with
        | some x => .next { s with code := C, acc := x }
        | none => .stuck)
     | _ => .stuck)
  | .push :: C => .next { s with code := C, stack := .v s.acc :: s.stack }
  | .pop n :: C => .next { s with code := C, stack := s.stack.drop n }
  | .restart :: C =>
    (match s.env with
     | .addr a =>
       (match s.heap[a]? with
        | some o =>
          (match o.fields with
           | e :: args =>
             .next { s with code := C, env := e, stack := args.map .v ++ s.stack,
                            extra := s.extra + args.length }
           | [] => .stuck)
        | none => .stuck)
     | _ => .stuck)
  | .grab n :: C =>
    if n ≤ s.extra then .next { s with code := C, extra := s.extra - n }
    else
      (match takeVals (1 + s.extra) s.stack with
       | some args =>
         popFrame (s.stack.drop (1 + s.extra)) (.addr s.heap.length)
           (s.heap ++ [{ code := .restart :: .grab n :: C, fields := s.env :: args }]) s
       | none => .stuck)
  | .apply n :: C =>
    if n < 5 then
      enter s.acc (s.stack.take n ++ .pc C :: .v s.env :: .n s.extra :: s.stack.drop n) (n - 1) s
    else enter s.acc s.stack (n - 1) s
  | .appterm n z :: _ =>
    enter s.acc (s.stack.take n ++ s.stack.drop z) (s.extra + (n - 1)) s
  | .pushRetaddr l :: C =>
    (match L l with
     | some c => .next { s with code := C, stack := .pc c :: .v s.env :: .n s.extra :: s.stack }
     | none => .stuck)
  | .ret n :: _ =>
    if s.extra > 0 then enter s.acc (s.stack.drop n) (s.extra - 1) s
    else popFrame (s.stack.drop n) s.acc s.heap s
  | .closure l n :: C =>
    (match L l, takeVals n (if n > 0 then .v s.acc :: s.stack else s.stack) with
     | some c, some vs =>
       .next { s with code := C, acc := .addr s.heap.length,
                      stack := (if n > 0 then .v s.acc :: s.stack else s.stack).drop n,
                      heap := s.heap ++ [{ code := c, fields := vs }] }
     | _, _ => .stuck)
  | .closurerec l n :: C =>
    (match L l, takeVals (n - 1) (if n - 1 > 0 then .v s.acc :: s.stack else s.stack) with
     | some c, some vs =>
       .next { s with code := C, acc := .addr s.heap.length,
                      stack := (if n - 1 > 0 then .v s.acc :: s.stack else s.stack).drop (n - 1),
                      heap := s.heap ++ [{ code := c, fields := .addr s.heap.length :: vs }] }
     | _, _ => .stuck)
  | .raise :: _ => doRaise s.acc s
  | .makeblock tag n :: C =>
    (match takeVals (n - 1) s.stack with
     | some vs =>
       .next { s with code := C, acc := .block tag (vs.reverse ++ [s.acc]),
                      stack := s.stack.drop (n - 1) }
     | none => .stuck)
  | .prim p :: C =>
    (match p with
     | .not =>
       (match tagOf s.acc with
        | some t => .next { s with code := C, acc := mbool (t == 0) }
        | none => .stuck)
     | .test t =>
       (match s.stack, s.acc with
        | .v (.int a) :: rest, .int b => .next { s with code := C, acc := mbool (cmpI t a b), stack := rest }
        | _, _ => .stuck)
     | .arith op =>
       (match s.stack, s.acc with
        | .v (.int a) :: rest, .int b => smlint (arithI op a b) C rest s
        | _, _ => .stuck)
     | .succ =>
       (match s.acc with
        | .int a => smlint (a + 1) C s.stack s
        | _ => .stuck)
     | .pred =>
       (match s.acc with
        | .int a => smlint (a - 1) C s.stack s
        | _ => .stuck)
     | .dummy n =>
       .next { s with code := C, acc := .addr s.heap.length,
                      heap := s.heap ++ [{ code := [], fields := List.replicate n (.int 0) }] }
     | .update =>
       (match s.stack, s.acc with
        | .v (.addr b) :: rest, .addr a =>
          (match s.heap[a]?, s.heap[b]? with
           | some oa, some ob =>
             if oa.fields.length = ob.fields.length then
               .next { s with code := C, acc := munit, stack := rest, heap := s.heap.set a ob }
             else .stuck
           | _, _ => .stuck)
        | _, _ => .stuck)
     | _ => .stuck)
  | .pushtrap l :: C =>
    (match L l with
     | some c =>
       .next { s with code := C,
                      stack := .pc c :: .link s.trap :: .v s.env :: .n s.extra :: s.stack,
                      trap := s.stack.length + 4 }
     | none => .stuck)
  | .poptrap :: C =>
    (match s.stack with
     | _ :: .link h :: _ :: _ :: rest => .next { s with code := C, stack := rest, trap := h }
     | _ => .stuck)
  | .label _ :: C => .next { s with code := C }
  | .branch l :: _ => jump L l s
  | .branchif l :: C | .strictbranchif l :: C =>
    (match tagOf s.acc with
     | some t => if t = 0 then .next { s with code := C } else jump L l s
     | none => .stuck)
  | .branchifnot l :: C | .strictbranchifnot l :: C =>
    (match tagOf s.acc with
     | some t => if t = 0 then jump L l s else .next { s with code := C }
     | none => .stuck)
  | .test t l :: C =>
    (match s.stack, s.acc with
     | .v (.int a) :: rest, .int b =>
       if cmpI t a b then jump L l { s with stack := rest }
       else .next { s with code := C, stack := rest }
     | _, _ => .stuck)
  | .fatal :: _ => .stuck

/-- The code after a label. -/
def findLabel (l : Nat) : Code → Option Code
  | [] => none
  | .label m :: C => if m = l then some C else findLabel l C
  | _ :: C => findLabel l C

/-- The labels of a phrase.  The two lists are put one after the other, with a
jump over the second (`Emit_phr.sml:23-35`), so that the machine stops at the
end of the first. -/
def Phrase.labels (P : Phrase) (l : Nat) : Option Code :=
  match findLabel l P.inits with
  | some C => some C
  | none => findLabel l P.funcs

/-- The state in which a phrase is started. -/
def Phrase.start (P : Phrase) : State :=
  { code := P.inits, acc := munit, env := munit, stack := [], extra := 0, trap := 0, heap := [] }

inductive Fin
  | value (v : MVal)
  | uncaught (v : MVal)

/-- `s` runs to an end with outcome `r`. -/
inductive Halts (L : Nat → Option Code) : State → Fin → Prop
  | halt {s v} : step L s = .halt v → Halts L s (.value v)
  | uncaught {s v} : step L s = .uncaught v → Halts L s (.uncaught v)
  | next {s t r} : step L s = .next t → Halts L t r → Halts L s r

/-- The machine, for running examples. -/
def run (L : Nat → Option Code) : Nat → State → Option Fin
  | 0, _ => none
  | n + 1, s =>
    match step L s with
    | .next t => run L n t
    | .halt v => some (.value v)
    | .uncaught v => some (.uncaught v)
    | .stuck => none

end Mosml.Zam
