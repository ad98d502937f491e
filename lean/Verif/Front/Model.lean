import Verif.Util

/-!
# Translating expressions into the intermediate language

Model of `trExp`, `trVarApp`, `trPrimApp`, `trRec`, `trTuple` and `trArgs` of
src/compiler/Front.sml, which turn an elaborated expression into the terms of Lambda.sml
that the code generator compiles, and which decide in what order the parts of the
expression are evaluated.  Patterns are variables (matching against other patterns is the
subject of `Verif/Match`), the values of other units, exception constructors, local
declarations other than `val x = e`, and module expressions are left out, as are the
primitives implemented by functions of the library (`GVprim`, `GVTprim`).  A call of
`fatalError` is the term `fatal`, which has no meaning.
-/

namespace Mosml.Front

abbrev Name := Nat

/-- Constants, Const.sml (`SConst`): `block` also stands for nullary constructors, `()`,
and constant tuples. -/
inductive Const
  | int (z : Int)
  | str (s : List Nat)
  | block (tag : Nat) (cs : List Const)

/-- Primitives with one argument (`VMprim(1, _)`, Front.sml:13-100). -/
inductive Op1
  | ref
  | deref
  | print
  deriving DecidableEq

/-- Primitives that take a pair (`VMPprim(1, _)`) and have a version with two arguments
(`VMprim(2, _)`), Front.sml:13-134. -/
inductive Op2
  | add
  | assign
  | eq
  deriving DecidableEq

/-- Unary constructors as trConVar and trVarApp distinguish them: flattened into one block
with its argument, the only constructor of its type (no block), and the other ones. -/
inductive Con
  | greedy (tag arity : Nat)
  | single
  | plain (tag : Nat)

/-- Expressions, Asynt.sml (`Exp'`), after elaboration.  `fn x xs b` is a function with one
rule whose patterns are the variables `x :: xs` (more than one for `fun f x y = ...`).
`record` lists labels and expressions in the order of the program; labels are numbered in
the order of `lt_lab` (Mixture.sml:132-136).  `handle e x b` has one rule, for the
variable `x`. -/
inductive Exp
  | const (c : Const)
  | var (x : Name)
  | prim1 (k : Op1)
  | prim2 (k : Op2)
  | con (k : Con)
  | fn (x : Name) (xs : List Name) (b : Exp)
  | app (f a : Exp)
  | tuple (es : List Exp)
  | record (labs : List Nat) (es : List Exp)
  | par (e : Exp)
  | lett (x : Name) (e b : Exp)
  | andalso (a b : Exp)
  | orelse (a b : Exp)
  | cond (c a b : Exp)
  | seq (a b : Exp)
  | whil (c a : Exp)
  | raise (e : Exp)
  | handle (e : Exp) (x : Name) (b : Exp)

/-- Primitives of the intermediate language, Prim.sml. -/
inductive Prim
  | makeblock (tag : Nat)
  | field (i : Nat)
  | raise
  | op1 (k : Op1)
  | op2 (k : Op2)

/-- Terms of the intermediate language, Lambda.sml:  variables are numbered from the
innermost binding, `lett` binds one variable after the other. -/
inductive Lam
  | var (i : Nat)
  | const (c : Const)
  | fn (b : Lam)
  | apply (f : Lam) (args : List Lam)
  | lett (args : List Lam) (b : Lam)
  | prim (p : Prim) (args : List Lam)
  | handle (a b : Lam)
  | cond (c a b : Lam)
  | seq (a b : Lam)
  | andalso (a b : Lam)
  | orelse (a b : Lam)
  | whil (c a : Lam)
  | fatal

mutual
/-- `isSafe`, Front.sml:223-252. -/
def isSafe : Exp → Bool
  | .const _ | .var _ | .prim1 _ | .prim2 _ | .con _ | .fn _ _ _ => true
  | .app _ _ | .lett _ _ _ | .raise _ | .handle _ _ _ => false
  | .tuple es => isSafes es
  | .record _ es => isSafes es
  | .par e => isSafe e
  | .andalso a b => isSafe a && isSafe b
  | .orelse a b => isSafe a && isSafe b
  | .cond c a b => isSafe c && isSafe a && isSafe b
  | .whil c a => isSafe c && isSafe a
  | .seq a b => isSafe a && isSafe b
def isSafes : List Exp → Bool
  | [] => true
  | e :: es => isSafe e && isSafes es
end

/-- `normApp`, Front.sml:193-199. -/
def normApp : Exp → List Exp → Exp × List Exp
  | .par e, args => normApp e args
  | .app e1 e2, args => normApp e1 (e2 :: args)
  | f, args => (f, args)

/-- `extractPairArg`, Front.sml:201-207. -/
def extractPairArg : Exp → Option (Exp × Exp)
  | .par e => extractPairArg e
  | .tuple [e1, e2] => some (e1, e2)
  | _ => none

/-- Where a variable is: positions count from the outermost binding (`Path_local`). -/
abbrev Rho := List (Name × Nat)

def look {α : Type} (l : List (Name × α)) (x : Name) : Option α :=
  match l with
  | [] => none
  | (y, a) :: l => if x = y then some a else look l x

/-- `translateLocalAccess` for a `Path_local`, Tr_env.sml:52-81. -/
def access (rho : Rho) (d : Nat) (x : Name) : Lam :=
  match look rho x with
  | some pos => .var (d - 1 - pos)
  | none => .fatal

/-- The positions of the parameters of a function (`mkEnvOfPats`, Match.sml). -/
def bindAll (rho : Rho) (d : Nat) : List Name → Rho
  | [] => rho
  | x :: xs => bindAll ((x, d) :: rho) (d + 1) xs

def lams : Nat → Lam → Lam
  | 0, b => b
  | n + 1, b => .fn (lams n b)

/-- `extract_fields`, Front.sml:185-191. -/
def extractFields (arity : Nat) : List Lam :=
  (List.range arity).map fun i => .prim (.field i) [.var 0]

/-- `trConVar`, Front.sml:277-290. -/
def trConVar : Con → Lam
  | .greedy t n => .fn (.prim (.makeblock t) (extractFields n))
  | .single => .fn (.var 0)
  | .plain t => .fn (.prim (.makeblock t) [.var 0])

/-- `splitFirstArg` with one argument, Front.sml:214-217. -/
def split (a : Lam) : List Lam := [.prim (.field 0) [a], .prim (.field 1) [a]]

/-- `trPrimVar` for `VMprim(1, k)`, Front.sml:307-316. -/
def trPrim1Var (k : Op1) : Lam := .fn (.prim (.op1 k) [.var 0])

/-- `trPrimVar` for `VMPprim(1, k)`, Front.sml:317-322. -/
def trPrim2Var (k : Op2) : Lam := .fn (.prim (.op2 k) (split (.var 0)))

/-- `trPrimVar` for `VMprim(2, k)`. -/
def trPrim2cVar (k : Op2) : Lam := .fn (.fn (.prim (.op2 k) [.var 1, .var 0]))

/-- `insertField`, Mixture.sml:138-148.  Equal labels (a `fatalError`) have been rejected by
the type checker. -/
def insertField {α : Type} (f : Nat × α) : List (Nat × α) → List (Nat × α)
  | [] => [f]
  | g :: rest => if f.1 < g.1 then f :: g :: rest else g :: insertField f rest

/-- `sortRow`, Mixture.sml:150. -/
def sortRow {α : Type} (row : List (Nat × α)) : List (Nat × α) :=
  row.foldl (fun acc f => insertField f acc) []

/-- `map extractConstant`, which raises `Not_constant` (Front.sml:151-152). -/
def constants : List Lam → Option (List Const)
  | [] => some []
  | .const c :: l => (constants l).map (c :: ·)
  | _ :: _ => none

/-- The block of a tuple or record, constant if all fields are. -/
def mkBlock (tag : Nat) (l : List Lam) : Lam :=
  match constants l with
  | some cs => .const (.block tag cs)
  | none => .prim (.makeblock tag) l

/-- `AppArgs`, Front.sml:271-275.  An argument is given by its translation at each depth. -/
inductive AppArg
  | safe (t : Nat → Lam)
  | const (c : Const)
  | lifted

/-- An argument: whether it is safe, and its translation at each depth. -/
abbrev Arg := Bool × (Nat → Lam)

/-- `classifyArgs`, Front.sml:748-761. -/
def classifyArgs (d : Nat) (uns : List Lam) (safe : List AppArg) :
    List Arg → List Lam × List AppArg
  | [] => (uns, safe)
  | (true, t) :: args => classifyArgs d uns (.safe t :: safe) args
  | (false, t) :: args =>
    match t d with
    | .const c => classifyArgs d uns (.const c :: safe) args
    | lam => classifyArgs (d + 1) (lam :: uns) (.lifted :: safe) args

/-- `adjustHeadArgs`, Front.sml:763-770. -/
def adjustHeadArgs (d : Nat) (pos : Nat) (acc : List Lam) : List AppArg → List Lam
  | [] => acc
  | .safe t :: rest => adjustHeadArgs d pos (t d :: acc) rest
  | .const c :: rest => adjustHeadArgs d pos (.const c :: acc) rest
  | .lifted :: rest => adjustHeadArgs d (pos + 1) (.var pos :: acc) rest

/-- `adjustArgs`, Front.sml:775-782. -/
def adjustArgs (d : Nat) (quasisafe : Lam) (acc : List Lam) : List AppArg → List Lam
  | [] => [.fatal]
  | .safe t :: rest => adjustArgs d quasisafe (t d :: acc) rest
  | .const c :: rest => adjustArgs d quasisafe (.const c :: acc) rest
  | .lifted :: rest => adjustHeadArgs d 0 (quasisafe :: acc) rest

/-- What `trArgs` returns: the depth of the new environment, the arguments, and what is
evaluated before them (the envelope). -/
structure Args where
  d : Nat
  args : List Lam
  lets : List Lam

/-- `trArgs`, Front.sml:784-796. -/
def trArgs (d : Nat) (args : List Arg) : Args :=
  match classifyArgs d [] [] args with
  | ([], safe) => ⟨d, adjustHeadArgs d 0 [] safe, []⟩
  | (quasisafe :: uns, safe) =>
    ⟨d + uns.length, adjustArgs (d + uns.length) quasisafe [] safe, uns.reverse⟩

/-- The envelope. -/
def Args.wrap (a : Args) (lam : Lam) : Lam :=
  match a.lets with
  | [] => lam
  | l => .lett l lam

/-- `trLetArgs`, Front.sml:1107-1110. -/
def trLetArgs (tr : Nat → Exp → Lam) (d : Nat) : List Exp → List Lam
  | [] => []
  | e :: es => tr d e :: trLetArgs tr (d + 1) es

/-- The arguments of `trArgs`, given the translation of expressions at each depth. -/
def argsOf (tr : Nat → Exp → Lam) (es : List Exp) : List Arg :=
  es.map fun e => (isSafe e, fun d => tr d e)

/-- `trTuple`, Front.sml:738-742. -/
def trTuple (tr : Nat → Exp → Lam) (d : Nat) (tag : Nat) (es : List Exp) : Lam :=
  mkBlock tag (es.map (tr d))

/-- `trRec`, Front.sml:727-735. -/
def trRec (tr : Nat → Exp → Lam) (d : Nat) (tag : Nat) (labs : List Nat) (es : List Exp) :
    Lam :=
  let a := trArgs d (argsOf tr es)
  a.wrap (mkBlock tag ((sortRow (labs.zip a.args)).map (·.2)))

/-- `trPrimApp` for a `VMprim(1, k)`, Front.sml:702-708. -/
def trPrim1App (tr : Nat → Exp → Lam) (d : Nat) (k : Op1) (args : List Exp) : Lam :=
  match args with
  | [e] => .prim (.op1 k) [tr d e]
  | _ =>
    let a := trArgs d (argsOf tr args)
    a.wrap (.apply (trPrim1Var k) a.args)

/-- `trPrimApp` for a `VMprim(2, k)`, Front.sml:702-708. -/
def trPrim2cApp (tr : Nat → Exp → Lam) (d : Nat) (k : Op2) (args : List Exp) : Lam :=
  match args with
  | [e1, e2] => .prim (.op2 k) [tr d e1, tr d e2]
  | _ =>
    let a := trArgs d (argsOf tr args)
    a.wrap (.apply (trPrim2cVar k) a.args)

/-- `trPrimApp` for a `VMPprim(1, k)`, Front.sml:709-719 (`canSplitFirstArg`, 209-212). -/
def trPrim2App (tr : Nat → Exp → Lam) (d : Nat) (k : Op2) (args : List Exp) : Lam :=
  let a := trArgs d (argsOf tr args)
  match a.args with
  | [.var i] => a.wrap (.prim (.op2 k) (split (.var i)))
  | [l] => .lett [l] (.prim (.op2 k) (split (.var 0)))
  | _ => a.wrap (.apply (trPrim2Var k) a.args)

/-- The case `CONik` of `trVarApp`, Front.sml:651-680. -/
def trConApp (tr : Nat → Exp → Lam) (d : Nat) (k : Con) (args : List Exp) : Lam :=
  match args with
  | [e] =>
    match k with
    | .greedy t n =>
      (match e with
       | .record labs es => trRec tr d t labs es
       | .tuple es => trTuple tr d t es
       | _ => .lett [tr d e] (.prim (.makeblock t) (extractFields n)))
    | .single => tr d e
    | .plain t => mkBlock t [tr d e]
  | _ => .fatal

/-- The case `PRIMik` of `trVarApp` with a `curriedPrimVersion`, Front.sml:641-650. -/
def trPrimApp (tr : Nat → Exp → Lam) (d : Nat) (k : Op2) (args : List Exp) : Lam :=
  match args with
  | [] => .fatal
  | e :: rest =>
    match extractPairArg e with
    | none => trPrim2App tr d k (e :: rest)
    | some (e1, e2) => trPrim2cApp tr d k (e1 :: e2 :: rest)

/-- The case `APPexp` of `trExp`, Front.sml:579-594, and `trVarApp`, 634-640. -/
def trApp (tr : Rho → Nat → Exp → Lam) (rho : Rho) (d : Nat) (f : Exp) (args : List Exp) : Lam :=
  match f with
  | .fn x xs b =>
    if xs.length + 1 = args.length then
      .lett (trLetArgs (tr rho) d args)
        (tr (bindAll rho d (x :: xs)) (d + (xs.length + 1)) b)
    else
      let a := trArgs d (argsOf (tr rho) args)
      a.wrap (.apply (tr rho a.d f) a.args)
  | .var x =>
    let a := trArgs d (argsOf (tr rho) args)
    a.wrap (.apply (access rho a.d x) a.args)
  | .prim1 k => trPrim1App (tr rho) d k args
  | .prim2 k => trPrimApp (tr rho) d k args
  | .con k => trConApp (tr rho) d k args
  | _ =>
    let a := trArgs d (argsOf (tr rho) (f :: args))
    a.wrap (.apply (a.args.headD .fatal) a.args.tail)

/-- `trExp`, Front.sml:565-633, with a bound on the depth of the expression. -/
def trE : Nat → Rho → Nat → Exp → Lam
  | 0, _, _, _ => .fatal
  | n + 1, rho, d, e =>
    match e with
    | .const c => .const c
    | .var x => access rho d x
    | .prim1 k => trPrim1Var k
    | .prim2 k => trPrim2Var k
    | .con k => trConVar k
    | .fn x xs b =>
      lams (xs.length + 1) (trE n (bindAll rho d (x :: xs)) (d + (xs.length + 1)) b)
    | .app f a => trApp (trE n) rho d (normApp f [a]).1 (normApp f [a]).2
    | .tuple es => trTuple (trE n rho) d 0 es
    | .record labs es => trRec (trE n rho) d 0 labs es
    | .par e => trE n rho d e
    | .lett x e b => .lett [trE n rho d e] (trE n ((x, d) :: rho) (d + 1) b)
    | .andalso a b => .andalso (trE n rho d a) (trE n rho d b)
    | .orelse a b => .orelse (trE n rho d a) (trE n rho d b)
    | .cond c a b => .cond (trE n rho d c) (trE n rho d a) (trE n rho d b)
    | .seq a b => .seq (trE n rho d a) (trE n rho d b)
    | .whil c a => .whil (trE n rho d c) (trE n rho d a)
    | .raise e => .prim .raise [trE n rho d e]
    | .handle e x b => .handle (trE n rho d e) (trE n ((x, d) :: rho) (d + 1) b)

mutual
/-- The size of an expression. -/
def esize : Exp → Nat
  | .const _ | .var _ | .prim1 _ | .prim2 _ | .con _ => 1
  | .fn _ _ b => esize b + 1
  | .app f a => esize f + esize a + 1
  | .tuple es => esizes es + 1
  | .record _ es => esizes es + 1
  | .par e => esize e + 1
  | .lett _ e b => esize e + esize b + 1
  | .andalso a b => esize a + esize b + 1
  | .orelse a b => esize a + esize b + 1
  | .cond c a b => esize c + esize a + esize b + 1
  | .seq a b => esize a + esize b + 1
  | .whil c a => esize c + esize a + 1
  | .raise e => esize e + 1
  | .handle e _ b => esize e + esize b + 1
def esizes : List Exp → Nat
  | [] => 0
  | e :: es => esize e + esizes es
end

/-- `trExp`: with this bound no part of the expression is cut off. -/
def trExp (rho : Rho) (d : Nat) (e : Exp) : Lam := trE (esize e) rho d e

end Mosml.Front
