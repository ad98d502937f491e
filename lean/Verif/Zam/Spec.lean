import Verif.Zam.Model

/-!
# What the intermediate language means

A call-by-value semantics of `Lambda.sml`, written without looking at the code
generator: environments are lists (de Bruijn indices), a function takes one
argument at a time.  `eval n env e` is the result of `e` if it is found in `n`
nested steps; `none` stands for "not found yet" and for terms that go wrong.
Arguments of an application are evaluated from right to left and the function
last; those of a primitive from left to right.
-/

namespace Mosml.Zam

inductive Val
  | int (z : Int)
  | str (s : String)
  | block (tag : Nat) (fields : List Val)
  /-- A function and its environment. -/
  | clos (env : List Val) (body : Lam)
  /-- The `i`th function of a `letrec`. -/
  | rc (fs : List Lam) (i : Nat) (env : List Val)

/-- A value, an exception, or a static failure. -/
inductive Res
  | val (v : Val)
  | exn (v : Val)
  | fail

/-- The values of several expressions, or the first result that is no value. -/
inductive Ress
  | vals (vs : List Val)
  | stop (r : Res)

mutual
def Const.toV : Const → Val
  | .int z => .int z
  | .str s => .str s
  | .block t l => .block t (Const.toVs l)
def Const.toVs : List Const → List Val
  | [] => []
  | c :: cs => c.toV :: Const.toVs cs
end

def vbool (b : Bool) : Val := .block (if b then 1 else 0) []

def vunit : Val := .block 0 []

/-- The exception `Overflow`. -/
def voverflow : Val := .block 0 [.str "Overflow", vunit]

/-- A condition holds unless its tag is 0. -/
def truth : Val → Option Bool
  | .block t _ => some (t != 0)
  | _ => none

/-- The environment of the functions of a `letrec`: the last has index 0. -/
def recEnv (fs : List Lam) (env : List Val) : List Val :=
  (List.range fs.length).reverse.map (fun i => .rc fs i env) ++ env

/-- The environment and body of a function. -/
def asClos : Val → Option (List Val × Lam)
  | .clos env b => some (env, b)
  | .rc fs i env =>
    match fs[i]? with
    | some (.fn b) => some (recEnv fs env, b)
    | _ => none
  | _ => none

def isFn : Lam → Bool
  | .fn _ => true
  | _ => false

def lookup (env : List Val) (n : Int) : Option Val :=
  if n < 0 then none else env[n.toNat]?

/-- The primitives. -/
def primSem : Prim → List Val → Option Res
  | .makeblock t _, vs => some (.val (.block t vs))
  | .field i, [.block _ l] => (l[i]?).map .val
  | .raise, [v] => some (.exn v)
  | .not, [v] => (truth v).map (fun b => .val (vbool (!b)))
  | .test t, [.int a, .int b] => some (.val (vbool (cmpI t a b)))
  | .arith op, [.int a, .int b] =>
    if inRange (arithI op a b) then some (.val (.int (arithI op a b))) else some (.exn voverflow)
  | .identity, [v] => some (.val v)
  | _, _ => none

/-- From left to right. -/
def evalLR (ev : Lam → Option Res) : List Lam → Option Ress
  | [] => some (.vals [])
  | e :: es =>
    match ev e with
    | some (.val v) =>
      (match evalLR ev es with
       | some (.vals vs) => some (.vals (v :: vs))
       | r => r)
    | some r => some (.stop r)
    | none => none

/-- From right to left. -/
def evalRL (ev : Lam → Option Res) : List Lam → Option Ress
  | [] => some (.vals [])
  | e :: es =>
    match evalRL ev es with
    | some (.vals vs) =>
      (match ev e with
       | some (.val v) => some (.vals (v :: vs))
       | some r => some (.stop r)
       | none => none)
    | r => r

/-- The arguments of a `let`, each in the environment of those before it; the
environment for the body. -/
def evalLets (ev : List Val → Lam → Option Res) (env : List Val) : List Lam → Option Ress
  | [] => some (.vals env)
  | e :: es =>
    match ev env e with
    | some (.val v) => evalLets ev (v :: env) es
    | some r => some (.stop r)
    | none => none

/-- A function is applied to its arguments one after the other. -/
def applyL (ev : List Val → Lam → Option Res) (f : Val) : List Val → Option Res
  | [] => some (.val f)
  | x :: xs =>
    match asClos f with
    | some (env, b) =>
      (match ev (x :: env) b with
       | some (.val g) => applyL ev g xs
       | some (.exn v) => some (.exn v)
       | _ => none)
    | none => none

/-- The semantics. -/
def eval : Nat → List Val → Lam → Option Res
  | 0, _, _ => none
  | n + 1, env, e =>
    match e with
    | .var i => (lookup env i).map .val
    | .const c => some (.val c.toV)
    | .fn b => some (.val (.clos env b))
    | .apply f args =>
      (match evalRL (eval n env) args with
       | some (.vals vs) =>
         (match eval n env f with
          | some (.val g) => applyL (eval n) g vs
          | r => r)
       | some (.stop r) => some r
       | none => none)
    | .lett args body =>
      (match evalLets (eval n) env args with
       | some (.vals env') => eval n env' body
       | some (.stop r) => some r
       | none => none)
    | .letrec fs body =>
      if fs.all isFn then eval n (recEnv fs env) body else none
    | .prim p args =>
      (match evalLR (eval n env) args with
       | some (.vals vs) => primSem p vs
       | some (.stop r) => some r
       | none => none)
    | .staticfail => some .fail
    | .statichandle a b =>
      (match eval n env a with
       | some .fail => eval n env b
       | r => r)
    | .handle a b =>
      (match eval n env a with
       | some (.exn v) => eval n (v :: env) b
       | r => r)
    | .cond c a b =>
      (match eval n env c with
       | some (.val v) =>
         (match truth v with
          | some true => eval n env a
          | some false => eval n env b
          | none => none)
       | r => r)
    | .seq a b =>
      (match eval n env a with
       | some (.val _) => eval n env b
       | r => r)
    | .andalso a b =>
      (match eval n env a with
       | some (.val v) =>
         (match truth v with
          | some true => eval n env b
          | some false => some (.val v)
          | none => none)
       | r => r)
    | .orelse a b =>
      (match eval n env a with
       | some (.val v) =>
         (match truth v with
          | some true => some (.val v)
          | some false => eval n env b
          | none => none)
       | r => r)

/-- A value of the machine is the value of the semantics; all that is said of a
function is that it is a closure. -/
inductive Agrees : Val → MVal → Prop
  | int {z} : Agrees (.int z) (.int z)
  | str {s} : Agrees (.str s) (.str s)
  | block {t vs ms} : List.Forall₂ Agrees vs ms → Agrees (.block t vs) (.block t ms)
  | clos {env b a} : Agrees (.clos env b) (.addr a)
  | rc {fs i env a} : Agrees (.rc fs i env) (.addr a)

/-- The terms that the theorems are about.  `d` is the number of variables in
scope and `sf` tells whether a static failure has a handler.

* An application has arguments; a primitive has the number of arguments it
  needs and is one of the source language.
* `letrec` binds functions.
* No argument of a `let` is a block with one field and span 1, as such a
  block, like a reference, may be turned into a stack cell
  (`Back.sml:366-384`), which is not modelled.
* A static failure does not leave a function or the body of a `handle`. -/
inductive Ok : Nat → Bool → Lam → Prop
  | var {d sf} {n : Nat} : n < d → Ok d sf (.var n)
  | const {d sf c} : Ok d sf (.const c)
  | fn {d sf b} : Ok (d + 1) false b → Ok d sf (.fn b)
  | apply {d sf f args} : args ≠ [] → Ok d sf f → (∀ e ∈ args, Ok d sf e) → Ok d sf (.apply f args)
  | lett {d sf args body} :
      (∀ (i : Nat) e, args[i]? = some e → Ok (d + i) sf e) →
      (∀ e ∈ args, ∀ t a, e ≠ .prim (.makeblock t 1) [a]) →
      Ok (d + args.length) sf body → Ok d sf (.lett args body)
  | letrec {d sf fs body} :
      fs ≠ [] → (∀ e ∈ fs, isFn e = true) → (∀ e ∈ fs, Ok (d + fs.length) false e) → Ok (d + fs.length) sf body →
      Ok d sf (.letrec fs body)
  | makeblock {d sf t s args} :
      args ≠ [] → (∀ e ∈ args, Ok d sf e) → Ok d sf (.prim (.makeblock t s) args)
  | field {d sf i a} : Ok d sf a → Ok d sf (.prim (.field i) [a])
  | raise {d sf a} : Ok d sf a → Ok d sf (.prim .raise [a])
  | not {d sf a} : Ok d sf a → Ok d sf (.prim .not [a])
  | test {d sf t a b} : Ok d sf a → Ok d sf b → Ok d sf (.prim (.test t) [a, b])
  | arith {d sf op a b} : Ok d sf a → Ok d sf b → Ok d sf (.prim (.arith op) [a, b])
  | identity {d sf a} : Ok d sf a → Ok d sf (.prim .identity [a])
  | staticfail {d} : Ok d true .staticfail
  | statichandle {d sf a b} : Ok d true a → Ok d sf b → Ok d sf (.statichandle a b)
  | handle {d sf a b} : Ok d false a → Ok (d + 1) sf b → Ok d sf (.handle a b)
  | cond {d sf c a b} : Ok d sf c → Ok d sf a → Ok d sf b → Ok d sf (.cond c a b)
  | seq {d sf a b} : Ok d sf a → Ok d sf b → Ok d sf (.seq a b)
  | andalso {d sf a b} : Ok d sf a → Ok d sf b → Ok d sf (.andalso a b)
  | orelse {d sf a b} : Ok d sf a → Ok d sf b → Ok d sf (.orelse a b)

end Mosml.Zam
