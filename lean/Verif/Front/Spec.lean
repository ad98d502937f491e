import Verif.Front.Model
import Mathlib.Data.List.Sort

/-!
# What expressions mean, and in what order their parts are evaluated

The semantics of expressions is written without looking at the translation: environments
map names to values, and the state (references and output) is threaded from part to part,
so that every difference in the order of evaluation shows.  `sev o n ρ e st` is the result
of `e` if it is found in `n` nested steps; `none` stands for "not found yet" and for
programs that go wrong (which the type checker rejects).  `o` selects the order for an
application with several arguments: `sml` is that of the Definition of Standard ML (the
function is applied to an argument before the next argument is evaluated), `grouped`
evaluates the function and all its arguments first.

The semantics of the intermediate language follows `Verif/Zam/Spec.lean`, with a state:
arguments of an application are evaluated from right to left and the function last, those
of a primitive from left to right.
-/

namespace Mosml.Front

/-- A value or an exception. -/
inductive Res (V : Type)
  | val (v : V)
  | exn (v : V)

/-- The values of several expressions, or the exception of the first one that raises one. -/
inductive Ress (V : Type)
  | vals (vs : List V)
  | stop (v : V)

/-- The state: the contents of the references and what was printed. -/
structure St (V : Type) where
  cells : List V
  out : List (List Nat)

/-- How the primitives see values. -/
structure Dom (V : Type) where
  int : Int → V
  block : Nat → List V → V
  str : List Nat → V
  loc : Nat → V
  getInt : V → Option Int
  getStr : V → Option (List Nat)
  getLoc : V → Option Nat

/-- Integers have 63 bits. -/
def inRange (z : Int) : Bool := -(2 ^ 62) ≤ z && z < 2 ^ 62

section
variable {V : Type} (D : Dom V)

def Dom.bool (b : Bool) : V := D.block (if b then 1 else 0) []
def Dom.unit : V := D.block 0 []
/-- The exception `Overflow`. -/
def Dom.overflow : V := D.block 0 [D.str [79, 118], D.unit]

def sem1 : Op1 → V → St V → Option (Res V × St V)
  | .ref, v, st => some (.val (D.loc st.cells.length), ⟨st.cells ++ [v], st.out⟩)
  | .deref, v, st =>
    match D.getLoc v with
    | some l => (st.cells[l]?).map fun w => (.val w, st)
    | none => none
  | .print, v, st =>
    match D.getStr v with
    | some s => some (.val D.unit, ⟨st.cells, st.out ++ [s]⟩)
    | none => none

def sem2 : Op2 → V → V → St V → Option (Res V × St V)
  | .add, v, w, st =>
    match D.getInt v, D.getInt w with
    | some a, some b =>
      some (if inRange (a + b) then .val (D.int (a + b)) else .exn D.overflow, st)
    | _, _ => none
  | .assign, v, w, st =>
    match D.getLoc v with
    | some l => if l < st.cells.length then some (.val D.unit, ⟨st.cells.set l w, st.out⟩) else none
    | none => none
  | .eq, v, w, st =>
    match D.getInt v, D.getInt w with
    | some a, some b => some (.val (D.bool (a == b)), st)
    | _, _ => none
end

/-- Going on with a value. -/
def thenDo {V S : Type} (r : Option (Res V × S)) (f : V → S → Option (Res V × S)) :
    Option (Res V × S) :=
  match r with
  | some (.val v, st) => f v st
  | r => r

/-- Going on with several values. -/
def thenAll {V S : Type} (r : Option (Ress V × S)) (f : List V → S → Option (Res V × S)) :
    Option (Res V × S) :=
  match r with
  | some (.vals vs, st) => f vs st
  | some (.stop v, st) => some (.exn v, st)
  | none => none

@[simp] theorem thenDo_val {V S : Type} (v : V) (st : S) (f) :
    thenDo (some (.val v, st)) f = f v st := rfl
@[simp] theorem thenDo_exn {V S : Type} (v : V) (st : S) (f) :
    thenDo (some (.exn v, st)) f = some (.exn v, st) := rfl
@[simp] theorem thenDo_none {V S : Type} (f : V → S → Option (Res V × S)) :
    thenDo none f = none := rfl
@[simp] theorem thenAll_vals {V S : Type} (vs : List V) (st : S) (f) :
    thenAll (some (.vals vs, st)) f = f vs st := rfl
@[simp] theorem thenAll_stop {V S : Type} (v : V) (st : S) (f) :
    thenAll (some (.stop v, st)) f = some (.exn v, st) := rfl
@[simp] theorem thenAll_none {V S : Type} (f : List V → S → Option (Res V × S)) :
    thenAll none f = none := rfl

/-- From left to right. -/
def evalLR {E V S : Type} (ev : E → S → Option (Res V × S)) : List E → S → Option (Ress V × S)
  | [], st => some (.vals [], st)
  | e :: es, st =>
    match ev e st with
    | some (.val v, st) =>
      (match evalLR ev es st with
       | some (.vals vs, st) => some (.vals (v :: vs), st)
       | r => r)
    | some (.exn v, st) => some (.stop v, st)
    | none => none

/-! ## The language -/

/-- Values of the language. -/
inductive SVal
  | int (z : Int)
  | str (s : List Nat)
  | block (tag : Nat) (vs : List SVal)
  | loc (l : Nat)
  /-- A function that waits for `x :: xs`. -/
  | clos (ρ : List (Name × SVal)) (x : Name) (xs : List Name) (b : Exp)
  | prim1 (k : Op1)
  | prim2 (k : Op2)
  | con (k : Con)

def sDom : Dom SVal where
  int := .int
  block := .block
  str := .str
  loc := .loc
  getInt | .int z => some z | _ => none
  getStr | .str s => some s | _ => none
  getLoc | .loc l => some l | _ => none

mutual
def Const.toS : Const → SVal
  | .int z => .int z
  | .str s => .str s
  | .block t cs => .block t (Const.toSs cs)
def Const.toSs : List Const → List SVal
  | [] => []
  | c :: cs => c.toS :: Const.toSs cs
end

/-- Everything but `false` (and `()`) counts as true. -/
def struth : SVal → Bool
  | .block 0 [] => false
  | _ => true

/-- The values of a record in the order of the labels. -/
def byLabel (labs : List Nat) (vs : List SVal) : List SVal :=
  ((labs.zip vs).insertionSort (fun a b => a.1 ≤ b.1)).map (·.2)

/-- Applying a constructor. -/
def conSem : Con → SVal → Option SVal
  | .greedy t n, .block _ vs => if vs.length = n then some (.block t vs) else none
  | .greedy _ _, _ => none
  | .single, v => some v
  | .plain t, v => some (.block t [v])

/-- Applying a function. -/
def sapply (ev : List (Name × SVal) → Exp → St SVal → Option (Res SVal × St SVal))
    (f v : SVal) (st : St SVal) : Option (Res SVal × St SVal) :=
  match f with
  | .clos ρ x [] b => ev ((x, v) :: ρ) b st
  | .clos ρ x (y :: ys) b => some (.val (.clos ((x, v) :: ρ) y ys b), st)
  | .prim1 k => sem1 sDom k v st
  | .prim2 k =>
    (match v with
     | .block _ [a, b] => sem2 sDom k a b st
     | _ => none)
  | .con k => (conSem k v).map fun w => (.val w, st)
  | _ => none

/-- Applying a function to one argument after the other. -/
def sapplyAll (ap : SVal → SVal → St SVal → Option (Res SVal × St SVal)) (f : SVal) :
    List SVal → St SVal → Option (Res SVal × St SVal)
  | [], st => some (.val f, st)
  | v :: vs, st =>
    thenDo (ap f v st) fun g st => sapplyAll ap g vs st

inductive Order
  | sml
  | grouped
  deriving DecidableEq

/-- The meaning of expressions. -/
def sev (o : Order) : Nat → List (Name × SVal) → Exp → St SVal → Option (Res SVal × St SVal)
  | 0, _, _, _ => none
  | n + 1, ρ, e, st =>
    match e with
    | .const c => some (.val c.toS, st)
    | .var x => (look ρ x).map fun v => (.val v, st)
    | .prim1 k => some (.val (.prim1 k), st)
    | .prim2 k => some (.val (.prim2 k), st)
    | .con k => some (.val (.con k), st)
    | .fn x xs b => some (.val (.clos ρ x xs b), st)
    | .app f a =>
      if o = .sml then
        thenDo (sev o n ρ f st) fun g st => thenDo (sev o n ρ a st) fun v st =>
          sapply (sev o n) g v st
      else
        thenDo (sev o n ρ (normApp f [a]).1 st) fun g st =>
          thenAll (evalLR (sev o n ρ) (normApp f [a]).2 st) fun vs st =>
            sapplyAll (sapply (sev o n)) g vs st
    | .tuple es =>
      thenAll (evalLR (sev o n ρ) es st) fun vs st => some (.val (.block 0 vs), st)
    | .record labs es =>
      thenAll (evalLR (sev o n ρ) es st) fun vs st => some (.val (.block 0 (byLabel labs vs)), st)
    | .par e => sev o n ρ e st
    | .lett x e b =>
      thenDo (sev o n ρ e st) fun v st => sev o n ((x, v) :: ρ) b st
    | .andalso a b =>
      thenDo (sev o n ρ a st) fun v st => if struth v then sev o n ρ b st else some (.val v, st)
    | .orelse a b =>
      thenDo (sev o n ρ a st) fun v st => if struth v then some (.val v, st) else sev o n ρ b st
    | .cond c a b =>
      thenDo (sev o n ρ c st) fun v st => if struth v then sev o n ρ a st else sev o n ρ b st
    | .seq a b =>
      thenDo (sev o n ρ a st) fun _ st => sev o n ρ b st
    | .whil c a =>
      thenDo (sev o n ρ c st) fun v st =>
        if struth v then thenDo (sev o n ρ a st) fun _ st => sev o n ρ (.whil c a) st
        else some (.val sDom.unit, st)
    | .raise e =>
      thenDo (sev o n ρ e st) fun v st => some (.exn v, st)
    | .handle e x b =>
      (match sev o n ρ e st with
       | some (.exn v, st) => sev o n ((x, v) :: ρ) b st
       | r => r)

/-- The result of an expression. -/
def Means (o : Order) (ρ : List (Name × SVal)) (e : Exp) (st : St SVal) (r : Res SVal)
    (st' : St SVal) : Prop := ∃ n, sev o n ρ e st = some (r, st')

/-! ## The intermediate language -/

inductive LVal
  | int (z : Int)
  | str (s : List Nat)
  | block (tag : Nat) (vs : List LVal)
  | loc (l : Nat)
  | clos (env : List LVal) (b : Lam)

def lDom : Dom LVal where
  int := .int
  block := .block
  str := .str
  loc := .loc
  getInt | .int z => some z | _ => none
  getStr | .str s => some s | _ => none
  getLoc | .loc l => some l | _ => none

mutual
def Const.toL : Const → LVal
  | .int z => .int z
  | .str s => .str s
  | .block t cs => .block t (Const.toLs cs)
def Const.toLs : List Const → List LVal
  | [] => []
  | c :: cs => c.toL :: Const.toLs cs
end

def ltruth : LVal → Bool
  | .block 0 [] => false
  | _ => true

def primSem : Prim → List LVal → St LVal → Option (Res LVal × St LVal)
  | .makeblock t, vs, st => some (.val (.block t vs), st)
  | .field i, [.block _ vs], st => (vs[i]?).map fun v => (.val v, st)
  | .raise, [v], st => some (.exn v, st)
  | .op1 k, [v], st => sem1 lDom k v st
  | .op2 k, [v, w], st => sem2 lDom k v w st
  | _, _, _ => none

/-- From right to left. -/
def evalRL {E V S : Type} (ev : E → S → Option (Res V × S)) : List E → S → Option (Ress V × S)
  | [], st => some (.vals [], st)
  | e :: es, st =>
    match evalRL ev es st with
    | some (.vals vs, st) =>
      (match ev e st with
       | some (.val v, st) => some (.vals (v :: vs), st)
       | some (.exn v, st) => some (.stop v, st)
       | none => none)
    | r => r

/-- The arguments of a `let`, each in the environment of those before it; the environment
for the body. -/
def evalLets (ev : List LVal → Lam → St LVal → Option (Res LVal × St LVal)) (env : List LVal) :
    List Lam → St LVal → Option (Ress LVal × St LVal)
  | [], st => some (.vals env, st)
  | e :: es, st =>
    match ev env e st with
    | some (.val v, st) => evalLets ev (v :: env) es st
    | some (.exn v, st) => some (.stop v, st)
    | none => none

/-- A function is applied to its arguments one after the other. -/
def applyL (ev : List LVal → Lam → St LVal → Option (Res LVal × St LVal)) (f : LVal) :
    List LVal → St LVal → Option (Res LVal × St LVal)
  | [], st => some (.val f, st)
  | v :: vs, st =>
    match f with
    | .clos env b => thenDo (ev (v :: env) b st) fun g st => applyL ev g vs st
    | _ => none

/-- The meaning of the intermediate language. -/
def lev : Nat → List LVal → Lam → St LVal → Option (Res LVal × St LVal)
  | 0, _, _, _ => none
  | n + 1, env, e, st =>
    match e with
    | .var i => (env[i]?).map fun v => (.val v, st)
    | .const c => some (.val c.toL, st)
    | .fn b => some (.val (.clos env b), st)
    | .apply f args =>
      thenAll (evalRL (lev n env) args st) fun vs st =>
        thenDo (lev n env f st) fun g st => applyL (lev n) g vs st
    | .lett args b =>
      thenAll (evalLets (lev n) env args st) fun env' st => lev n env' b st
    | .prim p args =>
      thenAll (evalLR (lev n env) args st) fun vs st => primSem p vs st
    | .handle a b =>
      (match lev n env a st with
       | some (.exn v, st) => lev n (v :: env) b st
       | r => r)
    | .cond c a b =>
      thenDo (lev n env c st) fun v st => if ltruth v then lev n env a st else lev n env b st
    | .seq a b =>
      thenDo (lev n env a st) fun _ st => lev n env b st
    | .andalso a b =>
      thenDo (lev n env a st) fun v st => if ltruth v then lev n env b st else some (.val v, st)
    | .orelse a b =>
      thenDo (lev n env a st) fun v st => if ltruth v then some (.val v, st) else lev n env b st
    | .whil c a =>
      thenDo (lev n env c st) fun v st =>
        if ltruth v then thenDo (lev n env a st) fun _ st => lev n env (.whil c a) st
        else some (.val lDom.unit, st)
    | .fatal => none

/-- The result of a term: found with every large enough bound. -/
def Conv (env : List LVal) (l : Lam) (st : St LVal) (r : Res LVal) (st' : St LVal) : Prop :=
  ∃ m, ∀ k, m ≤ k → lev k env l st = some (r, st')

/-! ## Which expressions the theorems are about -/

mutual
/-- No loop outside of function bodies. -/
def noWhile : Exp → Bool
  | .tuple es => noWhiles es
  | .record _ es => noWhiles es
  | .par e => noWhile e
  | .andalso a b => noWhile a && noWhile b
  | .orelse a b => noWhile a && noWhile b
  | .cond c a b => noWhile c && noWhile a && noWhile b
  | .whil _ _ => false
  | .seq a b => noWhile a && noWhile b
  | _ => true
def noWhiles : List Exp → Bool
  | [] => true
  | e :: es => noWhile e && noWhiles es
end

/-- An argument that the translation may move past other arguments has no loop. -/
def argOk (e : Exp) : Prop := isSafe e = true → noWhile e = true

/-- Expressions whose variables are bound, whose records have one expression for each of
their distinct labels, whose constructors are applied to one argument (as the type checker
makes sure), and whose arguments are `argOk`. -/
inductive Good : (Name → Prop) → Exp → Prop
  | const {D c} : Good D (.const c)
  | var {D x} (h : D x) : Good D (.var x)
  | prim1 {D k} : Good D (.prim1 k)
  | prim2 {D k} : Good D (.prim2 k)
  | con {D k} : Good D (.con k)
  | fn {D x xs b} (h : Good (fun y => y = x ∨ y ∈ xs ∨ D y) b) : Good D (.fn x xs b)
  | app {D f a} (hf : Good D f) (ha : Good D a) (of : argOk f) (oa : argOk a)
      (hk : ∀ k, (normApp f [a]).1 = .con k → (normApp f [a]).2 = [a]) : Good D (.app f a)
  | tuple {D es} (h : ∀ e ∈ es, Good D e) (o : ∀ e ∈ es, argOk e) : Good D (.tuple es)
  | record {D labs es} (h : ∀ e ∈ es, Good D e) (o : ∀ e ∈ es, argOk e)
      (hl : labs.length = es.length) (hn : labs.Nodup) : Good D (.record labs es)
  | par {D e} (h : Good D e) : Good D (.par e)
  | lett {D x e b} (he : Good D e) (hb : Good (fun y => y = x ∨ D y) b) : Good D (.lett x e b)
  | andalso {D a b} (ha : Good D a) (hb : Good D b) : Good D (.andalso a b)
  | orelse {D a b} (ha : Good D a) (hb : Good D b) : Good D (.orelse a b)
  | cond {D c a b} (hc : Good D c) (ha : Good D a) (hb : Good D b) : Good D (.cond c a b)
  | seq {D a b} (ha : Good D a) (hb : Good D b) : Good D (.seq a b)
  | whil {D c a} (hc : Good D c) (ha : Good D a) : Good D (.whil c a)
  | raise {D e} (h : Good D e) : Good D (.raise e)
  | handle {D e x b} (he : Good D e) (hb : Good (fun y => y = x ∨ D y) b) :
      Good D (.handle e x b)

/-! ## When values agree -/

/-- A value of the language and its representation: data are equal, references have the
same number, and a function is the translation of its text in an environment that agrees
on the variables. -/
inductive VRel : SVal → LVal → Prop
  | int {z} : VRel (.int z) (.int z)
  | str {s} : VRel (.str s) (.str s)
  | block {t vs ws} (h : List.Forall₂ VRel vs ws) : VRel (.block t vs) (.block t ws)
  | loc {l} : VRel (.loc l) (.loc l)
  | clos {ρ x xs b rho env m}
      (hd : ∀ y pos, look rho y = some pos → pos < env.length ∧ (look ρ y).isSome)
      (hv : ∀ y pos v w, look rho y = some pos → look ρ y = some v →
        env[env.length - 1 - pos]? = some w → VRel v w)
      (hg : Good (fun y => y = x ∨ y ∈ xs ∨ (look rho y).isSome) b)
      (hm : esize b ≤ m) :
      VRel (.clos ρ x xs b)
        (.clos env (lams xs.length
          (trE m (bindAll rho env.length (x :: xs)) (env.length + (xs.length + 1)) b)))
  | prim1 {k env} : VRel (.prim1 k) (.clos env (.prim (.op1 k) [.var 0]))
  | prim2 {k env} : VRel (.prim2 k) (.clos env (.prim (.op2 k) (split (.var 0))))
  | greedy {t n env} :
      VRel (.con (.greedy t n)) (.clos env (.prim (.makeblock t) (extractFields n)))
  | single {env} : VRel (.con .single) (.clos env (.var 0))
  | plain {t env} : VRel (.con (.plain t)) (.clos env (.prim (.makeblock t) [.var 0]))

/-- Environments agree on the variables in scope. -/
structure EnvRel (ρ : List (Name × SVal)) (rho : Rho) (env : List LVal) : Prop where
  dom : ∀ y pos, look rho y = some pos → pos < env.length ∧ (look ρ y).isSome
  val : ∀ y pos v w, look rho y = some pos → look ρ y = some v →
    env[env.length - 1 - pos]? = some w → VRel v w

/-- States agree: the same output, and references with contents that agree. -/
structure StRel (st : St SVal) (lst : St LVal) : Prop where
  cells : List.Forall₂ VRel st.cells lst.cells
  out : st.out = lst.out

/-- Results agree. -/
inductive RRel : Res SVal → Res LVal → Prop
  | val {v w} (h : VRel v w) : RRel (.val v) (.val w)
  | exn {v w} (h : VRel v w) : RRel (.exn v) (.exn w)

/-! ## Applications that run nothing early -/

mutual
/-- The value of an expression that consists of constants, variables, functions, tuples,
records and conditions: it needs no evaluation that could be noticed. -/
def pureVal (ρ : List (Name × SVal)) : Exp → Option SVal
  | .const c => some c.toS
  | .var x => look ρ x
  | .prim1 k => some (.prim1 k)
  | .prim2 k => some (.prim2 k)
  | .con k => some (.con k)
  | .fn x xs b => some (.clos ρ x xs b)
  | .tuple es => (pureVals ρ es).map (.block 0)
  | .record labs es => (pureVals ρ es).map fun vs => .block 0 (byLabel labs vs)
  | .par e => pureVal ρ e
  | .andalso a b =>
    match pureVal ρ a with
    | some v => if struth v then pureVal ρ b else some v
    | none => none
  | .orelse a b =>
    match pureVal ρ a with
    | some v => if struth v then some v else pureVal ρ b
    | none => none
  | .cond c a b =>
    match pureVal ρ c with
    | some v => if struth v then pureVal ρ a else pureVal ρ b
    | none => none
  | .seq a b =>
    match pureVal ρ a with
    | some _ => pureVal ρ b
    | none => none
  | _ => none
def pureVals (ρ : List (Name × SVal)) : List Exp → Option (List SVal)
  | [] => some []
  | e :: es =>
    match pureVal ρ e, pureVals ρ es with
    | some v, some vs => some (v :: vs)
    | _, _ => none
end

/-- A function that is not run by being applied to one argument: it waits for more. -/
def isPartial : SVal → Bool
  | .clos _ _ (_ :: _) _ => true
  | _ => false

/-- Like `sev .sml`, but `none` when a function is run by an application to which further
arguments are given that may have an effect.  `strict` says that such arguments follow. -/
def chk : Bool → Nat → List (Name × SVal) → Exp → St SVal → Option (Res SVal × St SVal)
  | _, 0, _, _, _ => none
  | strict, n + 1, ρ, e, st =>
    match e with
    | .const c => some (.val c.toS, st)
    | .var x => (look ρ x).map fun v => (.val v, st)
    | .prim1 k => some (.val (.prim1 k), st)
    | .prim2 k => some (.val (.prim2 k), st)
    | .con k => some (.val (.con k), st)
    | .fn x xs b => some (.val (.clos ρ x xs b), st)
    | .app f a =>
      thenDo (chk (strict || (pureVal ρ a).isNone) n ρ f st) fun g st =>
        thenDo (chk false n ρ a st) fun v st =>
          if strict && !isPartial g then none else sapply (chk false n) g v st
    | .tuple es =>
      thenAll (evalLR (chk false n ρ) es st) fun vs st => some (.val (.block 0 vs), st)
    | .record labs es =>
      thenAll (evalLR (chk false n ρ) es st) fun vs st => some (.val (.block 0 (byLabel labs vs)), st)
    | .par e => chk strict n ρ e st
    | .lett x e b =>
      thenDo (chk false n ρ e st) fun v st => chk false n ((x, v) :: ρ) b st
    | .andalso a b =>
      thenDo (chk false n ρ a st) fun v st => if struth v then chk false n ρ b st else some (.val v, st)
    | .orelse a b =>
      thenDo (chk false n ρ a st) fun v st => if struth v then some (.val v, st) else chk false n ρ b st
    | .cond c a b =>
      thenDo (chk false n ρ c st) fun v st => if struth v then chk false n ρ a st else chk false n ρ b st
    | .seq a b =>
      thenDo (chk false n ρ a st) fun _ st => chk false n ρ b st
    | .whil c a =>
      thenDo (chk false n ρ c st) fun v st =>
        if struth v then thenDo (chk false n ρ a st) fun _ st => chk false n ρ (.whil c a) st
        else some (.val sDom.unit, st)
    | .raise e =>
      thenDo (chk false n ρ e st) fun v st => some (.exn v, st)
    | .handle e x b =>
      (match chk false n ρ e st with
       | some (.exn v, st) => chk false n ((x, v) :: ρ) b st
       | r => r)

end Mosml.Front
