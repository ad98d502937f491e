import Verif.Typing.Model

/-!
# What a type checker is for: evaluation that can go wrong, and a typing relation

The dynamic semantics of the expressions of `Verif/Typing/Model.lean`, in which applying
something that is not a function, selecting a field that is not there, or using a value of
one datatype as a value of another is the outcome `wrong`; and a declarative type system
over types without variables.  Neither refers to the functions of the type checker (except
that the value restriction refers to `isExpansive`).
-/

namespace Mosml.Typing

/-- Values; environments and the fields of records are chains `nil`/`bind`. -/
inductive Val
  | int (z : Int)
  | bool (b : Bool)
  | con0 (k : Con)
  | con (k : Con) (v : Val)
  | rcd (fs : Val)
  | loc (n : Nat)
  | clos (env : Val) (rs : Exp)
  | rclos (env : Val) (f : Nat) (rs : Exp)
  | prim (p : Prim)
  | conf (k : Con)
  | nil
  | bind (x : Nat) (v rest : Val)

/-- The value bound to an identifier or label. -/
def vlook (x : Nat) : Val → Option Val
  | .bind y v r => if y = x then some v else vlook x r
  | _ => none

/-- Outcomes: a value with the contents of the references, the exception `Match`, an operation
applied to a value for which it has no meaning, or no result within the given depth. -/
inductive Out
  | val (v : Val) (st : List Val)
  | fail
  | wrong
  | timeout

/-- Whether two constructors belong to the same datatype. -/
def sameData : Con → Con → Bool
  | .none, .none | .none, .some | .some, .none | .some, .some => true
  | .nil, .nil | .nil, .cons | .cons, .nil | .cons, .cons => true
  | _, _ => false

/-- Constructors with an argument. -/
def Con.unary : Con → Bool
  | .none => false
  | .some => true
  | .nil => false
  | .cons => true

/-- Outcomes of matching. -/
inductive PM
  | ok (env : Val)
  | no
  | wrong

/-- Matching a value; a chain of fields is matched against the record. -/
def pmatch : Pat → Val → Val → PM
  | .var x, v, env => .ok (.bind x v env)
  | .wild, _, env => .ok env
  | .int z, .int y, env => if z = y then .ok env else .no
  | .bool b, .bool c, env => if b = c then .ok env else .no
  | .as x p, v, env => pmatch p v (.bind x v env)
  | .con0 k, .con0 j, env => if sameData k j then (if k = j then .ok env else .no) else .wrong
  | .con0 k, .con j _, _ => if sameData k j then .no else .wrong
  | .con k _, .con0 j, _ => if sameData k j then .no else .wrong
  | .con k p, .con j v, env =>
    if sameData k j then (if k = j then pmatch p v env else .no) else .wrong
  | .rcd fs _, .rcd vs, env => pmatch fs (.rcd vs) env
  | .fnil, .rcd _, env => .ok env
  | .fcons l p r, .rcd vs, env =>
    match vlook l vs with
    | none => .wrong
    | some v =>
      match pmatch p v env with
      | .ok env => pmatch r (.rcd vs) env
      | .no => .no
      | .wrong => .wrong
  | _, _, _ => .wrong

/-- The first rule that matches, with `ev` for evaluation. -/
def tryRules (ev : Val → Exp → List Val → Out) (env : Val) : Exp → Val → List Val → Out
  | .rnil, _, _ => .fail
  | .rule p e rest, v, st =>
    match pmatch p v env with
    | .ok env' => ev env' e st
    | .no => tryRules ev env rest v st
    | .wrong => .wrong
  | _, _, _ => .wrong

/-- Application of a value to a value. -/
def apply (ev : Val → Exp → List Val → Out) (f v : Val) (st : List Val) : Out :=
  match f with
  | .clos env rs => tryRules ev env rs v st
  | .rclos env g rs => tryRules ev (.bind g (.rclos env g rs) env) rs v st
  | .conf k => .val (.con k v) st
  | .prim .ref => .val (.loc st.length) (st ++ [v])
  | .prim .deref =>
    match v with
    | .loc n => match st[n]? with
      | some w => .val w st
      | none => .wrong
    | _ => .wrong
  | .prim .assign =>
    match v with
    | .rcd vs =>
      match vlook 1 vs, vlook 2 vs with
      | some (.loc n), some w => if n < st.length then .val (.rcd .nil) (st.set n w) else .wrong
      | _, _ => .wrong
    | _ => .wrong
  | .prim .add =>
    match v with
    | .rcd vs =>
      match vlook 1 vs, vlook 2 vs with
      | some (.int a), some (.int b) => .val (.int (a + b)) st
      | _, _ => .wrong
    | _ => .wrong
  | _ => .wrong

/-- The outcome of one evaluation handed on to the rest. -/
def Out.then (o : Out) (f : Val → List Val → Out) : Out :=
  match o with
  | .val v st => f v st
  | .fail => .fail
  | .wrong => .wrong
  | .timeout => .timeout

/-- Evaluation to the given depth, in an environment, with the contents of the references.
(A chain of rules by itself is not an expression.) -/
def eval : Nat → Val → Exp → List Val → Out
  | 0, _, _, _ => .timeout
  | n + 1, env, e, st =>
    match e with
    | .int z => .val (.int z) st
    | .bool b => .val (.bool b) st
    | .var x => match vlook x env with
      | some v => .val v st
      | none => .wrong
    | .prim p => .val (.prim p) st
    | .con k => .val (if k.unary then .conf k else .con0 k) st
    | .fn rs => .val (.clos env rs) st
    | .app f a =>
      (eval n env f st).then fun vf st => (eval n env a st).then fun va st =>
        apply (eval n) vf va st
    | .rcd fs => (eval n env fs st).then fun v st => .val (.rcd v) st
    | .fnil => .val .nil st
    | .fcons l e r =>
      (eval n env e st).then fun v st => (eval n env r st).then fun vs st =>
        .val (.bind l v vs) st
    | .ite c a b =>
      (eval n env c st).then fun v st =>
        match v with
        | .bool true => eval n env a st
        | .bool false => eval n env b st
        | _ => .wrong
    | .letv x e b => (eval n env e st).then fun v st => eval n (.bind x v env) b st
    | .letf f rs b => eval n (.bind f (.rclos env f rs) env) b st
    | .rnil => .timeout
    | .rule _ _ _ => .timeout

/-- A program goes wrong: at some depth its evaluation meets an operation without meaning. -/
def GoesWrong (e : Exp) : Prop := ∃ n, eval n .nil e [] = .wrong

/-- Types without variables.  A record type says which labels there are with which types. -/
inductive GTy
  | arrow (a b : GTy)
  | con (c : Nat) (args : GTy)
  | rcd (f : Nat → Option GTy)
  | nil
  | cons (t ts : GTy)

def gInt : GTy := .con 0 .nil
def gBool : GTy := .con 1 .nil
def gRef (t : GTy) : GTy := .con 2 (.cons t .nil)
def gOpt (t : GTy) : GTy := .con 3 (.cons t .nil)
def gList (t : GTy) : GTy := .con 4 (.cons t .nil)
def gUnit : GTy := .rcd fun _ => none
def gPair (a b : GTy) : GTy :=
  .rcd fun l => if l = 1 then some a else if l = 2 then some b else none

def primG (a : GTy) : Prim → GTy
  | .ref => .arrow a (gRef a)
  | .deref => .arrow (gRef a) a
  | .assign => .arrow (gPair (gRef a) a) gUnit
  | .add => .arrow (gPair gInt gInt) gInt

def conArgG (a : GTy) : Con → Option GTy
  | .none => none
  | .some => some a
  | .nil => none
  | .cons => some (gPair a (gList a))

def conResG (a : GTy) : Con → GTy
  | .none => gOpt a
  | .some => gOpt a
  | .nil => gList a
  | .cons => gList a

def conG (a : GTy) (k : Con) : GTy :=
  match conArgG a k with
  | some b => .arrow b (conResG a k)
  | none => conResG a k

/-- The type of a label in a chain of types. -/
def zipLook : List Nat → GTy → Nat → Option GTy
  | l :: ls, .cons t ts, x => if x = l then some t else zipLook ls ts x
  | _, _, _ => none

/-- `PTyp p t D D'`: the pattern can be matched against values of type `t`, and adds the types
of its variables to `D`.  A chain of fields is typed at the type of the record. -/
inductive PTyp : Pat → GTy → List (Nat × GTy) → List (Nat × GTy) → Prop
  | var (x t D) : look x D = none → PTyp (.var x) t D ((x, t) :: D)
  | wild (t D) : PTyp .wild t D D
  | int (z D) : PTyp (.int z) gInt D D
  | bool (b D) : PTyp (.bool b) gBool D D
  | as (x p t D D') : look x D = none → PTyp p t ((x, t) :: D) D' → PTyp (.as x p) t D D'
  | con0 (k a D) : conArgG a k = none → PTyp (.con0 k) (conResG a k) D D
  | con (k a b p D D') : conArgG a k = some b → PTyp p b D D' → PTyp (.con k p) (conResG a k) D D'
  | rcd (fs dots f D D') : fs.isFields = true → fs.labels.Nodup →
      (dots = false → ∀ l, l ∉ fs.labels → f l = none) → PTyp fs (.rcd f) D D' →
      PTyp (.rcd fs dots) (.rcd f) D D'
  | fnil (f D) : PTyp .fnil (.rcd f) D D
  | fcons (l p r f t D D' D'') : f l = some t → PTyp p t D D' → PTyp r (.rcd f) D' D'' →
      PTyp (.fcons l p r) (.rcd f) D D''

/-- Typing contexts: each identifier has a set of types. -/
abbrev Ctx := List (Nat × (GTy → Prop))

/-- Identifiers with one type each. -/
def monoG (D : List (Nat × GTy)) : Ctx := D.map fun p => (p.1, fun t => t = p.2)

/-- Typing.  An identifier bound by `val` has a non-empty set of types, each of which the
bound expression has; if the expression is expansive the set has one element.  A chain of
rules has an arrow type, a chain of fields the chain of their types. -/
inductive Typ : Ctx → Exp → GTy → Prop
  | int (G z) : Typ G (.int z) gInt
  | bool (G b) : Typ G (.bool b) gBool
  | var (G x P t) : look x G = some P → P t → Typ G (.var x) t
  | prim (G p a) : Typ G (.prim p) (primG a p)
  | con (G k a) : Typ G (.con k) (conG a k)
  | fn (G rs a b) : rs.isRules = true → Typ G rs (.arrow a b) → Typ G (.fn rs) (.arrow a b)
  | rnil (G a b) : Typ G .rnil (.arrow a b)
  | rule (G p e rest a b D) : PTyp p a [] D → Typ (monoG D ++ G) e b →
      Typ G rest (.arrow a b) → Typ G (.rule p e rest) (.arrow a b)
  | app (G f a t u) : Typ G f (.arrow t u) → Typ G a t → Typ G (.app f a) u
  | rcd (G fs ts) : fs.labels.Nodup → Typ G fs ts →
      Typ G (.rcd fs) (.rcd (zipLook fs.labels ts))
  | fnil (G) : Typ G .fnil .nil
  | fcons (G l e r t ts) : Typ G e t → Typ G r ts → Typ G (.fcons l e r) (.cons t ts)
  | ite (G c a b t) : Typ G c gBool → Typ G a t → Typ G b t → Typ G (.ite c a b) t
  | letv (G x e b t P) : (∃ u, P u) → (∀ u, P u → Typ G e u) →
      (isExpansive e = true → ∀ u v, P u → P v → u = v) →
      Typ ((x, P) :: G) b t → Typ G (.letv x e b) t
  | letf (G f rs b t) (P : GTy → GTy → Prop) : rs.isRules = true →
      (∃ u v, P u v) →
      (∀ u v, P u v → Typ ((f, fun w => w = .arrow u v) :: G) rs (.arrow u v)) →
      Typ ((f, fun w => ∃ u v, P u v ∧ w = .arrow u v) :: G) b t →
      Typ G (.letf f rs b) t

/-! ## Programs without three dots -/

/-- Patterns without `...`, whose chains are where lists stand in Asynt.sml; the flag tells
whether a chain is expected. -/
def Pat.legal : Pat → Bool → Bool
  | .fnil, c => c
  | .fcons _ p r, c => c && p.legal false && r.legal true
  | .rcd fs dots, c => !c && !dots && fs.legal true
  | .as _ p, c => !c && p.legal false
  | .con _ p, c => !c && p.legal false
  | _, c => !c

inductive Kind
  | exp
  | rules
  | fields
  deriving DecidableEq

/-- Expressions without `...`, whose chains are where lists stand in Asynt.sml. -/
def Exp.legal : Exp → Kind → Bool
  | .fn rs, k => k = .exp && rs.legal .rules
  | .rnil, k => k = .rules
  | .rule p e r, k => k = .rules && p.legal false && e.legal .exp && r.legal .rules
  | .rcd fs, k => k = .exp && fs.legal .fields
  | .fnil, k => k = .fields
  | .fcons _ e r, k => k = .fields && e.legal .exp && r.legal .fields
  | .app f a, k => k = .exp && f.legal .exp && a.legal .exp
  | .ite c a b, k => k = .exp && c.legal .exp && a.legal .exp && b.legal .exp
  | .letv _ e b, k => k = .exp && e.legal .exp && b.legal .exp
  | .letf _ rs b, k => k = .exp && rs.legal .rules && b.legal .exp
  | _, k => k = .exp

end Mosml.Typing
