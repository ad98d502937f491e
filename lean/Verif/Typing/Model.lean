import Verif.Util
import Mathlib.Data.List.Dedup

/-!
# Type inference for the core language

Model of unification and generalization (src/compiler/Types.sml), and of the elaboration of
expressions and patterns (src/compiler/Elab.sml) for constants, variables, primitives,
constructors, functions given by rules, applications, records, conditionals, `val x = e`
and `fun f ...`, with the final check of Ovlres.sml that all record patterns with `...`
are resolved.

Representation and simplifications:

* The program's references to type variables and rows are numbers; a state `St` lists what
  each number stands for.  Following links (`normType`, `normalizeRecType`,
  Types.sml:974-991, 186-196) as far as possible is `St.app`: the state keeps all links
  resolved, so that linking a variable (`St.link`) substitutes in all entries.  The code
  follows links on demand; both see the same types.
* A record type (`RECt` of a reference to fields and a row) is `rcd` of a chain of fields
  that ends in `nil` (`NILrow`) or in a variable (`VARrow`).  The assignments of the
  reference at the end of `unifyRec` and in `normalizeRecType` replace the fields by
  equal ones, and are implied by `St.app`.
* Lists inside types, patterns, expressions and values are written as chains in the same
  inductive type (`nil`/`cons`/`field`, `rnil`/`rule`, `fnil`/`fcons`).
* Explicit type variables, type annotations, equality and overloading attributes, imperative
  type variables (`value_polymorphism` is on, its default), datatype declarations (two fixed
  datatypes, options and lists, stand for them), exceptions other than the failure of a
  match, curried rules, `val` with a pattern other than a variable, simultaneous bindings,
  and modules are left out; so is the hint that unifies the argument of an infix identifier
  with a pair before the argument is elaborated (Elab.sml:2087-2091).  A sequence of
  declarations is elaborated like nested `let`s (`SEQdec` elaborates the second declaration
  at the next binding level, as `LETexp` does with the body, Elab.sml:2409-2419, 2095-2104,
  and then lowers levels).
* Labels are numbers, in the order of `lt_lab` (Mixture.sml:132-136).
-/

namespace Mosml.Typing

/-- `Type` and `RowTypeKind`, Globals.sml:40-140: type (and row) variables, `ARROWt`, `CONt`
with its list of arguments, `RECt`; the lists of arguments are chains `cons`/`nil`, rows are
chains `field`/`nil`/`var`. -/
inductive Ty
  | var (v : Nat)
  | arrow (a b : Ty)
  | con (c : Nat) (args : Ty)
  | rcd (row : Ty)
  | nil
  | cons (t ts : Ty)
  | field (l : Nat) (t row : Ty)
  deriving DecidableEq

/-- The type constructors `int`, `bool`, `ref`, `option`, `list`. -/
def tInt : Ty := .con 0 .nil
def tBool : Ty := .con 1 .nil
def tRef (t : Ty) : Ty := .con 2 (.cons t .nil)
def tOpt (t : Ty) : Ty := .con 3 (.cons t .nil)
def tList (t : Ty) : Ty := .con 4 (.cons t .nil)

/-- `type_unit` (the empty record) and `type_pair`, Types.sml:1826; the labels `1` and `2`. -/
def tUnit : Ty := .rcd .nil
def tPair (a b : Ty) : Ty := .rcd (.field 1 a (.field 2 b .nil))

/-- `insertField`, Mixture.sml:138-148, into the fields of a row.  Equal labels are a
`fatalError` in the code. -/
def ins (l : Nat) (t : Ty) : Ty → Ty
  | .field l' t' r => if l ≤ l' then .field l t (.field l' t' r) else .field l' t' (ins l t r)
  | r => .field l t r

/-- What a type is when variables stand for `f`; fields that a row stands for are inserted in
order (`normalizeRecType`, Types.sml:186-196). -/
def Ty.subst (f : Nat → Ty) : Ty → Ty
  | .var v => f v
  | .arrow a b => .arrow (a.subst f) (b.subst f)
  | .con c ts => .con c (ts.subst f)
  | .rcd r => .rcd (r.subst f)
  | .nil => .nil
  | .cons t ts => .cons (t.subst f) (ts.subst f)
  | .field l t r => ins l (t.subst f) (r.subst f)

/-- The variables of a type, `freeVarsType`, Types.sml:838-864 (of a type whose links are
resolved). -/
def Ty.fv : Ty → List Nat
  | .var v => [v]
  | .arrow a b => a.fv ++ b.fv
  | .con _ ts => ts.fv
  | .rcd r => r.fv
  | .nil => []
  | .cons t ts => t.fv ++ ts.fv
  | .field _ t r => t.fv ++ r.fv

/-- A type variable or a row variable, Globals.sml:40-140 (`TypeVar`, `RowVar`): what it
stands for (itself, while `NoLink` or `VARrow`), its level, and which of the two it is. -/
structure TV where
  img : Ty
  lvl : Nat
  row : Bool

/-- The variables created so far, and those of the record patterns with `...`. -/
structure St where
  tv : List TV
  dots : List Nat

/-- What a variable stands for. -/
def St.img (S : St) (v : Nat) : Ty :=
  match S.tv[v]? with
  | some e => e.img
  | none => .var v

/-- The level of a variable. -/
def St.lvl (S : St) (v : Nat) : Nat :=
  match S.tv[v]? with
  | some e => e.lvl
  | none => 0

/-- Whether a variable is a row variable. -/
def St.isRow (S : St) (v : Nat) : Bool :=
  match S.tv[v]? with
  | some e => e.row
  | none => false

/-- A type with all links followed. -/
def St.app (S : St) (t : Ty) : Ty := t.subst S.img

/-- A new variable, `mkTypeVar` and `mkVarRowType`, Types.sml:243-250, 312-314. -/
def St.fresh (S : St) (lvl : Nat) (row : Bool) : St :=
  { S with tv := S.tv ++ [⟨.var S.tv.length, lvl, row⟩] }

/-- `n` new type variables (`newUnknown`, Types.sml:272-274). -/
def St.freshN (S : St) (lvl : Nat) : Nat → St
  | 0 => S
  | n + 1 => (S.fresh lvl false).freshN lvl n

/-- `prune_level`, Types.sml:1177-1195: levels of the given variables become at most `m`. -/
def St.prune (S : St) (m : Nat) (vs : List Nat) : St :=
  { S with tv := S.tv.mapIdx fun i e =>
      if i ∈ vs ∧ m < e.lvl then { e with lvl := m } else e }

/-- Substitution of one variable. -/
def sub1 (v : Nat) (t : Ty) (w : Nat) : Ty := if w = v then t else .var w

/-- `setTvKind var (LinkTo tau)`, or an assignment to a row. -/
def St.bind (S : St) (v : Nat) (t : Ty) : St :=
  { S with tv := S.tv.map fun e => { e with img := e.img.subst (sub1 v t) } }

/-- `linkVarToType`, Types.sml:1498-1507, after the check of circularity. -/
def St.link (S : St) (v : Nat) (t : Ty) : St :=
  (S.prune (S.lvl v) t.fv).bind v t

/-- Why elaboration stops: a type error reported to the user (`Unify`, or another error
message), an internal error of the compiler (`fatalError`), or the bound on the depth of
recursion in the model. -/
inductive Err
  | type
  | fatal
  | fuel
  deriving DecidableEq

abbrev Res := Except Err

/-- `extractLab`, Types.sml:1148-1165. -/
def extractLab (S : St) (l : Nat) (rho : Ty) : Res (St × Ty × Ty) :=
  match rho with
  | .nil => .error .type
  | .var r =>
    if S.img r = .var r then
      let m := S.tv.length
      let S1 := (S.fresh (S.lvl r) true).fresh (S.lvl r) false
      .ok (S1.link r (.field l (.var (m + 1)) (.var m)), .var (m + 1), .var m)
    else .error .fatal
  | _ => .error .fatal

/-- `unifyRho`, Types.sml:1351-1371.  A row that has got a link or a field meanwhile is a
`fatalError`, unless both rows are the same reference. -/
def unifyRho (S : St) (r1 r2 : Ty) : Res St :=
  match r1, r2 with
  | .nil, .nil => .ok S
  | .nil, .var b => if S.img b = .var b then .ok (S.link b .nil) else .error .fatal
  | .var a, .nil => if S.img a = .var a then .ok (S.link a .nil) else .error .fatal
  | .var a, .var b =>
    if a = b then .ok S
    else if S.img a = .var a ∧ S.img b = .var b then .ok (S.link a (.var b))
    else .error .fatal
  | _, _ => .error .fatal

/-- The fields of a row, and its end. -/
def Ty.fields : Ty → List (Nat × Ty)
  | .field l t r => (l, t) :: r.fields
  | _ => []

def Ty.rend : Ty → Ty
  | .field _ _ r => r.rend
  | r => r

/-- `unifyRecAcc`, Types.sml:1513-1541, with `u` for `unify`; the first argument bounds the
number of fields. -/
def unifyRec (u : St → Ty → Ty → Res St) :
    Nat → St → List (Nat × Ty) → Ty → List (Nat × Ty) → Ty → Res St
  | _, S, [], r1, [], r2 => unifyRho S r1 r2
  | 0, _, _, _, _, _ => .error .fuel
  | n + 1, S, (l1, t1) :: fs1, r1, [], r2 => do
    let (S, t2, r2') ← extractLab S l1 r2
    let S ← u S t1 t2
    unifyRec u n S fs1 r1 [] r2'
  | n + 1, S, [], r1, (l2, t2) :: fs2, r2 => do
    let (S, t1, r1') ← extractLab S l2 r1
    let S ← u S t1 t2
    unifyRec u n S [] r1' fs2 r2
  | n + 1, S, (l1, t1) :: fs1, r1, (l2, t2) :: fs2, r2 =>
    if l1 < l2 then do
      let (S, t2', r2') ← extractLab S l1 r2
      let S ← u S t1 t2'
      unifyRec u n S fs1 r1 ((l2, t2) :: fs2) r2'
    else if l2 < l1 then do
      let (S, t1', r1') ← extractLab S l2 r1
      let S ← u S t1' t2
      unifyRec u n S ((l1, t1) :: fs1) r1' fs2 r2
    else do
      let S ← u S t1 t2
      unifyRec u n S fs1 r1 fs2 r2

/-- `linkVarToType`, Types.sml:1498-1507, with `occur_check`, 1167-1173. -/
def linkVar (S : St) (v : Nat) (t : Ty) : Res St :=
  if v ∈ t.fv then .error .type else .ok (S.link v t)

/-- `unify`, Types.sml:1387-1431, and `unifySeq`, 1509; the first argument bounds the depth
of recursion. -/
def unify : Nat → St → Ty → Ty → Res St
  | 0, _, _, _ => .error .fuel
  | k + 1, S, a, b =>
    match S.app a, S.app b with
    | .var v, .var w =>
      if v = w then .ok S
      else if S.lvl v ≤ S.lvl w then linkVar S v (.var w) else linkVar S w (.var v)
    | .var v, t => linkVar S v t
    | t, .var w => linkVar S w t
    | .arrow a1 a2, .arrow b1 b2 => do unify k (← unify k S a1 b1) a2 b2
    | .con c ts, .con d us => if c = d then unify k S ts us else .error .type
    | .nil, .nil => .ok S
    | .cons a1 a2, .cons b1 b2 => do unify k (← unify k S a1 b1) a2 b2
    | .rcd r, .rcd q =>
      unifyRec (unify k) (r.fields.length + q.fields.length) S r.fields r.rend q.fields q.rend
    | _, _ => .error .type

/-- `TypeScheme`, Globals.sml: parameters and body. -/
structure Scheme where
  ps : List Nat
  body : Ty

/-- The type variables of a list that have a level above `n`. -/
def St.above (S : St) (n : Nat) (vs : List Nat) : List Nat :=
  (vs.filter fun v => n < S.lvl v && !S.isRow v).dedup

/-- Replacement of parameters by variables numbered from `m`. -/
def inst (ps : List Nat) (m : Nat) (v : Nat) : Ty :=
  match ps.idxOf? v with
  | some i => .var (m + i)
  | none => .var v

/-- `generalization`, Types.sml:1558-1588, at binding level `n`, followed by `renameScheme`
(Elab.sml:576, copyTypeScheme, Types.sml:546-558).  Row variables are neither generalized
nor given the level `n`. -/
def generalize (S : St) (n : Nat) (expansive : Bool) (t : Ty) : St × Scheme :=
  let u := S.app t
  let tvs := S.above n u.fv
  if expansive then (S.prune n tvs, ⟨[], u⟩)
  else
    let q := S.tv.length
    (S.freshN (n + 1) tvs.length,
      ⟨(List.range tvs.length).map (q + ·), u.subst (inst tvs q)⟩)

/-- Primitives. -/
inductive Prim
  | ref
  | deref
  | assign
  | add
  deriving DecidableEq

/-- Constructors: `NONE`, `SOME`, `nil`, `::`. -/
inductive Con
  | none
  | some
  | nil
  | cons
  deriving DecidableEq

/-- The types of primitives at the instance `a` of their parameter. -/
def primTy (a : Ty) : Prim → Ty
  | .ref => .arrow a (tRef a)
  | .deref => .arrow (tRef a) a
  | .assign => .arrow (tPair (tRef a) a) tUnit
  | .add => .arrow (tPair tInt tInt) tInt

/-- The argument type (of a constructor with an argument) and result type. -/
def conArg (a : Ty) : Con → Option Ty
  | .none => none
  | .some => some a
  | .nil => none
  | .cons => some (tPair a (tList a))

def conRes (a : Ty) : Con → Ty
  | .none => tOpt a
  | .some => tOpt a
  | .nil => tList a
  | .cons => tList a

def conTy (a : Ty) (k : Con) : Ty :=
  match conArg a k with
  | some b => .arrow b (conRes a k)
  | none => conRes a k

/-- Patterns, Asynt.sml; `rcd fs dots` with the chain of its fields. -/
inductive Pat
  | var (x : Nat)
  | wild
  | int (z : Int)
  | bool (b : Bool)
  | as (x : Nat) (p : Pat)
  | con0 (k : Con)
  | con (k : Con) (p : Pat)
  | rcd (fs : Pat) (dots : Bool)
  | fnil
  | fcons (l : Nat) (p rest : Pat)

/-- Expressions, Asynt.sml; `fn` with the chain of its rules, `rcd` with that of its fields;
`letv x e b` is `let val x = e in b end`, `letf f rs b` is `let val rec f = fn rs in b end`
(which `fun` abbreviates). -/
inductive Exp
  | int (z : Int)
  | bool (b : Bool)
  | var (x : Nat)
  | prim (p : Prim)
  | con (k : Con)
  | fn (rs : Exp)
  | app (f a : Exp)
  | rcd (fs : Exp)
  | ite (c a b : Exp)
  | letv (x : Nat) (e b : Exp)
  | letf (f : Nat) (rs b : Exp)
  | rnil
  | rule (p : Pat) (e rest : Exp)
  | fnil
  | fcons (l : Nat) (e rest : Exp)

/-- The labels of a chain of fields. -/
def Pat.labels : Pat → List Nat
  | .fcons l _ r => l :: r.labels
  | _ => []

def Exp.labels : Exp → List Nat
  | .fcons l _ r => l :: r.labels
  | _ => []

/-- Whether a chain is one of fields, or of rules, as all chains that stand for lists are. -/
def Pat.isFields : Pat → Bool
  | .fnil => true
  | .fcons _ _ r => r.isFields
  | _ => false

def Exp.isRules : Exp → Bool
  | .rnil => true
  | .rule _ _ r => r.isRules
  | _ => false

/-- `isExpansiveExp`, Elab.sml:522-556.  `ref` is a primitive here, as after elaboration
(`REFname` becomes `PRIMik piRef`, Elab.sml:2069-2072). -/
def isExpansive : Exp → Bool
  | .int _ | .bool _ | .var _ | .prim _ | .con _ | .fn _ => false
  | .rcd fs => isExpansive fs
  | .fnil => false
  | .fcons _ e r => isExpansive e || isExpansive r
  | .app (.con _) a => isExpansive a
  | _ => true

/-- The row of the given labels whose types are variables numbered from `m`, with the given
end; `sortRow` of Mixture.sml:150 (insertion begins at the right, which for distinct labels
makes no difference). -/
def mkRow (r : Ty) : List Nat → Nat → Ty
  | [], _ => r
  | l :: ls, m => ins l (.var m) (mkRow r ls (m + 1))

/-- A chain of `k` variables numbered from `m`. -/
def vars (m : Nat) : Nat → Ty
  | 0 => .nil
  | k + 1 => .cons (.var m) (vars (m + 1) k)

/-- Environments. -/
abbrev Env := List (Nat × Scheme)

def look {α : Type} (x : Nat) : List (Nat × α) → Option α
  | [] => none
  | (y, a) :: r => if y = x then some a else look x r

/-- `elabPat`, Elab.sml:1556-1659, at binding level `n`: the type that the pattern has to
have is given, the variables with their types are added to `PE`. -/
def elabPat (k n : Nat) : Pat → Ty → St → List (Nat × Ty) → Res (St × List (Nat × Ty))
  | .var x, t, S, PE =>
    if (look x PE).isSome then .error .type else .ok (S, (x, t) :: PE)
  | .wild, _, S, PE => .ok (S, PE)
  | .int _, t, S, PE => do .ok (← unify k S tInt t, PE)
  | .bool _, t, S, PE => do .ok (← unify k S tBool t, PE)
  | .as x p, t, S, PE =>
    if (look x PE).isSome then .error .type else elabPat k n p t S ((x, t) :: PE)
  | .con0 c, t, S, PE => do
    let a := S.tv.length
    let S := S.fresh n false
    if (conArg (.var a) c).isSome then .error .type
    else .ok (← unify k S (conTy (.var a) c) t, PE)
  | .con c p, t, S, PE => do
    let a := S.tv.length
    let S := ((S.fresh n false).fresh n false).fresh n false
    let S ← unify k S (conTy (.var a) c) (.arrow (.var (a + 1)) (.var (a + 2)))
    let S ← unify k S (.var (a + 2)) t
    elabPat k n p (.var (a + 1)) S PE
  | .rcd fs dots, t, S, PE => do
    let ls := fs.labels
    if ¬ ls.Nodup then .error .type
    else if ¬ fs.isFields then .error .fatal
    else
      let a := S.tv.length
      let S := S.freshN n ls.length
      if dots then
        let r := S.tv.length
        let S := { S.fresh n true with dots := r :: S.dots }
        let S ← unify k S (.rcd (mkRow (.var r) ls a)) t
        elabPat k n fs (vars a ls.length) S PE
      else
        let S ← unify k S (.rcd (mkRow .nil ls a)) t
        elabPat k n fs (vars a ls.length) S PE
  | .fnil, .nil, S, PE => .ok (S, PE)
  | .fcons _ p r, .cons t ts, S, PE => do
    let (S, PE) ← elabPat k n p t S PE
    elabPat k n r ts S PE
  | _, _, _, _ => .error .fatal

/-- The environment of a pattern: `trivial_scheme`. -/
def mono (PE : List (Nat × Ty)) : Env := PE.map fun p => (p.1, ⟨[], p.2⟩)

/-- `specialization`, Types.sml:1756-1766: new variables for the parameters. -/
def specialize (S : St) (n : Nat) (sc : Scheme) : St × Ty :=
  (S.freshN n sc.ps.length, sc.body.subst (inst sc.ps S.tv.length))

/-- `elabExp`, Elab.sml:2029-2226, at binding level `n`, with `elabMatch` and `elabMRule`
(2243-2271; the chain of rules is elaborated at the type `arrow arg res`), `elabDec` for
value declarations (2283-2296) and `closeValBindVE` (578-583).  The fields of a record are
elaborated at the chain of their types. -/
def elabExp (k : Nat) : Exp → Nat → Env → Ty → St → Res St
  | .int _, _, _, t, S => unify k S tInt t
  | .bool _, _, _, t, S => unify k S tBool t
  | .var x, n, E, t, S =>
    match look x E with
    | none => .error .type
    | some sc => unify k (specialize S n sc).1 (specialize S n sc).2 t
  | .prim p, n, _, t, S => unify k (S.fresh n false) (primTy (.var S.tv.length) p) t
  | .con c, n, _, t, S => unify k (S.fresh n false) (conTy (.var S.tv.length) c) t
  | .fn rs, n, E, t, S => do
    if ¬ rs.isRules then .error .fatal
    else
      let a := S.tv.length
      let S := S.freshN n 2
      let S ← unify k S (.arrow (.var a) (.var (a + 1))) t
      elabExp k rs n E (.arrow (.var a) (.var (a + 1))) S
  | .rnil, _, _, .arrow _ _, S => .ok S
  | .rule p e rest, n, E, .arrow ta tr, S => do
    let (S, PE) ← elabPat k n p ta S []
    let S ← elabExp k e n (mono PE ++ E) tr S
    elabExp k rest n E (.arrow ta tr) S
  | .app f a, n, E, t, S => do
    let v := S.tv.length
    let S ← elabExp k f n E (.var v) (S.fresh n false)
    let w := S.tv.length
    let S := S.freshN n 2
    let S ← unify k S (.var v) (.arrow (.var w) (.var (w + 1)))
    let S ← unify k S (.var (w + 1)) t
    elabExp k a n E (.var w) S
  | .rcd fs, n, E, t, S => do
    let ls := fs.labels
    if ¬ ls.Nodup then .error .type
    else
      let a := S.tv.length
      let S := S.freshN n ls.length
      let S ← unify k S (.rcd (mkRow .nil ls a)) t
      elabExp k fs n E (vars a ls.length) S
  | .fnil, _, _, .nil, S => .ok S
  | .fcons _ e r, n, E, .cons t ts, S => do
    let S ← elabExp k e n E t S
    elabExp k r n E ts S
  | .ite c a b, n, E, t, S => do
    let S ← elabExp k c n E tBool S
    let S ← elabExp k a n E t S
    elabExp k b n E t S
  | .letv x e b, n, E, t, S => do
    let v := S.tv.length
    let S ← elabExp k e (n + 1) E (.var v) (S.fresh (n + 1) false)
    let (S, sc) := generalize S n (isExpansive e) (.var v)
    elabExp k b (n + 1) ((x, sc) :: E) t S
  | .letf f rs b, n, E, t, S => do
    if ¬ rs.isRules then .error .fatal
    else
      let v := S.tv.length
      let S := S.freshN (n + 1) 3
      let S ← unify k S (.arrow (.var (v + 1)) (.var (v + 2))) (.var v)
      let S ← elabExp k rs (n + 1) ((f, ⟨[], .var v⟩) :: E)
        (.arrow (.var (v + 1)) (.var (v + 2))) S
      let (S, sc) := generalize S n false (.var v)
      elabExp k b (n + 1) ((f, sc) :: E) t S
  | _, _, _, _, _ => .error .fatal

/-- `resolve3Dot`, Ovlres.sml:248-257: the row of every record pattern with `...` has been
determined. -/
def St.resolved (S : St) : Bool := S.dots.all fun r => (S.app (.var r)).rend == .nil

/-- Elaboration of a program, the declaration `val it = e`: at level 1, then the check of
the record patterns. -/
def check (k : Nat) (e : Exp) : Res St := do
  let S ← elabExp k e 1 [] (.var 0) ((⟨[], []⟩ : St).fresh 1 false)
  if S.resolved then .ok S else .error .type

end Mosml.Typing
