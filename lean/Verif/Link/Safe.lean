import Verif.Util

/-!
# Which declarations are marked pure

Model of `isSafe` (src/compiler/Front.sml:223-254) and of the flags that `trToplevelDec`
(Front.sml:1200-1275) puts on the phrases of value, `exception` and `open` declarations.
Module expressions (Front.sml:255-266) and the declarations of structures and functors are
not modelled.  Expressions are evaluated by a bounded evaluator that is exact on the
expressions `isSafe` may accept; what the others do (application, `let`, `handle`,
`raise`) is a parameter, so the theorems hold whatever they do.
-/

namespace Mosml.Safe

/-- Patterns: `_`, a variable, `true`/`false`, an integer constant, a tuple. -/
inductive Pat where
  | wild
  | var (x : Nat)
  | bool (b : Bool)
  | int (n : Int)
  | tup (ps : List Pat)

/-- Expressions, Asynt.sml (`Exp'`), after resolution of infixes and overloading.  `con`
stands for an identifier bound to a nullary constructor, `var` for any other one. -/
inductive Exp where
  | scon (n : Int)
  | con (b : Bool)
  | var (x : Nat)
  | fn (rules : List (Pat × Exp))
  | app (f a : Exp)
  | tuple (es : List Exp)
  | vec (es : List Exp)
  | par (e : Exp)
  | «let» (p : Pat) (e body : Exp)
  | typed (e : Exp)
  | andalso (a b : Exp)
  | orelse (a b : Exp)
  | handle (e : Exp) (rules : List (Pat × Exp))
  | raise (e : Exp)
  | ite (c a b : Exp)
  | while (c a : Exp)
  | seq (a b : Exp)

/-- `isSafe`, Front.sml:223-252. -/
def isSafe : Exp → Bool
  | .scon _ => true
  | .con _ => true
  | .var _ => true
  | .fn _ => true
  | .app _ _ => false
  | .tuple es => es.attach.all fun e => isSafe e.1
  | .vec es => es.attach.all fun e => isSafe e.1
  | .par e => isSafe e
  | .let _ _ _ => false
  | .typed e => isSafe e
  | .andalso a b => isSafe a && isSafe b
  | .orelse a b => isSafe a && isSafe b
  | .handle _ _ => false
  | .raise _ => false
  | .ite c a b => isSafe c && isSafe a && isSafe b
  | .while c a => isSafe c && isSafe a
  | .seq a b => isSafe a && isSafe b
termination_by e => e
decreasing_by
  all_goals simp_wf
  all_goals try omega
  all_goals (have := List.sizeOf_lt_of_mem e.2; omega)

/-- No loop outside of function bodies. -/
def noWhile : Exp → Bool
  | .tuple es => es.attach.all fun e => noWhile e.1
  | .vec es => es.attach.all fun e => noWhile e.1
  | .par e => noWhile e
  | .typed e => noWhile e
  | .andalso a b => noWhile a && noWhile b
  | .orelse a b => noWhile a && noWhile b
  | .ite c a b => noWhile c && noWhile a && noWhile b
  | .while _ _ => false
  | .seq a b => noWhile a && noWhile b
  | _ => true
termination_by e => e
decreasing_by
  all_goals simp_wf
  all_goals try omega
  all_goals (have := List.sizeOf_lt_of_mem e.2; omega)

inductive Val where
  | bool (b : Bool)
  | unit
  | int (n : Int)
  | tup (vs : List Val)
  | vec (vs : List Val)
  | clos (rules : List (Pat × Exp)) (env : List (Nat × Val))
  | bindExn
  | ref (l : Nat)

inductive Res where
  | val (v : Val)
  | exn (v : Val)

/-- An environment; an unbound variable does not occur in a program that was elaborated. -/
abbrev Env := List (Nat × Val)

def look (ρ : Env) (x : Nat) : Val := ((ρ.find? (·.1 = x)).map (·.2)).getD .unit

/-- Evaluating from left to right. -/
def evalList {S : Type} (ev : Exp → S → Option (Res × S)) : List Exp → S →
    Option ((Val ⊕ List Val) × S)
  | [], σ => some (.inr [], σ)
  | e :: es, σ =>
      match ev e σ with
      | none => none
      | some (.exn v, σ') => some (.inl v, σ')
      | some (.val v, σ') =>
          match evalList ev es σ' with
          | none => none
          | some (.inl x, σ'') => some (.inl x, σ'')
          | some (.inr vs, σ'') => some (.inr (v :: vs), σ'')

/-- Sequencing. -/
def andThen {S : Type} (r : Option (Res × S)) (k : Val → S → Option (Res × S)) :
    Option (Res × S) :=
  match r with
  | some (.val v, σ) => k v σ
  | r => r

/-- A condition fails on `false` only. -/
def isTrue : Val → Bool
  | .bool false => false
  | _ => true

/-- The evaluator; `none` when the recursion bound is reached. -/
def eval {S : Type} (U : Exp → Env → S → Option (Res × S)) :
    Nat → Exp → Env → S → Option (Res × S)
  | 0, _, _, _ => none
  | f + 1, e, ρ, σ =>
      match e with
      | .scon n => some (.val (.int n), σ)
      | .con b => some (.val (.bool b), σ)
      | .var x => some (.val (look ρ x), σ)
      | .fn rules => some (.val (.clos rules ρ), σ)
      | .tuple es =>
          (evalList (fun e s => eval U f e ρ s) es σ).map fun
            | (.inl x, σ') => (.exn x, σ')
            | (.inr vs, σ') => (.val (.tup vs), σ')
      | .vec es =>
          (evalList (fun e s => eval U f e ρ s) es σ).map fun
            | (.inl x, σ') => (.exn x, σ')
            | (.inr vs, σ') => (.val (.vec vs), σ')
      | .par e => eval U f e ρ σ
      | .typed e => eval U f e ρ σ
      | .andalso a b => andThen (eval U f a ρ σ) fun v s =>
          if isTrue v then eval U f b ρ s else some (.val (.bool false), s)
      | .orelse a b => andThen (eval U f a ρ σ) fun v s =>
          if isTrue v then some (.val (.bool true), s) else eval U f b ρ s
      | .ite c a b => andThen (eval U f c ρ σ) fun v s =>
          if isTrue v then eval U f a ρ s else eval U f b ρ s
      | .while c a => andThen (eval U f c ρ σ) fun v s =>
          if isTrue v then andThen (eval U f a ρ s) fun _ s' => eval U f (.while c a) ρ s'
          else some (.val .unit, s)
      | .seq a b => andThen (eval U f a ρ σ) fun _ s => eval U f b ρ s
      | e => U e ρ σ

mutual
/-- Matching a value against a pattern. -/
def matchP : Pat → Val → Option Env
  | .wild, _ => some []
  | .var x, v => some [(x, v)]
  | .bool b, .bool c => if b = c then some [] else none
  | .int n, .int m => if n = m then some [] else none
  | .tup ps, .tup vs => matchPs ps vs
  | _, _ => none
def matchPs : List Pat → List Val → Option Env
  | [], [] => some []
  | p :: ps, v :: vs => (matchP p v).bind fun a => (matchPs ps vs).map (a ++ ·)
  | _, _ => none
end

/-- Top-level declarations: value bindings, recursive value bindings (functions), both
kinds in one declaration, exception declarations, `open`. -/
inductive Dec where
  | val (pvbs : List (Pat × Exp))
  | valrec (rvbs : List (Nat × List (Pat × Exp)))
  | exception (xs : List Nat)
  | «open» (xs : List Nat)

/-- The flag of the phrase, Front.sml:1207, 1225, 1241, 1268, 1289.  (The case of a single
variable pattern, line 1202, has the same flag as the general one.) -/
def flag : Dec → Bool
  | .val pvbs => pvbs.all fun b => isSafe b.2
  | .valrec _ => true
  | .exception _ => false
  | .open _ => true

/-- Executing value bindings one after the other: an expression whose value does not match
its pattern raises `Bind`. -/
def runBinds {S : Type} (U : Exp → Env → S → Option (Res × S)) (f : Nat) (ρ : Env) :
    List (Pat × Exp) → S → Option ((Val ⊕ Env) × S)
  | [], σ => some (.inr [], σ)
  | (p, e) :: bs, σ =>
      match eval U f e ρ σ with
      | none => none
      | some (.exn x, σ') => some (.inl x, σ')
      | some (.val v, σ') =>
          match matchP p v with
          | none => some (.inl .bindExn, σ')
          | some a =>
              match runBinds U f ρ bs σ' with
              | some (.inr b, σ'') => some (.inr (a ++ b), σ'')
              | r => r

end Mosml.Safe
