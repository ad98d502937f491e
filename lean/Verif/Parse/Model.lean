import Verif.Util

/-!
C33: src/runtime/parsing.c and src/mosmllib/Parsing.sml.  An access outside an array or a table, and a negative stack pointer, is `none`.  The lexer is the
sequence of its results, semantic actions are functions of the values of the symbols before them (the generated code reads them with peekVal first,
src/mosmlyac/reader.c:1252-1268), and neither calls the parser again.  `A` is the type of semantic attributes, `E` that of exceptions.  Allocation of larger
stacks is assumed to succeed.  Numbers are unbounded.
-/
namespace Mosml.Parse

/-- parsing.c:6-20; `transl` maps the tag of a token to its code; strings of shorts are lists -/
structure Tables where
  transl : List Int
  lhs : List Int
  len : List Int
  defred : List Int
  dgoto : List Int
  sindex : List Int
  rindex : List Int
  gindex : List Int
  tablesize : Int
  table : List Int
  check : List Int

/-- the memory read by `Short(tbl,n)` -/
def rd (l : List Int) (i : Int) : Option Int := if i < 0 then none else l[i.toNat]?

/-- a token: its tag, its argument, and the positions the lexer buffer holds after it was read -/
structure Token (A : Type) where
  tag : Nat
  arg : Option A
  start : Nat
  stop : Nat

/-- parsing.c:22-35 together with the static variables `state` and `sp`, lines 78-79; `esp` is `env->sp` -/
structure Env (A : Type) where
  s : List Int
  v : List A
  st : List Nat
  en : List Nat
  stacksize : Nat
  currChar : Int
  lval : A
  symbStart : Nat
  symbEnd : Nat
  esp : Nat
  ruleLen : Int
  ruleNumber : Int
  state : Int
  sp : Nat

/-- parsing.c:52-59 -/
inductive Cmd (A : Type) where
  | semanticActionComputed (arg : A)
  | stacksGrown1
  | stacksGrown2
  | start
  | tokenRead (arg : Token A)

/-- parsing.c:61-68 -/
inductive Out where
  | computeSemanticAction
  | growStacks1
  | growStacks2
  | raiseParseError
  | readToken
deriving DecidableEq, Repr

variable {A : Type} (T : Tables) (unit : A)

/-- parsing.c:107-109 and similar: the place in the table, if the entry is for `x`.  The outer option is an access outside the tables -/
def look (n1 x : Int) : Option (Option Int) :=
  let n2 := n1 + x
  if n1 ≠ 0 ∧ n2 ≥ 0 ∧ n2 ≤ T.tablesize then
    match rd T.check n2 with
    | none => none
    | some c => if c = x then some (some n2) else some none
  else some none

/-- parsing.c:135-157 -/
def reduce (e : Env A) (n : Int) : Option (Out × Env A) := do
  let m ← rd T.len n
  let e := { e with esp := e.sp, ruleNumber := n, ruleLen := m }
  let sp := (e.sp : Int) - m + 1
  let l ← rd T.lhs n
  let state1 ← rd e.s (sp - 1)
  let n1 ← rd T.gindex l
  let hit ← look T n1 state1
  let state ← (match hit with
    | some n2 => rd T.table n2
    | none => rd T.dgoto l : Option Int)
  let e := { e with state := state, sp := sp.toNat }
  if e.sp < e.stacksize then some (.computeSemanticAction, e) else some (.growStacks2, e)

/-- parsing.c:88-93 when there is no token: `curr_char` is -1 -/
def loopEmpty (e : Env A) : Option (Out × Env A) := do
  let n ← rd T.defred e.state
  if n ≠ 0 then reduce T e n else some (.readToken, e)

/-- parsing.c:127-133 -/
def push (e : Env A) : Option (Out × Env A) :=
  if e.sp < e.s.length ∧ e.sp < e.v.length ∧ e.sp < e.st.length ∧ e.sp < e.en.length then
    loopEmpty T { e with s := e.s.set e.sp e.state, v := e.v.set e.sp e.lval, st := e.st.set e.sp e.symbStart, en := e.en.set e.sp e.symbEnd, currChar := -1 }
  else none

/-- parsing.c:119-124 -/
def shift (e : Env A) (n2 : Int) : Option (Out × Env A) := do
  let state ← rd T.table n2
  let e := { e with state := state, sp := e.sp + 1 }
  if e.sp < e.stacksize then push T e else some (.growStacks1, e)

/-- parsing.c:110-117 -/
def testReduce (e : Env A) : Option (Out × Env A) := do
  let n1 ← rd T.rindex e.state
  let hit ← look T n1 e.currChar
  match hit with
  | some n2 => do
    let n ← rd T.table n2
    reduce T e n
  | none => some (.raiseParseError, e)

/-- parsing.c:105-117 -/
def testshift (e : Env A) : Option (Out × Env A) := do
  let n1 ← rd T.sindex e.state
  let hit ← look T n1 e.currChar
  match hit with
  | some n2 => shift T e n2
  | none => testReduce T e

/-- parsing.c:88-93 -/
def loop (e : Env A) : Option (Out × Env A) := do
  let n ← rd T.defred e.state
  if n ≠ 0 then reduce T e n
  else if e.currChar ≥ 0 then testshift T e
  else some (.readToken, e)

/-- parsing.c:159-164 -/
def actionComputed (e : Env A) (arg : A) : Option (Out × Env A) :=
  match e.en[e.esp]? with
  | none => none
  | some p =>
    if e.sp < e.s.length ∧ e.sp < e.v.length ∧ e.sp < e.en.length then
      loop T { e with s := e.s.set e.sp e.state, v := e.v.set e.sp arg, en := e.en.set e.sp p }
    else none

/-- parsing.c:96-117; the tag of the token is that of a block -/
def tokenRead (e : Env A) (t : Token A) : Option (Out × Env A) :=
  match T.transl[t.tag]? with
  | none => none
  | some c => testshift T { e with currChar := c, lval := t.arg.getD unit }

/-- parsing.c:72-167 -/
def parseEngine (e : Env A) : Cmd A → Option (Out × Env A)
  | .start => loop T { e with state := 0, sp := e.esp }
  | .tokenRead t => tokenRead T unit e t
  | .stacksGrown1 => push T e
  | .stacksGrown2 => some (.computeSemanticAction, e)
  | .semanticActionComputed v => actionComputed T e v

/-- Parsing.sml:102-107 -/
def copyStack {B : Type} (old new : List B) (oldsize : Nat) : Option (List B) := if oldsize ≤ old.length ∧ oldsize ≤ new.length then
  some (old.take oldsize ++ new.drop oldsize) else none

/-- Parsing.sml:116-135 -/
def growStacks (e : Env A) : Option (Env A) := do
  let newsize := e.stacksize * 2
  let s ← copyStack e.s (List.replicate newsize 0) e.stacksize
  let v ← copyStack e.v (List.replicate newsize unit) e.stacksize
  let st ← copyStack e.st (List.replicate newsize 0) e.stacksize
  let en ← copyStack e.en (List.replicate newsize 0) e.stacksize
  some { e with s := s, v := v, st := st, en := en, stacksize := newsize }

/-- the result of a semantic action: a value, the exception yyexit (reader.c:1730), or another exception -/
inductive Act (A E : Type) where
  | value (v : A)
  | yyexit (v : A)
  | exn (e : E)

/-- the result of the parser -/
inductive Result (A E : Type) where
  | accept (v : A)
  | parseError (curr : Int)
  | exn (e : E)
  | undef
  | running

variable {E : Type}

/-- what is outside: the lexer (the result of its `i`-th call) and the actions, which get the values of the symbols before them in the right hand side;
`arity` is their number, which is the length of the rule except for an action inside a rule (reader.c:1243-1251) -/
structure World (A E : Type) where
  lexer : Nat → Except E (Token A)
  arity : Int → Nat
  act : Int → List A → Act A E

/-- reader.c:1263-1268: `peekVal (n-1)`, …, `peekVal 0` (Parsing.sml:168-170) -/
def peekVals (e : Env A) : Nat → Option (List A)
  | 0 => some []
  | k + 1 => if k ≤ e.esp then do
      let x ← e.v[e.esp - k]?
      let r ← peekVals e k
      some (x :: r)
    else none

/-- Parsing.sml:140-162: one call of the engine and what follows; `pos` is the number of tokens read -/
def iterate (w : World A E) (cmd : Cmd A) (e : Env A) (pos : Nat) : (Cmd A × Env A × Nat) ⊕ Result A E :=
    match parseEngine T unit e cmd with
    | none => .inr .undef
    | some (.readToken, e) => match w.lexer pos with
      | .error x => .inr (.exn x)
      | .ok t => .inl (.tokenRead t, { e with symbStart := t.start, symbEnd := t.stop }, pos + 1)
    | some (.raiseParseError, e) => .inr (.parseError e.currChar)
    | some (.computeSemanticAction, e) => match peekVals e (w.arity e.ruleNumber) with
      | none => .inr .undef
      | some vs => match w.act e.ruleNumber vs with
        | .value v => .inl (.semanticActionComputed v, e, pos)
        | .yyexit v => .inr (.accept v)
        | .exn x => .inr (.exn x)
    | some (.growStacks1, e) => match growStacks unit e with
      | none => .inr .undef
      | some e => .inl (.stacksGrown1, e, pos)
    | some (.growStacks2, e) => match growStacks unit e with
      | none => .inr .undef
      | some e => .inl (.stacksGrown2, e, pos)

/-- Parsing.sml:140-162, with `fuel` bounding the number of calls of the engine -/
def drive (w : World A E) : Nat → Cmd A → Env A → Nat → Result A E
  | 0, _, _, _ => .running
  | fuel + 1, cmd, e, pos => match iterate T unit w cmd e pos with
    | .inl (cmd, e, pos) => drive w fuel cmd e pos
    | .inr r => r

/-- Parsing.sml:162-166 -/
def yyparse (w : World A E) (fuel : Nat) (e : Env A) (start : Int) : Result A E :=
  drive T unit w fuel .start { e with currChar := start, esp := 0 } 0

/-- Parsing.sml:174-176 -/
def symbolStart (e : Env A) : Option Nat := if (e.esp : Int) - e.ruleLen + 1 < 0 then none else e.st[((e.esp : Int) - e.ruleLen + 1).toNat]?

/-- Parsing.sml:178-180 -/
def symbolEnd (e : Env A) : Option Nat := e.en[e.esp]?

/-- Parsing.sml:93-100: the environment at the beginning -/
def env0 : Env A :=
  { s := List.replicate 100 0, v := List.replicate 100 unit, st := List.replicate 100 0, en := List.replicate 100 0, stacksize := 100,
    currChar := 0, lval := unit, symbStart := 0, symbEnd := 0, esp := 0, ruleLen := 0, ruleNumber := 0, state := 0, sp := 0 }

end Mosml.Parse
