import Verif.Parse.Model

/-!
C33, specification: an LR automaton with a stack of entries and at most one token of look-ahead.
-/
namespace Mosml.Parse.Spec

variable {A E : Type} (T : Tables) (unit : A) (w : World A E)

/-- an entry of the stack; the start position of an empty symbol is not specified -/
structure Ent (A : Type) where
  state : Int
  val : A
  start : Option Nat
  stop : Nat

/-- a token that has been read -/
structure Tok (A : Type) where
  code : Int
  val : A
  start : Nat
  stop : Nat

/-- a configuration: the stack, the top first; the look-ahead; the number of tokens read -/
structure Conf (A : Type) where
  stack : List (Ent A)
  tok : Option (Tok A)
  pos : Nat

/-- the state on top of the stack, 0 below all entries -/
def top : List (Ent A) → Int
  | [] => 0
  | a :: _ => a.state

inductive Decision where
  | reduce (n : Int)
  | shift (q : Int)
  | read
  | error
deriving DecidableEq, Repr

/-- what the tables say for a token -/
def tokenAction (q x : Int) : Option Decision := do
  let n1 ← rd T.sindex q
  let hit ← look T n1 x
  match hit with
  | some n2 => do
    let q' ← rd T.table n2
    some (.shift q')
  | none => do
    let n1 ← rd T.rindex q
    let hit ← look T n1 x
    match hit with
    | some n2 => do
      let n ← rd T.table n2
      some (.reduce n)
    | none => some .error

/-- what the tables say for a state with or without a token: a default reduction needs none -/
def decide (q : Int) (x : Option Int) : Option Decision := do
  let n ← rd T.defred q
  if n ≠ 0 then some (.reduce n)
  else match x with
    | none => some .read
    | some x => tokenAction T q x

/-- the state after a reduction to `l`, in a state `q` -/
def goto (q l : Int) : Option Int := do
  let n1 ← rd T.gindex l
  let hit ← look T n1 q
  match hit with
  | some n2 => rd T.table n2
  | none => rd T.dgoto l

/-- the position where the topmost entry ends -/
def stopOf : List (Ent A) → Nat
  | [] => 0
  | a :: _ => a.stop

/-- a reduction by the rule `n` of length `m` to `l`: the entries of the right hand side are replaced by one -/
def reduceTo (c : Conf A) (n : Int) (m : Nat) (q : Int) : Conf A ⊕ Result A E :=
  if w.arity n ≤ c.stack.length then
    match w.act n ((c.stack.take (w.arity n)).map Ent.val).reverse with
    | .value v =>
      let a : Ent A := { state := q, val := v, start := (if m = 0 then none else (c.stack[m - 1]?).bind Ent.start), stop := stopOf c.stack }
      .inl { c with stack := a :: c.stack.drop m }
    | .yyexit v => .inr (.accept v)
    | .exn x => .inr (.exn x)
  else .inr .undef

def doReduce (c : Conf A) (n : Int) : Conf A ⊕ Result A E :=
  match rd T.len n, rd T.lhs n with
  | some m, some l =>
    if 0 ≤ m ∧ m.toNat ≤ c.stack.length then
      match goto T (top (c.stack.drop m.toNat)) l with
      | none => .inr .undef
      | some q => reduceTo w c n m.toNat q
    else .inr .undef
  | _, _ => .inr .undef

def doRead (c : Conf A) : Conf A ⊕ Result A E :=
  match w.lexer c.pos with
  | .error x => .inr (.exn x)
  | .ok t => match T.transl[t.tag]? with
    | none => .inr .undef
    | some x => .inl { c with tok := some { code := x, val := t.arg.getD unit, start := t.start, stop := t.stop }, pos := c.pos + 1 }

def doShift (c : Conf A) (q : Int) : Conf A ⊕ Result A E :=
  match c.tok with
  | none => .inr .undef
  | some t => .inl { c with stack := { state := q, val := t.val, start := some t.start, stop := t.stop } :: c.stack, tok := none }

def step (c : Conf A) : Conf A ⊕ Result A E :=
  match decide T (top c.stack) (c.tok.map Tok.code) with
  | none => .inr .undef
  | some (.reduce n) => doReduce T w c n
  | some (.shift q) => doShift c q
  | some .read => doRead T unit w c
  | some .error => .inr (.parseError ((c.tok.map Tok.code).getD 0))

def run : Nat → Conf A → Result A E
  | 0, _ => .running
  | k + 1, c => match step T unit w c with
    | .inl c => run k c
    | .inr r => r

end Mosml.Parse.Spec
