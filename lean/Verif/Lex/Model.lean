import Verif.Util

/-!
C48: src/lex/Lexgen.sml, and the automaton part of src/lex/Output.sml.  Names have been replaced by their definitions (Mainlex.sml); locations of actions are
their numbers.  `chars_count` is the length of `!chars`.  Arrays are lists.  The hash table `memory` is the list of the states in the order of their numbers
(`next` is its length): `Hasht.find` is a search.  Characters are the numbers below 256.
-/
namespace Mosml.Lex

/-- Syntax.sml:7-14, without names -/
inductive Regexp where
  | epsilon
  | characters (cl : List Nat)
  | sequence (r1 r2 : Regexp)
  | alternative (r1 r2 : Regexp)
  | repetition (r : Regexp)

/-- Lexgen.sml:9-16 -/
inductive Deep where
  | empty
  | chars (pos : Nat)
  | action (act : Nat)
  | seq (r1 r2 : Deep)
  | alt (r1 r2 : Deep)
  | star (r : Deep)

/-- Lexgen.sml:24-38; `cs` is `!chars`, the newest first -/
def encodeRegexp : Regexp → List (List Nat) → Deep × List (List Nat)
  | .epsilon, cs => (.empty, cs)
  | .characters cl, cs => (.chars cs.length, cl :: cs)
  | .sequence r1 r2, cs =>
    let (d1, cs) := encodeRegexp r1 cs
    let (d2, cs) := encodeRegexp r2 cs
    (.seq d1 d2, cs)
  | .alternative r1 r2, cs =>
    let (d1, cs) := encodeRegexp r1 cs
    let (d2, cs) := encodeRegexp r2 cs
    (.alt d1 d2, cs)
  | .repetition r, cs =>
    let (d, cs) := encodeRegexp r cs
    (.star d, cs)

/-- Lexgen.sml:40-49: the cases of a rule; `reg` accumulates, `n` is `!actions_count` -/
def encodeCases : List Regexp → Deep → Nat → List (List Nat) → Deep × Nat × List (List Nat)
  | [], reg, n, cs => (reg, n, cs)
  | expr :: rest, reg, n, cs =>
    let (d, cs) := encodeRegexp expr cs
    encodeCases rest (.alt reg (.seq d (.action n))) (n + 1) cs

/-- Lexgen.sml:60-82: the rules are encoded from the last to the first -/
def encodeLexdef : List (List Regexp) → List Deep × Nat × List (List Nat)
  | [] => ([], 0, [])
  | cases :: rest =>
    let (ds, n, cs) := encodeLexdef rest
    let (d, n, cs) := encodeCases cases .empty n cs
    (d :: ds, n, cs)

/-- Lexgen.sml:87-90 -/
inductive Trans where
  | onChars (pos : Nat)
  | toAction (act : Nat)
deriving DecidableEq, Repr

/-- Lexgen.sml:92-110 -/
def mergeTrans : List Trans → List Trans → List Trans
  | [], s2 => s2
  | s1, [] => s1
  | t1 :: r1, t2 :: r2 => match t1, t2 with
    | .onChars n1, .onChars n2 =>
      if n1 = n2 then t1 :: mergeTrans r1 r2 else if n1 < n2 then t1 :: mergeTrans r1 (t2 :: r2) else t2 :: mergeTrans (t1 :: r1) r2
    | .toAction n1, .toAction n2 =>
      if n1 = n2 then t1 :: mergeTrans r1 r2 else if n1 < n2 then t1 :: mergeTrans r1 (t2 :: r2) else t2 :: mergeTrans (t1 :: r1) r2
    | .onChars _, .toAction _ => t1 :: mergeTrans r1 (t2 :: r2)
    | .toAction _, .onChars _ => t2 :: mergeTrans (t1 :: r1) r2
  termination_by s1 s2 => s1.length + s2.length

/-- Lexgen.sml:112-118 -/
def nullable : Deep → Bool
  | .empty => true
  | .chars _ => false
  | .action _ => false
  | .seq r1 r2 => nullable r1 && nullable r2
  | .alt r1 r2 => nullable r1 || nullable r2
  | .star _ => true

/-- Lexgen.sml:120-129 -/
def firstpos : Deep → List Trans
  | .empty => []
  | .chars pos => [.onChars pos]
  | .action act => [.toAction act]
  | .seq r1 r2 => if nullable r1 then mergeTrans (firstpos r1) (firstpos r2) else firstpos r1
  | .alt r1 r2 => mergeTrans (firstpos r1) (firstpos r2)
  | .star r => firstpos r

/-- Lexgen.sml:131-140 -/
def lastpos : Deep → List Trans
  | .empty => []
  | .chars pos => [.onChars pos]
  | .action act => [.toAction act]
  | .seq r1 r2 => if nullable r2 then mergeTrans (lastpos r1) (lastpos r2) else lastpos r2
  | .alt r1 r2 => mergeTrans (lastpos r1) (lastpos r2)
  | .star r => lastpos r

/-- Lexgen.sml:145-147; an update outside the array raises Subscript: `none` -/
def fillPos (first : List Trans) (v : List (List Trans)) : Trans → Option (List (List Trans))
  | .onChars pos => match v[pos]? with
    | none => none
    | some f => some (v.set pos (mergeTrans first f))
  | .toAction _ => some v

/-- Lexgen.sml:150, 155: `List.app (fill_pos first)` -/
def fillAll (first : List Trans) : List Trans → List (List Trans) → Option (List (List Trans))
  | [], v => some v
  | t :: ts, v => match fillPos first v t with
    | none => none
    | some v => fillAll first ts v

/-- Lexgen.sml:148-156 -/
def fill : Deep → List (List Trans) → Option (List (List Trans))
  | .seq r1 r2, v => do
    let v ← fill r1 v
    let v ← fill r2 v
    fillAll (firstpos r2) (lastpos r1) v
  | .alt r1 r2, v => do
    let v ← fill r1 v
    fill r2 v
  | .star r, v => do
    let v ← fill r v
    fillAll (firstpos r) (lastpos r) v
  | _, v => some v

/-- Lexgen.sml:158 -/
def fillList : List Deep → List (List Trans) → Option (List (List Trans))
  | [], v => some v
  | r :: rs, v => match fill r v with
    | none => none
    | some v => fillList rs v

/-- Lexgen.sml:142-161 -/
def followpos (size : Nat) (rs : List Deep) : Option (List (List Trans)) := fillList rs (List.replicate size [])

/-- Lexgen.sml:163 -/
def noAction : Nat := 32767

/-- Lexgen.sml:165-173 -/
def splitTransSet (l : List Trans) : Nat × List Nat :=
  l.foldl (fun (act, posSet) t => match t with
    | .onChars pos => (act, pos :: posSet)
    | .toAction act1 => if act1 < act then (act1, posSet) else (act, posSet)) (noAction, [])

/-- Syntax.sml:30-33 -/
inductive Move where
  | backtrack
  | goto (dest : Nat)
deriving DecidableEq, Repr

/-- Syntax.sml:24-29 -/
inductive Automaton where
  | perform (n : Nat)
  | shift (remember : Option Nat) (moves : List Move)
deriving DecidableEq, Repr

/-- Lexgen.sml:175-177; `memory` in the order of the numbers, `todo` a stack -/
structure Mem where
  memory : List (List Trans)
  todo : List (List Trans × Nat)

/-- Lexgen.sml:183-192 -/
def getState (m : Mem) (st : List Trans) : Nat × Mem :=
  if st ∈ m.memory then (m.memory.idxOf st, m)
  else (m.memory.length, { memory := m.memory ++ [st], todo := (st, m.memory.length) :: m.todo })

/-- Lexgen.sml:205-207 -/
def gotoState (m : Mem) (ps : List Trans) : Move × Mem := match ps with
  | [] => (.backtrack, m)
  | t :: ts => let (n, m) := getState m (t :: ts); (.goto n, m)

/-- Lexgen.sml:216-217 for one character -/
def addChar (f : List Trans) (tr : List (List Trans)) (c : Nat) : Option (List (List Trans)) := match tr[c]? with
  | none => none
  | some s => some (tr.set c (mergeTrans s f))

/-- Lexgen.sml:215-218 -/
def addChars (f : List Trans) : List Nat → List (List Trans) → Option (List (List Trans))
  | [], tr => some tr
  | c :: cs, tr => match addChar f tr c with
    | none => none
    | some tr => addChars f cs tr

/-- Lexgen.sml:214-219 -/
def addPositions (chars : List (List Nat)) (follow : List (List Trans)) : List Nat → List (List Trans) → Option (List (List Trans))
  | [], tr => some tr
  | pos :: ps, tr => match chars[pos]?, follow[pos]? with
    | some cl, some f => match addChars f cl tr with
      | none => none
      | some tr => addPositions chars follow ps tr
    | _, _ => none

/-- Lexgen.sml:220-221 -/
def shiftLoop : List (List Trans) → Mem → List Move × Mem
  | [], m => ([], m)
  | st :: rest, m =>
    let (mv, m) := gotoState m st
    let (mvs, m) := shiftLoop rest m
    (mv :: mvs, m)

/-- Lexgen.sml:209-224 -/
def transitionFrom (chars : List (List Nat)) (follow : List (List Trans)) (posSet : List Nat) (m : Mem) : Option (List Move × Mem) :=
  match addPositions chars follow posSet (List.replicate 256 []) with
  | none => none
  | some tr => some (shiftLoop tr m)

/-- Lexgen.sml:226-231 -/
def translateState (chars : List (List Nat)) (follow : List (List Trans)) (state : List Trans) (m : Mem) : Option (Automaton × Mem) :=
  match splitTransSet state with
  | (n, []) => some (.perform n, m)
  | (n, ps) => match transitionFrom chars follow ps m with
    | none => none
    | some (mvs, m) => some (.shift (if n = noAction then none else some n) mvs, m)

/-- Lexgen.sml:194-199: the outer option is `none` for an exception; the inner one when `fuel` steps are not enough -/
def mapOnStates (chars : List (List Nat)) (follow : List (List Trans)) : Nat → Mem → Option (Option (List (Automaton × Nat) × Mem))
  | 0, _ => some none
  | fuel + 1, m => match m.todo with
    | [] => some (some ([], m))
    | (st, i) :: r => match translateState chars follow st { m with todo := r } with
      | none => none
      | some (res, m) => match mapOnStates chars follow fuel m with
        | none => none
        | some none => some none
        | some (some (l, m)) => some (some ((res, i) :: l, m))

/-- Lexgen.sml:240-243: the initial states, from the last rule to the first -/
def initialStates : List Deep → Mem → List Nat × Mem
  | [], m => ([], m)
  | r :: rs, m =>
    let (is, m) := initialStates rs m
    let (i, m) := getState m (firstpos r)
    (i :: is, m)

/-- Lexgen.sml:249 -/
def store : List (Automaton × Nat) → List Automaton → Option (List Automaton)
  | [], v => some v
  | (a, i) :: l, v => if i < v.length then store l (v.set i a) else none

/-- Lexgen.sml:233-253: the initial state of each rule and the automaton -/
def makeDfa (fuel : Nat) (lexdef : List (List Regexp)) : Option (Option (List Nat × List Automaton)) :=
  let (ds, _, cs) := encodeLexdef lexdef
  let chars := cs.reverse
  match followpos chars.length ds with
  | none => none
  | some follow =>
    let (is, m) := initialStates ds { memory := [], todo := [] }
    match mapOnStates chars follow fuel m with
    | none => none
    | some none => some none
    | some (some (l, m)) => match store l (List.replicate m.memory.length (.perform 0)) with
      | none => none
      | some v => some (some (is, v))

/-! ### the generated program -/

/-- what a call of a generated lexer does: run the action `n` after a lexeme of `len` characters; raise Fail "illegal symbol" (Lexing.sml:58); not compile
or fall outside the automaton -/
inductive Outcome where
  | action (n len : Nat)
  | illegal
  | broken
  | running
deriving DecidableEq, Repr

/-- Output.sml:175-182: the remembered action and position -/
def remember (rem : Option Nat) (pos : Nat) (last : Option (Nat × Nat)) : Option (Nat × Nat) := match rem with
  | none => last
  | some n => some (n, pos)

/-- Output.sml:67-75 and 147-184, Lexing.sml:82-85: the function `state_i`, entered after `pos` characters of the input `inp`; `last` is the remembered
action and position.  The dispatch on the character is that of the vector of moves -/
def runState (v : List Automaton) (inp : Nat → Nat) : Nat → Nat → Nat → Option (Nat × Nat) → Outcome
  | 0, _, _, _ => .running
  | fuel + 1, i, pos, last => match v[i]? with
    | none => .broken
    | some (.perform _) => .broken
    | some (.shift rem moves) =>
      let last := remember rem pos last
      match moves[inp pos]? with
      | none => .broken
      | some .backtrack => match last with
        | none => .illegal
        | some (n, p) => .action n p
      | some (.goto d) => match v[d]? with
        | none => .broken
        | some (.perform n) => .action n (pos + 1)
        | some (.shift _ _) => runState v inp fuel d (pos + 1) last

/-- Output.sml:188-202: the entry point calls `state_i`, which is defined if it is a `Shift` (lines 169-174) -/
def runEntry (v : List Automaton) (inp : Nat → Nat) (fuel i : Nat) : Outcome := runState v inp fuel i 0 none

end Mosml.Lex
