/-!
# Model of the strings in a lexer definition: lex/Scan_aux.sml and the rule `string` of lex/Scanner.lex

Characters are codes. The array of the buffer may have any size (CharArray.array does not raise Size). The end of
the list is the end of the file.
-/
namespace Mosml.Scan

/-- Scan_aux.sml:12-14: the contents of initial_string_buffer, string_buff (`none` is initial_string_buffer) and
string_index -/
structure St where
  init : List Nat
  cur : Option (List Nat)
  idx : Nat
deriving DecidableEq

/-- `!string_buff` -/
def buff (s : St) : List Nat :=
  match s.cur with
  | none => s.init
  | some b => b

/-- Scan_aux.sml:16-20 reset_string_buffer -/
def reset (s : St) : St := ⟨s.init, none, 0⟩

/-- Scan_aux.sml:26-31: a buffer twice as long if the index is at the end -/
def grow (s : St) : St :=
  if s.idx ≥ (buff s).length then
    ⟨s.init, some (buff s ++ List.replicate ((buff s).length * 2 - (buff s).length) 32), s.idx⟩
  else s

/-- CharArray.update (!string_buff, !string_index, c), which changes the array that string_buff refers to -/
def put (s : St) (c : Nat) : St :=
  match s.cur with
  | none => ⟨s.init.set s.idx c, none, s.idx⟩
  | some b => ⟨s.init, some (b.set s.idx c), s.idx⟩

/-- Scan_aux.sml:22-35 store_string_char; `none` is Subscript -/
def store (s : St) (c : Nat) : Option St :=
  let s := grow s
  if s.idx < (buff s).length then
    let s := put s c
    some ⟨s.init, s.cur, s.idx + 1⟩
  else none

/-- Scan_aux.sml:37-43 get_stored_string; `none` is Subscript -/
def get (s : St) : Option (List Nat × St) :=
  if s.idx ≤ (buff s).length then some ((buff s).take s.idx, ⟨s.init, none, s.idx⟩) else none

/-- Scan_aux.sml:45-51 char_for_backslash -/
def charForBackslash (c : Nat) : Nat :=
  if c = 110 then 10 else if c = 116 then 9 else if c = 98 then 8 else if c = 114 then 13 else c

/-- Scan_aux.sml:53-57 char_for_decimal_code of three digits; `none` is the exception Chr -/
def decimalCode (a b c : Nat) : Option Nat :=
  let n := 100 * (a - 48) + 10 * (b - 48) + (c - 48)
  if n ≤ 255 then some n else none

inductive Err
  | code | escape | unterminated | invalid
deriving DecidableEq

/-- what the rule does: it ends, or raises Lexical_error, Chr or Subscript -/
inductive Res
  | ok (s : St) (rest : List Nat)
  | lexical (e : Err)
  | chr
  | subscript
deriving DecidableEq

/-- blank characters of Scanner.lex:79 -/
def blank (c : Nat) : Bool := c == 32 || c == 9 || c == 10 || c == 13

/-- what one match of the rule asks for -/
inductive Step
  | done (rest : List Nat)
  | put (c : Nat) (rest : List Nat)
  | skip (rest : List Nat)
  | fail (e : Err)
  | chr

def isDigit (c : Nat) : Bool := 48 ≤ c && c ≤ 57

/-- Scanner.lex:88-95: what follows a backslash and a digit `a` -/
def decStep (a : Nat) : List Nat → Step
  | b :: c :: rest =>
    if isDigit b && isDigit c then
      match decimalCode a b c with
      | none => .chr
      | some n => if n ≥ 256 then .fail .code else .put n rest
    else .fail .escape
  | _ => .fail .escape

/-- Scanner.lex:84-87: what follows a backslash and a caret -/
def ctlStep : List Nat → Step
  | c :: rest => if 64 ≤ c ∧ c ≤ 95 then .put (c - 64) rest else .fail .escape
  | [] => .fail .escape

/-- Scanner.lex:79-80: what follows a backslash and a blank character -/
def gapStep : List Nat → Step
  | c :: rest => if blank c then gapStep rest else if c = 92 then .skip rest else .fail .escape
  | [] => .fail .escape

/-- Scanner.lex:79-97: what follows a backslash -/
def escStep : List Nat → Step
  | [] => .fail .escape
  | c :: rest =>
    if blank c then gapStep rest
    else if c = 92 ∨ c = 34 ∨ c = 110 ∨ c = 116 ∨ c = 98 ∨ c = 114 then .put (charForBackslash c) rest
    else if c = 94 then ctlStep rest
    else if isDigit c then decStep c rest
    else .fail .escape

/-- Scanner.lex:76-104 one match of the rule `string` -/
def step : List Nat → Step
  | [] => .fail .unterminated
  | c :: rest =>
    if c = 34 then .done rest
    else if c = 92 then escStep rest
    else if c = 26 then .fail .unterminated
    else if (1 ≤ c ∧ c ≤ 31) ∨ c = 127 ∨ c = 255 then .fail .invalid
    else .put c rest

/-- the rule `string`; the first argument bounds the number of matches -/
def string : Nat → St → List Nat → Res
  | 0, _, _ => .lexical .unterminated
  | n + 1, s, l =>
    match step l with
    | .done rest => .ok s rest
    | .put c rest =>
      match store s c with
      | none => .subscript
      | some s => string n s rest
    | .skip rest => string n s rest
    | .fail e => .lexical e
    | .chr => .chr

end Mosml.Scan
