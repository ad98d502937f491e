import Verif.Scan.Model

/-!
# Model of the character constants in a lexer definition: the rule `char` of lex/Scanner.lex

The longest match is taken, and the first rule among those that match as much.
-/
namespace Mosml.Scan

inductive CErr
  | escape | unterminated | invalid | illFormed | code
deriving DecidableEq

inductive CRes
  | ok (c : Nat) (rest : List Nat)
  | lexical (e : CErr)
  | chr
deriving DecidableEq

/-- the number of characters that Scanner.lex:107, 109 and 111 match, 0 for none -/
def escLen : List Nat → Nat
  | 92 :: 94 :: c :: 96 :: _ => if 64 ≤ c ∧ c ≤ 95 then 4 else 0
  | 92 :: a :: b :: c :: 96 :: _ => if isDigit a && isDigit b && isDigit c then 5 else 0
  | _ => 0

/-- Scanner.lex:107 -/
def shortEsc : List Nat → Bool
  | 92 :: c :: 96 :: _ => c == 92 || c == 96 || c == 110 || c == 116 || c == 98 || c == 114
  | _ => false

/-- Scanner.lex:106-127 the rule `char`. At most one of the rules for escapes matches; each is longer than
`_` with a quote (line 124), and this is longer than the rules for one character (lines 118-123 and 126). -/
def char (l : List Nat) : CRes :=
  if escLen l = 5 then
    match decimalCode (l.getD 1 0) (l.getD 2 0) (l.getD 3 0) with
    | none => .chr
    | some n => if n ≥ 256 then .lexical .code else .ok n (l.drop 5)
  else if escLen l = 4 then .ok (l.getD 2 0 - 64) (l.drop 4)
  else if shortEsc l then .ok (charForBackslash (l.getD 1 0)) (l.drop 3)
  else if l.length ≥ 2 ∧ l.getD 1 0 = 96 then .ok (l.getD 0 0) (l.drop 2)
  else if l = [] then .lexical .unterminated
  else if l.getD 0 0 = 92 then .lexical .escape
  else if l.getD 0 0 = 26 then .lexical .unterminated
  else if (1 ≤ l.getD 0 0 ∧ l.getD 0 0 ≤ 31) ∨ l.getD 0 0 = 127 ∨ l.getD 0 0 = 255 then .lexical .invalid
  else .lexical .illFormed

end Mosml.Scan
