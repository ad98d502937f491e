import Verif.Scan.Model

/-!
# Model of the actions in a lexer definition: the rules `action` and `comment` of lex/Scanner.lex

The result is what follows the closing brace or bracket, instead of the position of the brace in the text. Bounds on
the number of matches are arguments; the length of the text is enough.
-/
namespace Mosml.Scan

/-- the end of the file or the character 26 -/
def atEof : List Nat → Bool
  | [] => true
  | c :: _ => c == 26

/-- Scanner.lex:129-138 the rule `comment` at a depth; `none` is Lexical_error "unterminated comment" -/
def comment : Nat → Nat → List Nat → Option (List Nat)
  | 0, _, _ => none
  | n + 1, d, l =>
    if l.take 2 = [40, 42] then comment n (d + 1) (l.drop 2)
    else if l.take 2 = [42, 41] then
      if d - 1 = 0 then some (l.drop 2) else comment n (d - 1) (l.drop 2)
    else if atEof l then none
    else comment n d (l.drop 1)

inductive ARes
  | ok (s : St) (rest : List Nat)
  | unterminated
  | unmatched
  | badComment
  | badString (r : Res)
deriving DecidableEq

/-- Scanner.lex:53-74 the rule `action` at a depth of braces -/
def action : Nat → Nat → St → List Nat → ARes
  | 0, _, _, _ => .unterminated
  | n + 1, d, s, l =>
    if l.take 1 = [123] then action n (d + 1) s (l.drop 1)
    else if l.take 1 = [125] then
      if d - 1 = 0 then .ok s (l.drop 1) else action n (d - 1) s (l.drop 1)
    else if l.take 1 = [34] then
      match string l.length (reset s) (l.drop 1) with
      | .ok s rest => action n d (reset s) rest
      | r => .badString r
    else if l.take 2 = [40, 42] then
      match comment l.length 1 (l.drop 2) with
      | some rest => action n d s rest
      | none => .badComment
    else if l.take 2 = [42, 41] then .unmatched
    else if atEof l then .unterminated
    else action n d s (l.drop 1)

end Mosml.Scan
