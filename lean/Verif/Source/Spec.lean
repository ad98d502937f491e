import Verif.Source.Model

/-!
# What source text denotes

String constants follow the Definition of Standard ML, section 2.2; comments
section 2.3.
-/

namespace Mosml.Source

/-- A character that stands for itself in a string constant. The Definition has
the printable characters and the blank; Moscow ML has the codes from 27 too, and
all of the upper half of the character set but the last. -/
def Plain (c : Nat) : Prop := 27 ≤ c ∧ c ≤ 254 ∧ c ≠ 34 ∧ c ≠ 92 ∧ c ≠ 127

/-- The formatting characters of a gap. -/
def Formatting (c : Nat) : Prop := c = 32 ∨ c = 9 ∨ c = 10 ∨ c = 13

def IsDigit (c d : Nat) : Prop := d < 10 ∧ c = 48 + d

def IsHex (c d : Nat) : Prop :=
  (d < 10 ∧ c = 48 + d) ∨ (10 ≤ d ∧ d < 16 ∧ (c = 55 + d ∨ c = 87 + d))

/-- `Item w s`: the text `w` is one item of a string constant, for the string `s`. -/
inductive Item : Text → Text → Prop
  | plain (c : Nat) : Plain c → Item [c] [c]
  | alert : Item [92, 97] [7]
  | backspace : Item [92, 98] [8]
  | tab : Item [92, 116] [9]
  | newline : Item [92, 110] [10]
  | vtab : Item [92, 118] [11]
  | formfeed : Item [92, 102] [12]
  | return : Item [92, 114] [13]
  | quote : Item [92, 34] [34]
  | backslash : Item [92, 92] [92]
  | control (c : Nat) : 64 ≤ c → c ≤ 95 → Item [92, 94, c] [c - 64]
  | decimal (a b c x y z : Nat) : IsDigit a x → IsDigit b y → IsDigit c z →
      100 * x + 10 * y + z < 256 → Item [92, a, b, c] [100 * x + 10 * y + z]
  | hex (a b c d x y z t : Nat) : IsHex a x → IsHex b y → IsHex c z → IsHex d t →
      4096 * x + 256 * y + 16 * z + t < 256 →
      Item [92, 117, a, b, c, d] [4096 * x + 256 * y + 16 * z + t]
  | gap (f : Text) : f ≠ [] → (∀ c ∈ f, Formatting c) → Item (92 :: f ++ [92]) []

/-- `Denotes w s`: the text `w` between quotes is a constant for the string `s`. -/
inductive Denotes : Text → Text → Prop
  | nil : Denotes [] []
  | cons {w s w' s'} : Item w s → Denotes w' s' → Denotes (w ++ w') (s ++ s')

/-- What a comment is made of. -/
inductive Lexeme
  | opening | closing
  | other (c : Nat)
  deriving DecidableEq

def Lexeme.text : Lexeme → Text
  | .opening => [40, 42]
  | .closing => [42, 41]
  | .other c => [c]

def textOf (ts : List Lexeme) : Text := ts.flatMap Lexeme.text

/-- The brackets are found from left to right: no other character is the first of
a bracket, given the text that follows, and none ends the file. -/
def Munch : List Lexeme → Text → Prop
  | [], _ => True
  | .other c :: ts, rest => c ≠ 0 ∧ c ≠ 26 ∧
      ¬ ([40, 42] <+: c :: (textOf ts ++ rest)) ∧ ¬ ([42, 41] <+: c :: (textOf ts ++ rest)) ∧
      Munch ts rest
  | _ :: ts, rest => Munch ts rest

def opens (ts : List Lexeme) : Nat := ts.count .opening
def closes (ts : List Lexeme) : Nat := ts.count .closing

/-- The text up to the bracket that closes a comment opened before it. -/
def IsComment (ts : List Lexeme) : Prop :=
  closes ts = opens ts + 1 ∧ ∀ p, p <+: ts → p ≠ ts → closes p ≤ opens p

/-- Identifiers separated by dots. -/
def joinDots : List Text → Text
  | [] => []
  | [x] => x
  | x :: xs => x ++ 46 :: joinDots xs

end Mosml.Source
