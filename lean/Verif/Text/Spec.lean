import Verif.Text.Model
import Verif.Lists.Spec

/-!
# What the functions on strings, substrings and characters are to do

The documentation is in `src/mosmllib/String.sig`, `Substring.sig`,
`StringCvt.sig` and `Char.sig`.  Many functions are documented as equivalent to
functions on the list of the characters; these are the functions of
`Verif/Lists`, about which C80 says what they do.
-/

namespace Mosml.Text

open Mosml.Lists (Prog Exn Out)

/-- `s[i..i+n-1]`. -/
def seg (s : Str) (i n : Nat) : Str := (s.drop i).take n

/-- The sum of the sizes. -/
def total (ss : List Str) : Nat := (ss.map List.length).sum

/-- Substring.sig: a substring is valid if `0 <= i <= i+n <= size s`. -/
def Valid (x : Sus) : Prop := 0 ≤ x.i ∧ 0 ≤ x.n ∧ x.i + x.n ≤ x.s.length

/-- The string that a substring represents. -/
def text (x : Sus) : Str := seg x.s x.i.toNat x.n.toNat

variable {W α β : Type}

/-- Reading from a source: the characters `cs` come one after the other, the predicate is true
of each, and `src'` is the rest. -/
inductive Reads (p : Nat → Prog W Bool) (getc : β → Prog W (Option (Nat × β))) :
    W → β → Str → β → W → Prop where
  | nil (w : W) (src : β) : Reads p getc w src [] src w
  | cons {w w1 w2 w3 : W} {src rest src' : β} {c : Nat} {cs : Str} :
      getc src w = .ok (some (c, rest)) w1 → p c w1 = .ok true w2 →
      Reads p getc w2 rest cs src' w3 → Reads p getc w src (c :: cs) src' w3

/-- The source is at its end, or its next character does not satisfy the predicate. -/
def Stops (p : Nat → Prog W Bool) (getc : β → Prog W (Option (Nat × β))) (w : W) (src : β)
    (w' : W) : Prop :=
  getc src w = .ok none w' ∨
  ∃ c rest w1, getc src w = .ok (some (c, rest)) w1 ∧ p c w1 = .ok false w'

/-- A computation of the caller, which has no access to the buffer of `splitl`. -/
def outside {σ : Type} (p : Prog W α) : Prog (σ × W) α := fun w =>
  match p w.2 with
  | .ok a w' => .ok a (w.1, w')
  | .raise e w' => .raise e (w.1, w')
  | .hang => .hang

end Mosml.Text
