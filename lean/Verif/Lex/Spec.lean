import Verif.Lex.Model

/-!
C48: what a lexer definition means, independently of the generator.
-/
namespace Mosml.Lex

/-- the words that are concatenations of words of `P` -/
inductive StarOf (P : List Nat → Prop) : List Nat → Prop where
  | nil : StarOf P []
  | cons {w1 w2} : P w1 → StarOf P w2 → StarOf P (w1 ++ w2)

/-- the language of a regular expression -/
def Matches : Regexp → List Nat → Prop
  | .epsilon, w => w = []
  | .characters cl, w => ∃ c ∈ cl, w = [c]
  | .sequence r1 r2, w => ∃ w1 w2, w = w1 ++ w2 ∧ Matches r1 w1 ∧ Matches r2 w2
  | .alternative r1 r2, w => Matches r1 w ∨ Matches r2 w
  | .repetition r, w => StarOf (Matches r) w

/-- the first `n` characters of the input -/
def prefixOf (inp : Nat → Nat) (n : Nat) : List Nat := (List.range n).map inp

/-- case `k` of a rule applies to the word: its expression matches and no earlier one does -/
def FirstCase (cases : List Regexp) (w : List Nat) (k : Nat) : Prop :=
  (∃ e, cases[k]? = some e ∧ Matches e w) ∧ ∀ k' < k, ∀ e, cases[k']? = some e → ¬ Matches e w

/-- some case of the rule matches the word -/
def Accepts (cases : List Regexp) (w : List Nat) : Prop := ∃ e ∈ cases, Matches e w

/-- case `k` on the first `len` characters is the first case on the longest prefix that matches -/
def LongestFirst (cases : List Regexp) (inp : Nat → Nat) (k len : Nat) : Prop :=
  FirstCase cases (prefixOf inp len) k ∧ ∀ len', len < len' → ¬ Accepts cases (prefixOf inp len')

/-- the number under which Output.sml emits the action of case `k` of rule `j`: the rules are numbered from the last one (Lexgen.sml:40-82) -/
def actionNumber (lexdef : List (List Regexp)) (j k : Nat) : Nat := ((lexdef.drop (j + 1)).map List.length).sum + k

/-- all characters of the expression are characters -/
def CharsOk : Regexp → Prop
  | .epsilon => True
  | .characters cl => ∀ c ∈ cl, c < 256
  | .sequence r1 r2 => CharsOk r1 ∧ CharsOk r2
  | .alternative r1 r2 => CharsOk r1 ∧ CharsOk r2
  | .repetition r => CharsOk r

/-- no character class of the expression is empty -/
def NoEmptyClass : Regexp → Prop
  | .epsilon => True
  | .characters cl => cl ≠ []
  | .sequence r1 r2 => NoEmptyClass r1 ∧ NoEmptyClass r2
  | .alternative r1 r2 => NoEmptyClass r1 ∧ NoEmptyClass r2
  | .repetition r => NoEmptyClass r

end Mosml.Lex
