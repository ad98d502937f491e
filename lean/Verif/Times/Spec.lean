import Verif.RealText.Spec

/-! Numerals for times, as in Time.sig: `[+~-]?(([0-9]+(\.[0-9]+)?)|(\.[0-9]+))` -/
namespace Mosml.Times
open Mosml.RealText

/-- `l` is the longest numeral without exponent that `s` begins with -/
def LongestTime (s : Str) (l : Lit) (rest : Str) : Prop :=
  (Lit.WF l ∧ l.ex = none) ∧ s = l.str ++ rest ∧
    ∀ l' rest', Lit.WF l' → l'.ex = none → s = l'.str ++ rest' → l'.str.length ≤ l.str.length

/-- `s` begins with such a numeral -/
def BeginsTime (s : Str) : Prop := ∃ l rest, Lit.WF l ∧ l.ex = none ∧ s = l.str ++ rest

end Mosml.Times
