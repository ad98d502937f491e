import Verif.Num.Spec
import Mathlib.Data.Rat.Defs
import Verif.Util

/-! Numerals for reals, as in Real.sig: `[+~-]?(([0-9]+(\.[0-9]+)?)|(\.[0-9]+))([eE][+~-]?[0-9]+)?` -/
namespace Mosml.RealText
open Mosml.Num (IsDig numVal)

abbrev Str := List Nat

/-- the parts of a numeral: sign, digits before and after the point, exponent (its letter, sign and digits) -/
structure Lit where
  sg : Str
  D : Str
  F : Str
  ex : Option (Nat × Str × Str)

def IsSign (s : Str) : Prop := s = [] ∨ s = ['+'.toNat] ∨ s = ['~'.toNat] ∨ s = ['-'.toNat]

def AllDig (s : Str) : Prop := ∀ c ∈ s, IsDig 10 c

structure Lit.WF (l : Lit) : Prop where
  sg : IsSign l.sg
  D : AllDig l.D
  F : AllDig l.F
  nonempty : l.D ≠ [] ∨ l.F ≠ []
  ex : ∀ e s X, l.ex = some (e, s, X) → (e = 'e'.toNat ∨ e = 'E'.toNat) ∧ IsSign s ∧ X ≠ [] ∧ AllDig X

/-- the fraction as it is written: a point and digits, or nothing -/
def Lit.fracStr (l : Lit) : Str := if l.F = [] then [] else '.'.toNat :: l.F

def Lit.exStr (l : Lit) : Str := match l.ex with
  | none => []
  | some (e, s, X) => e :: (s ++ X)

/-- the numeral as it is written -/
def Lit.str (l : Lit) : Str := l.sg ++ (l.D ++ (l.fracStr ++ l.exStr))

/-- a sign that means minus -/
def isMinus (s : Str) : Bool := s = ['~'.toNat] ∨ s = ['-'.toNat]

/-- the number it denotes -/
def Lit.val (l : Lit) : ℚ :=
  (if isMinus l.sg then -1 else 1) * ((numVal 10 l.D : ℚ) + (numVal 10 l.F : ℚ) / 10 ^ l.F.length) *
    match l.ex with
    | none => 1
    | some (_, s, X) => if isMinus s then 1 / 10 ^ numVal 10 X else 10 ^ numVal 10 X

/-- `l` is the longest numeral that `s` begins with, and `rest` what follows it -/
def LongestLit (s : Str) (l : Lit) (rest : Str) : Prop :=
  l.WF ∧ s = l.str ++ rest ∧ ∀ l' rest', Lit.WF l' → s = l'.str ++ rest' → l'.str.length ≤ l.str.length

/-- `s` begins with a numeral -/
def BeginsLit (s : Str) : Prop := ∃ l rest, Lit.WF l ∧ s = l.str ++ rest

/-- a sign and a digit -/
def SignDigit (s : Str) : Prop := ∃ g d t, s = g :: d :: t ∧ (g = '+'.toNat ∨ g = '~'.toNat ∨ g = '-'.toNat) ∧ IsDig 10 d

/-- the blanks of Char.isSpace -/
def IsBlank (c : Nat) : Prop := c = ' '.toNat ∨ (9 ≤ c ∧ c ≤ 13)

end Mosml.RealText
