import Verif.Ints.Spec

/-! Specification of numerals, independent of the scanners. -/
namespace Mosml.Num
open Mosml.Ints

/-- value of a digit character: 0-9, a-f, A-F -/
def digitVal (c : Nat) : Option Nat :=
  if '0'.toNat ≤ c ∧ c ≤ '9'.toNat then some (c - '0'.toNat)
  else if 'a'.toNat ≤ c ∧ c ≤ 'f'.toNat then some (c - 'a'.toNat + 10)
  else if 'A'.toNat ≤ c ∧ c ≤ 'F'.toNat then some (c - 'A'.toNat + 10)
  else none

/-- `c` is a digit in base `b` -/
def IsDig (b c : Nat) : Prop := ∃ d, digitVal c = some d ∧ d < b

instance (b c : Nat) : Decidable (IsDig b c) :=
  match h : digitVal c with
  | none => isFalse (by rintro ⟨d, hd, _⟩; simp [h] at hd)
  | some d =>
    if hd : d < b then isTrue ⟨d, h, hd⟩
    else isFalse (by rintro ⟨d', hd', hlt⟩; rw [h] at hd'; cases hd'; exact hd hlt)

/-- number denoted by a digit string in base `b` -/
def numVal (b : Nat) (s : List Nat) : Nat := s.foldl (fun a c => b * a + (digitVal c).getD 0) 0

/-- the part of an SML string that a C function sees: the characters before the first NUL -/
def cstr (s : List Nat) : List Nat := s.takeWhile (· ≠ 0)

/-- `n` if representable -/
def representable (n : Int) : Option Int := if InRange n then some n else none

/-- the characters of a Lean string (used only to write examples) -/
def chars (s : String) : List Nat := s.toList.map Char.toNat

/-- numerals of the Basis Library: `[+~-]?(0x|0X)?digits`, prefix only in base 16 -/
def IntLit (base : Nat) (p : List Nat) (v : Int) : Prop :=
  ∃ sg pre ds, p = sg ++ (pre ++ ds) ∧
    (sg = [] ∨ sg = ['~'.toNat] ∨ sg = ['-'.toNat] ∨ sg = ['+'.toNat]) ∧
    (pre = [] ∨ base = 16 ∧ (pre = ['0'.toNat, 'x'.toNat] ∨ pre = ['0'.toNat, 'X'.toNat])) ∧
    ds ≠ [] ∧ (∀ c ∈ ds, IsDig base c) ∧
    v = if sg = ['~'.toNat] ∨ sg = ['-'.toNat] then -(numVal base ds : Int) else numVal base ds

/-- `p` is the longest prefix of `s` in the language `L`, and `rest` what follows -/
def Longest {α : Type} (L : List Nat → α → Prop) (s p : List Nat) (v : α) (rest : List Nat) : Prop :=
  s = p ++ rest ∧ L p v ∧
    ∀ p' rest' v', s = p' ++ rest' → L p' v' → p'.length ≤ p.length

/-- numerals for words, as in Word.sig: `(0w)?digits`, and in base 16 `(0wx|0wX|0x|0X)?digits` -/
def WordLit (base : Nat) (p : List Nat) (v : Nat) : Prop :=
  ∃ pre ds, p = pre ++ ds ∧
    (pre = [] ∨ base ≠ 16 ∧ pre = ['0'.toNat, 'w'.toNat] ∨
      base = 16 ∧ (pre = ['0'.toNat, 'x'.toNat] ∨ pre = ['0'.toNat, 'X'.toNat] ∨
        pre = ['0'.toNat, 'w'.toNat, 'x'.toNat] ∨ pre = ['0'.toNat, 'w'.toNat, 'X'.toNat])) ∧
    ds ≠ [] ∧ (∀ c ∈ ds, IsDig base c) ∧ v = numVal base ds

end Mosml.Num
