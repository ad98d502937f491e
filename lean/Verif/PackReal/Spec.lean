import Mathlib.Data.List.Basic

/-! Specification of byte orders, independent of the functions that reorder bytes. -/
namespace Mosml.PackReal

/-- the number with the given bytes, most significant first -/
def beVal (b : List Nat) : Nat := b.foldl (fun a x => 256 * a + x) 0

/-- the number with the given bytes, least significant first -/
def leVal : List Nat → Nat
  | [] => 0
  | x :: b => x + 256 * leVal b

/-- every member is a byte -/
def Bytes (b : List Nat) : Prop := ∀ x ∈ b, x < 256

end Mosml.PackReal
