import Verif.Ints.Model

/-! Specification of SML `int` and `word` on a 64-bit system, independent of the instructions. -/
namespace Mosml.Ints

/-- Int.mlp:16 `minInt` -/
def minInt : Int := -4611686018427387904
/-- Int.mlp:17 `maxInt` -/
def maxInt : Int := 4611686018427387903

/-- representable SML integer -/
def InRange (n : Int) : Prop := minInt ≤ n ∧ n ≤ maxInt

instance (n : Int) : Decidable (InRange n) := by unfold InRange; infer_instance

/-- The machine word that represents the SML integer `n`: the odd number `2n+1`. -/
def enc (n : Int) : Value := BitVec.ofInt 64 (2 * n + 1)

/-- The required outcome when the mathematical result is `n`. -/
def exactOr (n : Int) : Out Value := if InRange n then .val (enc n) else .overflow

/-- The machine word that represents the SML word `w`, `0 ≤ w < 2^63`. -/
def encW (w : Nat) : Value := BitVec.ofNat 64 (2 * w + 1)

/-- number of values of type `word` -/
def W : Nat := 9223372036854775808

end Mosml.Ints
