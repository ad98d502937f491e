import Verif.Strings.Model

/-!
Specification side for strings: what it means that a heap block is the string with characters `s`, what a byte
range copy must achieve, and the order on strings.
-/
namespace Mosml.Strings

/-- Block `b` is a proper heap string whose characters are `s`. -/
structure IsStr (b : Blk) (s : Bytes) : Prop where
  chars : ∀ c ∈ s, c < 256
  short : s.length ≤ maxlen
  header : ∃ color, color < 4 ∧ b.hd = (s.length / 8 + 1) * 1024 + color * 256 + 253
  size : b.bytes.length = 8 * (s.length / 8 + 1)
  front : b.bytes.take s.length = s
  last : b.bytes.getD (8 * (s.length / 8 + 1) - 1) 0 = 7 - s.length % 8

/-- `out` is `dst` with `[o2, o2+n)` replaced by what `src` held in `[o1, o1+n)`. -/
def Copied {α : Type} (src : List α) (o1 : Nat) (dst : List α) (o2 n : Nat) (out : List α) : Prop :=
  out.length = dst.length ∧
  (∀ j, j < n → out[o2 + j]? = src[o1 + j]?) ∧
  (∀ i, i < o2 ∨ o2 + n ≤ i → out[i]? = dst[i]?)

/-- A concrete proper string block for `s` (used to show that hypotheses can be met). -/
def mkStr (s : Bytes) : Blk :=
  { hd := (s.length / 8 + 1) * 1024 + 253,
    bytes := s ++ List.replicate (7 - s.length % 8) 0 ++ [7 - s.length % 8] }

end Mosml.Strings
