import Verif.Loc.Model

/-! What a report must look like, in terms of the parts of the file. -/
namespace Mosml.Loc
open Mosml.Num

/-- the text before the beginning of a line -/
def LineEnd (pre : Str) : Prop := pre = [] ∨ ∃ t, pre = t ++ [10]

/-- complete lines -/
def lines (ls : List Str) : Str := (ls.map (· ++ [10])).flatten

/-- the end of the file, or a newline and what follows -/
def Tail (tail : Str) : Prop := tail = [] ∨ ∃ post, tail = 10 :: post

/-- The range from `p1` to `p2` is the part `m` of the line `a ++ m ++ b`. -/
structure OneLine (file : Str) (p1 p2 : Nat) (pre a m b tail : Str) : Prop where
  file_eq : file = pre ++ (a ++ (m ++ (b ++ tail)))
  start : LineEnd pre
  tail_ok : Tail tail
  na : 10 ∉ a
  nm : 10 ∉ m
  nb : 10 ∉ b
  p1_eq : p1 = pre.length + a.length
  p2_eq : p2 = p1 + m.length

/-- The range from `p1` to `p2` is the end `x` of the line `a ++ x`, the lines `ls`, and the beginning `y` of
the line `y ++ b`. -/
structure ManyLines (file : Str) (p1 p2 : Nat) (pre a x : Str) (ls : List Str) (y b tail : Str) : Prop where
  file_eq : file = pre ++ (a ++ (x ++ (10 :: (lines ls ++ (y ++ (b ++ tail))))))
  start : LineEnd pre
  tail_ok : Tail tail
  na : 10 ∉ a
  nx : 10 ∉ x
  nls : ∀ l ∈ ls, 10 ∉ l
  ny : 10 ∉ y
  nb : 10 ∉ b
  p1_eq : p1 = pre.length + a.length
  p2_eq : p2 = p1 + (x.length + (1 + ((lines ls).length + y.length)))

/-- number in decimal -/
def num (n : Nat) : Str := intFmt .dec n

/-- marks below the characters of `s`: `ch`, but tabs stay -/
def under (ch : Nat) (s : Str) : Str := s.map fun c => if c = 9 then 9 else ch

/-- a line of a report -/
def shown (l : Str) : Str := str "! " ++ l ++ [10]

/-- the lines of a range that are shown: all if there are at most seven, otherwise three at each end -/
def shownLines (ls : List Str) : Str :=
  if ls.length ≤ 7 then (ls.map shown).flatten
  else ((ls.take 3).map shown).flatten ++ shown (str "..........") ++
    ((ls.drop (ls.length - 3)).map shown).flatten

end Mosml.Loc
