import Verif.Equal.Model

/-!
Specification side: SML values as finite trees, and when two of them are equal.
-/
namespace Mosml.Equal
open Mosml.Strings (Bytes)

mutual
/-- An SML value of an equality type: integer, constructor/tuple, string, real, or a mutable object (compared
by identity). -/
inductive Tree where
  | int (n : Int)
  | con (tag : Nat) (args : Trees)
  | str (s : Bytes)
  | real (bits : Nat)
  | ident (a : Nat)
inductive Trees where
  | nil
  | cons (t : Tree) (ts : Trees)
end

mutual
/-- `v` in heap `h` is the SML value `t`. -/
def Reps (h : Heap) (v : Val) : Tree → Prop
  | .int n => v = .long n
  | .con tag .nil => v = .atom tag
  | .con tag (.cons t ts) => tag < 249 ∧ ∃ a x xs, v = .ptr a ∧ h a = some (.block tag (x :: xs)) ∧ Reps h x t ∧ RepsL h xs ts
  | .str s => ∃ a, v = .ptr a ∧ h a = some (.str s)
  | .real b => ∃ a, v = .ptr a ∧ h a = some (.dbl b)
  | .ident a => v = .ptr a ∧ ∃ fs, h a = some (.block 250 fs)
def RepsL (h : Heap) (vs : List Val) : Trees → Prop
  | .nil => vs = []
  | .cons t ts => ∃ x xs, vs = x :: xs ∧ Reps h x t ∧ RepsL h xs ts
end

mutual
/-- Equality of SML values: same tree; reals by IEEE equality; mutable objects by identity. -/
inductive TreeEq : Tree → Tree → Prop where
  | int (n : Int) : TreeEq (.int n) (.int n)
  | con (tag : Nat) {as bs : Trees} : TreesEq as bs → TreeEq (.con tag as) (.con tag bs)
  | str (s : Bytes) : TreeEq (.str s) (.str s)
  | real {b1 b2 : Nat} : dblEq b1 b2 = true → TreeEq (.real b1) (.real b2)
  | ident (a : Nat) : TreeEq (.ident a) (.ident a)
inductive TreesEq : Trees → Trees → Prop where
  | nil : TreesEq .nil .nil
  | cons {a b : Tree} {as bs : Trees} : TreeEq a b → TreesEq as bs → TreesEq (.cons a as) (.cons b bs)
end

mutual
/-- every real and string in the tree satisfies the given conditions -/
def Tree.All (pr ps : Nat → Prop) : Tree → Prop
  | .real b => pr b
  | .str s => ps s.length
  | .con _ as => as.All pr ps
  | _ => True
def Trees.All (pr ps : Nat → Prop) : Trees → Prop
  | .nil => True
  | .cons t ts => t.All pr ps ∧ ts.All pr ps
end

/-- No NaN inside, and strings shorter than 2^31 -/
def Tree.Ok (t : Tree) : Prop := t.All (fun b => isNaN b = false) (fun n => n < 2 ^ 31)
/-- No reals inside -/
def Tree.NoReal (t : Tree) : Prop := t.All (fun _ => False) (fun _ => True)

mutual
/-- nesting depth -/
def Tree.height : Tree → Nat
  | .con _ as => as.height + 1
  | _ => 1
def Trees.height : Trees → Nat
  | .nil => 0
  | .cons t ts => max t.height ts.height
end

mutual
/-- Same shape: like equality but any two mutable objects match (as after a garbage collection has moved them),
and reals have the same bits. -/
inductive Shape : Tree → Tree → Prop where
  | int (n : Int) : Shape (.int n) (.int n)
  | con (tag : Nat) {as bs : Trees} : Shapes as bs → Shape (.con tag as) (.con tag bs)
  | str (s : Bytes) : Shape (.str s) (.str s)
  | real (b : Nat) : Shape (.real b) (.real b)
  | ident (a b : Nat) : Shape (.ident a) (.ident b)
inductive Shapes : Trees → Trees → Prop where
  | nil : Shapes .nil .nil
  | cons {a b : Tree} {as bs : Trees} : Shape a b → Shapes as bs → Shapes (.cons a as) (.cons b bs)
end

end Mosml.Equal
