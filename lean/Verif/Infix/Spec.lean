import Verif.Infix.Model

/-!
C49, specification: a tree is right when at every node the operators directly below bind tighter, where application binds tightest and to the left, and
operators of equal precedence must associate to the same side.
-/
namespace Mosml.Infix

/-- what an object is in a sequence: an operator, with its precedence and whether it associates to the left, or an operand -/
inductive Kind (I : Type) where
  | operand
  | operator (i : I) (n : Int) (left : Bool)

variable {O I : Type}

def kind (asId : O → Option I) (status : I → Status) (o : O) : Kind I :=
  match asId o with
  | none => .operand
  | some i => match status i with
    | .infixL n => .operator i n true
    | .infixR n => .operator i n false
    | .nonfix => .operand

variable (asId : O → Option I) (status : I → Status)

/-- the tree is made of the objects of the list, in this order; juxtaposition is application -/
inductive Reads : Tree O I → List O → Prop
  | leaf {o} : kind asId status o = .operand → Reads (.leaf o) [o]
  | applyId {i n left o l r ls rs} : kind asId status o = .operator i n left → Reads l ls → Reads r rs → Reads (.applyId i l r) (ls ++ o :: rs)
  | applyObj {l r ls rs} : Reads l ls → Reads r rs → Reads (.applyObj l r) (ls ++ rs)

/-- the precedence and associativity of an operator; `none` for one that has none -/
def binding (i : I) : Option (Int × Bool) := match status i with
  | .infixL n => some (n, true)
  | .infixR n => some (n, false)
  | .nonfix => none

/-- the left operand `l` of the operator `i` needs no parentheses -/
def LeftOk (i : I) : Tree O I → Prop
  | .leaf _ => True
  | .applyObj _ _ => True
  | .applyId j _ _ => match binding status j, binding status i with
    | some (m, a), some (n, b) => n < m ∨ n = m ∧ a = true ∧ b = true
    | _, _ => False

/-- the right operand `r` of the operator `i` needs no parentheses -/
def RightOk (i : I) : Tree O I → Prop
  | .leaf _ => True
  | .applyObj _ _ => True
  | .applyId j _ _ => match binding status i, binding status j with
    | some (m, a), some (n, b) => m < n ∨ m = n ∧ a = false ∧ b = false
    | _, _ => False

def isApplyId : Tree O I → Prop
  | .applyId _ _ _ => True
  | _ => False

def isLeaf : Tree O I → Prop
  | .leaf _ => True
  | _ => False

/-- no parentheses are needed anywhere -/
inductive Right : Tree O I → Prop
  | leaf {o} : Right (.leaf o)
  | applyId {i l r} : Right l → Right r → LeftOk status i l → RightOk status i r → Right (.applyId i l r)
  | applyObj {l r} : Right l → Right r → ¬ isApplyId l → isLeaf r → Right (.applyObj l r)

/-- operands in groups, separated by single operators -/
inductive WellFormed : List O → Prop
  | last {o} : kind asId status o = .operand → WellFormed [o]
  | operand {o l} : kind asId status o = .operand → WellFormed l → WellFormed (o :: l)
  | operator {o o' i n b l} : kind asId status o = .operand → kind asId status o' = .operator i n b → WellFormed l → WellFormed (o :: o' :: l)

end Mosml.Infix
