import Verif.Match.Model

/-!
C50: values, what it means that a pattern matches, how values are represented when the program runs, and what the Lambda code does.
-/
namespace Mosml.Match

/-- a constructor of a datatype: without argument, with an argument, with a tuple or record of the given size as argument (Elab.sml:1786-1800) -/
inductive ConDecl where
  | nullary
  | unary
  | greedy (n : Nat)
deriving DecidableEq, Repr

/-- the constructors of a datatype, in the order of their tags -/
abbrev Decl := List ConDecl

/-- what the compiler knows about constructor `t` -/
def infoOf (d : Decl) (t : Nat) : ConInfo := match d[t]? with
  | some .unary => ⟨1, false, d.length, t⟩
  | some (.greedy n) => ⟨n, true, d.length, t⟩
  | _ => ⟨0, false, d.length, t⟩

/-- values: constants; blocks (tuples, records and exceptions have the tag 0, references `refTag`; an exception is the pair of its name and its argument,
Front.sml:mkDynexn1); vectors; constructors; names of exceptions; anything else -/
inductive V where
  | scon (c : SCon)
  | tup (tag : Nat) (vs : List V)
  | vec (vs : List V)
  | con0 (d : Decl) (t : Nat)
  | con1 (d : Decl) (t : Nat) (v : V)
  | name (n : Nat)
  | other (n : Nat)

/-- runtime values: unboxed numbers, strings, reals, blocks, names of exceptions (addresses), anything else -/
inductive R where
  | imm (n : Int)
  | str (s : List Nat)
  | real (q : Int)
  | block (tag : Nat) (fs : List R)
  | name (n : Nat)
  | other (n : Nat)

/-- Tr_const.sml:8-12 -/
def sconR : SCon → R
  | .int i => .imm i
  | .word w => .imm w
  | .char c => .imm c
  | .real q => .real q
  | .string s => .str s

/-- Front.sml:277-290, 648-676: the representation of constructed values -/
def conR (d : Decl) (t : Nat) (r : R) : R := match d[t]? with
  | some (.greedy _) => match r with
    | .block _ fs => .block t fs
    | r => r
  | _ => if d.length = 1 then r else .block t [r]

mutual
def rep : V → R
  | .scon c => sconR c
  | .tup tag vs => .block tag (reps vs)
  | .vec vs => .block 0 (reps vs)
  | .con0 _ t => .block t []
  | .con1 d t v => conR d t (rep v)
  | .name n => .name n
  | .other n => .other n
def reps : List V → List R
  | [] => []
  | v :: vs => rep v :: reps vs
end

/-! A pattern matches a value with some bindings; `nm` gives the name that an exception constructor stands for. -/
mutual
def matchV (nm : Acc → Nat) : Pat → V → Option (List (String × V))
  | .scon c, .scon c' => if c = c' then some [] else none
  | .var x, v => some [(x, v)]
  | .wild, _ => some []
  | .nil ci, .con0 _ t => if ci.tag = t then some [] else none
  | .cons ci p, .con1 _ t v => if ci.tag = t then matchV nm p v else none
  | .exnil a, .tup _ [.name n, _] => if nm a = n then some [] else none
  | .excons a p, .tup _ [.name n, v] => if nm a = n then matchV nm p v else none
  | .exname a, .name n => if nm a = n then some [] else none
  | .ref p, .tup _ [v] => matchV nm p v
  | .tup ps, .tup _ vs => matchVs nm ps vs
  | .vec ps, .vec vs => matchVs nm ps vs
  | .par p, v => matchV nm p v
  | .typed p, v => matchV nm p v
  | .layered x p, v => (matchV nm p v).map ((x, v) :: ·)
  | _, _ => none
def matchVs (nm : Acc → Nat) : List Pat → List V → Option (List (String × V))
  | [], [] => some []
  | p :: ps, v :: vs => (matchV nm p v).bind fun b => (matchVs nm ps vs).map (b ++ ·)
  | _, _ => none
end

/-- constants of one type -/
def SameKind : SCon → SCon → Prop
  | .int _, .int _ => True
  | .word _, .word _ => True
  | .char c, .char c' => c < 256 ∧ c' < 256
  | .real _, .real _ => True
  | .string _, .string _ => True
  | _, _ => False

/-- the argument of a constructor declared with a tuple is a tuple -/
def ArgOk (d : Decl) (t : Nat) (v : V) : Prop := ∀ n, d[t]? = some (.greedy n) → ∃ vs, v = .tup 0 vs ∧ vs.length = n

/-! The pattern and the value are of one type, as far as they are compared: constants are of one kind, constructors are of one datatype, tuples of one size;
the argument of an exception constructor has the type of the value only when the name is the same.  (Every pair of a pattern and a value of the same type.) -/
mutual
def Fits (nm : Acc → Nat) : Pat → V → Prop
  | .scon c, .scon c' => SameKind c c'
  | .scon (.real _), .other _ => True
  | .var _, _ => True
  | .wild, _ => True
  | .nil ci, .con0 d t => (∃ t', t' < d.length ∧ d[t']? = some .nullary ∧ ci = infoOf d t') ∧ d[t]? = some .nullary
  | .nil ci, .con1 d t v => (∃ t', t' < d.length ∧ d[t']? = some .nullary ∧ ci = infoOf d t') ∧ t < d.length ∧ d[t]? ≠ some .nullary ∧ ArgOk d t v
  | .cons ci _, .con0 d t => (∃ t', t' < d.length ∧ d[t']? ≠ some .nullary ∧ ci = infoOf d t') ∧ d[t]? = some .nullary
  | .cons ci p, .con1 d t v => (∃ t', t' < d.length ∧ d[t']? ≠ some .nullary ∧ ci = infoOf d t') ∧ t < d.length ∧ d[t]? ≠ some .nullary ∧
      ArgOk d t v ∧ (ci.tag = t → Fits nm p v)
  | .exnil _, .tup _ [.name _, _] => True
  | .excons a p, .tup _ [.name n, v] => nm a = n → Fits nm p v
  | .exname _, .name _ => True
  | .ref p, .tup _ [v] => Fits nm p v
  | .tup ps, .tup _ vs => ps.length = vs.length ∧ FitsAll nm ps vs
  | .vec ps, .vec vs => ps.length = vs.length → FitsAll nm ps vs
  | .par p, v => Fits nm p v
  | .typed p, v => Fits nm p v
  | .layered _ p, v => Fits nm p v
  | _, _ => False
def FitsAll (nm : Acc → Nat) : List Pat → List V → Prop
  | [], _ => True
  | _, [] => True
  | .exname a :: ps, .name n :: vs => nm a = n → FitsAll nm ps vs
  | p :: ps, v :: vs => Fits nm p v ∧ FitsAll nm ps vs
end

/-- the first rule whose patterns match, with its bindings -/
def firstRule (nm : Acc → Nat) (vs : List V) : List (List Pat) → Option (Nat × List (String × V))
  | [] => none
  | ps :: rules => match matchVs nm ps vs with
    | some b => some (0, b)
    | none => (firstRule nm vs rules).map (fun (k, b) => (k + 1, b))

/-! ### what the code does -/

/-- the value of an access; `γ` are the globals, `ρ` the variables -/
def evalAcc (γ : Nat → R) (ρ : List R) : Acc → Option R
  | .var n => ρ[n]?
  | .global g => some (γ g)
  | .field i a => match evalAcc γ ρ a with
    | some (.block _ fs) => fs[i]?
    | _ => none
  | .vectlen a => match evalAcc γ ρ a with
    | some (.block _ fs) => some (.imm fs.length)
    | _ => none

/-- a constant of a `Lcase` is the value -/
def sconEq : SCon → R → Bool
  | .int i, .imm n => decide (i = n)
  | .word w, .imm n => decide ((w : Int) = n)
  | .char c, .imm n => decide ((c : Int) = n)
  | .real q, .real q' => decide (q = q')
  | .string s, .str s' => decide (s = s')
  | _, _ => false

/-- how the code ends: in a right-hand side, in the code for a match failure, in the value `Lunspec`, in an outer static handler, or in an access that is not defined -/
inductive Out where
  | rhs (k : Nat)
  | failed
  | unspec
  | staticfail
  | stuck
deriving DecidableEq, Repr

mutual
/-- Lambda code: `Lcase` takes the clause with the constant, `Lswitch` the clause with the tag of the block; without such a clause they go to the handler of the
innermost `Lstatichandle`; `Lif` here compares two addresses -/
def evalLam (γ : Nat → R) (ρ : List R) : Lam → Out
  | .rhs k => .rhs k
  | .failLam => .failed
  | .unspec => .unspec
  | .case a cl => match evalAcc γ ρ a with
    | none => .stuck
    | some r => evalCase γ ρ r cl
  | .switch span a cl => match evalAcc γ ρ a with
    | some (.block tag _) => if tag < span then evalSwitch γ ρ tag cl else .stuck
    | _ => .stuck
  | .handle body handler => match evalLam γ ρ body with
    | .staticfail => evalLam γ ρ handler
    | o => o
  | .ifEq a b ifso ifnot => match evalAcc γ ρ a, evalAcc γ ρ b with
    | some (.name n), some (.name m) => if n = m then evalLam γ ρ ifso else evalLam γ ρ ifnot
    | _, _ => .stuck
  | .shared _ l => evalLam γ ρ l
def evalCase (γ : Nat → R) (ρ : List R) (r : R) : List (SCon × Lam) → Out
  | [] => .staticfail
  | (c, l) :: cl => if sconEq c r then evalLam γ ρ l else evalCase γ ρ r cl
def evalSwitch (γ : Nat → R) (ρ : List R) (tag : Nat) : List (Nat × Lam) → Out
  | [] => .staticfail
  | (t, l) :: cl => if t = tag then evalLam γ ρ l else evalSwitch γ ρ tag cl
end

end Mosml.Match
