import Verif.Util

/-!
C49: src/compiler/Infixst.sml.  The functions `pair`, `applyId` and `applyObj` of the record `iStackStr` build expressions or patterns; they are modelled by the
constructors of a tree.  (`applyObj_Pat`, Infixres.sml:61-65, rejects some applications; that is a further check on the tree.)  `asId` gives the identifier
of an object that may be an operator (Infixres.sml:15-23), `status` is the composition of `statusOfId` with the extraction of the name.  Precedences are
arbitrary integers.
-/
namespace Mosml.Infix

/-- Infixst.sml:15-18 -/
inductive Entry (I : Type) where
  | infixL (i : I) (n : Int)
  | infixR (i : I) (n : Int)
  | app

/-- Const.sml: INFIXst, INFIXRst, NONFIXst -/
inductive Status where
  | infixL (n : Int)
  | infixR (n : Int)
  | nonfix

/-- Infixst.sml:21 -/
inductive LastObj where
  | arg
  | oper
  | void

/-- Infixst.sml:5-6 -/
inductive Err where
  | wrongInfix
  | mixedAssociativity

/-- what the record of operations builds -/
inductive Tree (O I : Type) where
  | leaf (o : O)
  | applyId (i : I) (l r : Tree O I)
  | applyObj (l r : Tree O I)

variable {O I : Type}

/-- Infixst.sml:28-37 -/
def apply (e : Entry I) : List (Tree O I) → Except Err (List (Tree O I))
  | o2 :: o1 :: rest => .ok ((match e with
      | .infixL i _ => .applyId i o1 o2
      | .infixR i _ => .applyId i o1 o2
      | .app => .applyObj o1 o2) :: rest)
  | _ => .error .wrongInfix

/-- Infixst.sml:39-52 -/
def assocLeft : Entry I → Entry I → Except Err Bool
  | .app, _ => .ok true
  | _, .app => .ok false
  | .infixL _ n1, .infixL _ n2 => if n1 > n2 then .ok true else if n1 < n2 then .ok false else .ok true
  | .infixR _ n1, .infixR _ n2 => if n1 > n2 then .ok true else if n1 < n2 then .ok false else .ok false
  | .infixL _ n1, .infixR _ n2 => if n1 > n2 then .ok true else if n1 < n2 then .ok false else .error .mixedAssociativity
  | .infixR _ n1, .infixL _ n2 => if n1 > n2 then .ok true else if n1 < n2 then .ok false else .error .mixedAssociativity

/-- Infixst.sml:54-61 -/
def flushHigher (e : Entry I) : List (Entry I) → List (Tree O I) → Except Err (List (Entry I) × List (Tree O I))
  | [], output => .ok ([], output)
  | top :: rest, output => match assocLeft top e with
    | .error x => .error x
    | .ok true => match apply top output with
      | .error x => .error x
      | .ok output => flushHigher e rest output
    | .ok false => .ok (top :: rest, output)

/-- Infixst.sml:63-68 -/
def flushAll : List (Entry I) → List (Tree O I) → Except Err (Tree O I)
  | [], output => match output with
    | [item] => .ok item
    | _ => .error .wrongInfix
  | top :: rest, output => match apply top output with
    | .error x => .error x
    | .ok output => flushAll rest output

variable (asId : O → Option I) (status : I → Status)

/-- Infixst.sml:70-102, `process` with `operator` (lines 98-101) at its calls.  When `operator APPentry input` calls `process` again, `last` is OPER and
the object is put on the output at once: that is the last line of each of the two cases -/
def process : List O → List (Entry I) → LastObj → List (Tree O I) → Except Err (Tree O I)
  | [], stack, _, output => flushAll stack output
  | this :: rest, stack, last, output =>
    let argument := match last with
      | .arg => (match flushHigher .app stack output with
        | .error x => .error x
        | .ok (stack, output) => process rest (.app :: stack) .arg (.leaf this :: output) : Except Err (Tree O I))
      | _ => process rest stack .arg (.leaf this :: output)
    match asId this with
    | some i => match status i with
      | .infixL n => match flushHigher (.infixL i n) stack output with
        | .error x => .error x
        | .ok (stack, output) => process rest (.infixL i n :: stack) .oper output
      | .infixR n => match flushHigher (.infixR i n) stack output with
        | .error x => .error x
        | .ok (stack, output) => process rest (.infixR i n :: stack) .oper output
      | .nonfix => argument
    | none => argument

/-- Infixst.sml:23-104 -/
def resolveInfix (objs : List O) : Except Err (Tree O I) := process asId status objs [] .void []

end Mosml.Infix
