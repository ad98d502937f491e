import Verif.Util

/-!
C50: model of src/compiler/Match.sml (and of the part of Tr_env.sml that binds the variables of patterns).
-/
namespace Mosml.Match

/-- Const.sml:22-28; reals are identified when they are equal as reals (a NaN is no constant) -/
inductive SCon where
  | int (i : Int)
  | word (w : Nat)
  | char (c : Nat)
  | real (q : Int)
  | string (s : List Nat)
deriving DecidableEq, Repr

/-- the Lambda expressions that access data (Lambda.sml): a variable in de Bruijn's notation, a global, a field of a block, the size of a block -/
inductive Acc where
  | var (n : Nat)
  | global (g : Nat)
  | field (i : Nat) (a : Acc)
  | vectlen (a : Acc)
deriving DecidableEq, Repr

/-- Globals.sml:115-122, without the type -/
structure ConInfo where
  arity : Nat
  greedy : Bool
  span : Nat
  tag : Nat
deriving DecidableEq, Repr

/-- Asynt.sml:62-82: patterns with infix resolved and records as tuples; the exception constructors carry the access to their name (`translateExName`) -/
inductive Pat where
  | scon (c : SCon)
  | var (x : String)
  | wild
  | nil (ci : ConInfo)
  | cons (ci : ConInfo) (p : Pat)
  | exnil (a : Acc)
  | excons (a : Acc) (p : Pat)
  | exname (a : Acc)
  | ref (p : Pat)
  | tup (ps : List Pat)
  | vec (ps : List Pat)
  | par (p : Pat)
  | typed (p : Pat)
  | layered (x : String) (p : Pat)

/-- Match.sml:18-22 -/
def splitPath (n : Nat) (obj : Acc) : List Acc := (List.range n).map (fun i => .field i obj)

/-- Match.sml:36-46 -/
def simplifyPat : Pat → Pat
  | .var _ => .wild
  | .ref p => .tup [p]
  | .par p => simplifyPat p
  | .typed p => simplifyPat p
  | .layered _ p => simplifyPat p
  | .exnil a => .tup [.exname a, .wild]
  | .excons a p => .tup [.exname a, p]
  | p => p

/-- Match.sml:50-55 -/
inductive Con where
  | scon (c : SCon)
  | tup (n : Nat)
  | vec (n : Nat)
  | ccon (tag span arity : Nat)
  | eexn (a : Acc)
deriving DecidableEq, Repr

/-- Match.sml:57-62; 0 stands for infinity -/
def span : Con → Nat
  | .scon (.char _) => 256
  | .scon _ => 0
  | .tup _ => 1
  | .vec _ => 0
  | .ccon _ span _ => span
  | .eexn _ => 0

/-- Match.sml:64-68 -/
def arity : Con → Nat
  | .scon _ => 0
  | .tup n => n
  | .vec n => n
  | .ccon _ _ arity => arity
  | .eexn _ => 0

/-- Match.sml:72-74 -/
inductive Termd where
  | pos (c : Con) (args : List Termd)
  | neg (cs : List Con)

/-- Match.sml:76-78 -/
def bot : Termd := .neg []
def bots (n : Nat) : List Termd := List.replicate n bot

/-- Match.sml:87: the arguments are in reverse order -/
abbrev Context := List (Con × List Termd)

/-- Match.sml:91 -/
inductive MatchResult where
  | yes
  | no
  | maybe
deriving DecidableEq

/-- Match.sml:93-105 -/
def staticmatch (pcon : Con) : Termd → MatchResult
  | .pos scon _ => if pcon = scon then .yes else match pcon with
    | .eexn _ => .maybe
    | _ => .no
  | .neg nonset => if pcon ∈ nonset then .no else if span pcon = 1 + nonset.length then .yes else .maybe

/-- Match.sml:109-110 -/
def addneg : Termd → Con → Termd
  | .neg nonset, con => .neg (con :: nonset)
  | dsc, _ => dsc

/-- Match.sml:112-117 -/
def apply : Context → Termd → Context
  | [], _ => []
  | (con, args) :: rest, dsc => if arity con = args.length + 1 then apply rest (.pos con (dsc :: args).reverse) else (con, dsc :: args) :: rest

/-- the work still to do in one block: patterns, accesses, descriptions -/
abbrev Work := List (List Pat × List Acc × List Termd)

/-- Match.sml:122-126; `none` is `fatalError` -/
def builddsc : Context → Termd → Work → Option Termd
  | [], dsc, [] => some dsc
  | (con, args) :: rest, dsc, (_, _, sargs) :: work => builddsc rest (.pos con (args.reverse ++ dsc :: sargs)) work
  | _, _, _ => none

/-- Match.sml:130-135: a node; decisions are references to nodes and become numbers -/
inductive Dec where
  | failure
  | success (k : Nat)
  | ifEq (a : Acc) (c : Con) (t e : Nat)
deriving DecidableEq, Repr

/-- all nodes made, and the reference count of each -/
structure Dag where
  nodes : List Dec
  refs : List Nat
deriving DecidableEq, Repr

/-- Match.sml:139 -/
def incrnode (g : Dag) (n : Nat) : Dag := { g with refs := g.refs.modify n (· + 1) }

/-- Match.sml:148-159: the table holds all tests made so far; a node is found when it has the same test and the same (not only equal) successors -/
def unique (a : Acc) (c : Con) (t e : Nat) (g : Dag) : Nat × Dag :=
  if t = e then (t, g)
  else if .ifEq a c t e ∈ g.nodes then (g.nodes.idxOf (.ifEq a c t e), g)
  else
    let g := incrnode (incrnode g t) e
    (g.nodes.length, { nodes := g.nodes ++ [.ifEq a c t e], refs := g.refs ++ [0] })

abbrev M := Dag → Option (Nat × Dag)

/-- a rule: its patterns and the node of its right-hand side -/
abbrev Rule := List Pat × Nat

/-- Match.sml:185-193 -/
def mktest (fail conequal : Termd → M) (pcon : Con) (obj : Acc) (dsc : Termd) (ctx : Context) (work : Work) : M := fun g =>
  match staticmatch pcon dsc with
  | .yes => conequal dsc g
  | .no => (builddsc ctx dsc work).bind (fun d => fail d g)
  | .maybe => (conequal (.pos pcon (bots (arity pcon))) g).bind fun (t, g) =>
      (builddsc ctx (addneg dsc pcon) work).bind fun d => (fail d g).bind fun (e, g) => some (unique obj pcon t e g)

/-- Match.sml:203-204, 221-222: the known arguments -/
def getsargs (n : Nat) : Termd → List Termd
  | .neg _ => bots n
  | .pos _ sargs => sargs

/-- Match.sml:213, 219 -/
def conOf (ci : ConInfo) (ar : Nat) : Con := .ccon ci.tag ci.span ar

/-- Match.sml:220-221 -/
def argAccess (ci : ConInfo) (obj : Acc) : Acc := if ci.greedy || ci.span == 1 then obj else .field 0 obj

/-! Match.sml:161-262: `makedag`.  The recursion is bounded by a number of steps (`none` when it runs out: `cost` below is always enough). -/
mutual
/-- Match.sml:170-174 -/
def fail (failure : Nat) (objs1 : List Acc) (topCon : Con) : Nat → Termd → List Rule → M
  | 0, _, _, _ => none
  | _ + 1, _, [], g => some (failure, g)
  | fuel + 1, .pos _ dscs, (pats1, rhs1) :: rulerest, g => succeed failure objs1 topCon fuel [(topCon, [])] [(pats1, objs1, dscs)] rhs1 rulerest g
  | _ + 1, .neg _, _ :: _, _ => none

/-- Match.sml:176-183 -/
def succeed (failure : Nat) (objs1 : List Acc) (topCon : Con) : Nat → Context → Work → Nat → List Rule → M
  | 0, _, _, _, _, _ => none
  | _ + 1, _, [], rhs, _, g => some (rhs, g)
  | fuel + 1, ctx, ([], [], []) :: workrest, rhs, rules, g => succeed failure objs1 topCon fuel ctx workrest rhs rules g
  | fuel + 1, ctx, (pat1 :: patrest, obj1 :: objrest, dsc1 :: dscrest) :: workrest, rhs, rules, g =>
      mtch failure objs1 topCon fuel pat1 obj1 dsc1 ctx ((patrest, objrest, dscrest) :: workrest) rhs rules g
  | _ + 1, _, _ :: _, _, _, _ => none

/-- Match.sml:195-259 -/
def mtch (failure : Nat) (objs1 : List Acc) (topCon : Con) : Nat → Pat → Acc → Termd → Context → Work → Nat → List Rule → M
  | 0, _, _, _, _, _, _, _, _ => none
  | fuel + 1, pat, obj, dsc, ctx, work, rhs, rules, g =>
    let failk : Termd → M := fun d => fail failure objs1 topCon fuel d rules
    let leaf : Termd → M := fun newdsc => succeed failure objs1 topCon fuel (apply ctx newdsc) work rhs rules
    match simplifyPat pat with
    | .scon c => mktest failk leaf (.scon c) obj dsc ctx work g
    | .vec pats =>
      let conequal : Termd → M := match pats with
        | [] => leaf
        | _ => fun _ => succeed failure objs1 topCon fuel ((.vec pats.length, []) :: ctx) ((pats, splitPath pats.length obj, getsargs pats.length dsc) :: work) rhs rules
      mktest failk conequal (.vec pats.length) (.vectlen obj) dsc ctx work g
    | .wild => leaf dsc g
    | .nil ci => mktest failk leaf (conOf ci 0) obj dsc ctx work g
    | .cons ci p =>
      let conequal : Termd → M := fun _ =>
        succeed failure objs1 topCon fuel ((conOf ci 1, []) :: ctx) (([p], [argAccess ci obj], getsargs 1 dsc) :: work) rhs rules
      mktest failk conequal (conOf ci 1) obj dsc ctx work g
    | .exname a => mktest failk leaf (.eexn a) obj dsc ctx work g
    | .tup [] => leaf dsc g
    | .tup pats => succeed failure objs1 topCon fuel ((.tup pats.length, []) :: ctx) ((pats, splitPath pats.length obj, getsargs pats.length dsc) :: work) rhs rules g
    | _ => none
end

/-! the number of steps -/
mutual
def cost : Pat → Nat
  | .cons _ p => 3 + cost p
  | .exnil _ => 6
  | .excons _ p => 5 + cost p
  | .ref p => 3 + cost p
  | .tup ps => 2 + costs ps
  | .vec ps => 2 + costs ps
  | .par p => cost p
  | .typed p => cost p
  | .layered _ p => cost p
  | _ => 1
def costs : List Pat → Nat
  | [] => 0
  | p :: ps => 1 + cost p + costs ps
end

def rulesCost : List Rule → Nat
  | [] => 1
  | (ps, _) :: rest => 3 + costs ps + rulesCost rest

/-- Match.sml:161-168 and 260-262 -/
def makedag (failure : Nat) : List Rule → M
  | [], _ => none
  | rules@((pats1, _) :: _), g =>
    let n := pats1.length
    fail failure ((List.range n).map Acc.var).reverse (.tup n) (rulesCost rules) (.pos (.tup n) (bots n)) rules g

/-- the Lambda code made of a decision (Lambda.sml:9-29); the right-hand sides are numbers.  A shared node carries its number (its reference). -/
inductive Lam where
  | rhs (k : Nat)
  | failLam
  | unspec
  | case (a : Acc) (cl : List (SCon × Lam))
  | switch (span : Nat) (a : Acc) (cl : List (Nat × Lam))
  | handle (body handler : Lam)
  | ifEq (a b : Acc) (ifso ifnot : Lam)
  | shared (n : Nat) (l : Lam)

/-- Match.sml:137 -/
def isShared (g : Dag) (n : Nat) : Bool := decide (1 < g.refs.getD n 0)

/-- Match.sml:278-286; `none` when `getcon` fails -/
def collect {κ : Type} (g : Dag) (getcon : Con → Option κ) (last : Acc) : Nat → List (κ × Nat) → Nat → Option (List (κ × Nat) × Nat)
  | 0, _, _ => none
  | fuel + 1, cases, otherwise => match g.nodes[otherwise]? with
    | some (.ifEq obj con thenact elseact) =>
      if obj = last ∧ isShared g otherwise = false then (getcon con).bind fun c => collect g getcon last fuel ((c, thenact) :: cases) elseact
      else some (cases, otherwise)
    | _ => some (cases, otherwise)

/-- Match.sml:270-275 -/
def getSCon : Con → Option SCon
  | .scon c => some c
  | _ => none
def getCCon : Con → Option Nat
  | .ccon tag _ _ => some tag
  | _ => none
def getVec : Con → Option SCon
  | .vec n => some (.int n)
  | _ => none

/-- Match.sml:288-291: the cases in the order of the tests -/
def revmap {κ : Type} (f : Nat → Option Lam) (cases : List (κ × Nat)) : Option (List (κ × Lam)) := cases.reverse.mapM (fun (c, n) => (f n).map (fun l => (c, l)))

mutual
/-- Match.sml:293-295, 305-330: `toseq` with `mkSwitch`; a `Lswitch` keeps only the tags -/
def toseq (g : Dag) (fl : Lam) : Nat → Nat → Option Lam
  | 0, _ => none
  | fuel + 1, n => match g.nodes[n]? with
    | none => none
    | some .failure => some fl
    | some (.success k) => some (.rhs k)
    | some (.ifEq obj con thenact elseact) => match con with
      | .scon c => (collect g getSCon obj (g.nodes.length + 1) [] elseact).bind fun (cases, otherwise) =>
          (share g fl fuel thenact).bind fun l1 => (revmap (share g fl fuel) cases).bind fun ls =>
          (share g fl fuel otherwise).bind fun l2 => some (.handle (.case obj ((c, l1) :: ls)) l2)
      | .vec m => (collect g getVec obj (g.nodes.length + 1) [] elseact).bind fun (cases, otherwise) =>
          (share g fl fuel thenact).bind fun l1 => (revmap (share g fl fuel) cases).bind fun ls =>
          (share g fl fuel otherwise).bind fun l2 => some (.handle (.case obj ((.int m, l1) :: ls)) l2)
      | .ccon tag sp _ => (collect g getCCon obj (g.nodes.length + 1) [] elseact).bind fun (cases, otherwise) =>
          (share g fl fuel thenact).bind fun l1 => (revmap (share g fl fuel) cases).bind fun ls =>
          (share g fl fuel otherwise).bind fun l2 => some (.handle (.switch sp obj ((tag, l1) :: ls)) l2)
      | .eexn a => (share g fl fuel thenact).bind fun l1 => (share g fl fuel elseact).bind fun l2 => some (.ifEq obj a l1 l2)
      | .tup _ => none

/-- Match.sml:297-303; the code of a shared node is made once and remembered, which gives the same code -/
def share (g : Dag) (fl : Lam) : Nat → Nat → Option Lam
  | 0, _ => none
  | fuel + 1, n => if isShared g n then (toseq g fl fuel n).map (.shared n) else toseq g fl fuel n
end

/-- Match.sml:266-332 -/
def tolambda (g : Dag) (root : Nat) (fl : Lam) : Option Lam := toseq g fl (2 * g.nodes.length + 2) root

/-- Match.sml:336-357: the code, and the warnings (unused cases; the match is not exhaustive, which is printed by `failure_code`) -/
structure Result where
  code : Lam
  unusedCases : Bool
  inexhaustive : Bool

def translateMatch (mrules : List (List Pat)) : Option Result :=
  let g : Dag := { nodes := .failure :: (List.range mrules.length).map .success, refs := List.replicate (mrules.length + 1) 0 }
  (makedag 0 (mrules.zipIdx 1) g).bind fun (root, g) =>
    let g := incrnode g root
    let usedFailure := decide (0 < g.refs.getD 0 0)
    let unused := (List.range mrules.length).any (fun k => decide (g.refs.getD (k + 1) 0 = 0))
    (tolambda g root (if usedFailure then .failLam else .unspec)).map fun l => { code := l, unusedCases := unused, inexhaustive := usedFailure }

end Mosml.Match
