import Verif.Util

/-!
C35: the table packing of src/mosmlyac/output.c.  Arrays are lists; values of type short are unbounded integers.  `undef` is an access outside an array,
`fatal` the call of `fatal`.  A vector is the list of its pairs (`froms`, `tos`), its `tally` the length of that list.
-/
namespace Mosml.Yacc.Pack

inductive Res (A : Type) where
  | ok (a : A)
  | fatal
  | undef
deriving DecidableEq, Repr

def Res.bind {A B : Type} : Res A → (A → Res B) → Res B
  | .ok a, f => f a
  | .fatal, _ => .fatal
  | .undef, _ => .undef

abbrev Vec := List (Int × Int)

/-- `MAXTABLE`, defs.h:73 -/
def MAXTABLE : Nat := 32500

/-- the globals of pack_vector; `maxtable` is the length of `table` and of `check` -/
structure St where
  table : List Int
  check : List Int
  lowzero : Nat
  high : Nat

/-- output.c:550-551: `newmax` -/
def newmax (maxtable loc : Nat) : Nat := maxtable + 200 * ((loc - maxtable) / 200 + 1)

/-- output.c:550-561: a longer table -/
def grow (s : St) (loc : Nat) : St :=
  let m := newmax s.table.length loc
  { s with table := s.table ++ List.replicate (m - s.table.length) 0, check := s.check ++ List.replicate (m - s.table.length) (-1) }

/-- output.c:541-566: are the places of all entries free? -/
def tryPlace (j : Int) : Vec → St → Res (St × Bool)
  | [], s => .ok (s, true)
  | (f, _) :: v, s =>
    let loc := j + f
    if loc < 0 then .undef
    else
      (if loc.toNat ≥ s.table.length then if loc.toNat ≥ MAXTABLE then .fatal else .ok (grow s loc.toNat) else .ok s : Res St).bind fun s =>
        match s.check[loc.toNat]? with
        | none => .undef
        | some c => if c ≠ -1 then .ok (s, false) else tryPlace j v s

/-- output.c:574-580 -/
def write (j : Int) : Vec → St → Res St
  | [], s => .ok s
  | (f, t) :: v, s =>
    let loc := j + f
    if loc < 0 then .undef
    else if loc.toNat < s.table.length then
      write j v { s with table := s.table.set loc.toNat t, check := s.check.set loc.toNat f, high := max s.high loc.toNat }
    else .undef

/-- output.c:582-583; the list is `check` from `lowzero` on; `over` says how far the loop goes on after the end of `check`, or that it traps -/
def lowScan (over : Option Nat) : List Int → Nat → Res Nat
  | [], lowzero => match over with
    | none => .undef
    | some d => .ok (lowzero + d)
  | c :: cs, lowzero => if c ≠ -1 then lowScan over cs (lowzero + 1) else .ok lowzero

/-- output.c:537-587; the first argument bounds the number of tries: beyond the end of the table `fatal` is called (C35_defined shows that it never
runs out) -/
def packLoop (over : Option Nat) (v : Vec) (pos : List Int) : Nat → Int → St → Res (Int × St)
  | 0, _, _ => .undef
  | fuel + 1, j, s =>
    if j = 0 then packLoop over v pos fuel (j + 1) s
    else (tryPlace j v s).bind fun r =>
      if r.2 && !pos.contains j then
        (write j v r.1).bind fun s => (lowScan over (s.check.drop s.lowzero) s.lowzero).bind fun lz => .ok (j, { s with lowzero := lz })
      else packLoop over v pos fuel (j + 1) r.1

/-- output.c:533-536: the first place to try -/
def firstPlace (lowzero : Nat) : Vec → Int → Int
  | [], j => j
  | (f, _) :: v, j => firstPlace lowzero v (if (lowzero : Int) - f > j then lowzero - f else j)

/-- output.c:516-588; `pos` are the places so far -/
def packVector (over : Option Nat) (v : Vec) (pos : List Int) (s : St) : Res (Int × St) :=
  match v with
  | [] => .undef
  | (f, _) :: v' =>
    let j := firstPlace s.lowzero v' (s.lowzero - f)
    packLoop over v pos (((MAXTABLE : Int) + 200 - (j + f)).toNat + 2) j s

variable (nstates : Nat) (vecs : List Vec) (width : List Int)

/-- output.c:491-511; the argument is the vectors before, the last first -/
def matchLoop (i : Nat) : List Nat → Option Nat
  | [] => none
  | j :: prev =>
    if width.getD j 0 ≠ width.getD i 0 ∨ (vecs.getD j []).length ≠ (vecs.getD i []).length then none
    else if vecs.getD j [] = vecs.getD i [] then some j
    else matchLoop i prev

/-- output.c:477-512 -/
def matchingVector (i : Nat) (prev : List Nat) : Option Nat := if i ≥ 2 * nstates then none else matchLoop vecs width i prev

/-- output.c:434-445; `dn` are the entries done, the last first -/
def packLoopTable (over : Option Nat) : List Nat → List Nat → List Int → List Int → St → Res (List Int × St)
  | [], _, base, _, s => .ok (base, s)
  | i :: order, dn, base, pos, s =>
    match matchingVector nstates vecs width i dn with
    | some j => packLoopTable over order (i :: dn) (base.set i (base.getD j 0)) (pos ++ [base.getD j 0]) s
    | none => (packVector over (vecs.getD i []) pos s).bind fun r => packLoopTable over order (i :: dn) (base.set i r.1) (pos ++ [r.1]) r.2

/-- output.c:402-408: the second loop and the insertion; `order` is given the last first -/
def insertLoop2 (i : Nat) (w : Int) (t : Nat) : List Nat → List Nat
  | [] => [i]
  | j :: r => if width.getD j 0 = w ∧ (vecs.getD j []).length < t then j :: insertLoop2 i w t r else i :: j :: r

/-- output.c:397-408: the first loop -/
def insertOrder (i : Nat) (w : Int) (t : Nat) : List Nat → List Nat
  | [] => [i]
  | j :: r => if width.getD j 0 < w then j :: insertOrder i w t r else insertLoop2 vecs width i w t (j :: r)

/-- output.c:380-412: the array `order`, the last first -/
def sortLoop : Nat → List Nat
  | 0 => []
  | i + 1 =>
    let o := sortLoop i
    if (vecs.getD i []).length > 0 then insertOrder vecs width i (width.getD i 0) (vecs.getD i []).length o else o

/-- output.c:415-458; freeing of memory is left out -/
def packTable (over : Option Nat) : Res (List Int × St) :=
  packLoopTable nstates vecs width over (sortLoop vecs width vecs.length).reverse [] (List.replicate vecs.length 0) []
    { table := List.replicate 1000 0, check := List.replicate 1000 (-1), lowzero := 0, high := 0 }

/-! ### gotos -/

/-- output.c:318-322 -/
def countLoop : List (Int × Int) → List Nat → Option (List Nat)
  | [], c => some c
  | (_, t) :: gs, c => if 0 ≤ t ∧ t.toNat < c.length then countLoop gs (c.set t.toNat (c.getD t.toNat 0 + 1)) else none

/-- output.c:324-333; the arguments are `i`, `max` and `default_state` -/
def maxLoop : List Nat → Int → Nat → Int → Int
  | [], _, _, d => d
  | c :: cs, i, m, d => if c > m then maxLoop cs (i + 1) c i else maxLoop cs (i + 1) m d

/-- output.c:305-336; the gotos of the symbol are the pairs of `from_state` and `to_state` -/
def defaultGoto (n : Nat) (gs : List (Int × Int)) : Option Int :=
  if gs = [] then some 0
  else match countLoop gs (List.replicate n 0) with
    | none => none
    | some c => some (maxLoop c 0 0 0)

/-- output.c:340-378: the vector of the symbol -/
def saveColumn (gs : List (Int × Int)) (d : Int) : Vec := gs.filter (fun g => g.2 ≠ d)

/-! ### actions -/

inductive Code where
  | shift
  | reduce
deriving DecidableEq, Repr

/-- defs.h:239-249; the list `next` is a list -/
structure Action where
  symbol : Nat
  number : Int
  prec : Int := 0
  code : Code
  assoc : Int := 0
  suppressed : Nat := 0
deriving DecidableEq, Repr

/-- output.c:205-220: the two halves of `actionrow` are separate lists -/
def rowLoop (defred : Int) : List Action → Nat → Nat → List Int → List Int → Option (Nat × Nat × List Int × List Int)
  | [], sc, rc, srow, rrow => some (sc, rc, srow, rrow)
  | p :: ps, sc, rc, srow, rrow =>
    if p.suppressed = 0 then
      if p.code = .shift then if p.symbol < srow.length then rowLoop defred ps (sc + 1) rc (srow.set p.symbol p.number) rrow else none
      else if p.number ≠ defred then if p.symbol < rrow.length then rowLoop defred ps sc (rc + 1) srow (rrow.set p.symbol p.number) else none
      else rowLoop defred ps sc rc srow rrow
    else rowLoop defred ps sc rc srow rrow

/-- output.c:232-243, 252-263: the pairs written; `off` is 2 for the reductions -/
def rowPairs (symbolValue : Nat → Int) (off : Int) : Nat → List Int → Vec
  | _, [] => []
  | j, a :: as => if a ≠ 0 then (symbolValue j, a - off) :: rowPairs symbolValue off (j + 1) as else rowPairs symbolValue off (j + 1) as

/-- output.c:226-245: `NEW2` clears the vector of `count` pairs -/
def rowVec (symbolValue : Nat → Int) (off : Int) (count : Nat) (row : List Int) : Option Vec :=
  let v := rowPairs symbolValue off 0 row
  if count = 0 then some [] else if v.length ≤ count then some (v ++ List.replicate (count - v.length) (0, 0)) else none

/-- output.c:198-265: the row of shifts and the row of reductions of one state -/
def tokenActions (ntokens : Nat) (symbolValue : Nat → Int) (defred : Int) (ps : List Action) : Option (Vec × Vec) :=
  match rowLoop defred ps 0 0 (List.replicate ntokens 0) (List.replicate ntokens 0) with
  | none => none
  | some (sc, rc, srow, rrow) => match rowVec symbolValue 0 sc srow, rowVec symbolValue 2 rc rrow with
    | some v, some w => some (v, w)
    | _, _ => none

/-! ### looking up, as parsing.c does -/

/-- src/runtime/parsing.c:106-109, 111-114 -/
def lookup (s : St) (n1 : Int) (x : Int) : Option Int :=
  let n2 := n1 + x
  if n1 ≠ 0 ∧ n2 ≥ 0 ∧ n2 ≤ s.high ∧ s.check[n2.toNat]? = some x then s.table[n2.toNat]? else none

/-- src/runtime/parsing.c:144-151 -/
def gotoState (s : St) (gindex dgoto : Int) (state1 : Int) : Option Int :=
  let n2 := gindex + state1
  if gindex ≠ 0 ∧ n2 ≥ 0 ∧ n2 ≤ s.high ∧ s.check[n2.toNat]? = some state1 then s.table[n2.toNat]? else some dgoto

end Mosml.Yacc.Pack

