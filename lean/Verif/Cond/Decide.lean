import Verif.Util

/-!
# Decision code for case analysis on integers and constructors

Model of `compileNBranch`, `compDecision`, `compSwitch` and `compDirectSwitch` of
src/compiler/Back.sml and of the instructions BRANCHINTERVAL, SWITCH and BRANCH
(src/runtime/interp.c:1035-1037, 1052-1057, 1277-1293).

The right-hand sides of the clauses are opaque: one instruction `act a` stands for the
code of the clause `a`.
-/

namespace Mosml.Cond

/-! ## The sorting function, src/compiler/Sort.sml -/

/-- `merge`, Sort.sml:3-11, for the order `key1 <= key2` on clauses. -/
def merge {α : Type} : List (Int × α) → List (Int × α) → List (Int × α)
  | [], ys => ys
  | xs, [] => xs
  | x :: xr, y :: yr =>
      if x.1 ≤ y.1 then x :: merge xr (y :: yr) else y :: merge (x :: xr) yr
termination_by xs ys => xs.length + ys.length

/-- `initList`, Sort.sml:14-17. -/
def initList {α : Type} : List (Int × α) → List (List (Int × α))
  | [] => []
  | [e] => [[e]]
  | x1 :: x2 :: xs => (if x1.1 ≤ x2.1 then [x1, x2] else [x2, x1]) :: initList xs

/-- `merge2`, Sort.sml:18-19. -/
def merge2 {α : Type} : List (List (Int × α)) → List (List (Int × α))
  | xs1 :: xs2 :: xss => merge xs1 xs2 :: merge2 xss
  | xss => xss

theorem merge2_length {α : Type} : ∀ (xss : List (List (Int × α))), (merge2 xss).length ≤ xss.length
  | [] => by simp [merge2]
  | [_] => by simp [merge2]
  | _ :: _ :: xss => by
      have := merge2_length xss
      simp only [merge2, List.length_cons]; omega

/-- `mergeAll`, Sort.sml:20-22. -/
def mergeAll {α : Type} : List (List (Int × α)) → List (Int × α)
  | [] => []
  | [xs] => xs
  | x :: y :: xss => mergeAll (merge2 (x :: y :: xss))
termination_by xss => xss.length
decreasing_by
  have := merge2_length xss
  simp only [merge2, List.length_cons]; omega

/-- `sort`, Sort.sml:13-23. -/
def sort {α : Type} (l : List (Int × α)) : List (Int × α) := mergeAll (initList l)

/-! ## Decision trees -/

/-- `Decision`, Back.sml:169-174; `none` in the table is `Lstaticfail`. -/
structure Dec (α : Type) where
  low : Int
  act : List (Option α)
  high : Int

/-- `DecisionTree`, Back.sml:165-167. -/
inductive DTree (α : Type) where
  | fail
  | interval (left : DTree α) (d : Dec α) (right : DTree α)

/-- SML integers of the compiler: 63 bits; `-` raises Overflow beyond. -/
def subInt (x y : Int) : Option Int :=
  if -(2 ^ 62) ≤ x - y ∧ x - y < 2 ^ 62 then some (x - y) else none

/-- `keyv sub i` -/
def keyAt {α : Type} (cs : List (Int × α)) (i : Nat) : Int := ((cs[i]?).map (·.1)).getD 0

/-- The loop that decrements `stop`, Back.sml:201-203.  `none`: Overflow. -/
def findStop {α : Type} (cs : List (Int × α)) (start : Nat) : Nat → Option Nat
  | 0 => some 0
  | stop + 1 =>
      (subInt (keyAt cs (stop + 1)) (keyAt cs start)).bind fun d =>
        if d ≥ 255 ∨ d > 4 * ((stop : Int) + 1 - start) then findStop cs start stop
        else some (stop + 1)

/-- `extractAct`, Back.sml:186-194: a table of the actions from `start` to `stop`. -/
def extractAct {α : Type} (cs : List (Int × α)) (start stop : Nat) : List (Option α) :=
  let k0 := keyAt cs start
  ((cs.take (stop + 1)).drop start).foldl (fun a c => a.set (c.1 - k0).toNat (some c.2))
    (List.replicate (keyAt cs stop - k0 + 1).toNat none)

/-- `partition`, Back.sml:199-212; the fuel is the number of keys left. -/
def partition {α : Type} (cs : List (Int × α)) : Nat → Nat → Option (List (Dec α))
  | 0, _ => some []
  | fuel + 1, start =>
      if start ≥ cs.length then some []
      else
        (findStop cs start (cs.length - 1)).bind fun stop =>
          (partition cs fuel (stop + 1)).map fun rest =>
            { low := keyAt cs start, act := extractAct cs start stop, high := keyAt cs stop } :: rest

/-- `make_tree start (stop - 1)`, Back.sml:215-223 (the upper bound is exclusive here). -/
def makeTree {α : Type} (part : List (Dec α)) : Nat → Nat → Nat → DTree α
  | 0, _, _ => .fail
  | fuel + 1, start, stop =>
      if start ≥ stop then .fail
      else
        let middle := (start + (stop - 1)) / 2
        match part[middle]? with
        | none => .fail
        | some d => .interval (makeTree part fuel start middle) d (makeTree part fuel (middle + 1) stop)

/-- `compileNBranch`, Back.sml:176-224; `none`: the exception Overflow. -/
def compileNBranch {α : Type} (clauses : List (Int × α)) : Option (DTree α) :=
  let cs := sort clauses
  (partition cs cs.length 0).map fun part => makeTree part part.length 0 part.length

/-! ## Code -/

/-- The instructions that matter here.  `other true` is an instruction at which
`discardDeadCode` stops (Krestart, Kset_global), `other false` any other one. -/
inductive I (α : Type) where
  | interval (low high : Int) (l1 l2 : Nat)
  | switch (ls : List Nat)
  | branch (l : Nat)
  | label (l : Nat)
  | act (a : α)
  | other (stop : Bool) (n : Nat)
deriving DecidableEq

abbrev Code (α : Type) := List (I α)

/-- `labelCode`, Back.sml:46-55, with the label counter. -/
def labelC {α : Type} (C : Code α) (k : Nat) : Nat × Code α × Nat :=
  match C with
  | .branch l :: _ => (l, C, k)
  | .label l :: _ => (l, C, k)
  | _ => (k + 1, .label (k + 1) :: C, k + 1)

/-- `discardDeadCode`, Back.sml:74-81. -/
def dead {α : Type} : Code α → Code α
  | [] => []
  | .label l :: C => .label l :: C
  | .other true n :: C => .other true n :: C
  | _ :: C => dead C

/-- `compexp` of a right-hand side: opaque, or `Lstaticfail` (Back.sml:591-593 with
`sz = tsz`). -/
def compAct {α : Type} (sf : Nat) (a : Option α) (C : Code α) : Code α :=
  match a with
  | none => .branch sf :: dead C
  | some a => .act a :: C

/-- `add_SwitchTable`, Back.sml:143-158. -/
def addSwitch {α : Type} (ls : List Nat) (C : Code α) : Code α :=
  match ls with
  | [] => .switch [] :: C
  | l :: rest =>
      if rest.all (· == l) then
        match C with
        | .label l' :: C1 => if l' = l then .label l' :: C1 else .branch l :: dead (.label l' :: C1)
        | C => .branch l :: dead C
      else .switch (l :: rest) :: C

/-- `comp_cases`, Back.sml:763-772: the labels of the entries, and the code. -/
def compCases {α : Type} (sf : Nat) (br : I α) (C : Code α) :
    List (Option α) → Nat → List Nat × Code α × Nat
  | [], k => ([], C, k)
  | e :: v, k =>
      let r := compCases sf br C v k
      let q := labelC (compAct sf e (br :: dead r.2.1)) r.2.2
      (q.1 :: r.1, q.2.1, q.2.2)

/-- `compSwitch`, Back.sml:760-773. -/
def compSwitch {α : Type} (sf : Nat) (br : I α) (v : List (Option α)) (C : Code α) (k : Nat) :
    Code α × Nat :=
  let r := compCases sf br C v k
  (addSwitch r.1 (dead r.2.1), r.2.2)

/-- `comp_dec`, Back.sml:779-798. -/
def compDec {α : Type} (sf : Nat) (br : I α) : DTree α → Code α → Nat → Code α × Nat
  | .fail, C, k => (.branch sf :: dead C, k)
  | .interval left d right, C, k =>
      let (lr, Cr, k1) : Nat × Code α × Nat :=
        match right with
        | .fail => (sf, C, k)
        | _ => let r := compDec sf br right C k; labelC r.1 r.2
      let (ll, Cl, k2) : Nat × Code α × Nat :=
        match left with
        | .fail => (sf, Cr, k1)
        | _ => let r := compDec sf br left Cr k1; labelC r.1 r.2
      match d.act with
      | [a] => (.interval d.low d.high ll lr :: compAct sf a (br :: dead Cl), k2)
      | v =>
          let r := compSwitch sf br v Cl k2
          (.interval d.low d.high ll lr :: r.1, r.2)

/-- `comp_case` of `compDirectSwitch`, Back.sml:806-821: the table and the code.  The
last clause has no jump behind it. -/
def compCase {α : Type} (br : I α) (C1 : Code α) :
    List (Nat × α) → List Nat → Nat → Option (List Nat × Code α × Nat)
  | [], _, _ => none
  | [(tag, a)], table, k =>
      let q := labelC (.act a :: C1) k
      some (table.set tag q.1, q.2.1, q.2.2)
  | (tag, a) :: c :: rest, table, k =>
      (compCase br C1 (c :: rest) table k).map fun r =>
        let q := labelC (.act a :: br :: dead r.2.1) r.2.2
        (r.1.set tag q.1, q.2.1, q.2.2)

/-- `compDirectSwitch`, Back.sml:800-822; `none`: fatalError on no clauses. -/
def compDirect {α : Type} (sf size : Nat) (br : I α) (clauses : List (Nat × α)) (C1 : Code α) (k : Nat) :
    Option (Code α × Nat) :=
  (compCase br C1 clauses (List.replicate size sf) k).map fun r => (addSwitch r.1 (dead r.2.1), r.2.2)

/-! ## Running it -/

/-- What happens: the clause `a` is entered, with the code behind it; or control
arrives at the label for match failure. -/
inductive Res (α : Type) where
  | enter (a : α) (next : Code α)
  | failed

/-- The code behind a label. -/
def find {α : Type} (l : Nat) : Code α → Option (Code α)
  | [] => none
  | .label l' :: C => if l' = l then some C else find l C
  | _ :: C => find l C

mutual
/-- Execution of the code `C`, a part of the program `P`, with the integer `n` in accu;
`sf` is the label for match failure. -/
inductive Go {α : Type} (P : Code α) (sf : Nat) : Code α → Int → Res α → Prop where
  | act (a : α) (C : Code α) (n : Int) : Go P sf (.act a :: C) n (.enter a C)
  | label {l : Nat} {C : Code α} {n : Int} {r : Res α} : l ≠ sf → Go P sf C n r → Go P sf (.label l :: C) n r
  | arrive (C : Code α) (n : Int) : Go P sf (.label sf :: C) n .failed
  | branch {l : Nat} {C : Code α} {n : Int} {r : Res α} : Jump P sf l n r → Go P sf (.branch l :: C) n r
  /-- interp.c:1277-1293 -/
  | less {low high : Int} {l1 l2 : Nat} {C : Code α} {n : Int} {r : Res α} : n < low → Jump P sf l1 n r →
      Go P sf (.interval low high l1 l2 :: C) n r
  | greater {low high : Int} {l1 l2 : Nat} {C : Code α} {n : Int} {r : Res α} : low ≤ n → high < n →
      Jump P sf l2 n r → Go P sf (.interval low high l1 l2 :: C) n r
  | inside {low high : Int} {l1 l2 : Nat} {C : Code α} {n : Int} {r : Res α} : low ≤ n → n ≤ high →
      Go P sf C (n - low) r → Go P sf (.interval low high l1 l2 :: C) n r
  /-- interp.c:1052-1057 -/
  | switch {ls : List Nat} {l : Nat} {C : Code α} {i : Nat} {r : Res α} : ls[i]? = some l → Jump P sf l i r →
      Go P sf (.switch ls :: C) i r
/-- A jump to a label. -/
inductive Jump {α : Type} (P : Code α) (sf : Nat) : Nat → Int → Res α → Prop where
  | failed (n : Int) : Jump P sf sf n .failed
  | found {l : Nat} {C : Code α} {n : Int} {r : Res α} : l ≠ sf → find l P = some C → Go P sf C n r → Jump P sf l n r
end

end Mosml.Cond
