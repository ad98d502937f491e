import Verif.Yacc.Pack

/-!
C52: src/mosmlyac/mkpar.c, which makes the list of actions of each state and resolves conflicts.  A list of `action`s linked by `next` is a list.
-/
namespace Mosml.Yacc.Mkpar
open Mosml.Yacc.Pack (Action Code)

/-- mkpar.c:56-87: `shifts` is `sp->shift` (empty when `sp` is 0); `acc` is accessing_symbol, ISTOKEN is `< start_symbol` (defs.h:158) -/
def getShifts (startSymbol : Nat) (acc : Nat → Nat) (prec assoc : Nat → Int) (shifts : List Nat) : List Action :=
  (shifts.filter fun k => acc k < startSymbol).map fun k =>
    { symbol := acc k, number := k, prec := prec (acc k), code := .shift, assoc := assoc (acc k) }

/-- mkpar.c:127-145 -/
def addLoop3 (a : Action) : List Action → List Action
  | [] => [a]
  | p :: ps => if p.symbol = a.symbol ∧ p.code = .reduce ∧ p.number < a.number then p :: addLoop3 a ps else a :: p :: ps

/-- mkpar.c:121-125 -/
def addLoop2 (a : Action) : List Action → List Action
  | [] => [a]
  | p :: ps => if p.symbol = a.symbol ∧ p.code = .shift then p :: addLoop2 a ps else addLoop3 a (p :: ps)

/-- mkpar.c:112-148; `a` is the new action `temp` -/
def addReduce (a : Action) : List Action → List Action
  | [] => [a]
  | p :: ps => if p.symbol < a.symbol then p :: addReduce a ps else addLoop2 a (p :: ps)

/-- mkpar.c:102-106: `j` goes down -/
def addRule (rprec rassoc : Nat → Int) (r : Nat) (row : Nat → Bool) : Nat → List Action → List Action
  | 0, as => as
  | j + 1, as => addRule rprec rassoc r row j
      (if row j then addReduce { symbol := j, number := r, prec := rprec r, code := .reduce, assoc := rassoc r } as else as)

/-- mkpar.c:89-109: the rules are `LAruleno[i]` with their sets of look-aheads -/
def addReductions (rprec rassoc : Nat → Int) (ntokens : Nat) : List (Nat × (Nat → Bool)) → List Action → List Action
  | [], as => as
  | (r, row) :: las, as => addReductions rprec rassoc ntokens las (addRule rprec rassoc r row ntokens as)

/-- defs.h:121-122 -/
def LEFT : Int := 1
def RIGHT : Int := 2

/-- what one pass of the loop mkpar.c:224-286 does for an action `p` with the same symbol as `pref`: the two actions, whether `p` is the new `pref`,
and the increments of the counts of conflicts -/
def step (final : Bool) (pref p : Action) : Action × Action × Bool × Nat × Nat :=
  if final ∧ pref.symbol = 0 then (pref, { p with suppressed := 1 }, false, 1, 0)
  else if pref.code = .shift then
    if pref.prec > 0 ∧ p.prec > 0 then
      if pref.prec < p.prec then ({ pref with suppressed := 2 }, p, true, 0, 0)
      else if pref.prec > p.prec then (pref, { p with suppressed := 2 }, false, 0, 0)
      else if pref.assoc = LEFT then ({ pref with suppressed := 2 }, p, true, 0, 0)
      else if pref.assoc = RIGHT then (pref, { p with suppressed := 2 }, false, 0, 0)
      else ({ pref with suppressed := 2 }, { p with suppressed := 2 }, false, 0, 0)
    else (pref, { p with suppressed := 1 }, false, 1, 0)
  else if pref.prec > 0 ∧ p.prec > 0 then
    if pref.prec < p.prec then ({ pref with suppressed := 2 }, p, true, 0, 0)
    else if pref.prec > p.prec then (pref, { p with suppressed := 2 }, false, 0, 0)
    else (pref, { p with suppressed := 1 }, false, 0, 1)
  else (pref, { p with suppressed := 1 }, false, 0, 1)

/-- mkpar.c:217-287: the actions up to `pref` are in `acc` and those between `pref` and the current one in `mid`, both the last first; the counts are
SRcount and RRcount -/
def removeLoop (final : Bool) (acc : List Action) (pref : Action) (mid : List Action) (sr rr : Nat) : List Action → List Action × Nat × Nat
  | [] => ((mid ++ pref :: acc).reverse, sr, rr)
  | p :: ps =>
    if p.symbol ≠ pref.symbol then removeLoop final (mid ++ pref :: acc) p [] sr rr ps
    else
      let r := step final pref p
      if r.2.2.1 then removeLoop final (mid ++ r.1 :: acc) r.2.1 [] (sr + r.2.2.2.1) (rr + r.2.2.2.2) ps
      else removeLoop final acc r.1 (r.2.1 :: mid) (sr + r.2.2.2.1) (rr + r.2.2.2.2) ps

/-- mkpar.c:214-287 for one state: the first action has not the symbol -1; `final` says whether it is final_state -/
def removeConflicts (final : Bool) : List Action → List Action × Nat × Nat
  | [] => ([], 0, 0)
  | p :: ps => removeLoop final [] p [] 0 0 ps

/-- mkpar.c:321-341 -/
def soleLoop : List Action → Nat → Int → Int
  | [], count, ruleno => if count = 0 then 0 else ruleno
  | p :: ps, count, ruleno =>
    if p.code = .shift then 0
    else if p.suppressed = 0 then
      if ruleno > 0 ∧ p.number ≠ ruleno then 0
      else soleLoop ps (if p.symbol ≠ 1 then count + 1 else count) p.number
    else soleLoop ps count ruleno

/-- mkpar.c:316-342 -/
def soleReduction (ps : List Action) : Int := soleLoop ps 0 0

end Mosml.Yacc.Mkpar
