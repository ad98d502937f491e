import Verif.Maps.Sorted
import Mathlib.Data.List.Perm.Basic

/-!
C42: src/mosmllib/Arraysort.sml.

The array is the list of its elements. `get_vect_item` and `set_vect_item` have no bounds check, so an access out of bounds is undefined
behaviour and has the outcome `none`. The functions that do not obviously terminate have fuel, and running out of it is `none` as well;
the theorem says that with fuel the length of the array neither happens. Subscripts are integers without a bound: all that is computed
is between -1 and twice the length of an array.
-/
namespace Mosml.Sort.Arraysort

variable {A : Type}

/-- Arraysort.sml:17 `sub_` (vect_item without a check) -/
def sub (m : List A) (i : Int) : Option A := if i < 0 then none else m[i.toNat]?

/-- Arraysort.sml:18 `update_` -/
def upd (m : List A) (i : Int) (x : A) : Option (List A) :=
  if i < 0 ∨ (m.length : Int) ≤ i then none else some (m.set i.toNat x)

/-- Arraysort.sml:26-28 -/
def swap (m : List A) (i j : Int) : Option (List A) := do
  let tmp ← sub m i
  let m ← upd m i (← sub m j)
  upd m j tmp

/-- Arraysort.sml:29-30; for negative `n` it would not stop -/
def vecswapN (m : List A) (i j : Int) : Nat → Option (List A)
  | 0 => some m
  | n + 1 => do vecswapN (← swap m i j) (i + 1) (j + 1) n

def vecswap (m : List A) (i j n : Int) : Option (List A) := if n < 0 then none else vecswapN m i j n.toNat

section
variable (cmp : A → A → Ordering)

/-- Arraysort.sml:36-45; the tail call `outer (i+1)` is in `outer` -/
def inner (start : Int) (m : List A) (j : Int) (fuel : Nat) : Option (List A) :=
  match fuel with
  | 0 => none
  | fuel + 1 =>
    if j = start then some m
    else do
      let j' := j - 1
      if cmp (← sub m j') (← sub m j) = .gt then inner start (← swap m j j') j' fuel else some m

/-- Arraysort.sml:33-45 -/
def outer (start limit : Int) (m : List A) (i : Int) : Option (List A) :=
  if i ≥ limit then some m
  else do outer start limit (← inner cmp start m i ((i - start).toNat + 1)) (i + 1)
termination_by (limit - i).toNat

/-- Arraysort.sml:31-48 -/
def insertSort (m : List A) (start n : Int) : Option (List A) := outer cmp start (start + n) m (start + 1)

/-- Arraysort.sml:50-58 -/
def med3 (m : List A) (a b c : Int) : Option Int := do
  let ab := cmp (← sub m a) (← sub m b)
  let bc := cmp (← sub m b) (← sub m c)
  match ab, bc with
  | .lt, .lt => some b
  | .lt, _ => match cmp (← sub m a) (← sub m c) with
    | .lt => some c
    | _ => some a
  | _, .gt => some b
  | _, _ => match cmp (← sub m a) (← sub m c) with
    | .lt => some a
    | _ => some c

/-- Arraysort.sml:60-76 -/
def getPivot (m : List A) (a n : Int) : Option Int :=
  if n ≤ 7 then some (a + n.fdiv 2)
  else
    let p1 := a
    let pm := a + n.fdiv 2
    let pn := a + n - 1
    if n ≤ 40 then med3 cmp m p1 pm pn
    else do
      let d := n.fdiv 8
      let p1 ← med3 cmp m p1 (p1 + d) (p1 + 2 * d)
      let pm ← med3 cmp m (pm - d) pm (pm + d)
      let pn ← med3 cmp m (pn - 2 * d) (pn - d) pn
      med3 cmp m p1 pm pn

/-- Arraysort.sml:79-86 -/
def bottom (a limit : Int) (m : List A) (pa pb : Int) : Option (List A × Int × Int) :=
  if pb > limit then some (m, pa, pb)
  else do
    match cmp (← sub m pb) (← sub m a) with
    | .gt => some (m, pa, pb)
    | .lt => bottom a limit m pa (pb + 1)
    | .eq => do bottom a limit (← swap m pa pb) (pa + 1) (pb + 1)
termination_by (limit + 1 - pb).toNat

/-- Arraysort.sml:88-95 -/
def top (a limit : Int) (m : List A) (pc pd : Int) : Option (List A × Int × Int) :=
  if limit > pc then some (m, pc, pd)
  else do
    match cmp (← sub m pc) (← sub m a) with
    | .lt => some (m, pc, pd)
    | .gt => top a limit m (pc - 1) pd
    | .eq => do top a limit (← swap m pc pd) (pc - 1) (pd - 1)
termination_by (pc + 1 - limit).toNat

/-- Arraysort.sml:97-103 -/
def split (a : Int) (m : List A) (pa pb pc pd : Int) (fuel : Nat) : Option (List A × Int × Int × Int × Int) :=
  match fuel with
  | 0 => none
  | fuel + 1 => do
    let (m, pa, pb) ← bottom cmp a pc m pa pb
    let (m, pc, pd) ← top cmp a pb m pc pd
    if pb > pc then some (m, pa, pb, pc, pd)
    else split a (← swap m pb pc) pa (pb + 1) (pc - 1) pd fuel

/-- Arraysort.sml:105-114 of `quickSort`: the partition; the result has `pb - pa` and `pd - pc` -/
def partition (m : List A) (a n : Int) : Option (List A × Int × Int) := do
  let pm ← getPivot cmp m a n
  let m ← swap m a pm
  let pa := a + 1
  let pc := a + (n - 1)
  let (m, pa, pb, pc, pd) ← split cmp a m pa pa pc pc (n.toNat + 1)
  let pn := a + n
  let r := min (pa - a) (pb - pa)
  let m ← vecswap m a (pb - r) r
  let r := min (pd - pc) (pn - pd - 1)
  let m ← vecswap m pb (pn - r) r
  some (m, pb - pa, pd - pc)

/-- Arraysort.sml:121-122 `sort` with `quickSort` (78-119) -/
def sortR (m : List A) (a n : Int) (fuel : Nat) : Option (List A) :=
  match fuel with
  | 0 => none
  | fuel + 1 =>
    if n < 7 then insertSort cmp m a n
    else do
      let (m, n1, n2) ← partition cmp m a n
      let m ← (if n1 > 1 then sortR m a n1 fuel else some m : Option (List A))
      if n2 > 1 then sortR m (a + n - n2) n2 fuel else some m

/-- Arraysort.sml:126-127 -/
def sort (m : List A) : Option (List A) := sortR cmp m 0 m.length (m.length + 1)

/-- Arraysort.sml:132-135 -/
def sortedS (m : List A) (v1 v2 : A) (i : Int) : Option Bool :=
  if cmp v1 v2 = .gt then some false
  else if i ≥ m.length then some true
  else do sortedS m v2 (← sub m i) (i + 1)
termination_by (m.length - i).toNat

/-- Arraysort.sml:129-138 -/
def sorted (m : List A) : Option Bool :=
  if m.length = 0 ∨ m.length = 1 then some true
  else do sortedS cmp m (← sub m 0) (← sub m 1) 2

end
end Mosml.Sort.Arraysort
