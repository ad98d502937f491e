import Verif.Util

/-!
# Lists, pairs of lists and options

Model of `src/mosmllib/List.sml`, `ListPair.sml` and `Option.sml`, all functions.
The functions that are passed to them may have effects, raise exceptions or not
return at all: they are computations on an arbitrary state `W`.  Expressions are
evaluated from left to right, as in the Definition; that the compiler keeps this
order is not part of this model.

Simplifications: integers are checked against the range of `int` (63 bits);
there is no bound on the memory or the stack.
-/

namespace Mosml.Lists

/-- The exceptions of the units (List.sml:5, ListPair.sml:43, Option.sml:3; General)
and those of the functions they are given.  `bad` is not an exception but undefined
behaviour (an access outside a block, for `Verif/Text`); as none of the modelled units
handles exceptions, it can be treated alike. -/
inductive Exn where
  | empty | subscript | size | overflow | unequalLengths | option | chr | span | bad
  | user (n : Nat)
deriving DecidableEq, Repr

/-- What becomes of a computation; `hang` if it does not end. -/
inductive Out (W α : Type) where
  | ok (a : α) (w : W)
  | raise (e : Exn) (w : W)
  | hang
deriving DecidableEq

/-- A computation on the state `W`. -/
def Prog (W α : Type) := W → Out W α

namespace Prog

/-- Sequencing: an exception ends the computation. -/
def andThen {W α β : Type} (p : Prog W α) (k : α → Prog W β) : Prog W β := fun w =>
  match p w with
  | .ok a w' => k a w'
  | .raise e w' => .raise e w'
  | .hang => .hang

instance {W : Type} : Monad (Prog W) where
  pure a := fun w => .ok a w
  bind := andThen

/-- `raise e`. -/
def throw {W α : Type} (e : Exn) : Prog W α := fun w => .raise e w

end Prog

/-- The bounds of `int` on a 64-bit machine (Int.mlp, `minInt`, `maxInt`). -/
def minInt : Int := -4611686018427387904
def maxInt : Int := 4611686018427387903

/-- The result `n` of an integer operation is used in `p`; the operation raises
Overflow if it is not an `int`. -/
def chk {W α : Type} (n : Int) (p : Prog W α) : Prog W α :=
  if minInt ≤ n ∧ n ≤ maxInt then p else Prog.throw .overflow

variable {W α β γ : Type}

/-! ## List.sml -/

/-- List.sml:7-8. -/
def null : List α → Bool
  | [] => true
  | _ => false

/-- List.sml:10-11. -/
def hd : List α → Prog W α
  | [] => Prog.throw .empty
  | x :: _ => pure x

/-- List.sml:13-14. -/
def tl : List α → Prog W (List α)
  | [] => Prog.throw .empty
  | _ :: xr => pure xr

/-- List.sml:16-18. -/
def last : List α → Prog W α
  | [] => Prog.throw .empty
  | [x] => pure x
  | _ :: y :: xr => last (y :: xr)

/-- `h` in `nth`, List.sml:21-22. -/
def nthH : List α → Int → Prog W α
  | [], _ => Prog.throw .subscript
  | x :: xr, n => if n = 0 then pure x else chk (n - 1) (nthH xr (n - 1))

/-- List.sml:20-23. -/
def nth (xs : List α) (n : Int) : Prog W α :=
  if n < 0 then Prog.throw .subscript else nthH xs n

/-- `h` in `drop`, List.sml:26-28. -/
def dropH : List α → Int → Prog W (List α)
  | [], n => if n = 0 then pure [] else Prog.throw .subscript
  | x :: xr, n => if n = 0 then pure (x :: xr) else chk (n - 1) (dropH xr (n - 1))

/-- List.sml:25-29. -/
def drop (xs : List α) (n : Int) : Prog W (List α) :=
  if n < 0 then Prog.throw .subscript else dropH xs n

/-- `h` in `take`, List.sml:32-34. -/
def takeH : List α → Int → Prog W (List α)
  | [], n => if n = 0 then pure [] else Prog.throw .subscript
  | x :: xr, n =>
      if n = 0 then pure []
      else do
        let r ← chk (n - 1) (takeH xr (n - 1))
        pure (x :: r)

/-- List.sml:31-35. -/
def take (xs : List α) (n : Int) : Prog W (List α) :=
  if n < 0 then Prog.throw .subscript else takeH xs n

/-- `acc` in `length`, List.sml:38-39. -/
def lengthAcc : List α → Int → Prog W Int
  | [], k => pure k
  | _ :: xr, k => chk (k + 1) (lengthAcc xr (k + 1))

/-- List.sml:37-40. -/
def length (xs : List α) : Prog W Int := lengthAcc xs 0

/-- List.sml:43-44. -/
def revAcc : List α → List α → List α
  | [], ys => ys
  | x :: xs, ys => revAcc xs (x :: ys)

/-- List.sml:46. -/
def rev (xs : List α) : List α := revAcc xs []

/-- List.sml:48. -/
def revAppend (xs ys : List α) : List α := revAcc xs ys

/-- List.sml:52-53. -/
def appendL : List α → List α → List α
  | [], ys => ys
  | x :: xs, ys => x :: appendL xs ys

/-- `@`, List.sml:55-56. -/
def append (xs ys : List α) : List α :=
  match ys with
  | [] => xs
  | ys => appendL xs ys

/-- List.sml:59-60. -/
def concat : List (List α) → List α
  | [] => []
  | xs :: xsr => append xs (concat xsr)

/-- List.sml:62-63. -/
def app (f : α → Prog W Unit) : List α → Prog W Unit
  | [] => pure ()
  | x :: xr => do f x; app f xr

/-- List.sml:65-66. -/
def map (f : α → Prog W β) : List α → Prog W (List β)
  | [] => pure []
  | x :: xs => do
      let y ← f x
      let ys ← map f xs
      pure (y :: ys)

/-- List.sml:68-70. -/
def mapPartial (f : α → Prog W (Option β)) : List α → Prog W (List β)
  | [] => pure []
  | x :: xr => do
      let r ← f x
      match r with
      | none => mapPartial f xr
      | some r => do
          let rs ← mapPartial f xr
          pure (r :: rs)

/-- List.sml:72-73. -/
def find (p : α → Prog W Bool) : List α → Prog W (Option α)
  | [] => pure none
  | x :: xr => do
      let b ← p x
      if b then pure (some x) else find p xr

/-- List.sml:75-76. -/
def filter (p : α → Prog W Bool) : List α → Prog W (List α)
  | [] => pure []
  | x :: xr => do
      let b ← p x
      if b then do
        let r ← filter p xr
        pure (x :: r)
      else filter p xr

/-- `h` in `partition`, List.sml:79-81. -/
def partitionH (p : α → Prog W Bool) : List α → List α → List α → Prog W (List α × List α)
  | [], are, arent => pure (rev are, rev arent)
  | x :: xr, are, arent => do
      let b ← p x
      if b then partitionH p xr (x :: are) arent else partitionH p xr are (x :: arent)

/-- List.sml:78-82. -/
def partition (p : α → Prog W Bool) (xs : List α) : Prog W (List α × List α) :=
  partitionH p xs [] []

/-- List.sml:84-85. -/
def foldr (f : α → β → Prog W β) (e : β) : List α → Prog W β
  | [] => pure e
  | x :: xr => do
      let r ← foldr f e xr
      f x r

/-- List.sml:87-88. -/
def foldl (f : α → β → Prog W β) (e : β) : List α → Prog W β
  | [] => pure e
  | x :: xr => do
      let e' ← f x e
      foldl f e' xr

/-- List.sml:90-91. -/
def «exists» (p : α → Prog W Bool) : List α → Prog W Bool
  | [] => pure false
  | x :: xr => do
      let b ← p x
      if b then pure true else «exists» p xr

/-- List.sml:93-94. -/
def all (p : α → Prog W Bool) : List α → Prog W Bool
  | [] => pure true
  | x :: xr => do
      let b ← p x
      if b then all p xr else pure false

/-- List.sml:96-104 (`h`). -/
def collate (cmp : α → α → Prog W Ordering) : List α → List α → Prog W Ordering
  | [], [] => pure .eq
  | [], _ :: _ => pure .lt
  | _ :: _, [] => pure .gt
  | x1 :: xr, y1 :: yr => do
      let r ← cmp x1 y1
      match r with
      | .eq => collate cmp xr yr
      | res => pure res

/-- `h` in `tabulate`, List.sml:107; the loop ends as `n - i` decreases. -/
def tabulateH (n : Int) (f : Int → Prog W α) (i : Int) : Prog W (List α) :=
  if _h : i < n then do
    let y ← f i
    let ys ← chk (i + 1) (tabulateH n f (i + 1))
    pure (y :: ys)
  else pure []
termination_by (n - i).toNat
decreasing_by omega

/-- List.sml:106-108. -/
def tabulate (n : Int) (f : Int → Prog W α) : Prog W (List α) :=
  if n < 0 then Prog.throw .size else tabulateH n f 0

/-- List.sml:110-111. -/
def getItem : List α → Option (α × List α)
  | [] => none
  | x :: xr => some (x, xr)

/-! ## ListPair.sml -/

namespace Pair

/-- `h` in `zip`, ListPair.sml:4-5. -/
def zipH : List α → List β → List (α × β) → List (α × β)
  | x :: xr, y :: yr, res => zipH xr yr ((x, y) :: res)
  | _, _, res => rev res

/-- ListPair.sml:3-6. -/
def zip (xs : List α) (ys : List β) : List (α × β) := zipH xs ys []

/-- `h` in `unzip`, ListPair.sml:9-10. -/
def unzipH : List (α × β) → List α → List β → List α × List β
  | [], xs, ys => (rev xs, rev ys)
  | (x, y) :: xyr, xs, ys => unzipH xyr (x :: xs) (y :: ys)

/-- ListPair.sml:8-11. -/
def unzip (xys : List (α × β)) : List α × List β := unzipH xys [] []

/-- `h` in `map`, ListPair.sml:14-15. -/
def mapH (f : α × β → Prog W γ) : List α → List β → List γ → Prog W (List γ)
  | x :: xr, y :: yr, res => do
      let z ← f (x, y)
      mapH f xr yr (z :: res)
  | _, _, res => pure (rev res)

/-- ListPair.sml:13-16. -/
def map (f : α × β → Prog W γ) (xs : List α) (ys : List β) : Prog W (List γ) := mapH f xs ys []

/-- ListPair.sml:18-21. -/
def app (f : α × β → Prog W Unit) : List α → List β → Prog W Unit
  | x :: xr, y :: yr => do f (x, y); app f xr yr
  | _, _ => pure ()

/-- ListPair.sml:23-26. -/
def all (p : α × β → Prog W Bool) : List α → List β → Prog W Bool
  | x :: xr, y :: yr => do
      let b ← p (x, y)
      if b then all p xr yr else pure false
  | _, _ => pure true

/-- ListPair.sml:28-31. -/
def «exists» (p : α × β → Prog W Bool) : List α → List β → Prog W Bool
  | x :: xr, y :: yr => do
      let b ← p (x, y)
      if b then pure true else «exists» p xr yr
  | _, _ => pure false

/-- ListPair.sml:33-36. -/
def foldr (f : α → β → γ → Prog W γ) (e : γ) : List α → List β → Prog W γ
  | x :: xr, y :: yr => do
      let r ← foldr f e xr yr
      f x y r
  | _, _ => pure e

/-- ListPair.sml:38-41. -/
def foldl (f : α → β → γ → Prog W γ) (e : γ) : List α → List β → Prog W γ
  | x :: xr, y :: yr => do
      let e' ← f x y e
      foldl f e' xr yr
  | _, _ => pure e

/-- `h` in `zipEq`, ListPair.sml:46-48. -/
def zipEqH : List α → List β → List (α × β) → Prog W (List (α × β))
  | x :: xr, y :: yr, res => zipEqH xr yr ((x, y) :: res)
  | [], [], res => pure (rev res)
  | _, _, _ => Prog.throw .unequalLengths

/-- ListPair.sml:45-49. -/
def zipEq (xs : List α) (ys : List β) : Prog W (List (α × β)) := zipEqH xs ys []

/-- `h` in `mapEq`, ListPair.sml:52-54. -/
def mapEqH (f : α × β → Prog W γ) : List α → List β → List γ → Prog W (List γ)
  | x :: xr, y :: yr, res => do
      let z ← f (x, y)
      mapEqH f xr yr (z :: res)
  | [], [], res => pure (rev res)
  | _, _, _ => Prog.throw .unequalLengths

/-- ListPair.sml:51-55. -/
def mapEq (f : α × β → Prog W γ) (xs : List α) (ys : List β) : Prog W (List γ) :=
  mapEqH f xs ys []

/-- ListPair.sml:57-61. -/
def appEq (f : α × β → Prog W γ) : List α → List β → Prog W Unit
  | x :: xr, y :: yr => do
      let _ ← f (x, y)
      appEq f xr yr
  | [], [] => pure ()
  | _, _ => Prog.throw .unequalLengths

/-- ListPair.sml:63-67. -/
def allEq (p : α × β → Prog W Bool) : List α → List β → Prog W Bool
  | x :: xr, y :: yr => do
      let b ← p (x, y)
      if b then allEq p xr yr else pure false
  | [], [] => pure true
  | _, _ => pure false

/-- ListPair.sml:69-73. -/
def foldrEq (f : α → β → γ → Prog W γ) (e : γ) : List α → List β → Prog W γ
  | x :: xr, y :: yr => do
      let r ← foldrEq f e xr yr
      f x y r
  | [], [] => pure e
  | _, _ => Prog.throw .unequalLengths

/-- ListPair.sml:75-79. -/
def foldlEq (f : α → β → γ → Prog W γ) (e : γ) : List α → List β → Prog W γ
  | x :: xr, y :: yr => do
      let e' ← f x y e
      foldlEq f e' xr yr
  | [], [] => pure e
  | _, _ => Prog.throw .unequalLengths

end Pair

/-! ## Option.sml -/

namespace Opt

/-- Option.sml:7-8. -/
def getOpt : Option α → α → α
  | some v, _ => v
  | none, a => a

/-- Option.sml:10-11. -/
def isSome : Option α → Bool
  | some _ => true
  | none => false

/-- Option.sml:13-14. -/
def valOf : Option α → Prog W α
  | some v => pure v
  | none => Prog.throw .option

/-- Option.sml:16. -/
def filter (p : α → Prog W Bool) (x : α) : Prog W (Option α) := do
  let b ← p x
  pure (if b then some x else none)

/-- Option.sml:18-19. -/
def map (f : α → Prog W β) : Option α → Prog W (Option β)
  | none => pure none
  | some x => do
      let y ← f x
      pure (some y)

/-- Option.sml:21-22. -/
def app (f : α → Prog W Unit) : Option α → Prog W Unit
  | none => pure ()
  | some x => f x

/-- Option.sml:24-25. -/
def join : Option (Option α) → Option α
  | none => none
  | some x => x

/-- Option.sml:27-28. -/
def mapPartial (f : α → Prog W (Option β)) : Option α → Prog W (Option β)
  | none => pure none
  | some x => f x

/-- Option.sml:30-33. -/
def compose (f : β → Prog W γ) (g : α → Prog W (Option β)) (x : α) : Prog W (Option γ) := do
  let r ← g x
  match r with
  | none => pure none
  | some y => do
      let z ← f y
      pure (some z)

/-- Option.sml:35-38. -/
def composePartial (f : β → Prog W (Option γ)) (g : α → Prog W (Option β)) (x : α) :
    Prog W (Option γ) := do
  let r ← g x
  match r with
  | none => pure none
  | some y => f y

end Opt

end Mosml.Lists
