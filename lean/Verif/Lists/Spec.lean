import Verif.Lists.Model

/-!
# What the functions on lists are to do

The documentation is in `src/mosmllib/List.sig`, `ListPair.sig` and `Option.sig`.
It says to which elements a function is applied and in which order.  Nothing here
refers to the definitions of the units.
-/

namespace Mosml.Lists

variable {W α β γ : Type}

/-- Calling `f` for `xs`, from left to right, beginning in the state `w`: all calls return,
the results are `ys` and the state at the end is `w'`. -/
inductive Calls (f : α → Prog W β) : W → List α → List β → W → Prop where
  | nil (w : W) : Calls f w [] [] w
  | cons {w w1 w2 : W} {x : α} {xs : List α} {y : β} {ys : List β} :
      f x w = .ok y w1 → Calls f w1 xs ys w2 → Calls f w (x :: xs) (y :: ys) w2

/-- The outcome of a computation in which a call had the outcome `o` and that gives up
then: the same exception in the same state, or no end. -/
def abort : Out W β → Option (Out W γ)
  | .ok _ _ => none
  | .raise e w => some (.raise e w)
  | .hang => some .hang

/-- Calling `f` for `xs` with a value that each call receives and replaces. -/
inductive Thread (f : α → β → Prog W β) : W → List α → β → β → W → Prop where
  | nil (w : W) (b : β) : Thread f w [] b b w
  | cons {w w1 w2 : W} {x : α} {xs : List α} {b b1 b2 : β} :
      f x b w = .ok b1 w1 → Thread f w1 xs b1 b2 w2 → Thread f w (x :: xs) b b2 w2

/-- A function without effects. -/
def pureFn (f : α → β) : α → Prog W β := fun x w => .ok (f x) w

/-- `xs` comes before `ys` in the lexicographic order: it is a proper prefix, or the
first difference is in its favour. -/
def Before (lt : α → α → Prop) (xs ys : List α) : Prop :=
  (∃ y zs, ys = xs ++ y :: zs) ∨
  (∃ pre x xr y yr, xs = pre ++ x :: xr ∧ ys = pre ++ y :: yr ∧ lt x y)

end Mosml.Lists
