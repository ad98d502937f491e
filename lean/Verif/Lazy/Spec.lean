import Verif.Lazy.Model

/-!
# Suspensions and the registry: what is documented
-/

namespace Mosml.Lazy

variable {S V X P : Type}

/-- The expression of suspension `i` begins to be evaluated while an evaluation of
it is going on: it has forced itself. -/
def Reentrant (i : Nat) (t : List (Event V X)) : Prop :=
  ∃ t1 t2 t3, t = t1 ++ .start i :: (t2 ++ .start i :: t3) ∧
    (∀ v, .done i v ∉ t2) ∧ ∀ x, .failed i x ∉ t2

/-- What a name stands for. -/
inductive Status (V : Type) where
  | never
  | unregistered
  | registered (v : V)

/-- Callback.sig: what is registered under `nam` after the operations, the last one
first. -/
def statusOf (nam : Name) : List (Op V P) → Status V
  | [] => .never
  | .register n v :: ops =>
    if n = nam then
      match statusOf nam ops with
      | .registered w => .registered w
      | _ => .registered v
    else statusOf nam ops
  | .unregister n :: ops =>
    if n = nam then
      match statusOf nam ops with
      | .never => .never
      | _ => .unregistered
    else statusOf nam ops
  | _ :: ops => statusOf nam ops

/-- The C pointer registered first under `nam`. -/
def firstCptr (nam : Name) (ops : List (Op V P)) : Option P :=
  ops.findSome? fun
    | .registercptr n p => if n = nam then some p else none
    | _ => none

end Mosml.Lazy
