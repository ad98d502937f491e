import Verif.Signals.Model

/-!
# What is expected of interrupts

These definitions speak of executions only: of the point at which the program is
when a signal arrives.
-/

namespace Mosml.Signals

/-- The number of signals that arrive. -/
def signals (as : List Act) : Nat := as.count .sig

/-- The program is in a blocking section and may be interrupted there by a
callback: the registers of the interpreter have been saved, and no C code is in
the middle of an allocation or a collection. -/
def PC.waiting : PC → Bool
  | .entered | .wait | .done _ => true
  | _ => false

/-- Whenever a signal arrives while `in_blocking_section` is set, the program is
in a blocking section. -/
def Orderly (s0 : St) (as : List Act) : Prop :=
  ∀ p q s, as = p ++ Act.sig :: q → run s0 p = some s →
    s.blocking = true → s.pc.waiting = true

/-- No signal arrives between the return of a system call and
`leave_blocking_section`. -/
def NoneAtReturn (s0 : St) (as : List Act) : Prop :=
  ∀ p q s k, as = p ++ Act.sig :: q → run s0 p = some s → s.pc ≠ .done k

end Mosml.Signals
