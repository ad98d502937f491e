import Verif.Util

/-!
# Interrupts and forced minor collections

Model of `src/runtime/signals.c` (all), `intr_handler` (sys.c:286-300),
`force_minor_gc` (misc.c:16-20), the polls and `process_signal` of the
interpreter (interp.c:596, 746, 1099-1130), `callback` (interp.c:1582-1592) with
its code `ACC1, APPLY1, POP, STOP` (interp.c:67), RAISE (interp.c:1083-1097),
`mlraise` (fail.c:32-37) and the blocking section of `really_read`
(io.c:248-319; those of msocket.c and graph.c have the same form).

The program and the signals are interleaved arbitrarily: an execution is a list
of actions, in which every access of the program to a variable that the handler
writes, or tests, is one action, and `sig` is the arrival of one SIGINT.  The
handler for an interrupt always ends by raising Interrupt
(`byte_raise_break_exn`, interp.c:47-52), so the point at which it interrupted
the program is never returned to.

Simplifications: the two stores of `execute_signal` outside blocking sections are
one action (handlers are not masked, SA_NOMASK, but two handlers running one
inside the other store the same values).  What the program does between polls,
forced collections, blocking calls and C primitives that raise is the single
point `ml`.  The other signal that is handled, SIGFPE, is not modelled, nor are
the branches for MSDOS, WIN32 and the Macintosh.
-/

namespace Mosml.Signals

/-- Points of `process_signal`, interp.c:1099-1130. -/
inductive PS
  | clear            -- before `something_to_do = 0`
  | minor            -- before the test of `force_minor_flag`
  | gc               -- flag cleared, before `minor_collection`
  | read             -- before `signal_number = signal_is_pending`
  | write (n : Bool) -- before `signal_is_pending = 0`
  | test (n : Bool)  -- before `if (signal_number)`
  deriving DecidableEq

/-- Where the program is. `proc b` and `handler b`: `b` holds in the nested
interpreter that a callback from a blocking section runs. -/
inductive PC
  | ml                     -- in ML code or a C primitive, outside blocking sections
  | force                  -- in `force_minor_gc` between the two stores, misc.c:18-19
  | enter                  -- before `in_blocking_section = 1`, signals.c:35
  | entered                -- before the test of `signal_is_pending`, signals.c:36
  | wait                   -- in the system call
  | done (k : Nat)         -- system call returned `k` bytes, before `leave_blocking_section`
  | call                   -- `execute_signal` calls back, signals.c:21-26; up to the poll of APPLY1
  | proc (nested : Bool) (p : PS)
  | handler (nested : Bool) -- at `byte_raise_break_exn`
  deriving DecidableEq

/-- The variables of the runtime system, and what can be observed: the number of
Interrupt exceptions raised, of forced minor collections done, of bytes taken
from descriptors and of bytes given to the program. -/
structure St where
  pc : PC
  pending : Bool    -- signal_is_pending, signals.c:10
  todo : Bool       -- something_to_do, misc.c:13
  minor : Bool      -- force_minor_flag, misc.c:14
  blocking : Bool   -- in_blocking_section, signals.c:11
  raised : Nat
  collections : Nat
  taken : Nat
  given : Nat
  deriving DecidableEq

/-- The state in which a program starts. -/
def init : St := ⟨.ml, false, false, false, false, 0, 0, 0, 0⟩

/-- What can happen next: a signal arrives; in ML code a poll, a request for a
minor collection, the beginning of a blocking call, or an exception raised by a C
primitive; elsewhere `tick`, the next operation of the runtime system, where the
argument is the number of bytes that the system call reads. -/
inductive Act
  | sig | poll | force | enter | fail
  | tick (k : Nat)
  deriving DecidableEq

/-- `intr_handler`, sys.c:286-300, and `execute_signal`, signals.c:19-31. -/
def sigStep (s : St) : St :=
  if s.blocking then { s with pc := .call }
  else { s with pending := true, todo := true }

/-- One operation of `process_signal`, interp.c:1099-1130.  In the nested
interpreter the code after the poll is the handler in either case. -/
def procStep (s : St) (b : Bool) : PS → St
  | .clear => { s with pc := .proc b .minor, todo := false }
  | .minor => if s.minor then { s with pc := .proc b .gc, minor := false }
              else { s with pc := .proc b .read }
  | .gc => { s with pc := .proc b .read, collections := s.collections + 1 }
  | .read => { s with pc := .proc b (.write s.pending) }
  | .write n => { s with pc := .proc b (.test n), pending := false }
  | .test n => if n then { s with pc := .handler b }
               else if b then { s with pc := .handler b } else { s with pc := .ml }

/-- One operation of the runtime system. -/
def tickStep (s : St) (k : Nat) : Option St :=
  match s.pc with
  | .ml => none
  | .force => some { s with pc := .ml, todo := true }                -- misc.c:19
  | .enter => some { s with pc := .entered, blocking := true }       -- signals.c:35
  | .entered =>                                                      -- signals.c:36
      if s.pending then some { s with pc := .call } else some { s with pc := .wait }
  | .wait => some { s with pc := .done k, taken := s.taken + k }     -- io.c:262
  | .done j =>                                                       -- io.c:311, signals.c:41
      some { s with pc := .ml, blocking := false, given := s.given + j }
  | .call =>                                                         -- interp.c:746
      if s.todo then some { s with pc := .proc true .clear }
      else some { s with pc := .handler true }
  | .proc b p => some (procStep s b p)
  | .handler _ => some { s with pc := .ml, raised := s.raised + 1 }  -- interp.c:1085-1097

/-- One action, if it is possible. -/
def step (s : St) : Act → Option St
  | .sig => some (sigStep s)
  | .poll =>                                                         -- interp.c:596, 746
      if s.pc = .ml then
        if s.todo then some { s with pc := .proc false .clear } else some s
      else none
  | .force => if s.pc = .ml then some { s with pc := .force, minor := true } else none  -- misc.c:18
  | .enter => if s.pc = .ml then some { s with pc := .enter } else none
  | .fail => if s.pc = .ml then some { s with blocking := false } else none  -- fail.c:34
  | .tick k => tickStep s k

/-- An execution: the state after a list of actions, if each is possible. -/
def run (s : St) : List Act → Option St
  | [] => some s
  | a :: as => match step s a with
    | some s' => run s' as
    | none => none

end Mosml.Signals
