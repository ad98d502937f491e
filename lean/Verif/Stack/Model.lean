import Verif.Util

/-!
The stack of the interpreter and its reallocation: src/runtime/stacks.c, and the instructions of interp.c that use the stack pointer.

Addresses are counted in words.  A word of the stack is a value or a link to a trap frame.  Reading a link as a value, or a value as a
link, is failure (`none`) in the model, as are accesses outside the stack.
-/
namespace Mosml.Stack

inductive Word where
  | val (n : Int)
  | link (a : Int)
  deriving DecidableEq

/-- stacks.c:11-15 -/
structure St where
  mem : Int → Word
  low : Int
  high : Int
  sp : Int
  trapsp : Int

/-- config.h:62-72, in words: `Stack_size`, `Stack_threshold`; `Max_stack_size` is compared with a number of words -/
def stackSize : Int := 32768 / 8
def threshold : Int := 2048 / 8
def maxSize : Int := 1048576

def upd (m : Int → Word) (a : Int) (w : Word) : Int → Word := fun x => if x = a then w else m x

/-- stacks.c:18-25 `init_stack` -/
def init (mem : Int → Word) (low : Int) : St :=
  { mem := mem, low := low, high := low + stackSize, sp := low + stackSize, trapsp := low + stackSize }

/-- stacks.c:52-53: the links of the frames from `p` on; `none` if a word is not a link, or if the loop does not end -/
def relink (shift : Int → Int) (newHigh : Int) : Nat → (Int → Word) → Int → Option (Int → Word)
  | 0, m, p => if p < newHigh then none else some m
  | n + 1, m, p =>
    if p < newHigh then
      match m (p + 1) with
      | .link a => relink shift newHigh n (upd m (p + 1) (.link (shift a))) (shift a)
      | .val _ => none
    else some m

/-- stacks.c:27-60 `realloc_stack`, when the new memory is at `newLow`.  `junk` is what is in the memory that is not copied to, and what
the old stack may hold after it is freed. -/
def realloc (s : St) (newLow : Int) (junk : Int → Word) : Option St :=
  let size := s.high - s.low
  if size ≥ maxSize then none
  else
    let newHigh := newLow + size * 2
    let shift := fun p => newHigh - (s.high - p)
    let newSp := shift s.sp
    let m : Int → Word := fun x => if newSp ≤ x ∧ x < newSp + (s.high - s.sp) then s.mem (s.sp + (x - newSp)) else junk x
    match relink shift newHigh (s.high - s.low).toNat m (shift s.trapsp) with
    | none => none
    | some m => some { mem := m, low := newLow, high := newHigh, sp := newSp, trapsp := shift s.trapsp }

/-- what the instructions of interp.c do with the stack -/
inductive Op where
  | push (v : Int)
  | pop (n : Nat)
  | acc (n : Nat)
  | assign (n : Nat) (v : Int)
  | pushTrap (pc env extra : Int)
  | popTrap
  | raise (offset : Nat)

inductive Obs where
  | unit
  | value (v : Int)
  | handler (pc env extra : Int)
  | uncaught
  deriving DecidableEq

/-- the value at `a`, if `a` is in use -/
def read (s : St) (a : Int) : Option Int :=
  if s.sp ≤ a ∧ a < s.high then (match s.mem a with | .val v => some v | .link _ => none) else none

/-- interp.c: PUSH (299), POP, ACC, ASSIGN; PUSHTRAP 1064-1072, POPTRAP 1074-1081, RAISE 1085-1097.
The compiler keeps trap frames on the stack until POPTRAP: popping a live frame is failure here. -/
def exec (s : St) : Op → Option (Obs × St)
  | .push v => if s.low ≤ s.sp - 1 then some (.unit, { s with sp := s.sp - 1, mem := upd s.mem (s.sp - 1) (.val v) }) else none
  | .pop n => if s.sp + n ≤ s.trapsp then some (.unit, { s with sp := s.sp + n }) else none
  | .acc n => (read s (s.sp + n)).map (fun v => (.value v, s))
  | .assign n v => (read s (s.sp + n)).map (fun _ => (.unit, { s with mem := upd s.mem (s.sp + n) (.val v) }))
  | .pushTrap pc env extra =>
    if s.low ≤ s.sp - 4 then
      let sp := s.sp - 4
      some (.unit, { s with sp := sp, trapsp := sp,
                            mem := upd (upd (upd (upd s.mem sp (.val pc)) (sp + 1) (.link s.trapsp)) (sp + 2) (.val env)) (sp + 3) (.val extra) })
    else none
  | .popTrap =>
    if s.sp = s.trapsp ∧ s.sp < s.high then
      match s.mem (s.sp + 1) with
      | .link a => some (.unit, { s with sp := s.sp + 4, trapsp := a })
      | .val _ => none
    else none
  | .raise offset =>
    if s.trapsp ≥ s.high - offset then some (.uncaught, { s with sp := s.trapsp })
    else
      match s.mem s.trapsp, s.mem (s.trapsp + 1), s.mem (s.trapsp + 2), s.mem (s.trapsp + 3) with
      | .val pc, .link a, .val env, .val extra => some (.handler pc env extra, { s with sp := s.trapsp + 4, trapsp := a })
      | _, _, _, _ => none

end Mosml.Stack
