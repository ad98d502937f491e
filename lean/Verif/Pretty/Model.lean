import Verif.Num.Model

/-!
# PP.sml: Oppen's pretty printer

Model of `src/mosmllib/PP.sml`.  The references in a token belong to the slot of the token buffer
that holds it, so a slot holds the values and is updated.  The token buffer is a function
on indices: both indices are always taken modulo its size.  The delimiter stack, a double-ended
queue in a circular array, is the list of its elements, top first; that the array implements
this list is `C78_queue`.  Integers are unbounded: sums of sizes of strings and blanks stay below
the largest int.  What the consumer received is one string.
Loops get fuel that suffices, and running out is an outcome of its own.
-/

namespace Mosml.Pretty

open Mosml.Num (Str)

/-- The exceptions: `Fail` with its messages, and `QUEUE_FULL`. -/
inductive Err where
  | top | pop | printBB | printE | bbSize | eSize | lastSize | catchall | fnl | set
  | queueFull | small | fuel
deriving DecidableEq

/-- `break_info`: PP.sml:84-87. -/
inductive Info where
  | fits
  | pack (cursor : Int)
  | onePer (cursor : Int)
deriving DecidableEq

/-- `block_info`: PP.sml:134-136; `cons` is CONSISTENT. -/
structure Blk where
  size : Int
  off : Int
  cons : Bool
deriving DecidableEq

/-- `pp_token`: PP.sml:143-150. -/
inductive Tok where
  | S (s : Str)
  | BB (P U : List Blk)
  | E (p u : Nat)
  | BR (dist n off : Int)
deriving DecidableEq

/-- `initial_token_value`: PP.sml:154. -/
def initialToken : Tok := .S []

/-- `INFINITY`: PP.sml:90. -/
def infinity : Int := 999999

/-- `ppstream_`: PP.sml:157-170, and what the consumer received. -/
structure St where
  lw : Nat
  buf : Nat → Tok
  dst : List Nat
  ist : List Info
  sp : Int
  left : Nat
  right : Nat
  lsum : Int
  rsum : Int
  out : Str

/-- The size of the token buffer: PP.sml:180. -/
def St.N (s : St) : Nat := 3 * s.lw

/-- `mk_ppstream`: PP.sml:177-193. -/
def mk (lw : Nat) : Except Err St :=
  if lw < 5 then .error .small
  else .ok ⟨lw, fun _ => initialToken, [], [], lw, 0, 0, 0, 0, []⟩

/-- `++`: PP.sml:188. -/
def St.inc (s : St) (i : Nat) : Nat := (i + 1) % s.N

/-- `update` of the token buffer. -/
def upd (f : Nat → Tok) (i : Nat) (t : Tok) : Nat → Tok := fun j => if j = i then t else f j

/-- `nspaces`: PP.sml:199-212; the table has the strings of up to 99 blanks. -/
def nspaces (n : Int) : Str :=
  if h : n < 0 then []
  else if h2 : n < 100 then List.replicate n.toNat 32
  else
    let n2 := n / 2
    let s := nspaces n2
    s ++ s ++ (if n = 2 * n2 then [] else [32])
termination_by n.toNat
decreasing_by omega

/-- `cr_indent`, `indent`: PP.sml:214-215. -/
def crIndent (i : Int) : Str := 10 :: nspaces i
def indent (i : Int) : Str := nspaces i

/-- The entry pushed for a block: PP.sml:233-236, 240-243, 248-251, 254-257. -/
def blockInfo (s : St) (b : Blk) : Info :=
  if b.size > s.sp then
    if b.cons then .onePer (s.lw - (s.sp - b.off)) else .pack (s.lw - (s.sp - b.off))
  else .fits

/-- `print_BB`: PP.sml:227-263; returns the token as it is then.  `pr_end_Ublock` takes the last
element from the list. -/
def printBB (s : St) (P U : List Blk) : Except Err (St × Tok) :=
  match U.getLast? with
  | none =>
      match P with
      | [] => .error .printBB
      | b :: rst => .ok ({ s with ist := blockInfo s b :: s.ist }, .BB rst [])
  | some b => .ok ({ s with ist := blockInfo s b :: s.ist }, .BB P U.dropLast)

/-- `pop_n_times`, `pop`: PP.sml:270-271, 102-104. -/
def popN : Nat → List Info → Except Err (List Info)
  | 0, l => .ok l
  | _ + 1, [] => .error .pop
  | n + 1, _ :: l => popN n l

/-- `print_E`: PP.sml:267-273. -/
def printE (s : St) (p u : Nat) : Except Err (St × Tok) :=
  if p = 0 ∧ u = 0 then .error .printE
  else
    match popN p s.ist with
    | .error e => .error e
    | .ok l => .ok ({ s with ist := l }, .E 0 u)

/-- `print_token`: PP.sml:278-302. -/
def printToken (s : St) : Tok → Except Err (St × Tok)
  | .S str => .ok ({ s with out := s.out ++ str, sp := s.sp - str.length }, .S str)
  | .BB P U => printBB s P U
  | .E p u => printE s p u
  | .BR dist n off =>
      match s.ist with
      | [] => .error .top
      | .fits :: _ => .ok ({ s with sp := s.sp - n, out := s.out ++ indent n }, .BR dist n off)
      | .onePer cursor :: _ =>
          .ok ({ s with sp := s.lw - (cursor + off), out := s.out ++ crIndent (cursor + off) },
            .BR dist n off)
      | .pack cursor :: _ =>
          if dist > s.sp then
            .ok ({ s with sp := s.lw - (cursor + off), out := s.out ++ crIndent (cursor + off) },
              .BR dist n off)
          else .ok ({ s with sp := s.sp - n, out := s.out ++ indent n }, .BR dist n off)

/-- `clear_ppstream`: PP.sml:305-322. -/
def clear (s : St) : St :=
  { s with buf := fun _ => initialToken, ist := [], dst := [], lsum := 0, rsum := 0,
           left := 0, right := 0, sp := s.lw }

/-- `BB_inc_right_index`, `E_inc_right_index`: PP.sml:328-336. -/
def bbInc (s : St) : St :=
  match s.buf s.right with
  | .BB _ _ => s
  | _ => { s with right := s.inc s.right }

def eInc (s : St) : St :=
  match s.buf s.right with
  | .E _ _ => s
  | _ => { s with right := s.inc s.right }

/-- `pointers_coincide`: PP.sml:339-346. -/
def coincide (s : St) : Bool :=
  s.left = s.right && match s.buf s.left with
    | .BB [] [] => true
    | .BB _ _ => false
    | .E 0 0 => true
    | .E _ _ => false
    | _ => true

/-- `inc_left_sum`: PP.sml:353-356. -/
def width : Tok → Int
  | .BR _ n _ => n
  | .S str => str.length
  | _ => 0

/-- `token_size`, `last_size`: PP.sml:358-372. -/
def tokenSize : Tok → Except Err Int
  | .S str => .ok str.length
  | .BB P U =>
      match U.getLast? with
      | none =>
          match P with
          | [] => .error .bbSize
          | _ :: _ => .ok 0
      | some b => .ok b.size
  | .E p u => if p = 0 then (if u = 0 then .error .eSize else .ok (-1)) else .ok 0
  | .BR dist _ _ => .ok dist

/-- The step from one token to the next: PP.sml:392-403. -/
def stepLeft (s : St) : St :=
  match s.buf s.left with
  | .BB [] [] => { s with buf := upd s.buf s.left initialToken, left := s.inc s.left }
  | .BB _ _ => s
  | .E 0 0 => { s with buf := upd s.buf s.left initialToken, left := s.inc s.left }
  | .E _ _ => s
  | _ => { s with left := s.inc s.left }

/-- `advance_left`: PP.sml:348-406. -/
def advance : Nat → St → Except Err St
  | 0, _ => .error .fuel
  | f + 1, s =>
      let t := s.buf s.left
      match tokenSize t with
      | .error e => .error e
      | .ok z =>
          if z < 0 then .ok s
          else
            match printToken s t with
            | .error e => .error e
            | .ok (s1, t1) =>
                let s2 := { s1 with buf := upd s1.buf s1.left t1, lsum := s1.lsum + width t }
                if coincide s2 then .ok s2
                else advance f (stepLeft s2)

/-- How often a token is printed at most. -/
def weight : Tok → Nat
  | .BB P U => P.length + U.length + 1
  | _ => 1

/-- Enough fuel for the loops. -/
def fuelOf (s : St) : Nat :=
  ((List.range s.N).map (fun i => weight (s.buf ((s.left + i) % s.N)))).sum + 1

/-- `push_delim_stack`, `en_queue Qfront`: PP.sml:46-54, 127. -/
def push (s : St) (i : Nat) : Except Err St :=
  if s.dst.length ≥ s.N then .error .queueFull else .ok { s with dst := i :: s.dst }

/-- `begin_block`: PP.sml:409-432. -/
def beginBlock (s : St) (cons : Bool) (off : Int) : Except Err St :=
  let s1 := if s.dst = [] then { s with left := 0, lsum := 1, right := 0, rsum := 1 } else bbInc s
  match s1.buf s1.right with
  | .BB P U => .ok { s1 with buf := upd s1.buf s1.right (.BB P (⟨-s1.rsum, off, cons⟩ :: U)) }
  | _ => push { s1 with buf := upd s1.buf s1.right (.BB [] [⟨-s1.rsum, off, cons⟩]) } s1.right

/-- `end_block`: PP.sml:434-447. -/
def endBlock (s : St) : Except Err St :=
  if s.dst = [] then
    match printToken s (.E 1 0) with
    | .error e => .error e
    | .ok (s1, _) => .ok s1
  else
    let s1 := eInc s
    match s1.buf s1.right with
    | .E p u => .ok { s1 with buf := upd s1.buf s1.right (.E p (u + 1)) }
    | _ => push { s1 with buf := upd s1.buf s1.right (.E 0 1) } s1.right

/-- `check_delim_stack`: PP.sml:450-480. -/
def check : Nat → Nat → St → Except Err St
  | 0, _, _ => .error .fuel
  | f + 1, k, s =>
      match s.dst with
      | [] => .ok s
      | i :: rest =>
          match s.buf i with
          | .BB P (b :: rst) =>
              if k > 0 then
                check f (k - 1) { s with
                  buf := upd s.buf i (.BB ({ b with size := s.rsum + b.size } :: P) rst),
                  dst := if rst.length = 0 then rest else i :: rest }
              else .ok s
          | .E p u =>
              check f (k + (p + u)) { s with buf := upd s.buf i (.E (p + u) 0), dst := rest }
          | .BR dist n off =>
              let s' := { s with buf := upd s.buf i (.BR (s.rsum + dist) n off), dst := rest }
              if k > 0 then check f k s' else .ok s'
          | _ => .error .catchall

/-- `add_break`: PP.sml:483-500. -/
def addBreak (s : St) (n off : Int) : Except Err St :=
  let s1 :=
    if s.dst = [] then { s with left := 0, right := 0, lsum := 1, rsum := 1 }
    else { s with right := s.inc s.right }
  let s2 := { s1 with buf := upd s1.buf s1.right (.BR (-s1.rsum) n off) }
  match check (fuelOf s2) 0 s2 with
  | .error e => .error e
  | .ok s3 => push { s3 with rsum := s3.rsum + n } s3.right

/-- `flush_ppstream0`: PP.sml:502-512; the function `flush` has no effect here. -/
def flush0 (s : St) : Except Err St :=
  if s.dst = [] then .ok s
  else
    match check (fuelOf s) 0 s with
    | .error e => .error e
    | .ok s1 => advance (fuelOf s1) s1

/-- `flush_ppstream`: PP.sml:517-519. -/
def flush (s : St) : Except Err St :=
  match flush0 s with
  | .error e => .error e
  | .ok s1 => .ok (clear s1)

/-- `fnl`: PP.sml:527-529. -/
def fnl : List Blk → Except Err (List Blk)
  | [b] => .ok [{ b with size := infinity }]
  | b :: rst => match fnl rst with
    | .ok l => .ok (b :: l)
    | .error e => .error e
  | [] => .error .fnl

/-- `set`: PP.sml:531-542; with `pop_bottom_delim_stack`. -/
def set (s : St) (i : Nat) : Except Err St :=
  match s.buf i with
  | .BB P [b] =>
      .ok { s with dst := s.dst.dropLast, buf := upd s.buf i (.BB P [{ b with size := infinity }]) }
  | .BB P (b :: rst) =>
      match fnl rst with
      | .error e => .error e
      | .ok l => .ok { s with buf := upd s.buf i (.BB P (b :: l)) }
  | .E p u => .ok { s with dst := s.dst.dropLast, buf := upd s.buf i (.E (p + u) 0) }
  | .BR _ n off => .ok { s with dst := s.dst.dropLast, buf := upd s.buf i (.BR infinity n off) }
  | _ => .error .set

/-- `check_stream`: PP.sml:544-558. -/
def checkStream : Nat → St → Except Err St
  | 0, _ => .error .fuel
  | f + 1, s =>
      if s.rsum - s.lsum > s.sp then
        match s.dst.getLast? with
        | none => .ok s
        | some i =>
            match (if s.left = i then set s i else .ok s) with
            | .error e => .error e
            | .ok s1 =>
                match advance (fuelOf s1) s1 with
                | .error e => .error e
                | .ok s2 => if coincide s2 then .ok s2 else checkStream f s2
      else .ok s

/-- `add_string`: PP.sml:521-569. -/
def addString (s : St) (str : Str) : Except Err St :=
  if s.dst = [] then
    match printToken s (.S str) with
    | .error e => .error e
    | .ok (s1, _) => .ok s1
  else
    let s1 := { s with right := s.inc s.right }
    let s2 := { s1 with buf := upd s1.buf s1.right (.S str), rsum := s1.rsum + str.length }
    checkStream (fuelOf s2) s2

/-- The calls. -/
inductive Op where
  | str (s : Str)
  | bgn (cons : Bool) (off : Int)
  | fin
  | brk (n off : Int)
deriving DecidableEq

/-- `add_newline`: PP.sml:573-575. -/
def newline (lw : Nat) : Op := .brk (lw + 2) 0

def step (s : St) : Op → Except Err St
  | .str t => addString s t
  | .bgn c o => beginBlock s c o
  | .fin => endBlock s
  | .brk n o => addBreak s n o

def steps : St → List Op → Except Err St
  | s, [] => .ok s
  | s, o :: os =>
      match step s o with
      | .error e => .error e
      | .ok s1 => steps s1 os

/-- `pp_to_string`, `with_pp`: PP.sml:581-595; the message that `with_pp` prints on Fail is left
out, the failure is the result. -/
def ppToString (lw : Nat) (ops : List Op) : Except Err Str :=
  match mk lw with
  | .error e => .error e
  | .ok s =>
      match steps s ops with
      | .error e => .error e
      | .ok s1 =>
          match flush0 s1 with
          | .error e => .error e
          | .ok s2 => .ok s2.out

/-! ## The queue -/

/-- `queue`: PP.sml:27-30; ~1 is `none`, as both are ~1 or none is. -/
structure Queue where
  elems : Nat → Nat
  ends : Option (Nat × Nat)
  size : Nat

/-- `clear_queue`: PP.sml:41. -/
def Queue.clear (q : Queue) : Queue := { q with ends := none }

/-- `queue_at Qfront`, `queue_at Qback`: PP.sml:43-44; `none` is Subscript. -/
def Queue.front (q : Queue) : Option Nat := q.ends.map (fun e => q.elems e.1)
def Queue.back (q : Queue) : Option Nat := q.ends.map (fun e => q.elems e.2)

/-- `en_queue Qfront`: PP.sml:46-54; `none` is QUEUE_FULL.  `(i - 1) mod n` for `0 ≤ i < n`. -/
def Queue.push (q : Queue) (x : Nat) : Option Queue :=
  match q.ends with
  | none => some { q with ends := some (0, 0), elems := fun j => if j = 0 then x else q.elems j }
  | some (f, b) =>
      let i := (f + (q.size - 1)) % q.size
      if i = b then none
      else some { q with ends := some (i, b), elems := fun j => if j = i then x else q.elems j }

/-- `de_queue Qfront`, `de_queue Qback`: PP.sml:65-72. -/
def Queue.pop (q : Queue) : Queue :=
  match q.ends with
  | none => q
  | some (f, b) => if f = b then q.clear else { q with ends := some ((f + 1) % q.size, b) }

def Queue.popBack (q : Queue) : Queue :=
  match q.ends with
  | none => q
  | some (f, b) =>
      if f = b then q.clear else { q with ends := some (f, (b + (q.size - 1)) % q.size) }

end Mosml.Pretty
