import Verif.Util

/-!
Buffered channels, src/runtime/io.c and src/runtime/io.h.

A file is the list of its bytes and a descriptor a position in it.  How many bytes a call of `write` or `read` transfers
is decided by an arbitrary function `os` of the number of calls made so far.  Simplifications: a call that can transfer
something transfers at least one byte and does not fail (no EINTR, no errors, no non-blocking reads); a regular file, not
a terminal or a pipe, and no other process writes to it; the file is not opened in append mode; positions are natural
numbers.
-/
namespace Mosml.IO

abbrev Bytes := List Nat

/-- io.h:10-12 -/
def bufSize : Nat := 4096

/-- the file, the descriptor's position, and the number of system calls made -/
structure World where
  data : Bytes
  pos : Nat
  calls : Nat

/-- io.h:14-21: `curr` and `max` are indices in `buff`, `end` is `bufSize` -/
structure Chan where
  offset : Nat
  curr : Nat
  max : Nat
  buff : Bytes

/-- the contents of a file after `bs` is written at `p`; a gap is filled with zeros -/
def writeAt (data : Bytes) (p : Nat) (bs : Bytes) : Bytes :=
  if bs = [] then data
  else data.take p ++ List.replicate (p - data.length) 0 ++ bs ++ data.drop (p + bs.length)

/-- the system call `write` with some bytes to write -/
def sysWrite (os : Nat → Nat) (w : World) (bs : Bytes) : Nat × World :=
  let r := max 1 (min bs.length (os w.calls))
  (r, ⟨writeAt w.data w.pos (bs.take r), w.pos + r, w.calls + 1⟩)

/-- io.c:83-97, the loop of `really_write` -/
def writeLoop (os : Nat → Nat) : Nat → World → Bytes → World
  | 0, w, _ => w
  | fuel + 1, w, bs =>
    if bs = [] then w
    else
      let r := sysWrite os w bs
      writeLoop os fuel r.2 (bs.drop r.1)

/-- io.c:81-98 `really_write`: the count is an `int`, so one of 2^31 or more is negative and nothing is written -/
def reallyWrite (os : Nat → Nat) (w : World) (bs : Bytes) : World :=
  if 2 ^ 31 ≤ bs.length then w else writeLoop os bs.length w bs

/-- io.c:100-111 `flush` -/
def flush (os : Nat → Nat) (w : World) (c : Chan) : World × Chan :=
  if c.max > 0 then (reallyWrite os w (c.buff.take c.max), ⟨c.offset + c.max, 0, 0, c.buff⟩) else (w, c)

/-- bytes copied into the buffer at index `i` -/
def bcopy (buff : Bytes) (i : Nat) (bs : Bytes) : Bytes := buff.take i ++ bs ++ buff.drop (i + bs.length)

/-- io.h:30-33 `putch`; a `char` is stored -/
def putch (os : Nat → Nat) (w : World) (c : Chan) (ch : Nat) : World × Chan :=
  let (w, c) := if c.curr ≥ bufSize then flush os w c else (w, c)
  let curr := c.curr + 1
  (w, ⟨c.offset, curr, if curr > c.max then curr else c.max, bcopy c.buff c.curr [ch % 256]⟩)

/-- io.c:125-131 `putword` -/
def putword (os : Nat → Nat) (w : World) (c : Chan) (x : Nat) : World × Chan :=
  let (w, c) := putch os w c (x / 2 ^ 24)
  let (w, c) := putch os w c (x / 2 ^ 16)
  let (w, c) := putch os w c (x / 2 ^ 8)
  putch os w c x

/-- io.c:139-167 `putblock`; fewer than 2^32 bytes -/
def putblock (os : Nat → Nat) (w : World) (c : Chan) (p : Bytes) : World × Chan :=
  let n := p.length
  let m := bufSize - c.curr
  if c.curr = 0 ∧ n ≥ m then
    (reallyWrite os w p, { c with offset := c.offset + n })
  else if n ≤ m then
    let curr := c.curr + n
    (w, ⟨c.offset, curr, if curr > c.max then curr else c.max, bcopy c.buff c.curr p⟩)
  else
    let buff := bcopy c.buff c.curr (p.take m)
    let p := p.drop m
    let n := n - m
    let m := bufSize
    let w := reallyWrite os w (buff.take m)
    let offset := c.offset + m
    if n ≤ m then (w, ⟨offset, n, n, bcopy buff 0 p⟩)
    else (reallyWrite os w p, ⟨offset + n, 0, 0, buff⟩)

/-- io.c:169-175 `output`: the length is converted to `unsigned` -/
def output (os : Nat → Nat) (w : World) (c : Chan) (bs : Bytes) : World × Chan :=
  putblock os w c (bs.take (bs.length % 2 ^ 32))

/-- io.c:177-191 `seek_out` -/
def seekOut (os : Nat → Nat) (w : World) (c : Chan) (dest : Nat) : World × Chan :=
  if dest ≥ c.offset ∧ dest ≤ c.offset + c.max then (w, { c with curr := dest - c.offset })
  else
    let (w, c) := flush os w c
    ({ w with pos := dest }, { c with offset := dest })

/-- io.c:193-196 `pos_out` -/
def posOut (c : Chan) : Nat := c.offset + c.curr

/-- output operations -/
inductive OutOp where
  | char (ch : Nat)
  | word (x : Nat)
  | block (bs : Bytes)
  | flush
  | seek (dest : Nat)

def outStep (os : Nat → Nat) (s : World × Chan) : OutOp → World × Chan
  | .char ch => putch os s.1 s.2 ch
  | .word x => putword os s.1 s.2 x
  | .block bs => output os s.1 s.2 bs
  | .flush => flush os s.1 s.2
  | .seek d => seekOut os s.1 s.2 d

def outRun (os : Nat → Nat) (s : World × Chan) (ops : List OutOp) : World × Chan := ops.foldl (outStep os) s

/-- io.c:42-56 `open_descr`: the buffer's initial contents are arbitrary; `offset` is 0 whatever the descriptor's position -/
def openDescr (buff : Bytes) : Chan := ⟨0, 0, 0, buff⟩

/-! ### Input -/

/-- the system call `read` -/
def sysRead (os : Nat → Nat) (w : World) (n : Nat) : Bytes × World :=
  let avail := min n (w.data.length - w.pos)
  let r := if avail = 0 then 0 else max 1 (min avail (os w.calls))
  ((w.data.drop w.pos).take r, ⟨w.data, w.pos + r, w.calls + 1⟩)

/-- io.h:35-38 `getch`, io.c:322-333 `refill`; `none` is the exception at end of file -/
def getch (os : Nat → Nat) (w : World) (c : Chan) : Option Nat × World × Chan :=
  if c.curr ≥ c.max then
    let (bs, w) := sysRead os w bufSize
    if bs.length = 0 then (none, w, c)
    else (some (bs.getD 0 0), w, ⟨c.offset + bs.length, 1, bs.length, bcopy c.buff 0 bs⟩)
  else (some (c.buff.getD c.curr 0), w, { c with curr := c.curr + 1 })

/-- io.c:364-401 `getblock`, blocking; `n` below 2^31 -/
def getblock (os : Nat → Nat) (w : World) (c : Chan) (n : Nat) : Bytes × World × Chan :=
  let m := c.max - c.curr
  if n ≤ m then ((c.buff.drop c.curr).take n, w, { c with curr := c.curr + n })
  else if m > 0 then ((c.buff.drop c.curr).take m, w, { c with curr := c.curr + m })
  else if n < bufSize then
    let (bs, w) := sysRead os w bufSize
    let n := if n > bs.length then bs.length else n
    (bs.take n, w, ⟨c.offset + bs.length, n, bs.length, bcopy c.buff 0 bs⟩)
  else
    let (bs, w) := sysRead os w n
    (bs, w, ⟨c.offset + bs.length, 0, 0, c.buff⟩)

/-- io.c:403-413 `really_getblock`; the bytes stored and whether it succeeded -/
def reallyGetblock (os : Nat → Nat) : Nat → World → Chan → Nat → Bytes × Bool × World × Chan
  | 0, w, c, n => ([], n = 0, w, c)
  | fuel + 1, w, c, n =>
    if n = 0 then ([], true, w, c)
    else
      let (bs, w, c) := getblock os w c n
      if bs.length = 0 then ([], false, w, c)
      else
        let (bs', ok, w, c) := reallyGetblock os fuel w c (n - bs.length)
        (bs ++ bs', ok, w, c)

/-- io.c:437-451 `seek_in` -/
def seekIn (w : World) (c : Chan) (dest : Nat) : World × Chan :=
  if dest + c.max ≥ c.offset ∧ dest ≤ c.offset then (w, { c with curr := c.max - (c.offset - dest) })
  else ({ w with pos := dest }, ⟨dest, 0, 0, c.buff⟩)

/-- io.c:453-456 `pos_in` -/
def posIn (c : Chan) : Nat := c.offset - (c.max - c.curr)

/-- io.c:465-504 `input_scan_line`, from the character at index `p` on -/
def scanLine (os : Nat → Nat) : Nat → World → Chan → Nat → Int × World × Chan
  | 0, w, c, _ => (0, w, c)
  | fuel + 1, w, c, p =>
    let r : Option (Int × World × Chan) ⊕ (World × Chan × Nat) :=
      if p ≥ c.max then
        let n := if c.curr > 0 then c.curr else 0
        let buff := if c.curr > 0 then bcopy c.buff 0 ((c.buff.drop c.curr).take (c.max - c.curr)) else c.buff
        let c : Chan := ⟨c.offset, c.curr - n, c.max - n, buff⟩
        let p := p - n
        if c.max ≥ bufSize then .inl (some (-((c.max - c.curr : Nat) : Int), w, c))
        else
          let (bs, w) := sysRead os w (bufSize - c.max)
          if bs.length = 0 then .inl (some (-((c.max - c.curr : Nat) : Int), w, c))
          else .inr (w, ⟨c.offset + bs.length, c.curr, c.max + bs.length, bcopy c.buff c.max bs⟩, p)
      else .inr (w, c, p)
    match r with
    | .inl (some x) => x
    | .inl none => (0, w, c)
    | .inr (w, c, p) =>
      if c.buff.getD p 0 ≠ 10 then scanLine os fuel w c (p + 1)
      else (((p + 1 - c.curr : Nat) : Int), w, c)

/-! ### Binary integers -/

/-- io.c:133-137 `output_int` -/
def outputInt (os : Nat → Nat) (w : World) (c : Chan) (n : Int) : World × Chan :=
  putword os w c (n % 2 ^ 32).toNat

/-- io.c:342-352 `getword` -/
def getword (os : Nat → Nat) (w : World) (c : Chan) : Option Nat × World × Chan :=
  match getch os w c with
  | (none, w, c) => (none, w, c)
  | (some a, w, c) => match getch os w c with
    | (none, w, c) => (none, w, c)
    | (some b, w, c) => match getch os w c with
      | (none, w, c) => (none, w, c)
      | (some d, w, c) => match getch os w c with
        | (none, w, c) => (none, w, c)
        | (some e, w, c) => (some ((((0 * 256 + a) * 256 + b) * 256 + d) * 256 + e), w, c)

/-- io.c:354-362 `input_int`, with the sign extension of 64-bit machines -/
def inputInt (os : Nat → Nat) (w : World) (c : Chan) : Option Int × World × Chan :=
  match getword os w c with
  | (none, w, c) => (none, w, c)
  | (some x, w, c) => (some (if x < 2 ^ 31 then (x : Int) else x - 2 ^ 32), w, c)

/-- mosml.c:1482-1505 `doubletow8vec` on a little-endian machine: the loop exchanges bytes `i` and `7 - i` for
`i = 0..3` -/
def doubleToVec (d : Bytes) : Bytes :=
  (List.range 4).foldl (fun b i => (b.set i (b.getD (7 - i) 0)).set (7 - i) (b.getD i 0)) d

/-- mosml.c:1457-1478 `w8vectodouble` -/
def vecToDouble (v : Bytes) : Bytes := (List.range 8).map fun i => v.getD (7 - i) 0

end Mosml.IO
