/-!
# Model of executable files: what compiler/Link.sml writes and what runtime/main.c runs

A file is a list of bytes, a name a list of character codes. Unix, 64-bit, without DEBUG. The files and the search in the path
are parameters. Sizes are unbounded, except where they are written.
-/
namespace Mosml.Startup

/-- io.c:125-131 putword, for a number that is not negative -/
def putword (w : Nat) : List Nat := [w / 16777216 % 256, w / 65536 % 256, w / 256 % 256, w % 256]

/-- Link.sml:241-266: what `link` writes, given what is prepended (the runtime, the header or nothing), the code with STOP at its
end, the data and the linker tables -/
def exec (pre code data sym : List Nat) : List Nat :=
  pre ++ code ++ data ++ sym ++
    (putword code.length ++ putword data.length ++ putword sym.length ++ putword 0 ++ [77, 76, 48, 56])

/-- the byte at a position; only used within the buffer -/
def byte (p : List Nat) (i : Nat) : Nat := p.getD i 0

/-- main.c:52-56 read_size at a position of the buffer -/
def readSize (p : List Nat) (i : Nat) : Nat :=
  byte p i * 16777216 + byte p (i + 1) * 65536 + byte p (i + 2) * 256 + byte p (i + 3)

/-- exec.h:16-22 struct exec_trailer -/
structure Trailer where
  codeSize : Nat
  dataSize : Nat
  symbolSize : Nat
  debugSize : Nat
deriving DecidableEq

inductive Open
  | notFound | truncated | badMagic
  | ok (t : Trailer) (file : List Nat)
deriving DecidableEq

/-- main.c:62-75 read_trailer; in a file that is too short the seek fails and what can be read is too short -/
def readTrailer (f : List Nat) : Open :=
  if f.length < 20 then .truncated
  else
    let b := f.drop (f.length - 20)
    if readSize b 16 = 1296838712 then .ok ⟨readSize b 0, readSize b 4, readSize b 8, readSize b 12⟩ f
    else .badMagic

/-- main.c:86-87: the name found in the path, or else the name itself -/
def trueName (search : List Nat → Option (List Nat)) (n : List Nat) : List Nat :=
  match search n with
  | none => n
  | some t => t

/-- main.c:88-97 attempt_open after the search -/
def attemptOpen (files : List Nat → Option (List Nat)) (name : List Nat) (script : Bool) : Open :=
  match files name with
  | none => .notFound
  | some f =>
    if script then readTrailer f
    else if f.length < 2 then .truncated
    else if f.take 2 = [35, 33] then .badMagic
    else readTrailer f

/-- what happens: a program is run with arguments, code and the file after the code (where the data are), or
a message is printed -/
inductive Res
  | run (args : List (List Nat)) (code rest : List Nat)
  | version
  | unknownOption (a : List Nat)
  | noFile
  | cannotFind (a : List Nat)
  | notExecutable (a : List Nat)
  | truncatedFile
deriving DecidableEq

/-- main.c:229-251: the position of the code is counted from the end; if it is before the start the seek fails and nothing
can be read after the trailer -/
def load (t : Trailer) (f : List Nat) (args : List (List Nat)) : Res :=
  let n := 20 + t.codeSize + t.dataSize + t.symbolSize + t.debugSize
  let l := if n ≤ f.length then f.drop (f.length - n) else []
  if l.length < t.codeSize then .truncatedFile
  else .run args (l.take t.codeSize) (l.drop t.codeSize)

/-- main.c:160-196: the arguments after the first -/
def options (files : List Nat → Option (List Nat)) (search : List Nat → Option (List Nat)) : List (List Nat) → Res
  | [] => .noFile
  | a :: l =>
    if a.take 1 = [45] then
      if (a.drop 1).take 1 = [118] then options files search l
      else if (a.drop 1).take 1 = [86] then .version
      else .unknownOption a
    else
      match attemptOpen files (trueName search a) true with
      | .notFound => .cannotFind (trueName search a)
      | .truncated => .notExecutable (trueName search a)
      | .badMagic => .notExecutable (trueName search a)
      | .ok t f => load t f (trueName search a :: l)

/-- main.c:130-251 main, for the command line `a :: l` -/
def main (files : List Nat → Option (List Nat)) (search : List Nat → Option (List Nat)) (a : List Nat)
    (l : List (List Nat)) : Res :=
  match attemptOpen files (trueName search a) false with
  | .ok t f => load t f (trueName search a :: l)
  | _ => options files search l

end Mosml.Startup
