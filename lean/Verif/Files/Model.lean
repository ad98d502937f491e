import Verif.Util
import Verif.RealConv.Model

/-!
Model of src/mosmllib/FileSys.mlp (Unix branch) with its C primitives in src/runtime/unix.c and
src/runtime/mosml.c, and of `searchpath` in src/runtime/sys.c.  The operating system is a parameter: what
`stat`, `lstat`, `access`, `readlink` and `readdir` answer.  A C string is the list of its characters before
the terminating NUL; a buffer is the list of the characters written to it so far, and a write behind its
end is the outcome `none` (or `overflow`).  Not modelled: errno and the text of SysErr, realpath,
times, sizes, and the branches for DOS, Windows and the Macintosh.
-/
namespace Mosml.Files

abbrev Name := List Char

/-- The C string that `String_val(v)` is to a function of the C library: it ends at the first NUL
(mlvalues.h:213 `String_val`; used in every primitive below). -/
def cString (p : Name) : Name := p.takeWhile (fun c => c != Char.ofNat 0)

/-! ### File types and identities -/

/-- unix.c:70 `(S_IFLNK & buf.st_mode) == S_IFLNK`, S_IFLNK = 0120000 -/
def isLinkMode (mode : Nat) : Bool := (0xA000 &&& mode) == 0xA000

/-- unix.c:103: `(double)st_dev * (1 << 17) + (double)st_ino`.  The product is exact (a power of two);
each conversion and the sum are rounded. -/
def devInode (dev ino : Nat) : Nat :=
  RealConv.roundMag (RealConv.roundMag dev * 131072 + RealConv.roundMag ino)

/-- FileSys.mlp:131-134 compare, on the values of file ids (never NaN) -/
def compareId (a b : Nat) : Ordering := if a < b then .lt else if a > b then .gt else .eq

/-! ### Access -/

/-- FileSys.mlp:53 -/
inductive Mode | read | write | exec
  deriving DecidableEq

/-- FileSys.mlp:56 mem -/
def mem (perm : List Mode) (p : Mode) : Nat := if perm.any (fun q => p == q) then 1 else 0

/-- FileSys.mlp:57 permcode -/
def permCode (perm : List Mode) : Nat := mem perm .read + 2 * mem perm .write + 4 * mem perm .exec

/-- mosml.c:964-967: the second argument of `access`, R_OK = 4, W_OK = 2, X_OK = 1, F_OK = 0 -/
def permBits (perm : Nat) : Nat :=
  let a := if 1 &&& perm ≠ 0 then 4 else 0
  let b := a ||| (if 2 &&& perm ≠ 0 then 2 else 0)
  let c := b ||| (if 4 &&& perm ≠ 0 then 1 else 0)
  if c = 0 then 0 else c

/-- FileSys.mlp:55-61 access with mosml.c:959-972; `os path bits` is the answer of the system. -/
def access (os : Name → Nat → Bool) (path : Name) (perm : List Mode) : Bool :=
  os (cString path) (permBits (permCode perm))

/-! ### Symbolic links -/

/-- sys/param.h -/
def maxPathLen : Nat := 4096

/-- unix.c:74-89 sml_readlink: `link` is the text of the link, none when the system reports an error.
The system writes at most MAXPATHLEN characters into the buffer and returns their number; then a NUL is
stored at that place (a write outside the buffer is `none`) and the string copied up to its first NUL.
The inner `none` is the exception Fail. -/
def readLink (link : Option Name) : Option (Option Name) :=
  match link with
  | none => some none
  | some t =>
    let buffer := t.take maxPathLen
    let result := buffer.length
    if result ≥ maxPathLen then some none
    else if result < maxPathLen then some (some (cString buffer)) else none

/-! ### Directory streams -/

/-- A directory stream: FileSys.mlp:52 `dirstruct_ option ref`; the open one holds what `readdir`
has still to deliver. -/
abbrev Dir := Option (List Name)

inductive Res | name (s : Name) | nothing | unit | sysErr
  deriving DecidableEq

/-- FileSys.mlp:261-262 mkOpt -/
def mkOpt (s : Name) : Res := if s = [] then .nothing else .name s

/-- FileSys.mlp:269-276 with sml_readdir (mosml.c:886-904, "" at the end): entries are read until one is
neither `..` nor `.`. -/
def readLoop : List Name → Res × List Name
  | [] => (mkOpt [], [])
  | e :: rest =>
    if e ≠ ['.', '.'] ∧ e ≠ ['.'] then (mkOpt e, rest) else readLoop rest

/-- FileSys.mlp:264-277 readDir -/
def readDir : Dir → Res × Dir
  | none => (.sysErr, none)
  | some l => let r := readLoop l; (r.1, some r.2)

/-- FileSys.mlp:279-281 rewindDir; `now` are the entries of the directory at that time. -/
def rewindDir (now : List Name) : Dir → Res × Dir
  | none => (.sysErr, none)
  | some _ => (.unit, some now)

/-- FileSys.mlp:283-285 closeDir -/
def closeDir : Dir → Res × Dir
  | none => (.unit, none)
  | some _ => (.unit, none)

inductive Op | read | rewind (now : List Name) | close

def step (d : Dir) : Op → Res × Dir
  | .read => readDir d
  | .rewind now => rewindDir now d
  | .close => closeDir d

/-- the answers to a sequence of operations on one stream -/
def run (d : Dir) : List Op → List Res
  | [] => []
  | o :: os => (step d o).1 :: run (step d o).2 os

/-! ### The search path -/

/-- what `searchpath` does: returns its argument, returns 0, returns the buffer, or writes behind
the end of the buffer -/
inductive Found | itself | null | file (f : Name) | overflow
  deriving DecidableEq

/-- `*p++ = c` into `static char fullname[512]` (sys.c:338) -/
def put (buf : Name) (c : Char) : Option Name := if buf.length < 512 then some (buf ++ [c]) else none

/-- sys.c:350-352; the first component is what is left of the path. -/
def copyDir : Name → Name → Option (Name × Name)
  | [], b => some ([], b)
  | c :: cs, b =>
    if c ≠ ':' then
      match put b c with
      | none => none
      | some b' => copyDir cs b'
    else some (c :: cs, b)

/-- sys.c:354-357 -/
def copyName : Name → Name → Option Name
  | [], b => some b
  | c :: cs, b => match put b c with | none => none | some b' => copyName cs b'

/-- sys.c:348-362; every round but the last consumes a colon, so a number of rounds greater than the
length of the path is enough. -/
def searchLoop (acc : Name → Bool) (name : Name) : Nat → Name → Found
  | 0, _ => .null
  | n + 1, path =>
    match copyDir path [] with
    | none => .overflow
    | some (rest, b) =>
      match (if b ≠ [] then put b '/' else some b) with
      | none => .overflow
      | some b1 =>
        match copyName name b1 with
        | none => .overflow
        | some full =>
          if full.length < 512 then                 -- sys.c:358 `*p = 0`
            if acc full then .file full
            else match rest with
              | [] => .null
              | _ :: more => searchLoop acc name n more
          else .overflow

/-- sys.c:336-364 searchpath; `acc f` says whether `access(f, 1) == 0`, `path` is the value of PATH. -/
def searchPath (acc : Name → Bool) (path : Option Name) (name : Name) : Found :=
  if name.any (fun c => c == '/') then .itself
  else match path with
    | none => .null
    | some p => searchLoop acc name (p.length + 1) p

end Mosml.Files
