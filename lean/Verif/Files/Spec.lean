import Verif.Files.Model

/-! What FileSys.sig and the conventions of Unix say, independently of the code. -/
namespace Mosml.Files

/-- the type of a file: bits 12-15 of st_mode -/
def fileType (mode : Nat) : Nat := mode / 4096 % 16

/-- the file types of POSIX: fifo, character device, directory, block device, regular file, symbolic
link (10), socket -/
def fileTypes : List Nat := [1, 2, 4, 6, 8, 10, 12]

/-- a directory stream as FileSys.sig describes it: the entries still to come, without `.` and `..`;
none when closed -/
abbrev Stream := Option (List Name)

def visible (l : List Name) : List Name := l.filter (fun e => e ≠ ['.'] ∧ e ≠ ['.', '.'])

def specStep (s : Stream) : Op → Res × Stream
  | .read => match s with
    | none => (.sysErr, none)
    | some [] => (.nothing, some [])
    | some (e :: l) => (.name e, some l)
  | .rewind now => match s with
    | none => (.sysErr, none)
    | some _ => (.unit, some (visible now))
  | .close => match s with
    | none => (.sysErr, none)
    | some _ => (.unit, none)

def specRun (s : Stream) : List Op → List Res
  | [] => []
  | o :: os => (specStep s o).1 :: specRun (specStep s o).2 os

/-- no operation closes a stream that has been closed -/
def closesOnce : Bool → List Op → Prop
  | _, [] => True
  | c, .close :: os => c = false ∧ closesOnce true os
  | c, _ :: os => closesOnce c os

/-- the directories of a search path -/
def components : Name → List Name
  | [] => [[]]
  | c :: cs =>
    if c = ':' then [] :: components cs
    else match components cs with
      | [] => [[c]]
      | d :: ds => (c :: d) :: ds

/-- the file `name` in the directory `d`, the current one if `d` is empty -/
def inDir (name d : Name) : Name := if d = [] then name else d ++ '/' :: name

/-- the files that a search for `name` tries, in this order -/
def candidates (path name : Name) : List Name := (components path).map (inDir name)

/-- the first file of the list that is executable -/
def firstExec (acc : Name → Bool) (l : List Name) : Found :=
  match l.find? acc with
  | none => .null
  | some f => .file f

end Mosml.Files
