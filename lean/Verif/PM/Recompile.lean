/-!
# Model of the decision what to compile again, mosmlpm/PMCompile.sml

Files are modelled by their times of modification, `none` for a file that does not exist. The source and the project
file exist (`OS.FileSys.modTime` would raise SysErr).
-/
namespace Mosml.PM

/-- the files that belong to one source -/
structure Times where
  sml : Nat
  sig : Option Nat
  ui : Option Nat
  uo : Option Nat
  /-- the project file -/
  pm : Nat

/-- what is compiled, in this order -/
inductive Job where
  | sig | sml
deriving DecidableEq, Repr

/-- PMCompile.sml:56-61 isNewer -/
def isNewer (t1 : Nat) (file2 : Option Nat) : Bool :=
  match file2 with
  | none => true
  | some t2 => decide (t1 > t2)

/-- PMCompile.sml:63 isNewer2 -/
def isNewer2 (t : Nat) (f : Option Nat × Option Nat) : Bool := isNewer t f.1 || isNewer t f.2

/-- PMCompile.sml:80 dirty -/
def dirty (d : Nat) (ui : Option Nat) : Bool :=
  match ui with
  | none => false
  | some t => decide (d > t)

/-- PMCompile.sml:82-89 max in addImport and addUI: the time of the context -/
def maxTime (t1 t2 : Nat) : Nat := if t1 > t2 then t1 else t2

/-- PMCompile.sml:72, 84-89: the time of the context after the given .ui files have been added -/
def contextTime (uis : List Nat) : Nat := uis.foldl maxTime 0

/-- PMCompile.sml:98-120 recompile; `d` is the time of the context -/
def recompile (d : Nat) (t : Times) : List Job :=
  let allfiles := if t.sig.isSome then [Job.sig, Job.sml] else [Job.sml]
  if dirty d t.ui
      || (match t.sig with
          | some s => isNewer s t.ui
          | none => isNewer2 t.sml (t.ui, t.uo))
      || (t.ui.isSome && isNewer t.pm t.ui)
      || (t.uo.isSome && isNewer t.pm t.uo)
  then allfiles
  else if t.sig.isSome && isNewer t.sml t.uo then [.sml]
  else []

end Mosml.PM
