import Verif.Lib.Substring

/-!
C46: src/mosmllib/Path.mlp as preprocessed for Unix.  Strings are lists of characters; `String.fields` is `splitFields`, what C47 shows it
to compute.  Strings longer than `String.maxSize` (exception Size) are not considered.
-/
namespace Mosml.Lib.Path

open Substring (splitFields)

abbrev Str := List Char

inductive Exn where
  | Path
  | InvalidArc
  deriving DecidableEq

/-- Path.mlp:136 -/
abbrev parentArc : Str := ['.', '.']

/-- Path.mlp:137 -/
abbrev currentArc : Str := ['.']

/-- Path.mlp:23 -/
def isslash (c : Char) : Bool := c == '/'

/-- Path.mlp:25-29 -/
def splitabsvolrest : Str → Bool × Str × Str
  | [] => (false, [], [])
  | c :: r => if isslash c then (true, [], r) else (false, [], c :: r)

/-- the result type of Path.mlp:144 -/
structure P where
  isAbs : Bool
  vol : Str
  arcs : List Str
  deriving DecidableEq

/-- Path.mlp:140 -/
def isAbsolute (p : Str) : Bool := (splitabsvolrest p).1

/-- Path.mlp:142 -/
def isRelative (p : Str) : Bool := !isAbsolute p

/-- Path.mlp:144-152 -/
def fromString (p : Str) : P :=
  match splitabsvolrest p with
  | (false, v, []) => ⟨false, v, []⟩
  | (isAbs, v, rest) => ⟨isAbs, v, splitFields isslash rest⟩

/-- Path.mlp:154-157 -/
def isRoot (p : Str) : Bool :=
  match splitabsvolrest p with
  | (true, _, []) => true
  | _ => false

/-- Path.mlp:35 and 160 -/
def validVolume (vol : Str) : Bool := vol == []

/-- Path.mlp:163-164 -/
def h : List Str → List Str → List Str
  | [], res => res
  | a :: ar, res => h ar (a :: ['/'] :: res)

/-- Path.mlp:162-185 -/
def toString (p : P) : Except Exn Str :=
  if validVolume p.vol then
    match p.isAbs, p.arcs with
    | false, [] => .ok p.vol
    | false, a1 :: arest => if a1 = [] then .error .Path else .ok (p.vol :: (h arest [a1]).reverse).flatten
    | true, [] => .ok (p.vol ++ ['/'])
    | true, a1 :: arest => .ok (h arest [a1, ['/'], p.vol]).reverse.flatten
  else .error .Path

/-- Path.mlp:210-213; it is not applied to the empty string -/
def stripslash (path : Str) : Str :=
  match path.getLast? with
  | some c => if isslash c then path.dropLast else path
  | none => path

/-- Path.mlp:209-222 -/
def concat (p1 p2 : Str) : Except Exn Str :=
  if isAbsolute p2 then .error .Path
  else match splitabsvolrest p1 with
    | (false, v, path) => if v = [] ∧ path = [] then .ok p2 else .ok (v ++ stripslash path ++ ['/'] ++ p2)
    | (true, v, []) => .ok (v ++ ['/'] ++ p2)
    | (true, v, path) => .ok (v ++ ['/'] ++ stripslash path ++ ['/'] ++ p2)

/-- Path.mlp:247-254: the argument and the result in reverse order -/
def getpar (isAbs : Bool) : List Str → List Str
  | [] => [parentArc]
  | last :: revrest =>
    if last = [] ∧ revrest = [] then if isAbs then [] else [parentArc]
    else if last = [] then parentArc :: revrest
    else if last = ['.'] then parentArc :: revrest
    else if last = ['.', '.'] then parentArc :: parentArc :: revrest
    else revrest

/-- Path.mlp:244-261 -/
def getParent (p : Str) : Except Exn Str :=
  let q := fromString p
  match (getpar q.isAbs q.arcs.reverse).reverse with
  | [] => if q.isAbs then toString ⟨true, q.vol, [[]]⟩ else .ok currentArc
  | arcs => toString ⟨q.isAbs, q.vol, arcs⟩

/-- Path.mlp:288-290 -/
def backup (isAbs : Bool) : List Str → List Str
  | [] => if isAbs then [] else [parentArc]
  | a :: res => if a = ['.', '.'] then parentArc :: parentArc :: res else res

/-- Path.mlp:292-297 -/
def reduce (isAbs : Bool) : List Str → List Str → List Str
  | [], [] => if isAbs then [[]] else [currentArc]
  | [], res => res
  | a :: ar, res =>
    if a = [] then reduce isAbs ar res
    else if a = ['.'] then reduce isAbs ar res
    else if a = ['.', '.'] then reduce isAbs ar (backup isAbs res)
    else reduce isAbs ar (a :: res)

/-- Path.mlp:286-301 -/
def mkCanonical (p : Str) : Except Exn Str :=
  let q := fromString p
  toString ⟨q.isAbs, q.vol, (reduce q.isAbs q.arcs []).reverse⟩

/-- Path.mlp:329-330 -/
def parentize : List Str → List Str
  | [] => []
  | _ :: ar => parentArc :: parentize ar

/-- Path.mlp:337-342 -/
def relArcs (arcs1 : List Str) : List Str → List Str → List Str
  | [], [] => [['.']]
  | a1, [] => a1
  | [], a2 => parentize a2
  | a11 :: a1r, a21 :: a2r =>
    if a11 = a21 then relArcs arcs1 a1r a2r
    else parentize (a21 :: a2r) ++ (if arcs1 = [[]] then [] else a11 :: a1r)

/-- Path.mlp:332-346 -/
def mkRelative (p1 p2 : Str) : Except Exn Str := do
  let q1 := fromString p1
  let q2 := fromString (← mkCanonical p2)
  (if !q2.isAbs then .error .Path
   else if !q1.isAbs then .ok p1
   else if q1.vol ≠ q2.vol then .error .Path
   else toString ⟨false, [], relArcs q1.arcs q1.arcs q2.arcs⟩ : Except Exn Str)

/-- Path.mlp:349-352 -/
def mkAbsolute (p1 p2 : Str) : Except Exn Str :=
  if isRelative p2 then .error .Path
  else if isAbsolute p1 then .ok p1
  else do mkCanonical (← concat p2 p1)

/-- Path.mlp:356 -/
def joinDirFile (dir file : Str) : Except Exn Str := concat dir file

/-- Path.mlp:358-378 -/
def splitDirFile (p : Str) : Except Exn (Str × Str) :=
  let q := fromString p
  match q.arcs.reverse with
  | [] => do .ok (← toString ⟨q.isAbs, q.vol, []⟩, [])
  | arcn :: farcs => do .ok (← toString ⟨q.isAbs, q.vol, farcs.reverse⟩, arcn)

/-- Path.mlp:383-385 -/
def joinBaseExt (base : Str) : Option Str → Str
  | none => base
  | some ex => if ex = [] then base else base ++ ['.'] ++ ex

/-- `Substring.splitr (fn c => c <> #".") (all file)` (Path.mlp:390): what C47 shows it to compute -/
def splitrDot (file : Str) : Str × Str :=
  let snd := (file.reverse.takeWhile (fun c => c != '.')).reverse
  (file.take (file.length - snd.length), snd)

/-- Path.mlp:387-400 -/
def splitBaseExt (s : Str) : Except Exn (Str × Option Str) := do
  let (dir, file) ← splitDirFile s
  let (fst, snd) := splitrDot file
  (if snd = [] ∨ fst = [] ∨ fst.length = 1 then .ok (s, none)
   else do .ok (← joinDirFile dir fst.dropLast, some snd) : Except Exn _)

/-- Path.mlp:432-434 with `isInvalidArc` (430): an arc is invalid if it contains a slash -/
def invalidArc (arc : Str) : Except Exn Unit :=
  if arc.any isslash then .ok () else .error .InvalidArc

/-- Path.mlp:436-440; on Unix `fromUnixString` is `fromString` -/
def fromUnixPath (s : Str) : Except Exn Str := do
  let p := fromString s
  p.arcs.forM invalidArc
  toString p

/-- Path.mlp:442-446; on Unix `toUnixString` is `toString` -/
def toUnixPath (s : Str) : Except Exn Str := do
  let p := fromString s
  p.arcs.forM invalidArc
  toString p

/-! ### what paths denote -/

/-- A directory is the list of names leading to it, the innermost first.  Walking one arc from it; the parent of the root is the root. -/
def walk1 (d : List Str) (arc : Str) : List Str :=
  if arc = [] ∨ arc = ['.'] then d else if arc = ['.', '.'] then d.tail else arc :: d

/-- the directory or file that a path leads to from directory `cwd`, where there are no symbolic links -/
def denote (cwd : List Str) (p : Str) : List Str :=
  (splitFields (· == '/') p).foldl walk1 (if p.head? = some '/' then [] else cwd)

end Mosml.Lib.Path
