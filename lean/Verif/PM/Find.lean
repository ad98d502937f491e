import Verif.PM.Model

/-!
# Model of the collection of the files to link, mosmlpm/PMCompile.sml

`get` gives the parsed project file of a name, `none` if it cannot be read. Names are taken as normalized and
absolute (normalizeName, OS.Path.mkAbsolute), and the change of directory (unwindChDir) is left out. The table of the
files included is a list.
-/
namespace Mosml.PM

/-- PMCompile.sml:269-285 findFilesBody -/
def findFilesBody : Body → List Str → List Str
  | .src f b, accu => findFilesBody b (f :: accu)
  | .strsrc f b, accu => findFilesBody b (f :: accu)
  | .locl b1 b2 b3, accu => findFilesBody b3 (findFilesBody b2 (findFilesBody b1 accu))
  | .null, accu => accu

/-- the table of included project files (the last one first), and the files found (the last one first) -/
structure St where
  marks : List Str
  accu : List Str

/-- outcome: a state, the exception for a cycle with its project files, an unreadable project file; `fuel` is no
outcome of the code -/
inductive Found where
  | ok (s : St)
  | cycle (names : List Str)
  | unreadable
  | fuel

/-- PMCompile.sml:293-301 findFilesImports; `visit` is ifindFiles -/
def findFilesImports (visit : Str → St → Found) : List Str → St → Found
  | [], s => .ok s
  | name :: rest, s =>
    if name ∈ s.marks then findFilesImports visit rest s
    else
      match visit name s with
      | .ok s' => findFilesImports visit rest ⟨name :: s'.marks, s'.accu⟩
      | r => r

/-- PMCompile.sml:303-314 findFilesPM, ifindFiles; the first argument bounds the depth of recursion -/
def ifindFiles (get : Str → Option File) : Nat → List Str → Str → St → Found
  | 0, _, _, _ => .fuel
  | n + 1, pmfiles, name, s =>
    if name ∈ pmfiles then .cycle (name :: pmfiles)
    else
      match get name with
      | none => .unreadable
      | some (imports, body) =>
        match findFilesImports (ifindFiles get n (name :: pmfiles)) imports s with
        | .ok s' => .ok ⟨s'.marks, findFilesBody body s'.accu⟩
        | r => r

/-- PMCompile.sml:288-316 findFiles -/
def findFiles (get : Str → Option File) (n : Nat) (filename : Str) : Found :=
  match ifindFiles get n [] filename ⟨[], []⟩ with
  | .ok s => .ok ⟨s.marks, s.accu.reverse⟩
  | r => r

end Mosml.PM
