import Verif.PM.Model

/-!
# Model of what the files of a project see, mosmlpm/PMCompile.sml

The context of the compiler is modelled without its time stamps; a file stands for its .ui file (newExt, :29-37).
Every file is recorded with the list of files passed to the compiler for it; whether it is compiled or reused
(recompile), failing compilations and other extensions than .sml are not modelled.
-/
namespace Mosml.PM

/-- PMCompile.sml:68-70 context, without the time; each list is in reverse order -/
abbrev Ctx := List (List Str)

/-- PMCompile.sml:74 scope -/
def scope (c : Ctx) : Ctx := [] :: c

/-- PMCompile.sml:75 dropLocal (its other case raises Match; it cannot occur, since two scopes are opened before) -/
def dropLocal : Ctx → Ctx
  | x :: _ :: xs => x :: xs
  | c => c

/-- PMCompile.sml:76 dropImports: what the project file gives to those that import it -/
def dropImports : Ctx → List Str
  | f :: _ => f
  | [] => []

/-- PMCompile.sml:85-89 addUI (the context is never empty) -/
def addUI (file : Str) : Ctx → Ctx
  | f :: fs => (file :: f) :: fs
  | [] => [[file]]

/-- PMCompile.sml:192-222 compileBody: the files, each with those passed to the compiler (:202), and the context -/
def compileBody : Body → Ctx → List (Str × List Str) × Ctx
  | .src f b, c => let r := compileBody b (addUI f c); ((f, c.flatten.reverse) :: r.1, r.2)
  | .strsrc f b, c => let r := compileBody b (addUI f c); ((f, c.flatten.reverse) :: r.1, r.2)
  | .locl b1 b2 b3, c =>
    let r1 := compileBody b1 (scope c)
    let r2 := compileBody b2 (scope r1.2)
    let r3 := compileBody b3 (dropLocal r2.2)
    (r1.1 ++ r2.1 ++ r3.1, r3.2)
  | .null, c => ([], c)

/-- PMCompile.sml:84 addImport, folded over the imports by :234-246 compileImports from initCont (:72) -/
def compileImports (imps : List (List Str)) : Ctx := imps.foldl (fun c fs => fs :: c) [[]]

/-- PMCompile.sml:248-252 compilePM, given what the imported files export -/
def compilePM (imps : List (List Str)) (b : Body) : List (Str × List Str) × List Str :=
  let r := compileBody b (scope (compileImports imps))
  (r.1, dropImports r.2)

end Mosml.PM
