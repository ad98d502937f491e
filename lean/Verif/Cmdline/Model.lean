import Verif.Num.Spec

/-!
# Model of how the compiler and the linker read their command lines

compiler/Arg.sml, Filename.mlp (unix part), Mainc.sml, Mainl.sml, Readword.sml, Mixture.find_in_path, and
the context that toolssrc/Mosmldep.mlp writes into compilation commands. A string is a list of character
codes. Not modelled: options with integer or real argument (no program uses them), the texts of error
messages, the actual compilation.
-/
namespace Mosml.Cmdline
open Mosml.Num (chars)

abbrev Str := List Nat

/-! ### Filename.mlp -/

/-- Filename.mlp:7-13 check_suffix -/
def checkSuffix (name suff : Str) : Bool :=
  decide (name.length ≥ suff.length) && ((name.drop (name.length - suff.length)).take suff.length == suff)

/-- Filename.mlp:15-17 chop_suffix -/
def chopSuffix (name suff : Str) : Str := name.take (name.length - suff.length)

/-- Filename.mlp:22-29 concat -/
def concat (dirname filename : Str) : Str :=
  let len := dirname.length
  let x := if len = 0 then [47] else (dirname.drop (len - 1)).take 1
  if x = [47] then dirname ++ filename else dirname ++ 47 :: filename

/-- Filename.mlp:31-36 is_absolute -/
def isAbsolute (n : Str) : Bool :=
  (decide (n.length ≥ 1) && n.take 1 == [47]) || (decide (n.length ≥ 2) && n.take 2 == [46, 47]) ||
    (decide (n.length ≥ 3) && n.take 3 == [46, 46, 47])

/-- Filename.mlp:38-44 slash_pos: `pos (k - 1)` -/
def slashPosFrom (s : Str) : Nat → Option Nat
  | 0 => none
  | k + 1 => if (s.drop k).take 1 = [47] then some k else slashPosFrom s k

/-- Filename.mlp:47-52 basename -/
def basename (name : Str) : Str :=
  match slashPosFrom name name.length with
  | some p => name.drop (p + 1)
  | none => name

/-- Mixture.sml:72-84 find_in_path; `none` stands for `Fail "Cannot find file"` -/
def findInPath (fileExists : Str → Bool) (loadPath : List Str) (filename : Str) : Option Str :=
  let rec h : List Str → Option Str
    | [] => none
    | a :: rest => let b := concat a filename; if fileExists b then some b else h rest
  if fileExists filename then some filename
  else if isAbsolute filename then none
  else h loadPath

/-! ### Readword.sml -/

/-- Readword.sml:11-14 the characters that separate words -/
def isBlank (c : Nat) : Bool := c == 32 || c == 10 || c == 13 || c == 9

/-- Readword.sml:9-18 readchars; `none` stands for the exception `Size` at the end of the file -/
def readchars : Str → List Nat → Nat → Option (List Nat × Nat × Str)
  | [], _, _ => none
  | c :: s, buff, i =>
    if isBlank c then some (buff, i, s)
    else readchars s (if i < buff.length then buff.set i c else buff) (i + 1)

/-- result of reading a word -/
inductive RW where
  | word (w : Str) (buff : List Nat) (rest : Str)
  | size
  | subscript

/-- Readword.sml:19-28 readword -/
def readword : Str → List Nat → RW
  | [], _ => .size
  | c :: s, buff =>
    if isBlank c then readword s buff
    else
      match readchars s (buff.set 0 c) 1 with
      | none => .size
      | some (b, n, rest) => if n ≤ b.length then .word (b.take n) b rest else .subscript

/-- Readword.sml:29-31 readwords, with as many steps as there can be words; `none` stands for an uncaught
`Subscript` -/
def readwords : Nat → Str → List Nat → List Str → Option (List Str)
  | 0, _, _, l => some l.reverse
  | fuel + 1, s, buff, l =>
    match readword s buff with
    | .size => some l.reverse
    | .subscript => none
    | .word w b rest => readwords fuel rest b (w :: l)

/-- Readword.sml:7-34 from_stream -/
def fromStream (s : Str) : Option (List Str) := readwords (s.length + 1) s (List.replicate 1024 32) []

/-! ### Arg.sml -/

/-- effect of an action: a new state, the exception `Bad`, or another exception (or exit) -/
inductive Eff (σ : Type) where
  | ok (s : σ)
  | bad
  | other
deriving DecidableEq, Repr

/-- Arg.sml:7-12 spec (String and Unit) -/
inductive Spec (σ : Type) where
  | string (f : Str → σ → Eff σ)
  | unit (f : σ → Eff σ)

/-- Arg.sml:14-19 error -/
inductive Stop where
  | unknown (s : Str)
  | missing (s : Str)
  | message
deriving DecidableEq, Repr

/-- outcome of parse: normal return, exit after an error message, another exception -/
inductive Outcome (σ : Type) where
  | done (s : σ)
  | stop (e : Stop)
  | other
deriving DecidableEq, Repr

/-- Fnlib.sml:102-105 lookup -/
def lookup {α : Type} (k : Str) : List (Str × α) → Option α
  | [] => none
  | (a, v) :: xs => if k = a then some v else lookup k xs

/-- Arg.sml:48-82 parse: `p` with `do_key`, on the arguments after the program name -/
def parse {σ : Type} (specs : List (Str × Spec σ)) (anon : Str → σ → Eff σ) : List Str → σ → Outcome σ
  | [], st => .done st
  | s :: t, st =>
    if s.length ≥ 1 ∧ s.head? = some 45 then
      match lookup s specs with
      | none => .stop (.unknown s)
      | some (.unit f) =>
        match f st with
        | .ok st' => parse specs anon t st'
        | .bad => .stop .message
        | .other => .other
      | some (.string f) =>
        match t with
        | [] => .stop (.missing s)
        | arg :: t' =>
          match f arg st with
          | .ok st' => parse specs anon t' st'
          | .bad => .stop .message
          | .other => .other
    else
      match anon s st with
      | .ok st' => parse specs anon t st'
      | .bad => .stop .message
      | .other => .other

/-! ### Mainc.sml -/

/-- what the command line determines: initialFiles, initialContext, initialMode, load_path (Mainc.sml:27-31) -/
structure C where
  files : List (List Str × Str × Bool)
  context : List Str
  topdec : Bool
  includes : List Str
deriving DecidableEq, Repr

/-- Fnlib.sml:92-95 remove -/
def remove (k : Str) : List Str → List Str
  | [] => []
  | x :: xs => if k = x then xs else x :: remove k xs

/-- Mainc.sml:33-63 anonymous -/
def anonC (s : Str) (st : C) : Eff C :=
  if checkSuffix s (chars ".sig") then
    let filename := chopSuffix s (chars ".sig")
    .ok { st with files := st.files ++ [(st.context, s, st.topdec)], context := st.context ++ [filename] }
  else if checkSuffix s (chars ".sml") then
    let filename := chopSuffix s (chars ".sml")
    .ok { st with files := st.files ++ [(remove filename st.context, s, st.topdec)]
                  context := st.context ++ [filename] }
  else if checkSuffix s (chars ".ui") then
    let filename := chopSuffix s (chars ".ui")
    .ok { st with context := st.context ++ [filename] }
  else .other

/-- an option whose effect is on state that is not modelled -/
def ignoreS : Spec C := .string fun _ st => .ok st
def ignoreU : Spec C := .unit .ok

/-- Mainc.sml:136-155 the options; `-P` and `-m` refuse unknown names (not modelled), `-v` exits -/
def specsC : List (Str × Spec C) :=
  [(chars "-stdlib", ignoreS),
   (chars "-I", .string fun d st => .ok { st with includes := st.includes ++ [d] }),
   (chars "-include", .string fun d st => .ok { st with includes := st.includes ++ [d] }),
   (chars "-P", ignoreS), (chars "-perv", ignoreS),
   (chars "-v", .unit fun _ => .other), (chars "-version", .unit fun _ => .other),
   (chars "-i", ignoreU), (chars "-quotation", ignoreU), (chars "-q", ignoreU),
   (chars "-imptypes", ignoreU), (chars "-valuepoly", ignoreU),
   (chars "-msgstyle", ignoreS), (chars "-m", ignoreS),
   (chars "-structure", .unit fun st => .ok { st with topdec := false }),
   (chars "-toplevel", .unit fun st => .ok { st with topdec := true }),
   (chars "-orthodox", ignoreU), (chars "-conservative", ignoreU), (chars "-liberal", ignoreU)]

/-- Mainc.sml:127-156: the initial state, and the command line without the program name -/
def mainC (args : List Str) : Outcome C := parse specsC anonC args ⟨[], [], false, []⟩

/-! ### Mainl.sml -/

/-- Mainl.sml:10-20 anonymous, on the list object_files -/
def anonL (s : Str) (files : List Str) : Eff (List Str) :=
  if checkSuffix s (chars ".sml") then .ok ((chopSuffix s (chars ".sml") ++ chars ".uo") :: files)
  else if checkSuffix s (chars ".uo") then .ok (s :: files)
  else .bad

/-- Mainl.sml:111-113: what is linked -/
def toLink (preloaded : List Str) (files : List Str) : List Str :=
  preloaded.map (fun u => u ++ chars ".uo") ++ files.reverse

/-! ### Mosmldep.mlp -/

/-- Mosmldep.mlp:106-109 outcontext: the names in the order in which they are written -/
def outcontext : List Str → List Str
  | [] => []
  | unit :: units => outcontext units ++ [unit ++ chars ".ui"]

/-- Mosmldep.mlp:161-197: the context written into the command for the unit that follows `units` on the
command line (all of which have source files): `context` is kept in reverse order, :184; :168 and :178 pass
`rev (!context)`. -/
def depContext (units : List Str) : List Str :=
  let context := units.foldl (fun ctx u => u :: ctx) []
  outcontext context.reverse

end Mosml.Cmdline
