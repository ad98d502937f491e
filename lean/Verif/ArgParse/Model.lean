import Verif.Num.Spec

/-!
# Model of the command line of the project manager, mosmlpm/ArgParse.sml

The functions given for the options are modelled by the events of calling them and by `act`, which says for which
events the function raises `Bad` and with what message. `Int.fromString` and `Real.fromString` are parameters
(`isInt`, `isReal`): whether they accept a string. Texts are lists of character codes.
-/
namespace Mosml.ArgParse
open Mosml.Num (chars)

abbrev Str := List Nat

/-- ArgParse.sml:18-22 spec -/
inductive Kind where
  | string | int | unit | real
deriving DecidableEq, Repr

/-- a call of a function of the program: the one for other arguments, or the one of an option -/
inductive Ev where
  | anon (s : Str)
  | key (k : Str) (arg : Option Str)
deriving DecidableEq, Repr

structure Env where
  /-- CommandLine.name () -/
  progname : Str
  /-- speclist -/
  specs : List (Str × Kind)
  isInt : Str → Bool
  isReal : Str → Bool
  /-- whether a call raises Bad, and its message -/
  act : Ev → Option Str

/-- the calls made, and the message of the exception Bad if it is raised -/
abbrev Res := List Ev × Option Str

/-- ArgParse.sml:24-28 error -/
inductive Error where
  | unknown (s : Str)
  | wrong (opt arg expected : Str)
  | missing (s : Str)
  | message (s : Str)

/-- ArgParse.sml:30-45 stop: the message of the exception that is raised -/
def stop (e : Env) : Error → Str
  | .unknown s => e.progname ++ chars ": unknown option: \"" ++ s ++ chars "\"."
  | .missing s => e.progname ++ chars ": option \"" ++ s ++ chars "\" needs an argument."
  | .wrong opt arg expected =>
    e.progname ++ chars ": wrong argument \"" ++ arg ++ chars "\"; option \"" ++ opt ++ chars "\" expects " ++
      expected ++ chars "."
  | .message s => e.progname ++ chars ": " ++ s

/-- ArgParse.sml:47-49 lookup -/
def lookup (k : Str) : List (Str × Kind) → Option Kind
  | [] => none
  | (a, v) :: xs => if k = a then some v else lookup k xs

/-- `handle Bad m => stop (Message m)`, ArgParse.sml:57 and :81 -/
def handleBad (e : Env) (r : Res) : Res :=
  match r.2 with
  | none => r
  | some m => (r.1, some (stop e (.message m)))

/-- `f arg; rest` -/
def call (e : Env) (ev : Ev) (rest : Res) : Res :=
  match e.act ev with
  | some m => ([ev], some m)
  | none => (ev :: rest.1, rest.2)

/-- ArgParse.sml:54 -/
def isKey : Str → Bool
  | c :: _ => c == 45
  | [] => false

/-- ArgParse.sml:51-85 parse, p and do_key -/
def parse (e : Env) : List Str → Res
  | [] => ([], none)
  | s :: l =>
    if isKey s then
      match lookup s e.specs with
      | none => ([], some (stop e (.unknown s)))
      | some .unit => handleBad e (call e (.key s none) (parse e l))
      | some kind =>
        match l with
        | [] => handleBad e ([], some (stop e (.missing s)))
        | arg :: t =>
          handleBad e
            (match kind with
            | .int =>
              if e.isInt arg then call e (.key s (some arg)) (parse e t)
              else ([], some (stop e (.wrong s arg (chars "an integer"))))
            | .real =>
              if e.isReal arg then call e (.key s (some arg)) (parse e t)
              else ([], some (stop e (.wrong s arg (chars "a real"))))
            | _ => call e (.key s (some arg)) (parse e t))
    else handleBad e (call e (.anon s) (parse e l))

end Mosml.ArgParse
