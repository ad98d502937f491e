import Verif.Num.Model

/-!
Model of the error reports of src/mosmllib/Location.sml, for lexers that read from a file
(src/compiler/Location.sml has the same `errLoc`).  A file is a list of characters; the state of the
input stream is the list of the characters still to be read (`seek p` makes it `file.drop p`); reading at
the end of the file raises Size (Nonstdio.sml:33-35), which every function below handles where the code
does.  The result of a function is what it prints, and what remains to be read.  Printing ints is
`Num.intFmt .dec` (C06).  Left out: the branch of `errLocation` that reads the buffer of the lexer.
-/
namespace Mosml.Loc
open Mosml.Num

/-- a string constant of the program -/
def str (s : String) : Str := s.toList.map Char.toNat

/-- Location.sml:45 errPrompt -/
def errPrompt (s : Str) : Str := str "! " ++ s

/-- Location.sml:36-43 errLines -/
def errLines (char1 char2 charline1 line1 line2 : Int) : Str :=
  str ", line " ++ intFmt .dec line1 ++
  (if line2 ≠ line1 then str "-" ++ intFmt .dec line2 else []) ++
  str ", characters " ++ intFmt .dec (char1 - charline1) ++ str "-" ++ intFmt .dec (char2 - charline1) ++
  str ":"

/-- Location.sml:51-53 skipLine -/
def skipLine : Str → Str
  | [] => []
  | 26 :: r => r
  | 10 :: r => r
  | _ :: r => skipLine r

/-- Location.sml:54-59 copyLine.  The handler of the innermost call handles the Size that is raised at the
end of the file or on control-Z. -/
def copyLine : Str → Str × Str
  | [] => (str "<EOF>" ++ [10], [])
  | 26 :: r => (str "<EOF>" ++ [10], r)
  | 10 :: r => ([10], r)
  | c :: r => (c :: (copyLine r).1, (copyLine r).2)

/-- Location.sml:60-76 tr_line -/
def trLine : Nat → Nat → Nat → Str → Str
  | _, _, ch, [] => List.replicate 5 ch
  | _, _, ch, 26 :: _ => List.replicate 5 ch
  | _, _, _, 10 :: _ => []
  | f + 1, l, ch, c :: r => (if c = 9 then c else 32) :: trLine f l ch r
  | 0, l + 1, ch, c :: r => (if c = 9 then c else ch) :: trLine 0 l ch r
  | 0, 0, ch, _ :: r => trLine 0 0 ch r

/-- variables of the loops: `pos`, `line1`/`line2`, `line1_pos`/`line2_pos`, and the input -/
structure Cur where
  pos : Nat
  line : Nat
  start : Nat
  rest : Str

/-- Location.sml:84-90 and 93-99: the loop `while !pos < p do …` with its handler; the first argument is
the number of rounds `p - !pos` that remain. -/
def advance : Nat → Cur → Cur
  | 0, s => s
  | _ + 1, ⟨pos, line, start, []⟩ => ⟨pos + 1, line, start, []⟩
  | _ + 1, ⟨pos, line, start, 26 :: r⟩ => ⟨pos + 1, line, start, r⟩
  | n + 1, ⟨pos, line, _, 10 :: r⟩ => advance n ⟨pos + 1, line + 1, pos + 1, r⟩
  | n + 1, ⟨pos, line, start, _ :: r⟩ => advance n ⟨pos + 1, line, start, r⟩

/-- Location.sml:47, 117-118, 120-121, 125-126: `for (fn i => (errPrompt ""; copyLine()))`, `n` times -/
def copyLines : Nat → Str → Str × Str
  | 0, r => ([], r)
  | n + 1, r => (errPrompt [] ++ (copyLine r).1 ++ (copyLines n (copyLine r).2).1,
      (copyLines n (copyLine r).2).2)

/-- Location.sml:123-124 `for (fn i => skipLine())`, `n` times -/
def skipLines : Nat → Str → Str
  | 0, r => r
  | n + 1, r => skipLines n (skipLine r)

/-- Location.sml:128-131: copies `n` characters and then marks the rest of the line; Size is handled
outside. -/
def lastLine : Nat → Str → Str
  | 0, r => trLine 0 100 46 r
  | _ + 1, [] => str "<EOF>"
  | n + 1, c :: r => c :: lastLine n r

/-- Location.sml:116-126: the lines between the first and the last.  The loop `for f i j` runs
`j + 1 - i` times. -/
def middle (line1 line2 : Nat) (r : Str) : Str × Str :=
  if line2 - line1 ≤ 8 then copyLines (line2 - (line1 + 1)) r
  else
    let c1 := copyLines 3 r
    let r2 := skipLines (line2 - 3 - (line1 + 4)) c1.2
    let c3 := copyLines 3 r2
    (c1.1 ++ errPrompt (str "..........") ++ [10] ++ c3.1, c3.2)

/-- Location.sml:49-134 errLoc (`line_flag` true) -/
def errLoc (file : Str) (pos1 pos2 : Nat) : Str :=
  let c1 := advance pos1 ⟨0, 1, 0, file⟩
  let c2 := advance (pos2 - c1.pos) c1
  errLines pos1 pos2 c1.start c1.line c2.line ++ [10] ++
  if c1.line = c2.line then
    errPrompt [] ++ (copyLine (file.drop c1.start)).1 ++
    errPrompt [] ++ trLine (pos1 - c1.start) (pos2 - pos1) 94 (file.drop c1.start) ++ [10]
  else
    let cp := copyLine (file.drop pos1)
    let m := middle c1.line c2.line cp.2
    errPrompt [] ++ trLine 0 (pos1 - c1.start) 46 (file.drop c1.start) ++ cp.1 ++ m.1 ++
    errPrompt [] ++ lastLine (pos2 - c2.start) m.2 ++ [10]

/-- Location.sml:136-143 errLocation for a file: what is printed, and the position of the stream
afterwards (`p` is the position before). -/
def errLocation (name file : Str) (p pos1 pos2 : Nat) : Str × Nat :=
  (str "File \"" ++ name ++ str "\"" ++ errLoc file pos1 pos2, p)

end Mosml.Loc
