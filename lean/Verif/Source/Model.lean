import Verif.Lex.Sugar

/-!
# String constants, comments and long identifiers of ML source text

Model of `src/compiler/Lexer.lex`: the rules `String` (lines 358-397) and
`Comment` (lines 347-356), the string buffer (97-128), `splitQualId` (131-141),
`charCodeOfDecimal`, `charCodeOfHexadecimal` (153-168), `scanString` (202-208)
with the actions for `"` and `#"` (lines 272-283), and `char_for_backslash` of
`Config.mlp`:168-181 (not macintosh).

Source text is the list of its character codes.  As in C48, the lexing engine
answers NUL at the end of the text, and `eof` is the class of NUL
(Grammar.grm:90), so that a NUL in the text is an end of file.  `stringRules` and
`commentRules` are the patterns of the two rules as written; `strCase` and
`comCase` compute which of them applies, and `C85_string_rules` and
`C85_comment_rules` prove that it is the one that the engine of C48 selects.

Simplifications: after an error in a string the rule SkipString (399-409) looks
for the end of the string, and raises another error if there is none; here only
the fact that an error is raised is kept.  The doubling of the buffer is not
limited by `CharArray.maxLen`.
-/

namespace Mosml.Source

open Mosml.Lex (Regexp regexpForString charClass allChars)

abbrev Text := List Nat

/-! ### the string buffer -/

/-- `string_buff` and `string_index`, Lexer.lex:97-99. -/
structure Buf where
  data : Text
  index : Nat

/-- `reset_string_buffer`, Lexer.lex:101-106: the initial buffer keeps whatever
was stored in it before. -/
def resetBuf (initial : Text) : Buf := ⟨initial, 0⟩

/-- `store_string_char`, Lexer.lex:108-120; `none` is Subscript. -/
def store (b : Buf) (c : Nat) : Option Buf :=
  let len := b.data.length
  let data :=
    if b.index ≥ len then b.data ++ List.replicate (len * 2 - len) 0   -- array, copy
    else b.data
  if b.index < data.length then some ⟨data.set b.index c, b.index + 1⟩ else none

/-- `get_stored_string`, Lexer.lex:122-128; `none` is Subscript. -/
def getStored (b : Buf) : Option Text :=
  if b.index ≤ b.data.length then some (b.data.take b.index) else none

/-! ### the rule String -/

/-- The characters of case 1, Lexer.lex:361. -/
def simpleChars : List Nat := [92, 34, 97, 98, 116, 110, 118, 102, 114]
/-- The characters of case 2, Lexer.lex:364. -/
def gapChars : List Nat := [32, 9, 10, 13]
def digits : List Nat := charClass 48 57
/-- The class of Lexer.lex:378-379. -/
def hexDigits : List Nat := charClass 48 57 ++ charClass 97 102 ++ charClass 65 70

/-- The patterns of the rule String, Lexer.lex:358-397, in order. -/
def stringRules : List Regexp :=
  [ .characters [34],
    .sequence (.characters [92]) (.characters simpleChars),
    .sequence (.characters [92])
      (.sequence (.sequence (.characters gapChars) (.repetition (.characters gapChars)))
        (.characters [92])),
    .sequence (.characters [92]) (.sequence (.characters [94]) (.characters (charClass 64 95))),
    .sequence (.characters [92])
      (.sequence (.characters digits) (.sequence (.characters digits) (.characters digits))),
    .sequence (regexpForString [92, 117])
      (.sequence (.characters hexDigits) (.sequence (.characters hexDigits)
        (.sequence (.characters hexDigits) (.characters hexDigits)))),
    .characters [92],
    .alternative (.characters [0]) (.characters [26]),
    .characters [10, 13],
    .characters (charClass 1 26 ++ [127] ++ [255]),
    .characters allChars ]

/-- The length of a gap after its first backslash, to the second one inclusive. -/
def gapLen : Text → Option Nat
  | [] => none
  | c :: r => if c = 92 then some 1
      else if c ∈ gapChars then (gapLen r).map (· + 1) else none

/-- Which case of String applies after a backslash, and on how many characters. -/
def escCase (r : Text) : Nat × Nat :=
  match r with
  | [] => (6, 1)
  | d :: r' =>
    if d ∈ simpleChars then (1, 2)
    else if d ∈ gapChars then
      match gapLen r' with
      | some n => (2, n + 2)
      | none => (6, 1)
    else if d = 94 then
      if 64 ≤ r'.getD 0 0 ∧ r'.getD 0 0 ≤ 95 then (3, 3) else (6, 1)
    else if d ∈ digits then
      if r'.getD 0 0 ∈ digits ∧ r'.getD 1 0 ∈ digits then (4, 4) else (6, 1)
    else if d = 117 then
      if r'.getD 0 0 ∈ hexDigits ∧ r'.getD 1 0 ∈ hexDigits ∧ r'.getD 2 0 ∈ hexDigits ∧
        r'.getD 3 0 ∈ hexDigits then (5, 6) else (6, 1)
    else (6, 1)

/-- Which case of String applies, and on how many characters. -/
def strCase (inp : Text) : Nat × Nat :=
  match inp with
  | [] => (7, 1)
  | c :: r =>
    if c = 34 then (0, 1)
    else if c = 92 then escCase r
    else if c = 0 ∨ c = 26 then (7, 1)
    else if c = 10 ∨ c = 13 then (8, 1)
    else if c < 26 ∨ c = 127 ∨ c = 255 then (9, 1)
    else (10, 1)

/-- Config.mlp:168-181 -/
def charForBackslash (c : Nat) : Nat :=
  if c = 110 then 10 else if c = 114 then 13 else if c = 97 then 7 else if c = 98 then 8
  else if c = 116 then 9 else if c = 118 then 11 else if c = 102 then 12 else c

/-- Lexer.lex:153-156, on the lexeme. -/
def charCodeOfDecimal (inp : Text) (i : Nat) : Nat :=
  100 * (inp.getD i 0 - 48) + 10 * (inp.getD (i + 1) 0 - 48) + (inp.getD (i + 2) 0 - 48)

/-- Lexer.lex:160-162 -/
def hexval (c : Nat) : Nat := if 48 ≤ c ∧ c ≤ 57 then c - 48 else (c - 55) % 32

/-- Lexer.lex:159-168, on the lexeme. -/
def charCodeOfHexadecimal (inp : Text) (i : Nat) : Nat :=
  4096 * hexval (inp.getD (i + 1) 0) + 256 * hexval (inp.getD (i + 2) 0) +
    16 * hexval (inp.getD (i + 3) 0) + hexval (inp.getD (i + 4) 0)

/-- The outcome of a rule: its result and the rest of the text, LexicalError, or
any other exception (`bad`: also when the fuel is used up). -/
inductive Res (α : Type) where
  | ok (v : α) (rest : Text)
  | error
  | bad

/-- The rule String with its actions, Lexer.lex:358-397. -/
def stringRule : Nat → Text → Buf → Res Buf
  | 0, _, _ => .bad
  | fuel + 1, inp, b =>
    let (k, len) := strCase inp
    let next (b' : Option Buf) : Res Buf := match b' with
      | some b' => stringRule fuel (inp.drop len) b'
      | none => .bad
    match k with
    | 0 => .ok b (inp.drop len)
    | 1 => next (store b (charForBackslash (inp.getD 1 0)))
    | 2 => next (some b)
    | 3 => next (store b (inp.getD 2 0 - 64))
    | 4 => let code := charCodeOfDecimal inp 1
           if code ≥ 256 then .error else next (store b code)
    | 5 => let code := charCodeOfHexadecimal inp 1
           if code ≥ 256 then .error else next (store b code)
    | 10 => next (store b (inp.getD 0 0))
    | _ => .error

/-- The action for `"`, Lexer.lex:272-275: `inp` is the text after the quote. -/
def stringConst (initial : Text) (inp : Text) : Res Text :=
  match stringRule (inp.length + 1) inp (resetBuf initial) with
  | .ok b rest => match getStored b with
    | some s => .ok s rest
    | none => .bad
  | .error => .error
  | .bad => .bad

/-- The action for `#"`, Lexer.lex:276-283. -/
def charConst (initial : Text) (inp : Text) : Res Nat :=
  match stringConst initial inp with
  | .ok s rest => if s.length ≠ 1 then .error else .ok (s.getD 0 0) rest
  | .error => .error
  | .bad => .bad

/-! ### the rule Comment -/

/-- The patterns of the rule Comment, Lexer.lex:347-356, in order. -/
def commentRules : List Regexp :=
  [ regexpForString [40, 42],
    regexpForString [42, 41],
    .alternative (.characters [0]) (.characters [26]),
    .characters allChars ]

/-- Which case of Comment applies, and on how many characters. -/
def comCase (inp : Text) : Nat × Nat :=
  match inp with
  | [] => (2, 1)
  | c :: r =>
    if c = 40 ∧ r.head? = some 42 then (0, 2)
    else if c = 42 ∧ r.head? = some 41 then (1, 2)
    else if c = 0 ∨ c = 26 then (2, 1)
    else (3, 1)

/-- The rule Comment with its actions; `depth` is `comment_depth`. -/
def commentRule : Nat → Text → Int → Res Unit
  | 0, _, _ => .bad
  | fuel + 1, inp, depth =>
    let (k, len) := comCase inp
    match k with
    | 0 => commentRule fuel (inp.drop len) (depth + 1)
    | 1 => if depth - 1 > 0 then commentRule fuel (inp.drop len) (depth - 1)
           else .ok () (inp.drop len)
    | 3 => commentRule fuel (inp.drop len) depth
    | _ => .error

/-- The action for `(*`, Lexer.lex:234-237: `inp` is the text after the bracket. -/
def comment (inp : Text) : Res Unit := commentRule (inp.length + 1) inp 1

/-! ### long identifiers -/

/-- `parse` of `splitQualId`, Lexer.lex:134-140. -/
def parseQual (s : Text) (i n : Nat) (acc : List Text) : List Text :=
  if n ≥ s.length then (s.drop i).take (s.length - i) :: acc
  else if s.getD n 0 = 46 then parseQual s (n + 1) (n + 1) ((s.drop i).take (n - i) :: acc)
  else parseQual s i (n + 1) acc
  termination_by s.length - n

/-- Lexer.lex:131-141 -/
def splitQualId (s : Text) : List Text := parseQual s 0 0 []

end Mosml.Source
