import Verif.Num.Spec

/-!
# Model of the reader of project files, mosmlpm/PMBasic.sml

The parser combinators (mosmlpm/Parsercomb.sml) are unfolded: a parser maps what remains of its input to a
result with the rest, or fails; `||` tries its second parser on the same input. A text is a list of
character codes. The tokens are modelled one at a time (`lex`), the grammar on the list of tokens; the laziness of
the token stream is not modelled.
-/
namespace Mosml.PM
open Mosml.Num (chars)

abbrev Str := List Nat

/-- PMBasic.sml:31-34 token -/
inductive Token where
  | localT | inT | endT | importT | structureT | toplevelT
  | filename (s : Str)
  | eof
deriving DecidableEq, Repr

/-- outcome of the lexer: a token and the remaining text, failure (NONE), or the exception
`Fail "Comment not closed"` -/
inductive R where
  | ok (t : Token) (rest : Str)
  | fail
  | exn
deriving DecidableEq, Repr

/-- Char.isAlphaNum -/
def isAlphaNum (c : Nat) : Bool :=
  (decide (48 ≤ c) && decide (c ≤ 57)) || (decide (65 ≤ c) && decide (c ≤ 90)) || (decide (97 ≤ c) && decide (c ≤ 122))

/-- PMBasic.sml:23-26 fileChar -/
def fileChar (c : Nat) : Bool :=
  isAlphaNum c || c == 95 || c == 47 || c == 45 || c == 46 || c == 58 || c == 92

/-- PMBasic.sml:49-55 keyword -/
def keyword (s : Str) : Token :=
  if s = chars "local" then .localT
  else if s = chars "in" then .inT
  else if s = chars "end" then .endT
  else if s = chars "import" then .importT
  else if s = chars "structure" then .structureT
  else if s = chars "toplevel" then .toplevelT
  else .filename s

/-- StringCvt.sml:47-55 skipWS -/
def skipWS : Str → Str
  | [] => []
  | c :: rest => if c = 32 ∨ (9 ≤ c ∧ c ≤ 13) then skipWS rest else c :: rest

/-- Parsercomb.sml:165-166 getChars1 with repeat0 (:117-122): the longest prefix of accepted characters -/
def getChars (p : Nat → Bool) : Str → Str × Str
  | [] => ([], [])
  | c :: rest => if p c then let r := getChars p rest; (c :: r.1, r.2) else ([], c :: rest)

/-- Parsercomb.sml:105-108 `||` -/
def orElse (a : R) (b : Unit → R) : R :=
  match a with
  | .fail => b ()
  | r => r

/-- Parsercomb.sml:126-137 `$ s` for a string of two characters, followed by `k` -/
def lit2 (a b : Nat) (s : Str) (k : Str → R) : R :=
  match s with
  | x :: y :: rest => if x = a then (if y = b then k rest else .fail) else .fail
  | _ => .fail

/-- PMBasic.sml:57-70 token (depth 0) and comment (depth from 1 on); the first argument bounds the number of
recursive calls, each of which gets a shorter text -/
def lex : Nat → Nat → Str → R
  | 0, _, _ => .fail
  | fuel + 1, 0, text =>
    let s := skipWS text
    let w := getChars fileChar s
    orElse (if w.1 = [] then .fail else .ok (keyword w.1) w.2) fun _ =>
    orElse (lit2 40 42 s (lex fuel 1)) fun _ =>
    if s = [] then .ok .eof [] else .fail
  | fuel + 1, d + 1, s =>
    orElse (lit2 42 41 s (lex fuel d)) fun _ =>
    orElse (lit2 40 42 s (lex fuel (d + 2))) fun _ =>
    orElse (match s with | _ :: rest => lex fuel (d + 1) rest | [] => .fail) fun _ =>
    if s = [] then .exn else .fail

/-- the next token of a text, PMBasic.sml:72 -/
def token (s : Str) : R := lex (s.length + 1) 0 s

/-! ### grammar -/

/-- PMBasic.sml:5-9 body -/
inductive Body where
  | src (f : Str) (b : Body)
  | strsrc (f : Str) (b : Body)
  | locl (b1 b2 b3 : Body)
  | null
deriving DecidableEq, Repr

/-- PMBasic.sml:95-101 body, which always succeeds; the alternatives begin with different tokens. The first
argument bounds the depth of recursion. -/
def body : Nat → List Token → Body × List Token
  | 0, ts => (.null, ts)
  | fuel + 1, ts =>
    match ts with
    | .filename f :: r => let x := body fuel r; (.src f x.1, x.2)
    | .toplevelT :: .filename f :: r => let x := body fuel r; (.src f x.1, x.2)
    | .structureT :: .filename f :: r => let x := body fuel r; (.strsrc f x.1, x.2)
    | .localT :: r =>
      let x1 := body fuel r
      match x1.2 with
      | .inT :: r2 =>
        let x2 := body fuel r2
        match x2.2 with
        | .endT :: r3 => let x3 := body fuel r3; (.locl x1.1 x2.1 x3.1, x3.2)
        | _ => (.null, ts)
      | _ => (.null, ts)
    | _ => (.null, ts)

/-- PMBasic.sml:91 imports -/
def imports : List Token → List Str × List Token
  | .filename f :: r => let x := imports r; (f :: x.1, x.2)
  | ts => ([], ts)

/-- PMBasic.sml:10-11 pmfile: imports and body -/
abbrev File := List Str × Body

/-- PMBasic.sml:108 `pm --# EOF_T`: the file is complete only at the end of the text -/
def finish (f : File) (r : List Token) : Option File :=
  match r with
  | .eof :: _ => some f
  | _ => none

/-- PMBasic.sml:103-106 pm, :108 pmfile -/
def pmfile (ts : List Token) : Option File :=
  let n := ts.length + 1
  match ts with
  | .importT :: r =>
    let im := imports r
    match im.2 with
    | .inT :: r2 =>
      let b := body n r2
      match b.2 with
      | .endT :: r3 => finish (im.1, b.1) r3
      | _ => finish ([], .null) ts
    | _ => finish ([], .null) ts
  | _ => let b := body n ts; finish ([], b.1) b.2

end Mosml.PM
