import Verif.Maps.SplaymapProps
import Verif.Num.Model
import Verif.Num.Spec

/-!
# Msp.sml, Mosmlcgi.sml, Mosmlcookie.sml

A character is its code.  A substring is the list of its characters, and `tokens`, `fields`,
`splitl`, `dropl` etc. are the functions on lists that C47 shows them to be.  Dictionaries are
the splay trees of C40, which lookups reorganize.  The environment variables and the standard
input are arguments.  What is written to the error log is left out.
-/

namespace Mosml.Cgi

open Mosml.Num (Str Radix Scan intScan intFmt isSpace chars)
open Mosml.Maps

/-! ## Strings -/

/-- `String.compare` (String.sml:90-97, C09): lexicographically by the codes. -/
def strCmp : Str → Str → Ordering
  | [], [] => .eq
  | [], _ :: _ => .lt
  | _ :: _, [] => .gt
  | a :: s, b :: t => if a < b then .lt else if b < a then .gt else strCmp s t

/-- `Substring.position`: Substring.sml:210-222.  The loop `cmp k` compares `s` with the
characters from `k` on; here it goes down the list. -/
def position (s : Str) : Str → Str × Str
  | [] => ([], [])
  | c :: r =>
      if s <+: c :: r then ([], c :: r)
      else
        let p := position s r
        (c :: p.1, p.2)

/-- `Strbase.fields`: Strbase.mlp:94-102, as C47 describes it. -/
def fields (d : Nat → Bool) : Str → List Str
  | [] => [[]]
  | c :: r =>
      if d c then [] :: fields d r
      else match fields d r with
        | f :: fs => (c :: f) :: fs
        | [] => [[c]]

/-- `Strbase.tokens`: Strbase.mlp:84-92, as C47 describes it. -/
def tokens (d : Nat → Bool) (s : Str) : List Str := (fields d s).filter (fun f => !f.isEmpty)

/-- `is`: Mosmlcgi.sml:69, Mosmlcookie.sml:23. -/
def is (c1 c2 : Nat) : Bool := c1 == c2

/-- `isn't`: Mosmlcgi.sml:68. -/
def isnt (c1 c2 : Nat) : Bool := c1 != c2

/-- `triml`: Substring.sml:43-46. -/
def triml (k : Nat) (s : Str) : Str := s.drop k

/-- `trimr`: Substring.sml:48-51. -/
def trimr (k : Nat) (s : Str) : Str := s.take (s.length - k)

/-- `dropr`: Strbase.mlp:82. -/
def dropr (p : Nat → Bool) (s : Str) : Str := (s.reverse.dropWhile p).reverse

/-- `Char.isAlphaNum`: Char.sml:53-60. -/
def isAlphaNum (c : Nat) : Bool :=
  (97 ≤ c && c ≤ 122) || (65 ≤ c && c ≤ 90) || (48 ≤ c && c ≤ 57)

/-- `StringCvt.padLeft`: StringCvt.sml:82-90. -/
def padLeft (c : Nat) (n : Nat) (s : Str) : Str :=
  if n ≤ s.length then s else List.replicate (n - s.length) c ++ s

/-! ## Msp.sml -/

/-- `wseq`: Msp.sml:7-12. -/
inductive Wseq where
  | empty
  | nl
  | str (s : Str)
  | strs (ss : List Str)
  | cat (s1 s2 : Wseq)

/-- `prmap`, `prsep`: Msp.sml:16-26; the functions have no effects. -/
def prmap {A : Type} (f : A → Wseq) : List A → Wseq
  | [] => .empty
  | x1 :: xr =>
      let rec loop (y1 : A) : List A → Wseq
        | [] => f y1
        | y2 :: yr => .cat (f y1) (loop y2 yr)
      loop x1 xr

def prsep {A : Type} (sep : Wseq) (f : A → Wseq) : List A → Wseq
  | [] => .empty
  | x1 :: xr =>
      let rec loop (y1 : A) : List A → Wseq
        | [] => f y1
        | y2 :: yr => .cat (.cat (f y1) sep) (loop y2 yr)
      loop x1 xr

/-- `flatten` with accumulator: Msp.sml:28-32. -/
def flattenAcc : Wseq → List Str → List Str
  | .empty, acc => acc
  | .nl, acc => [10] :: acc
  | .str s, acc => s :: acc
  | .strs ss, acc => ss ++ acc
  | .cat s1 s2, acc => flattenAcc s1 (flattenAcc s2 acc)

/-- `flatten`: Msp.sml:33. -/
def flatten (seq : Wseq) : Str := (flattenAcc seq []).flatten

/-- `printseq`: Msp.sml:35-39; `out` is what has been printed so far. -/
def printseq : Wseq → Str → Str
  | .empty, out => out
  | .nl, out => out ++ [10]
  | .str s, out => out ++ s
  | .strs ss, out => ss.foldl (fun out s => out ++ s) out
  | .cat s1 s2, out => printseq s2 (printseq s1 out)

/-- `mark0`, `mark0a`, `mark1`, `mark1a`: Msp.sml:70-74. -/
def mark0 (tag : Str) : Wseq := .strs [chars "<", tag, chars ">"]
def mark0a (attr tag : Str) : Wseq := .strs [chars "<", tag, chars " ", attr, chars ">"]
def mark1 (tag : Str) (seq : Wseq) : Wseq :=
  .cat (.cat (.strs [chars "<", tag, chars ">"]) seq) (.strs [chars "</", tag, chars ">"])
def mark1a (tag attr : Str) (seq : Wseq) : Wseq :=
  .cat (.cat (.strs [chars "<", tag, chars " ", attr, chars ">"]) seq)
    (.strs [chars "</", tag, chars ">"])

/-- `area`: Msp.sml:160-163. -/
def area (shape : Str) (href : Option Str) (coords : Str) (alt : Option Str) : Wseq :=
  .cat (.cat (.strs [chars "<AREA SHAPE=\"", shape, chars "\" COORDS=\"", coords, chars "\" "])
    (match href with
      | none => .str (chars "NOHREF")
      | some r => .strs [chars "HREF=\"", r, chars "\" "]))
    (match alt with
      | none => .empty
      | some a => .strs [chars "ALT=\"", a, chars "\""])

/-- `encode` of `urlencode`: Msp.sml:206-213. -/
def urlChar (c : Nat) : Str :=
  if c = 32 then [43]
  else if c = 45 then [45]
  else if c = 95 then [95]
  else if c = 46 then [46]
  else if isAlphaNum c then [c]
  else 37 :: padLeft 48 2 (intFmt .hex c)

/-- `urlencode`: Msp.sml:205-214. -/
def urlencode (s : Str) : Str := s.flatMap urlChar

/-- `encode` of `htmlencode`: Msp.sml:220-223. -/
def htmlChar (c : Nat) : Str :=
  if c = 60 then chars "&lt;"
  else if c = 62 then chars "&gt;"
  else if c = 38 then chars "&amp;"
  else [c]

/-- `htmlencode`: Msp.sml:219-224. -/
def htmlencode (s : Str) : Str := s.flatMap htmlChar

/-! ## Mosmlcgi.sml -/

/-- The part of the environment that is used, and the standard input. -/
structure Env where
  method : Option Str
  query : Option Str
  contentLength : Option Str
  contentType : Option Str
  stdin : Str

/-- `intOf` and `Int.fromString`: Mosmlcgi.sml:59-60.  Overflow, which ends the program, is
none here. -/
def intOf : Option Str → Option Int
  | none => none
  | some s => match intScan .dec s with
    | .some i _ => some i
    | _ => none

/-- `query_string`: Mosmlcgi.sml:62-66.  `inputN` as in C51; a negative length, for which it
raises Size, is not modelled. -/
def queryString (e : Env) : Str :=
  if e.method = some (chars "GET") then e.query.getD []
  else if e.method = some (chars "POST") then e.stdin.take ((intOf e.contentLength).getD 0).toNat
  else e.query.getD []

/-- `line`: Mosmlcgi.sml:81-85. -/
def line (s sus : Str) : Str :=
  let fullline := (position s sus).2
  let after := triml s.length fullline
  after.takeWhile (fun c => c != 13 && c != 10)

/-- `getboundary`: Mosmlcgi.sml:89-96. -/
def getboundary (l : Str) : Option Str :=
  let bndeqn := (position (chars "boundary=") l).2
  if bndeqn.isEmpty then none
  else some (triml 1 (bndeqn.dropWhile (isnt 61)))

/-- `multipart_boundary`: Mosmlcgi.sml:100-109. -/
def multipartBoundary (e : Env) : Option Str :=
  match e.contentType with
  | none => none
  | some ct => if chars "multipart/form-data;" <+: ct then getboundary ct else none

/-- `the_fields`, `dict_with_codes`: Mosmlcgi.sml:111-116. -/
def dictWithCodes (e : Env) : List (List Str) :=
  match multipartBoundary e with
  | none => (tokens (is 38) (queryString e)).map (fields (is 61))
  | some _ => []

/-- `dehex`: Mosmlcgi.sml:124-131; `none` is the exception. -/
def dehex (ch : Nat) : Option Nat :=
  if 48 ≤ ch ∧ ch ≤ 57 then some (ch - 48)
  else if 65 ≤ ch ∧ ch ≤ 70 then some (ch - 65 + 10)
  else if 97 ≤ ch ∧ ch ≤ 102 then some (ch - 97 + 10)
  else none

/-- `dec`, `decode_one`: Mosmlcgi.sml:132-140; `none` is an exception, also Subscript for a
sequence that is cut off. -/
def dec : Str → Option Str
  | [] => some []
  | c :: r =>
      if c = 43 then (dec r).map (fun t => 32 :: t)
      else if c = 37 then
        match r with
        | a :: b :: r' => do
            let x ← dehex a
            let y ← dehex b
            let t ← dec r'
            some ((16 * x + y) :: t)
        | _ => none
      else (dec r).map (fun t => c :: t)

/-- `decode`: Mosmlcgi.sml:120-144. -/
def decode (sus : Str) : Str := (dec sus).getD []

/-- A dictionary of lists. -/
abbrev Dct (V : Type) := Splaymap.Dict Str (List V)

/-- `addItem`: Mosmlcgi.sml:146-149. -/
def addItem {V : Type} (kv : Str × V) (dict : Dct V) : Dct V :=
  let r := Splaymap.find strCmp dict kv.1
  Splaymap.insert strCmp r.2 kv.1 (match r.1 with
    | some vs => kv.2 :: vs
    | none => [kv.2])

/-- `addField`: Mosmlcgi.sml:151-153. -/
def addField (f : List Str) (dict : Dct Str) : Dct Str :=
  match f with
  | [keysrc, valsrc] => addItem (decode keysrc, decode valsrc) dict
  | _ => dict

/-- `cgi_dict`: Mosmlcgi.sml:155-156. -/
def cgiDict (e : Env) : Dct Str := (dictWithCodes e).foldr addField Splaymap.mkDict

/-- `keys`: Mosmlcgi.sml:158. -/
def keys {V : Type} (dict : Dct V) : List Str :=
  (Splaymap.listItems dict).foldr (fun p res => p.1 :: res) []

/-- `part_fields`, `part_field`: Mosmlcgi.sml:162-170; with the dictionary as the lookup leaves
it. -/
def partFields {V : Type} (dict : Dct V) (name : Str) : List V × Dct V :=
  let r := Splaymap.find strCmp dict name
  (match r.1 with
    | none => []
    | some vals => vals, r.2)

def partField {V : Type} (dict : Dct V) (name : Str) : Option V × Dct V :=
  let r := Splaymap.find strCmp dict name
  (match r.1 with
    | some (v :: _) => some v
    | _ => none, r.2)

/-- `getint`: Mosmlcgi.sml:172-176; `none` is Overflow. -/
def getint : Option Str → Int → Option Int
  | none, dflt => some dflt
  | some str, dflt => match intScan .dec str with
    | .none => some dflt
    | .some i rest => if rest.isEmpty then some i else some dflt
    | .overflow => none

/-- `loop` of `multiparts`: Mosmlcgi.sml:183-188; with fuel, `rest` gets shorter. -/
def partsLoop (boundary : Str) : Nat → Str → List Str
  | 0, _ => []
  | fuel + 1, rest =>
      let p := position boundary rest
      if p.1.isEmpty || p.2.isEmpty then []
      else p.1 :: partsLoop boundary fuel (p.2.dropWhile (isnt 10))

/-- `multiparts`: Mosmlcgi.sml:178-190. -/
def multiparts (e : Env) : List Str :=
  match multipartBoundary e with
  | none => []
  | some b =>
      let boundary := chars "--" ++ b
      let contents := (position boundary (queryString e)).2
      partsLoop boundary ((queryString e).length + 1) (contents.dropWhile (isnt 10))

/-- `part`: Mosmlcgi.sml:224-227. -/
structure Part where
  fieldnames : List Str
  tyOpt : Option Str
  dict : Dct Str
  data : Str

/-- `addField` of `decodepart`: Mosmlcgi.sml:201-205. -/
def addEqn (eqn : Str) (dict : Dct Str) : Dct Str :=
  let name := eqn.takeWhile (isnt 61)
  let v := eqn.dropWhile (isnt 61)
  let value := triml 2 (trimr 1 v)
  addItem (name, value) dict

/-- `decodepart`: Mosmlcgi.sml:192-222. -/
def decodepart (part : Str) : Str × Part :=
  let p := position (chars "\r\n\r\n") part
  let eqnsrc := line (chars "Content-Disposition: form-data;") p.1
  let typ := line (chars "Content-Type: ") p.1
  let equations := (fields (is 59) eqnsrc).map
    (fun f => (dropr isSpace f).dropWhile isSpace)
  let dict := equations.foldr addEqn Splaymap.mkDict
  let r := partField dict (chars "name")
  let partname := match r.1 with
    | none => chars "[Anonymous]"
    | some n => n
  (partname, ⟨keys r.2, if typ.isEmpty then none else some typ, r.2, trimr 2 (triml 4 p.2)⟩)

/-- `part_dict`: Mosmlcgi.sml:229-231. -/
def partDict (e : Env) : Dct Part := ((multiparts e).map decodepart).foldr addItem Splaymap.mkDict

/-- `cgi_partnames`, `cgi_part`, `cgi_parts`: Mosmlcgi.sml:234-236; `dict` is `part_dict` after
the lookups so far. -/
def cgiPart (dict : Dct Part) (name : Str) : Option Part × Dct Part := partField dict name
def cgiParts (dict : Dct Part) (name : Str) : List Part × Dct Part := partFields dict name

/-- `part_field_strings`, `part_field_string`: Mosmlcgi.sml:241-242. -/
def partFieldStrings (p : Part) (name : Str) : List Str := (partFields p.dict name).1
def partFieldString (p : Part) (name : Str) : Option Str := (partField p.dict name).1

/-- `cgi_fieldnames`, `cgi_field_strings`, `cgi_field_string`, `cgi_field_integer`:
Mosmlcgi.sml:246-250; `dict` is `cgi_dict` after the lookups so far. -/
def cgiFieldnames (e : Env) : List Str := keys (cgiDict e)
def cgiFieldStrings (dict : Dct Str) (name : Str) : List Str × Dct Str := partFields dict name
def cgiFieldString (dict : Dct Str) (name : Str) : Option Str × Dct Str := partField dict name
def cgiFieldInteger (dict : Dct Str) (name : Str) (dflt : Int) : Option Int :=
  getint (cgiFieldString dict name).1 dflt

/-! ## Mosmlcookie.sml -/

/-- `allCookies`: Mosmlcookie.sml:27-33. -/
def allCookies (httpCookie : Option Str) : List Str :=
  (tokens (is 59) (httpCookie.getD [])).map (fun sus => (fields (is 32) sus).flatten)

/-- `matchCookie`: Mosmlcookie.sml:39-45. -/
def matchCookie (cookie : Str) : List Str → Option (Str × Str)
  | x :: xr =>
      let p := position (chars "=") x
      if p.1 = cookie then some (x, p.2) else matchCookie cookie xr
  | [] => none

/-- `getCookieValue`, `getCookie`: Mosmlcookie.sml:48-55. -/
def getCookieValue (httpCookie : Option Str) (cookie : Str) : Option Str :=
  (matchCookie cookie (allCookies httpCookie)).map (fun r => triml 1 r.2)
def getCookie (httpCookie : Option Str) (cookie : Str) : Option Str :=
  (matchCookie cookie (allCookies httpCookie)).map (fun r => r.1)

/-- `concatOpt`: Mosmlcookie.sml:65-66. -/
def concatOpt (s : Str) : Option Str → Str
  | none => []
  | some t => s ++ t

/-- `cookiedata`; the expiry date is text already (`Date.fmt` is not modelled). -/
structure Cookie where
  name : Str
  value : Str
  expiry : Option Str
  domain : Option Str
  path : Option Str
  secure : Bool

/-- `setCookie`: Mosmlcookie.sml:68-80; `none` is CookieError. -/
def setCookie (c : Cookie) : Option Str :=
  if c.name = [] ∨ c.value = [] then none
  else some (chars "Set-cookie: " ++ c.name ++ chars "=" ++ c.value ++
    concatOpt (chars "; expires=") c.expiry ++ concatOpt (chars "; domain=") c.domain ++
    concatOpt (chars "; path=") c.path ++ chars "; secure=" ++
    (if c.secure then chars "true" else chars "false") ++ chars "\n")

end Mosml.Cgi
