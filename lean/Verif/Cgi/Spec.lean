import Verif.Cgi.Model

/-!
# What the documentation and the standards say
-/

namespace Mosml.Cgi

open Mosml.Num (Str chars)

/-- A string: characters have codes below 256. -/
def Bytes (s : Str) : Prop := ∀ c ∈ s, c < 256

/-- The values that are bound to a name, in order. -/
def valuesOf {V : Type} (kvs : List (Str × V)) (name : Str) : List V :=
  (kvs.filter (fun kv => kv.1 = name)).map Prod.snd

/-- application/x-www-form-urlencoded: what a browser sends for a form. -/
def encodeForm (ps : List (Str × Str)) : Str :=
  List.intercalate [38] (ps.map (fun p => urlencode p.1 ++ 61 :: urlencode p.2))

/-- The characters that urlencode may produce, according to Msp.sig. -/
def UrlSafe (c : Nat) : Prop :=
  (97 ≤ c ∧ c ≤ 122) ∨ (65 ≤ c ∧ c ≤ 90) ∨ (48 ≤ c ∧ c ≤ 57) ∨
    c = 45 ∨ c = 95 ∨ c = 46 ∨ c = 43 ∨ c = 37

/-- How a browser displays a text without tags: character entities are resolved. -/
def display : Str → Str
  | 38 :: 108 :: 116 :: 59 :: r => 60 :: display r
  | 38 :: 103 :: 116 :: 59 :: r => 62 :: display r
  | 38 :: 97 :: 109 :: 112 :: 59 :: r => 38 :: display r
  | c :: r => c :: display r
  | [] => []

/-- The text of a sequence. -/
def text : Wseq → Str
  | .empty => []
  | .nl => [10]
  | .str s => s
  | .strs ss => ss.flatten
  | .cat s1 s2 => text s1 ++ text s2

/-- One part of a multipart/form-data message (RFC 1867). -/
structure Upload where
  name : Str
  filename : Option Str
  type : Option Str
  data : Str

/-- The header of a part. -/
def Upload.header (u : Upload) : Str :=
  chars "Content-Disposition: form-data; name=\"" ++ u.name ++ chars "\"" ++
    (match u.filename with
      | none => []
      | some f => chars "; filename=\"" ++ f ++ chars "\"") ++
    (match u.type with
      | none => []
      | some t => chars "\r\nContent-Type: " ++ t)

/-- What follows the boundary that precedes a part, without the carriage return, up to the
next boundary. -/
def Upload.chunk (u : Upload) : Str :=
  10 :: (u.header ++ chars "\r\n\r\n" ++ u.data ++ chars "\r\n")

/-- The message: every part between boundaries. -/
def encodeMulti (b : Str) (us : List Upload) : Str :=
  us.foldr (fun u r => chars "--" ++ b ++ [13] ++ u.chunk ++ r) (chars "--" ++ b ++ chars "--\r\n")

/-- The conditions under which a part can be transmitted: the boundary does not occur in it (which is what a browser
chooses it for); the names and the type are on one line; the names contain no semicolon nor the
text `Content-Type: `, and the type is not empty. -/
structure Upload.Plain (b : Str) (u : Upload) : Prop where
  boundary : ¬ (chars "--" ++ b) <:+: u.chunk
  name : ∀ c ∈ u.name, c ≠ 13 ∧ c ≠ 10 ∧ c ≠ 59
  file : ∀ f, u.filename = some f → ∀ c ∈ f, c ≠ 13 ∧ c ≠ 10 ∧ c ≠ 59
  type : ∀ t, u.type = some t → t ≠ [] ∧ ∀ c ∈ t, c ≠ 13 ∧ c ≠ 10
  mark : ¬ chars "Content-Type: " <:+: ({ u with type := none } : Upload).header

/-- RFC 6265, 5.2: the names of the attributes of a Set-Cookie line. -/
def attributes (l : Str) : List Str :=
  ((fields (is 59) (l.takeWhile (fun c => c != 10))).tail).map
    (fun av => ((av.dropWhile (fun c => c == 32)).takeWhile (isnt 61)))

/-- RFC 6265, 5.2.5 and 5.3: a browser sends the cookie over secure connections only if there
is an attribute named `secure`, whatever its value. -/
def browserSecure (l : Str) : Bool := (attributes l).contains (chars "secure")

end Mosml.Cgi
