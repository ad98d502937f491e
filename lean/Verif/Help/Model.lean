import Verif.Num.Spec

/-!
# Model of the help system, mosmllib/Help.mlp

A string is a list of character codes. The index files are tables as read by `readbase`; not modelled: reading
files, the texts that are printed, the menu's layout.
-/
namespace Mosml.Help
open Mosml.Num (chars)

abbrev Str := List Nat

/-- Char.sml:70-72 toLower -/
def toLower (c : Nat) : Nat := if 65 ≤ c ∧ c ≤ 90 then c + 32 else c

/-- Char.compare -/
def cmpNat (a b : Nat) : Ordering := if a < b then .lt else if a > b then .gt else .eq

/-- Help.mlp:133-138 caseless -/
def caseless (c1 c2 : Nat) : Ordering :=
  if c1 = 126 ∧ c2 = 126 then .eq
  else if c1 = 126 then (if toLower c2 < 97 then .gt else .lt)
  else if c2 = 126 then (if toLower c1 < 97 then .lt else .gt)
  else cmpNat (toLower c1) (toLower c2)

/-- String.sml:99-112 collate with caseless (Help.mlp:140 keycompare): `h` from the place where the strings
are compared -/
def keycompare : Str → Str → Ordering
  | [], [] => .eq
  | [], _ :: _ => .lt
  | _ :: _, [] => .gt
  | a :: s, b :: t =>
    match caseless a b with
    | .lt => .lt
    | .gt => .gt
    | .eq => keycompare s t

/-- Help.mlp:109-111 table -/
inductive Table (α : Type) where
  | empty
  | node (key : Str) (value : α) (t1 t2 : Table α)

/-- Help.mlp:142-149 lookup -/
def lookup {α : Type} : Table (List α) → Str → List α
  | .empty, _ => []
  | .node key value t1 t2, sought =>
    match keycompare sought key with
    | .lt => lookup t1 sought
    | .gt => lookup t2 sought
    | .eq => value

/-- Help.mlp:174-176 normalize -/
def normalize : Str → Str
  | [] => []
  | c :: cr => if c = 10 then [] else toLower c :: normalize cr

/-! ### the browser -/

/-- Help.mlp:190-192 eq, at the place where `str` is looked at -/
def eqAt : Str → Str → Bool
  | [], _ => true
  | _ :: _, [] => false
  | c :: s, d :: str => decide (c = toLower d) && eqAt s str

/-- Help.mlp:194 cmp, for `n` places from `k` on -/
def cmp (s str : Str) : Nat → Nat → Bool
  | 0, _ => false
  | n + 1, k => eqAt s (str.drop k) || cmp s str n (k + 1)

/-- Help.mlp:188-195 instr -/
def instr (s str : Str) : Bool :=
  if s.length ≤ str.length then cmp s str (str.length - s.length + 1) 0 else false

/-- Help.mlp:201-205 `h i` with `n = lines - i` -/
def findFrom (s : Str) (strs : List Str) (curr : Nat) : Nat → Nat → Option Nat
  | 0, _ => none
  | n + 1, i =>
    if instr s (strs.getD ((i + curr) % strs.length) []) then some ((i + curr) % strs.length)
    else findFrom s strs curr n (i + 1)

/-- Help.mlp:200-206 findline -/
def findline (s : Str) (strs : List Str) (curr : Nat) : Option Nat := findFrom s strs curr strs.length 0

/-- Help.mlp:153-154 -/
def min (x y : Int) : Int := if x < y then x else y
def max (x y : Int) : Int := if x < y then y else x

/-- Help.mlp:207 portion -/
def portion (displayLines : Int) : Int := max displayLines 5 - 1

/-- Help.mlp:252-255 nextpart: the lines that are printed -/
def nextpart (lines first amount : Int) : Int × Int :=
  let start := max 0 (min (lines - amount + 1) first)
  let stop := min (start + amount) lines
  (start, stop)

/-- what the browser does with a line of input: the lines printed next, with the search string -/
inductive Step where
  | quit
  | shows (start stop : Int) (sought : Option Str)
  | message (sought : Option Str)
deriving DecidableEq, Repr

/-- Help.mlp:220-227 find -/
def find (p : Int) (strs : List Str) (next : Nat) (s : Str) : Step :=
  match findline s strs next with
  | none => .message (some s)
  | some line => let w := nextpart strs.length (line - p / 2) p; .shows w.1 w.2 (some s)

/-- Help.mlp:208-251 wait, after the prompt, with the line `input`; `next` is the line after the last one
printed (prt, :256-257) -/
def wait (p : Int) (strs : List Str) (next : Nat) (sought : Option Str) (input : Str) : Step :=
  let lines : Int := strs.length
  let go := fun (first amount : Int) => let w := nextpart lines first amount; Step.shows w.1 w.2 sought
  match input with
  | [] => .quit
  | c :: s =>
    if c = 113 then .quit
    else if c = 117 then go (next - 3 * p / 2) p
    else if c = 100 then (if next = lines then go (lines - p) p else go next (p / 2))
    else if c = 116 ∨ c = 103 then go 0 p
    else if c = 98 ∨ c = 71 then go (lines - p) p
    else if c = 47 then find p strs next (normalize s)
    else if c = 110 then
      match sought with
      | none => .message none
      | some s => find p strs next s
    else if next = lines then go (lines - p) p else go next p

/-- Help.mlp:266-268: what is printed first, and whether the browser then waits for commands -/
def start (p : Int) (strs : List Str) (centerline : Int) : Int × Int × Bool :=
  let lines : Int := strs.length
  if lines ≤ p then (0, lines, false)
  else let w := nextpart lines (centerline - p / 2) p; (w.1, w.2, true)

/-! ### choosing -/

/-- Char.isSpace and Char.isDigit -/
def isSpace (c : Nat) : Bool := c == 32 || (decide (9 ≤ c) && decide (c ≤ 13))
def isDigit (c : Nat) : Bool := decide (48 ≤ c) && decide (c ≤ 57)

/-- Help.mlp:157-158 skipWS -/
def skipWS : Str → Str
  | [] => []
  | c :: cr => if isSpace c then skipWS cr else c :: cr

/-- Help.mlp:160-162 `h`; `none` stands for Overflow, `lim` is the first number that is too large -/
def digits (lim : Nat) : Str → Nat → Option Nat
  | [], res => some res
  | c :: cr, res =>
    if isDigit c then
      (if c - 48 + 10 * res < lim then digits lim cr (c - 48 + 10 * res) else none)
    else some res

/-- what the user's answer to the menu means -/
inductive Choice where
  | quit
  | again
  | pick (n : Nat)
deriving DecidableEq, Repr

/-- Help.mlp:298-314 choose, for a menu of `n` entries; :156-168 natFromString -/
def choose (lim n : Nat) (response : Str) : Choice :=
  let noNumber : Choice :=
    match response with
    | [] => .quit
    | [10] => .quit
    | c :: _ => if c = 81 ∨ c = 113 then .quit else .again
  match skipWS response with
  | [] => noNumber
  | c :: cr =>
    if isDigit c then
      match digits lim cr (c - 48) with
      | none => .again
      | some choice => if choice = 0 then .quit else if choice - 1 < n then .pick (choice - 1) else .again
    else noNumber

/-- an answer of the help system: the welcome text, a file, a help entry, a menu, or that there is no help -/
inductive Answer (α : Type) where
  | welcome
  | file (name : Str)
  | entry (e : α)
  | menu (es : List α)
  | noHelp
deriving DecidableEq, Repr

/-- Help.mlp:360-378 defaultBrowser, with display (:320-322); `special` has the terms and files of
specialfiles, `dbs` the tables of indexfiles -/
def help {α : Type} (special : List (Str × Str)) (dbs : List (Table (List α))) (id : Str) : Answer α :=
  let rec tryspecial (sought : Str) : List (Str × Str) → Answer α
    | [] =>
      match (dbs.foldl (fun res db => lookup db sought :: res) []).flatten with
      | [] => .noHelp
      | [e] => .entry e
      | es => .menu es
    | (term, file) :: rest => if term = sought then .file file else tryspecial sought rest
  if id = [] then .welcome
  else if id = chars "lib" then .file (chars "README")
  else tryspecial (normalize id) special

end Mosml.Help
