import Verif.Num.Spec

/-!
# Model of the old top-level environments and of Bool

mosmllib/NJ93.sml, the string functions of mosmllib/SML90.sml (the same code), and mosmllib/Bool.sml. A string is
a list of character codes, a stream of characters a list of those that remain. Left out: the mathematical
functions, `ceiling` and `truncate`, and input and output (other names for functions of other units).
-/
namespace Mosml.Old
open Mosml.Num (chars)

abbrev Str := List Nat

/-- the exceptions that occur -/
inductive Exn where
  | empty | subscript | overflow | size
  | hd | tl | nth | nthTail | substring | ord | chr
deriving DecidableEq, Repr

abbrev Res (α : Type) := Except Exn α

/-- `e handle x => raise y` -/
def handle {α : Type} (e : Res α) (x y : Exn) : Res α :=
  match e with
  | .ok v => .ok v
  | .error z => if z = x then .error y else .error z

/-! ### NJ93: integers and references -/

/-- NJ93.sml:9 -/
def max (x y : Int) : Int := if x > y then x else y
/-- NJ93.sml:10 -/
def min (x y : Int) : Int := if x > y then y else x

/-- addition of integers of 63 bits; `lim` is 2^62 -/
def add (lim : Int) (a b : Int) : Res Int :=
  if -lim ≤ a + b ∧ a + b < lim then .ok (a + b) else .error .overflow

/-- NJ93.sml:40 inc: the new contents of the reference -/
def inc (lim : Int) (r : Int) : Res Int := add lim r 1
/-- NJ93.sml:41 dec -/
def dec (lim : Int) (r : Int) : Res Int := add lim r (-1)

/-! ### NJ93: lists -/

/-- List.sml:10-11 -/
def listHd {α : Type} : List α → Res α
  | [] => .error .empty
  | x :: _ => .ok x
/-- List.sml:13-14 -/
def listTl {α : Type} : List α → Res (List α)
  | [] => .error .empty
  | _ :: xr => .ok xr

/-- List.sml:20-23, `h` -/
def nthLoop {α : Type} : List α → Int → Res α
  | [], _ => .error .subscript
  | x :: xr, n => if n = 0 then .ok x else nthLoop xr (n - 1)
/-- List.sml:20-23 nth -/
def listNth {α : Type} (xs : List α) (n : Int) : Res α :=
  if n < 0 then .error .subscript else nthLoop xs n

/-- List.sml:25-29, `h` -/
def dropLoop {α : Type} : List α → Int → Res (List α)
  | [], n => if n = 0 then .ok [] else .error .subscript
  | x :: xr, n => if n = 0 then .ok (x :: xr) else dropLoop xr (n - 1)
/-- List.sml:25-29 drop -/
def listDrop {α : Type} (xs : List α) (n : Int) : Res (List α) :=
  if n < 0 then .error .subscript else dropLoop xs n

/-- NJ93.sml:16 -/
def hd {α : Type} (xs : List α) : Res α := handle (listHd xs) .empty .hd
/-- NJ93.sml:17 -/
def tl {α : Type} (xs : List α) : Res (List α) := handle (listTl xs) .empty .tl
/-- NJ93.sml:18 -/
def nthtail {α : Type} (xs : List α) (n : Int) : Res (List α) := handle (listDrop xs n) .subscript .nthTail
/-- NJ93.sml:19 -/
def nth {α : Type} (xs : List α) (n : Int) : Res α := handle (listNth xs n) .subscript .nth

/-- NJ93.sml:21-24 app; `f` changes a state or raises an exception, leaving the state as it is then -/
def app {α σ : Type} (f : α → σ → σ × Option Exn) : List α → σ → σ × Option Exn
  | [], s => (s, none)
  | x :: xr, s =>
    match f x s with
    | (s', none) => app f xr s'
    | (s', some e) => (s', some e)

/-- NJ93.sml:25-28 revapp -/
def revapp {α σ : Type} (f : α → σ → σ × Option Exn) : List α → σ → σ × Option Exn
  | [], s => (s, none)
  | x :: xr, s =>
    match revapp f xr s with
    | (s', none) => f x s'
    | (s', some e) => (s', some e)

/-- List.sml foldr -/
def listFoldr {α β : Type} (f : α → β → β) (e : β) : List α → β
  | [] => e
  | x :: xr => f x (listFoldr f e xr)
/-- List.sml foldl -/
def listFoldl {α β : Type} (f : α → β → β) (e : β) : List α → β
  | [] => e
  | x :: xr => listFoldl f (f x e) xr
/-- NJ93.sml:30 -/
def fold {α β : Type} (f : α → β → β) (xs : List α) (e : β) : β := listFoldr f e xs
/-- NJ93.sml:31 -/
def revfold {α β : Type} (f : α → β → β) (xs : List α) (e : β) : β := listFoldl f e xs

/-! ### NJ93 and SML90: strings -/

/-- create_string, str.c:18-21: `n` characters of whatever was in memory -/
def create (junk : Nat → Nat) (n : Nat) : Str := (List.range n).map junk
/-- get_nth_char within the string -/
def nthChar (s : Str) (i : Nat) : Nat := s.getD i 0
/-- blit_string within the strings, str.c -/
def blit (src : Str) (i : Nat) (dst : Str) (j n : Nat) : Str :=
  dst.take j ++ (src.drop i).take n ++ dst.drop (j + n)

/-- mosml.c:396-406 sml_chr (NJ93.sml:45, SML90.sml:10) -/
def chr (i : Int) : Res Str := if i < 0 ∨ i > 255 then .error .chr else .ok [i.toNat]
/-- mosml.c:408-415 sml_ord (NJ93.sml:46, SML90.sml:11) -/
def ord (s : Str) : Res Int := if s.length = 0 then .error .ord else .ok (nthChar s 0)
/-- NJ93.sml:56-58 ordof -/
def ordof (s : Str) (i : Int) : Res Int :=
  if i < 0 ∨ i ≥ s.length then .error .ord else .ok (nthChar s i.toNat)

/-- String.sml extract with SOME n, i.e. String.substring -/
def strSubstring (junk : Nat → Nat) (s : Str) (i n : Int) : Res Str :=
  if i < 0 ∨ n < 0 ∨ n > s.length - i then .error .subscript
  else .ok (blit s i.toNat (create junk n.toNat) 0 n.toNat)
/-- NJ93.sml:59-60 substring -/
def substring (junk : Nat → Nat) (s : Str) (i n : Int) : Res Str :=
  handle (strSubstring junk s i n) .subscript .substring

/-- NJ93.sml:62-69 (SML90.sml:22-29) loop -/
def explodeLoop (junk : Nat → Nat) (s : Str) : Nat → List Str → List Str
  | 0, acc => acc
  | n' + 1, acc => explodeLoop junk s n' ((create junk 1).set 0 (nthChar s n') :: acc)
/-- NJ93.sml:61-70 explode -/
def explode (junk : Nat → Nat) (s : Str) : List Str := explodeLoop junk s s.length []

/-- NJ93.sml:73-74 resultSizeAcc -/
def resultSize : List Str → Nat → Nat
  | [], acc => acc
  | s :: ss, acc => resultSize ss (acc + s.length)
/-- NJ93.sml:77-82 loop -/
def implodeLoop : List Str → Nat → Str → Str
  | [], _, r => r
  | s :: ss, i, r => implodeLoop ss (i + s.length) (blit s 0 r i s.length)
/-- NJ93.sml:72-83 (SML90.sml:32-43) implode -/
def implode (junk : Nat → Nat) (ss : List Str) : Str :=
  implodeLoop ss 0 (create junk (resultSize ss 0))

/-- String.sml:23-31 concat, for comparison: the same with a check of the size -/
def strConcat (maxSize : Nat) (junk : Nat → Nat) (ss : List Str) : Res Str :=
  if resultSize ss 0 > maxSize then .error .size else .ok (implode junk ss)

/-! ### Bool -/

/-- Bool.sml:7-8 toString -/
def toString : Bool → Str
  | false => chars "false"
  | true => chars "true"

/-- Bool.sml:13-15 toLower -/
def toLower (c : Nat) : Nat := if 65 ≤ c ∧ c ≤ 90 then c + 32 else c

/-- Bool.sml:16-21 `h i src`, on what remains of `str` -/
def getstring : Str → Str → Option Str
  | [], src => some src
  | _ :: _, [] => none
  | d :: str, c :: rest => if toLower c = d then getstring str rest else none

/-- Char.sml:63 isSpace -/
def isSpace (c : Nat) : Bool := c == 32 || (decide (9 ≤ c) && decide (c ≤ 13))

/-- StringCvt.sml:39-44 dropl -/
def dropl (p : Nat → Bool) : Str → Str
  | [] => []
  | c :: rest => if p c then dropl p rest else c :: rest

/-- Bool.sml:24-33 scan -/
def scan (source : Str) : Option (Bool × Str) :=
  let src := dropl isSpace source
  match getstring (chars "true") src with
  | some rest => some (true, rest)
  | none =>
    match getstring (chars "false") src with
    | some rest => some (false, rest)
    | none => none

/-- Bool.sml:35 fromString -/
def fromString (s : Str) : Option Bool := (scan s).map (·.1)

end Mosml.Old
