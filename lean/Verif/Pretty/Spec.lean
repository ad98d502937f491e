import Verif.Pretty.Model

/-!
# What a pretty printer does

The layout is described with unlimited lookahead: every block and every possible break knows how
much follows until the next possible break outside of it.
-/

namespace Mosml.Pretty

open Mosml.Num (Str)

/-- How much is printed until the next possible break that is not inside a block begun in
between; `d` blocks are open. -/
def dist : Nat → List Op → Int
  | _, [] => 0
  | d, .str s :: r => s.length + dist d r
  | d, .bgn _ _ :: r => dist (d + 1) r
  | d, .fin :: r => dist (d - 1) r
  | d, .brk n _ :: r => if d = 0 then 0 else n + dist d r

/-- Calls together with the sizes that decide. -/
inductive ROp where
  | str (s : Str)
  | bgn (size : Int) (cons : Bool) (off : Int)
  | fin
  | brk (size n off : Int)
deriving DecidableEq

def annot : List Op → List ROp
  | [] => []
  | .str s :: r => .str s :: annot r
  | .bgn c o :: r => .bgn (dist 1 r) c o :: annot r
  | .fin :: r => .fin :: annot r
  | .brk n o :: r => .brk (n + dist 0 r) n o :: annot r

/-- A page: what has been printed, the columns left on the line, and how each open block is
printed. -/
structure Page where
  out : Str
  sp : Int
  ist : List Info
deriving DecidableEq

def blanks (n : Int) : Str := List.replicate n.toNat 32

/-- A block that fits on the line is printed on the line.  Otherwise, breaks are new lines: in a
consistent block all, in an inconsistent one those before a part that does not fit.  New
lines are indented as the position where the block began, plus the offset of the block and
that of the break. -/
def exec (lw : Nat) : List ROp → Page → Option Page
  | [], g => some g
  | .str s :: r, g => exec lw r { g with out := g.out ++ s, sp := g.sp - s.length }
  | .bgn z c o :: r, g =>
      exec lw r { g with ist :=
        (if z ≤ g.sp then .fits
         else if c then .onePer (lw - g.sp + o) else .pack (lw - g.sp + o)) :: g.ist }
  | .fin :: r, g =>
      match g.ist with
      | [] => none
      | _ :: l => exec lw r { g with ist := l }
  | .brk z n o :: r, g =>
      match g.ist with
      | [] => none
      | .fits :: _ => exec lw r { g with out := g.out ++ blanks n, sp := g.sp - n }
      | .onePer c :: _ =>
          exec lw r { g with out := g.out ++ 10 :: blanks (c + o), sp := lw - (c + o) }
      | .pack c :: _ =>
          if z ≤ g.sp then exec lw r { g with out := g.out ++ blanks n, sp := g.sp - n }
          else exec lw r { g with out := g.out ++ 10 :: blanks (c + o), sp := lw - (c + o) }

/-- The layout of a sequence of calls. -/
def layout (lw : Nat) (ops : List Op) : Option Str :=
  (exec lw (annot ops) ⟨[], lw, []⟩).map Page.out

/-- Blocks are properly nested, and breaks are inside blocks; `d` blocks are open. -/
def Nested : Nat → List Op → Prop
  | d, [] => d = 0
  | d, .str _ :: r => Nested d r
  | d, .bgn _ _ :: r => Nested (d + 1) r
  | d, .fin :: r => 0 < d ∧ Nested (d - 1) r
  | d, .brk n _ :: r => 0 < d ∧ 0 ≤ n ∧ Nested d r

/-- How far to the left offsets may lead. -/
def negs : List Op → Int
  | [] => 0
  | .bgn _ o :: r => max 0 (-o) + negs r
  | .brk _ o :: r => max 0 (-o) + negs r
  | _ :: r => negs r

def isStr : Op → Bool
  | .str _ => true
  | _ => false

/-- The width of a stretch up to its last string. -/
def checked : List Op → Int
  | [] => 0
  | .brk n _ :: r => if r.any isStr then n + checked r else 0
  | .str s :: r => s.length + checked r
  | _ :: r => checked r

/-- How many places a stretch takes: consecutive begins take one, and consecutive ends. -/
def places : List Op → Nat
  | [] => 0
  | .bgn _ _ :: r => (match r with | .bgn _ _ :: _ => 0 | _ => 1) + places r
  | .fin :: r => (match r with | .fin :: _ => 0 | _ => 1) + places r
  | _ :: r => 1 + places r

/-- There is room for every stretch of calls that may fit on a line. -/
def Roomy (lw : Nat) (ops : List Op) : Prop :=
  ∀ h seg t, ops = h ++ seg ++ t → checked seg ≤ lw + negs ops → places seg < 3 * lw

/-! ## What is seen -/

/-- Strings in order, and each possible break as blanks or as a new line. -/
inductive Renders : List Op → Str → Prop
  | nil : Renders [] []
  | str {r x} (s : Str) : Renders r x → Renders (.str s :: r) (s ++ x)
  | bgn {r x} (c : Bool) (o : Int) : Renders r x → Renders (.bgn c o :: r) x
  | fin {r x} : Renders r x → Renders (.fin :: r) x
  | blank {r x} (n o : Int) : Renders r x → Renders (.brk n o :: r) (blanks n ++ x)
  | line {r x} (n o k : Int) : Renders r x → Renders (.brk n o :: r) (10 :: blanks k ++ x)

/-- The column after a text. -/
def col (s : Str) : Nat := (s.reverse.takeWhile (· != 10)).length

/-- What is inside a block so far, blocks begun in it being ended. -/
def Inside : Nat → List Op → Prop
  | d, [] => d = 0
  | d, .bgn _ _ :: r => Inside (d + 1) r
  | d, .fin :: r => 0 < d ∧ Inside (d - 1) r
  | d, _ :: r => Inside d r

/-- No string contains a newline, and no offset is negative. -/
def Plain (ops : List Op) : Prop :=
  (∀ s, .str s ∈ ops → 10 ∉ s) ∧ (∀ c o, .bgn c o ∈ ops → 0 ≤ o) ∧ (∀ n o, .brk n o ∈ ops → 0 ≤ o)

/-- The strings. -/
def text : List Op → Str
  | [] => []
  | .str s :: r => s ++ text r
  | _ :: r => text r

end Mosml.Pretty
