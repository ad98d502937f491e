import Verif.Yacc.Warshall

/-!
C37: src/mosmlyac/closure.c and `set_derives` of lr0.c, with 32-bit words.  Arrays are lists; `NEW2` makes an array of zeros.  An access outside an
array is `none`.  Numbers of type short are unbounded integers.
-/
namespace Mosml.Yacc.Closure

open Warshall (Mem wordsize reflexive_transitive_closure)

/-- the grammar as packed by reader.c:1739-1795: symbols below `start` are tokens, the others, below `nsyms`, variables -/
structure Gram where
  start : Nat
  nsyms : Nat
  nrules : Nat
  rlhs : List Int
  rrhs : List Int
  ritem : List Int

variable (g : Gram)

/-- `nvars` -/
def Gram.nvars : Nat := g.nsyms - g.start

/-- an array element, for an index of type int -/
def at? {A : Type} (l : List A) (i : Int) : Option A := if i < 0 then none else l[i.toNat]?

/-- defs.h:159 -/
def ISVAR (s : Int) : Bool := s ≥ g.start

/-- defs.h:84 `SETBIT`, `r` being an index -/
def setBit (m : Mem) (r : Nat) (n : Nat) : Option Mem :=
  match m[r + n / 32]? with
  | none => none
  | some w => some (m.set (r + n / 32) (w ||| ((1 : BitVec 32) <<< (n % 32))))

/-- lr0.c:476-504: the part of the array `rules` that `derives[lhs]` points to, up to and including the -1 -/
def derives (lhs : Int) : List Int := ((List.range g.nrules).filter (fun i => g.rlhs[i]? == some lhs)).map Int.ofNat ++ [-1]

/-- closure.c:27-35: the loop over the rules of a variable, `row` being an index -/
def effRules (row : Nat) : List Int → Mem → Option Mem
  | [], _ => none
  | rule :: sp, m =>
    if rule > 0 then do
      let i ← at? g.rrhs rule
      let symbol ← at? g.ritem i
      let m ← (if ISVAR g symbol then setBit m row (symbol - g.start).toNat else some m : Option Mem)
      effRules row sp m
    else some m

/-- closure.c:24-37; `k` variables are left -/
def effVars (rowsize : Nat) : Nat → Int → Nat → Mem → Option Mem
  | 0, _, _, m => some m
  | k + 1, i, row, m => do
    let m ← effRules g row (derives g i) m
    effVars rowsize k (i + 1) (row + rowsize) m

/-- closure.c:11-44 -/
def set_EFF : Option Mem := do
  let rowsize := wordsize g.nvars
  let m ← effVars g rowsize g.nvars g.start 0 (List.replicate (g.nvars * rowsize) 0)
  reflexive_transitive_closure m g.nvars

/-- closure.c:78-81 -/
def fdRules (rrow : Nat) : List Int → Mem → Option Mem
  | [], _ => none
  | rule :: rp, m =>
    if rule ≥ 0 then do
      let m ← setBit m rrow rule.toNat
      fdRules rrow rp m
    else some m

/-- reading a word of `EFF`; `over` is what the word after the last contains (`none`: reading it is not possible) -/
def readEFF (eff : Mem) (over : Option (BitVec 32)) (p : Nat) : Option (BitVec 32) := if p = eff.length then over else eff[p]?

/-- closure.c:73-90; `k` symbols are left -/
def fdCols (eff : Mem) (over : Option (BitVec 32)) (rrow : Nat) : Nat → Int → Nat → BitVec 32 → BitVec 32 → Mem → Option Mem
  | 0, _, _, _, _, m => some m
  | k + 1, j, vrow, cword, mask, m => do
    let m ← (if cword &&& mask ≠ 0 then fdRules rrow (derives g j) m else some m : Option Mem)
    let mask := mask <<< 1
    (if mask = 0 then do
      let cword ← readEFF eff over vrow
      fdCols eff over rrow k (j + 1) (vrow + 1) cword 1 m
     else fdCols eff over rrow k (j + 1) vrow cword mask m : Option Mem)

/-- closure.c:68-94; `k` variables are left, `i` is counted from 0 -/
def fdRows (eff : Mem) (over : Option (BitVec 32)) : Nat → Nat → Nat → Mem → Option Mem
  | 0, _, _, m => some m
  | k + 1, i, rrow, m => do
    let vrow := i * wordsize g.nvars
    let cword ← readEFF eff over vrow
    let m ← fdCols g eff over rrow g.nvars g.start (vrow + 1) cword 1 m
    fdRows eff over k (i + 1) (rrow + wordsize g.nrules) m

/-- closure.c:47-101; `first_derives` counted from the first variable -/
def set_first_derives (over : Option (BitVec 32)) : Option Mem := do
  let eff ← set_EFF g
  fdRows g eff over g.nvars 0 0 (List.replicate (g.nvars * wordsize g.nrules) 0)

/-- closure.c:133-134 -/
def orRuleset (fd : Mem) : List (BitVec 32) → Nat → Option (List (BitVec 32))
  | [], _ => some []
  | w :: rs, dsp => do
    let d ← fd[dsp]?
    let r ← orRuleset fd rs (dsp + 1)
    some ((w ||| d) :: r)

/-- closure.c:126-136 -/
def nucLoop (fd : Mem) : List Int → List (BitVec 32) → Option (List (BitVec 32))
  | [], rs => some rs
  | c :: csp, rs => do
    let symbol ← at? g.ritem c
    let rs ← (if ISVAR g symbol then orRuleset fd rs ((symbol - g.start).toNat * wordsize g.nrules) else some rs : Option _)
    nucLoop fd csp rs

/-- closure.c:154-155: the rest of the nucleus and the item set -/
def copyLess (itemno : Int) : List Int → List Int → List Int × List Int
  | [], out => ([], out)
  | c :: csp, out => if c < itemno then copyLess itemno csp (out ++ [c]) else (c :: csp, out)

/-- closure.c:157-158 -/
def skipEq (itemno : Int) : List Int → List Int
  | [] => []
  | c :: csp => if c = itemno then skipEq itemno csp else c :: csp

/-- closure.c:149-163; the mask is 0 after 32 steps, so 33 of fuel are enough -/
def bitLoop (word : BitVec 32) : Nat → BitVec 32 → Nat → List Int → List Int → Option (Nat × List Int × List Int)
  | 0, _, _, _, _ => none
  | fuel + 1, mask, ruleno, csp, out =>
    if mask ≠ 0 then
      if word &&& mask ≠ 0 then do
        let itemno ← g.rrhs[ruleno]?
        let r := copyLess itemno csp out
        bitLoop word fuel (mask <<< 1) (ruleno + 1) (skipEq itemno r.1) (r.2 ++ [itemno])
      else bitLoop word fuel (mask <<< 1) (ruleno + 1) csp out
    else some (ruleno, csp, out)

/-- closure.c:141-165 -/
def wordLoop : List (BitVec 32) → Nat → List Int → List Int → Option (List Int × List Int)
  | [], _, csp, out => some (csp, out)
  | word :: rsp, ruleno, csp, out =>
    if word = 0 then wordLoop rsp (ruleno + 32) csp out
    else do
      let r ← bitLoop g word 33 1 ruleno csp out
      wordLoop rsp r.1 r.2.1 r.2.2

/-- closure.c:104-172: the item set -/
def closure (fd : Mem) (nucleus : List Int) : Option (List Int) := do
  let rs ← nucLoop g fd nucleus (List.replicate (wordsize g.nrules) 0)
  let r ← wordLoop g rs 0 nucleus []
  some (r.2 ++ r.1)

/-! ### specification -/

/-- what reader.c ensures: every rule of a variable is not rule 0, the right hand sides follow each other in `ritem`, and symbols are in range -/
structure Valid : Prop where
  symbols : g.start ≤ g.nsyms
  lhsLen : g.rlhs.length = g.nrules
  rhsLen : g.nrules ≤ g.rrhs.length
  first : ∀ l : Int, g.rlhs[0]? = some l → l < g.start
  lhs : ∀ (i : Nat) (l : Int), g.rlhs[i]? = some l → l < g.nsyms
  rhs : ∀ (i : Nat) x, g.rrhs[i]? = some x → i < g.nrules → 0 ≤ x ∧ x < g.ritem.length
  mono : ∀ (i j : Nat) x y lx, i < j → j < g.nrules → g.rrhs[i]? = some x → g.rrhs[j]? = some y → g.rlhs[i]? = some lx → g.start ≤ lx → x < y
  items : ∀ s ∈ g.ritem, s < g.nsyms

/-- the LR(0) closure: the least set with the nucleus and, for each item before a variable, the initial items of its rules -/
inductive InClosure (nucleus : List Int) : Int → Prop
  | nucleus {x} : x ∈ nucleus → InClosure nucleus x
  | step {x b : Int} {r : Nat} {y : Int} : InClosure nucleus x → at? g.ritem x = some b → (g.start : Int) ≤ b → g.rlhs[r]? = some b → g.rrhs[r]? = some y → InClosure nucleus y

end Mosml.Yacc.Closure
