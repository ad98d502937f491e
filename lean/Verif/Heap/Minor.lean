import Verif.Util

/-!
The minor collection, src/runtime/minor_gc.c, and the table of old-to-young pointers, src/runtime/memory.h and memory.c.

The heap is a graph: blocks of the young and of the old generation are found by address, and words are integers or
pointers.  Simplifications: blocks do not overlap (C24 shows this of the old generation); `alloc_shr` returns an unused address
and never fails; words of blocks that are not scanned are not looked at; the fields of a new block are 0 until they are filled.
-/
namespace Mosml.Minor

/-- a word: an integer, or a pointer to the young generation, to the old one, or elsewhere -/
inductive Val where
  | imm (n : Int)
  | young (a : Nat)
  | old (a : Nat)
  | ext (a : Nat)
  deriving DecidableEq

/-- a block; `blue` is the mark of forwarded blocks -/
structure Blk where
  tag : Nat
  blue : Bool
  words : List Val
  deriving DecidableEq

/-- a place that holds a value: a root (the stack and the C roots), or a field of an old block -/
inductive Slot where
  | root (i : Nat)
  | field (a k : Nat)
  deriving DecidableEq

structure St where
  young : Nat → Option Blk
  old : Nat → Option Blk
  roots : Nat → Val

/-- mlvalues.h:`No_scan_tag` -/
def noScan : Nat := 251

def updF {α : Type} (f : Nat → α) (a : Nat) (v : α) : Nat → α := fun x => if x = a then v else f x

/-- `*p` -/
def load (s : St) : Slot → Option Val
  | .root i => some (s.roots i)
  | .field a k => (s.old a).bind (fun b => b.words[k]?)

/-- `*p = v` -/
def store (s : St) (p : Slot) (v : Val) : St :=
  match p with
  | .root i => { s with roots := updF s.roots i v }
  | .field a k => { s with old := updF s.old a ((s.old a).map (fun b => { b with words := b.words.set k v })) }

/-- minor_gc.c:60-117 `oldify`; `pick` gives the address `alloc_shr` returns.  The tail call is the last round of the
loop; `fuel` bounds the depth of the recursion. -/
def oldify (pick : (Nat → Option Blk) → Nat) : Nat → St → Slot → Val → St
  | 0, s, _, _ => s
  | fuel + 1, s, p, v =>
    match v with
    | .young y =>
      match s.young y with
      | none => s
      | some b =>
        if b.blue then store s p (b.words.headD (.imm 0))
        else if noScan ≤ b.tag then
          let r := pick s.old
          let s := { s with old := updF s.old r (some ⟨b.tag, false, b.words⟩) }
          let s := { s with young := updF s.young y (some ⟨b.tag, true, b.words.set 0 (.old r)⟩) }
          store s p (.old r)
        else
          let field0 := b.words.headD (.imm 0)
          let sz := b.words.length
          let r := pick s.old
          let s := { s with old := updF s.old r (some ⟨b.tag, false, List.replicate sz (.imm 0)⟩) }
          let s := store s p (.old r)
          let s := { s with young := updF s.young y (some ⟨b.tag, true, b.words.set 0 (.old r)⟩) }
          (List.range sz).foldl (fun s i =>
            oldify pick fuel s (.field r i)
              (if i = 0 then field0 else ((s.young y).bind (fun b => b.words[i]?)).getD (.imm 0))) s
    | v => store s p v

/-- minor_gc.c:119-151 `minor_collection`: the roots, then the table; then the young generation is empty -/
def minorCollection (pick : (Nat → Option Blk) → Nat) (fuel : Nat) (s : St) (nroots : Nat) (refTable : List Slot) : St :=
  let s := (List.range nroots).foldl (fun s i => oldify pick fuel s (.root i) (s.roots i)) s
  let s := refTable.foldl (fun s p => oldify pick fuel s p ((load s p).getD (.imm 0))) s
  { s with young := fun _ => none }

/-- memory.h:44-58 `Modify`, for a field of an old block; `darken` is for the major collector -/
def modify (s : St) (refTable : List Slot) (p : Slot) (v : Val) : St × List Slot :=
  let old := (load s p).getD (.imm 0)
  let isYoung : Val → Bool := fun v => match v with | .young _ => true | _ => false
  (store s p v, if isYoung v && !isYoung old then p :: refTable else refTable)

/-- memory.c:181-191 `initialize` -/
def initField (s : St) (refTable : List Slot) (p : Slot) (v : Val) : St × List Slot :=
  let isYoung : Val → Bool := fun v => match v with | .young _ => true | _ => false
  (store s p v, if isYoung v then p :: refTable else refTable)

end Mosml.Minor
