import Verif.Util

/-!
The incremental major collector, src/runtime/major_gc.c, with the program and the minor collector as the other parties of a transition
system.

A block of the major heap that is in use is at an address in `old`; free (blue) blocks and fragments are not in `old`.  The
chunks are linked by increasing address, so the walks over the heap (`markhp`, `gc_sweep_hp`) go by increasing address; one step of a
walk may pass over any stretch that has no block in use.  That blocks in use do not overlap is C24.
What happens when `gray_vals` is full depends on the size of the heap and on `realloc`; the model takes any outcome.
Finalization functions are not modelled.
-/
namespace Mosml.Major

/-- a word: an integer, or a pointer to the major heap, to the young generation, or elsewhere (`NULL` is `ext 0`) -/
inductive Val where
  | imm (n : Int)
  | old (a : Nat)
  | young (y : Nat)
  | ext (n : Nat)
  deriving DecidableEq

/-- gc.h:8-11; blue blocks are free -/
inductive Color where
  | white | gray | black
  deriving DecidableEq

structure Obj where
  color : Color
  tag : Nat
  fields : List Val
  deriving DecidableEq

structure YObj where
  tag : Nat
  fields : List Val
  deriving DecidableEq

/-- major_gc.h: `Phase_mark`, `Phase_weak`, `Phase_sweep` -/
inductive Phase where
  | mark | weak | sweep
  deriving DecidableEq

/-- what `realloc_gray_vals` does: the table grows, half of it is dropped, all of it is dropped -/
inductive Overflow where
  | grow | half | all
  deriving DecidableEq

/-- mlvalues.h: `No_scan_tag`, which is also `Weak_tag` -/
def noScan : Nat := 251

structure St where
  old : Nat → Option Obj
  young : Nat → Option YObj
  /-- the stack, the C roots and `global_data` -/
  roots : List Val
  phase : Phase
  /-- `gray_vals`, last entry first -/
  gray : List Nat
  graySize : Nat
  /-- the outcomes of the next overflows of `gray_vals` -/
  luck : List Overflow
  isPure : Bool
  markhp : Option Nat
  heapStart : Nat
  sweepHp : Nat
  /-- `weak_arrays` -/
  weaks : List Nat

def updF {α : Type} (f : Nat → α) (a : Nat) (v : α) : Nat → α := fun x => if x = a then v else f x

def setColor (s : St) (a : Nat) (c : Color) : St := { s with old := updF s.old a ((s.old a).map (fun o => { o with color := c })) }

/-- major_gc.c:449-473 `realloc_gray_vals`; when no outcome is given the table is dropped -/
def reallocGray (s : St) : St :=
  match s.luck with
  | .grow :: l => { s with graySize := 2 * s.graySize, luck := l }
  | .half :: l => { s with gray := s.gray.drop (s.gray.length - s.graySize / 2), isPure := false, luck := l }
  | .all :: l => { s with gray := [], isPure := false, luck := l }
  | [] => { s with gray := [], isPure := false }

/-- major_gc.c:494-501 `darken` -/
def darken (s : St) (v : Val) : St :=
  match v with
  | .old a =>
    match s.old a with
    | some o =>
      if o.color = .white then
        let s := setColor s a .gray
        let s := { s with gray := a :: s.gray }
        if s.gray.length ≥ s.graySize then reallocGray s else s
      else s
    | none => s
  | _ => s

/-- major_gc.c:508-516 `start_cycle` -/
def startCycle (s : St) : St :=
  { s.roots.foldl darken s with phase := .mark, markhp := none }

/-- major_gc.c:524-538: the last entry of `gray_vals` is marked -/
def markPop (s : St) (a : Nat) (rest : List Nat) : St :=
  match s.old a with
  | none => s
  | some o =>
    let s := setColor { s with gray := rest } a .black
    if o.tag < noScan then o.fields.reverse.foldl darken s
    else if o.tag = noScan then { s with weaks := a :: s.weaks }
    else s

/-- major_gc.c:539-553: `markhp` passes the block at `m`, if there is one, and free blocks and ends of chunks, up to `e` -/
def markWalk (s : St) (m e : Nat) : St :=
  match s.old m with
  | some o => if o.color = .gray then { s with gray := m :: s.gray, markhp := some e } else { s with markhp := some e }
  | none => { s with markhp := some e }

/-- major_gc.c:554-558 -/
def markRestart (s : St) : St := { s with isPure := true, markhp := some s.heapStart }

/-- major_gc.c:559-568 -/
def markFinish (s : St) : St := { s with phase := .weak, sweepHp := s.heapStart }

def isWhite (s : St) : Val → Bool
  | .old a => match s.old a with | some o => o.color == .white | none => false
  | _ => false

/-- major_gc.c:582-590: the weak array at `a` -/
def weakClear (s : St) (a : Nat) : St :=
  { s with old := updF s.old a ((s.old a).map (fun o => { o with fields := o.fields.map (fun v => if isWhite s v then .ext 0 else v) })) }

/-- major_gc.c:576-593 `weak_phase` -/
def weakPhase (s : St) : St := { s.weaks.foldl weakClear s with weaks := [], phase := .sweep }

/-- major_gc.c:595-622: `gc_sweep_hp` passes the block at its place, if there is one, and free blocks and ends of chunks, up to `e` -/
def sweepAt (s : St) (e : Nat) : St :=
  match s.old s.sweepHp with
  | none => { s with sweepHp := e }
  | some o =>
    match o.color with
    | .white => { s with old := updF s.old s.sweepHp none, sweepHp := e }
    | .gray | .black => { setColor s s.sweepHp .white with sweepHp := e }

/-- memory.c:145-149 in `alloc_shr` -/
def allocColor (s : St) (a : Nat) : Color := if s.phase = .mark ∨ s.sweepHp ≤ a then .black else .white

/-- memory.c:130-153 `alloc_shr` and the initialization of the fields; the heap may have grown, downwards too (memory.c:75-84) -/
def allocOld (s : St) (a tag : Nat) (fs : List Val) (start : Nat) : St :=
  { s with old := updF s.old a (some ⟨allocColor s a, tag, fs⟩), heapStart := start }

/-- memory.h:44-58 `Modify`, for a field of a block of the major heap; the table of young pointers is in C25 -/
def modify (s : St) (a k : Nat) (v : Val) : St :=
  match s.old a with
  | none => s
  | some o =>
    let s1 := { s with old := updF s.old a (some { o with fields := o.fields.set k v }) }
    match o.fields[k]? with
    | none => s1
    | some w => if s.phase = .mark then darken s1 w else s1

/-- mosml.c:1304-1309 `isdead` -/
def isDead (s : St) (v : Val) : Bool := v == .ext 0 || (s.phase == .weak && isWhite s v)

/-- mosml.c:1311-1320 `weak_sub`, of a weak pointer that is not dead; the value becomes a root -/
def weakSub (s : St) (v : Val) : St :=
  let s1 := if s.phase = .mark then darken s v else s
  { s1 with roots := v :: s1.roots }

/-! ### The program and the minor collector -/

/-- what the program can get hold of without weak pointers -/
inductive PReach (s : St) : Val → Prop
  | root {v} : v ∈ s.roots → PReach s v
  | old {a o v} : PReach s (.old a) → s.old a = some o → o.tag < noScan → v ∈ o.fields → PReach s v
  | young {y o v} : PReach s (.young y) → s.young y = some o → o.tag < noScan → v ∈ o.fields → PReach s v

/-- a word the program can store: not a pointer, or one it can get hold of -/
def InHand (s : St) (v : Val) : Prop := PReach s v ∨ (∀ a, v ≠ .old a) ∧ (∀ y, v ≠ .young y)

def image (f : Nat → Option Nat) : Val → Val
  | .young y => match f y with | some a => .old a | none => .young y
  | v => v

def Moved (f : Nat → Option Nat) : Val → Prop
  | .young y => f y ≠ none
  | _ => True

/-- A minor collection (C25), with the colours `alloc_shr` gives to the new blocks. -/
structure Minor (s : St) (f : Nat → Option Nat) (s' : St) : Prop where
  inj : ∀ y y' a, f y = some a → f y' = some a → y = y'
  roots : s'.roots = s.roots.map (image f)
  rootsMoved : ∀ v ∈ s.roots, Moved f v
  old : ∀ a o, s.old a = some o → ∃ fs, s'.old a = some { o with fields := fs } ∧
    (noScan < o.tag → fs = o.fields) ∧ (o.tag ≤ noScan → fs = o.fields.map (image f) ∧ ∀ v ∈ o.fields, Moved f v)
  new : ∀ y a, f y = some a → s.old a = none ∧ ∃ b fs, s.young y = some b ∧ s'.old a = some ⟨allocColor s a, b.tag, fs⟩ ∧
    (noScan ≤ b.tag → fs = b.fields) ∧ (b.tag < noScan → fs = b.fields.map (image f) ∧ ∀ v ∈ b.fields, Moved f v)
  only : ∀ a, s'.old a ≠ none → s.old a ≠ none ∨ ∃ y, f y = some a
  young : ∀ y, s'.young y = none
  start : s'.heapStart ≤ s.heapStart ∧ ∀ a, s'.old a ≠ none → s'.heapStart ≤ a
  same : s'.phase = s.phase ∧ s'.gray = s.gray ∧ s'.graySize = s.graySize ∧ s'.luck = s.luck ∧ s'.isPure = s.isPure ∧
    s'.markhp = s.markhp ∧ s'.sweepHp = s.sweepHp ∧ s'.weaks = s.weaks

/-- One step of the major collector (an iteration of the loops of `mark_slice` and `sweep_slice`, or `weak_phase`); the label is the
block freed, if any.  `start_cycle` is reached only from `major_collection_slice` at the end of a minor collection and from
`finish_major_cycle` after one (minor_gc.c:147, gc_ctrl.c:175-184), so there are no young blocks then. -/
inductive Collector : St → Option Nat → St → Prop
  | pop {s a rest} : s.phase = .mark → s.gray = a :: rest → Collector s none (markPop s a rest)
  | walk {s m e} : s.phase = .mark → s.gray = [] → s.markhp = some m → m < e → (∀ x, m < x → x < e → s.old x = none) →
      Collector s none (markWalk s m e)
  | walkEnd {s m} : s.phase = .mark → s.gray = [] → s.markhp = some m → (∀ x, m ≤ x → s.old x = none) →
      Collector s none { s with markhp := none }
  | restart {s} : s.phase = .mark → s.gray = [] → s.markhp = none → s.isPure = false → Collector s none (markRestart s)
  | finish {s} : s.phase = .mark → s.gray = [] → s.markhp = none → s.isPure = true → Collector s none (markFinish s)
  | weak {s} : s.phase = .weak → Collector s none (weakPhase s)
  | sweep {s e} : s.phase = .sweep → s.sweepHp < e → (∀ x, s.sweepHp < x → x < e → s.old x = none) →
      Collector s (if isWhite s (.old s.sweepHp) then some s.sweepHp else none) (sweepAt s e)
  | start {s} : s.phase = .sweep → (∀ x, s.sweepHp ≤ x → s.old x = none) → (∀ y, s.young y = none) → Collector s none (startCycle s)

/-- One step of the system. -/
inductive Step : St → Option Nat → St → Prop
  | collect {s l s'} : Collector s l s' → Step s l s'
  | minor {s f s'} : Minor s f s' → Step s none s'
  | allocOld {s a tag fs start} : s.old a = none → start ≤ s.heapStart → start ≤ a → (∀ v ∈ fs, InHand s v) →
      Step s none { allocOld s a tag fs start with roots := .old a :: s.roots }
  | allocYoung {s y tag fs} : s.young y = none → tag ≠ noScan → (∀ v ∈ fs, InHand s v) →
      Step s none { s with young := updF s.young y (some ⟨tag, fs⟩), roots := .young y :: s.roots }
  | modify {s a k v o} : PReach s (.old a) → s.old a = some o → o.tag ≤ noScan → InHand s v → Step s none (modify s a k v)
  | modifyYoung {s y k v o} : PReach s (.young y) → s.young y = some o → InHand s v →
      Step s none { s with young := updF s.young y (some { o with fields := o.fields.set k v }) }
  | roots {s rs} : (∀ v ∈ rs, InHand s v) → Step s none { s with roots := rs }
  | weakSub {s a o v} {k : Nat} : PReach s (.old a) → s.old a = some o → o.tag = noScan → o.fields[k]? = some v → isDead s v = false →
      Step s none (weakSub s v)

/-- major_gc.c:754-770 in `init_major_heap`: the first cycle starts in the mark phase, with an empty heap -/
def init (start size : Nat) (luck : List Overflow) : St where
  old := fun _ => none
  young := fun _ => none
  roots := []
  phase := .mark
  gray := []
  graySize := size
  luck := luck
  isPure := true
  markhp := none
  heapStart := start
  sweepHp := 0
  weaks := []

inductive Reach : St → Prop
  | init (start size luck) : Reach (init start size luck)
  | step {s l s'} : Reach s → Step s l s' → Reach s'

end Mosml.Major
