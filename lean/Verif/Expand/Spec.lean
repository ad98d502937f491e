import Verif.Emit.Assemble
import Verif.Expand.Model

/-!
# What the expansion of bytecode must achieve
-/

namespace Mosml.Expand

open Mosml.Emit

/-- An action with its targets translated. -/
def Op.move {L L' G : Type} (f : L → L') (a : Op L G) : Op L' G :=
  { kind := a.kind, nums := a.nums, labels := a.labels.map f, globs := a.globs }

/-- Positions at which an instruction starts (or the code ends), reading the code from its
beginning. -/
inductive Starts (code : List Nat) : Nat → Prop where
  | zero : Starts code 0
  | next {p p' : Nat} {ops : List Raw} {r : List Nat} : Starts code p →
      decode1 p (code.drop p) = some (ops, p', r) → Starts code p'

/-- Bytecode that can be read from beginning to end, and whose branches lead to
instructions. -/
structure Whole (code : List Nat) : Prop where
  read : ∃ raws, Decodes 0 code raws code.length [] ∧
    ∀ a ∈ raws, ∀ l ∈ a.labels, ∃ n : Nat, l = n ∧ Starts code n ∧ n < code.length

/-- `prog` is the expansion of `code`, `real` telling where each instruction went: the
instruction fetched from `prog` at `real p` is the one at `p`, its operands are the same,
its targets are where the targets went, and the next instruction is where the next one
went. -/
structure Expansion (code : List Nat) (prog : List Word) (real : Nat → Nat) : Prop where
  zero : real 0 = 0
  last : real code.length = prog.length
  fetch : ∀ p, Starts code p → ∀ ops p' r, decode1 p (code.drop p) = some (ops, p', r) →
    tdecode1 (real p) (prog.drop (real p)) =
      some (ops.map (Op.move fun l => (real l.toNat : Int)), real p', prog.drop (real p'))
  mono : ∀ p p', Starts code p → Starts code p' → p < p' → real p < real p'

/-! ## Machines

A machine that executes actions without caring what code addresses are: it may store
them, jump to the next instruction or to a target or to a stored address, but not compute
with them.  The one computation in interp.c is in GRAB (line 631): the code of a closure
for a partial application is three cells before the next instruction, where a RESTART
is; the machine is given that address (`back`). -/
structure Machine where
  /-- stack, heap, accumulator, output ..., holding code addresses of type `P` -/
  Data : Type → Type
  map : {P Q : Type} → (P → Q) → Data P → Data Q
  exec : {P : Type} → List (Op P Nat) → (next : P) → (back : Option P) → Data P →
    Option (P × Data P)
  natural : ∀ {P Q : Type} (f : P → Q) (ops : List (Op P Nat)) (next : P) (back : Option P)
    (d : Data P), exec (ops.map (Op.move f)) (f next) (back.map f) (map f d) =
      (exec ops next back d).map fun r => (f r.1, map f r.2)

/-- Is it a GRAB? -/
def isGrab {P : Type} (ops : List (Op P Nat)) : Bool := ops.any fun a => decide (a.kind = .grab)

/-- Addresses: a block of code, and a position in it. -/
abbrev Addr (ι : Type) := ι × Nat

/-- What is fetched: actions, next instruction, and for GRAB three cells back. -/
structure Fetched (P : Type) where
  ops : List (Op P Nat)
  next : P
  back : Option P

/-- Actions fetched in block `i`, as addresses. -/
def mkFetched {ι : Type} (i : ι) (ops : List Raw) (next : Nat) : Fetched (Addr ι) where
  ops := ops.map (Op.move fun l => (i, l.toNat))
  next := (i, next)
  back := if isGrab ops then some (i, next - 3) else none

/-- Fetching from bytecode. -/
def fetchB {ι : Type} (code : ι → List Nat) (a : Addr ι) : Option (Fetched (Addr ι)) :=
  (decode1 a.2 ((code a.1).drop a.2)).map fun x => mkFetched a.1 x.1 x.2.1

/-- Fetching from threaded code. -/
def fetchT {ι : Type} (prog : ι → List Word) (a : Addr ι) : Option (Fetched (Addr ι)) :=
  (tdecode1 a.2 ((prog a.1).drop a.2)).map fun x => mkFetched a.1 x.1 x.2.1

/-- `n` instructions; `none`: there is nothing to fetch, or the machine stops. -/
def Machine.run (M : Machine) {P : Type} (fetch : P → Option (Fetched P)) :
    Nat → P × M.Data P → Option (P × M.Data P)
  | 0, c => some c
  | n + 1, c =>
    (fetch c.1).bind fun x => (M.exec x.ops x.next x.back c.2).bind fun c' => M.run fetch n c'

/-- Every GRAB comes after a RESTART, as the code generator arranges
(src/compiler/Back.sml:836-838). -/
def Grabs (code : List Nat) : Prop :=
  ∀ p, Starts code p → ∀ ops p' r, decode1 p (code.drop p) = some (ops, p', r) →
    isGrab ops = true → ∃ p0, p = p0 + 1 ∧ Starts code p0 ∧ code[p0]? = some Opc.RESTART

/-- Code addresses of a system of blocks of bytecode: starts of instructions. -/
structure Ptr {ι : Type} (code : ι → List Nat) where
  block : ι
  pos : Nat
  start : Starts (code block) pos

/-- An address in the bytecode. -/
def ptrB {ι : Type} {code : ι → List Nat} (a : Ptr code) : Addr ι := (a.block, a.pos)

/-- The corresponding address in the threaded code. -/
def ptrT {ι : Type} {code : ι → List Nat} (real : ι → Nat → Nat) (a : Ptr code) : Addr ι :=
  (a.block, real a.block a.pos)

/-- Bytecode and threaded code run alike on every machine: after any number of
instructions either both have stopped, or they are at corresponding addresses with the
same data, every address in the data being translated. -/
def SameRuns {ι : Type} (code : ι → List Nat) (prog : ι → List Word) (real : ι → Nat → Nat) :
    Prop :=
  ∀ (M : Machine) (n : Nat) (a : Ptr code) (d : M.Data (Ptr code)),
    ∃ res : Option (Ptr code × M.Data (Ptr code)),
      M.run (fetchB code) n (ptrB a, M.map ptrB d) =
        res.map (fun r => (ptrB r.1, M.map ptrB r.2)) ∧
      M.run (fetchT prog) n (ptrT real a, M.map (ptrT real) d) =
        res.map (fun r => (ptrT real r.1, M.map (ptrT real) r.2))

/-! ## Texts -/

/-- Reading threaded code from `q` to `q'`. -/
inductive TDecodes : Nat → List Word → List Raw → Nat → List Word → Prop where
  | nil (q : Nat) (ws : List Word) : TDecodes q ws [] q ws
  | step {q q' r : Nat} {ws ws' us : List Word} {xs ys : List Raw} :
      tdecode1 q ws = some (xs, q', ws') → TDecodes q' ws' ys r us →
      TDecodes q ws (xs ++ ys) r us

/-- The words `prog` are the text `T` (as `Assembled` for bytes). -/
def Threaded (same : SC → SC → Bool) (T : Text) (prog : List Word) (lk : Lk) : Prop :=
  ∃ D : Nat → Nat,
    (∃ raws, TDecodes 0 prog raws prog.length [] ∧ Matches same lk D raws (T.flatMap itemOps)) ∧
    ∀ pre l post, T = pre ++ some (.label l) :: post →
      ∃ r1 r2, TDecodes 0 prog r1 (D l) (prog.drop (D l)) ∧
        TDecodes (D l) (prog.drop (D l)) r2 prog.length [] ∧
        Matches same lk D r1 (pre.flatMap itemOps) ∧ Matches same lk D r2 (post.flatMap itemOps)

end Mosml.Expand
