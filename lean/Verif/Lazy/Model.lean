import Verif.Util

/-!
# Suspensions and the registry of ML values

Model of `src/mosmllib/Susp.sml`, `src/mosmllib/Callback.sml` and
`src/runtime/callback.c` (lines 16-105, 113-125).

**Susp.**  The computations that are suspended, and the program that forces them,
are arbitrary: `Comp` has values, exceptions, sequencing, handlers, arbitrary effects
on a state (references, input and output: any type, any function), and the two
functions of Susp.  A suspension is its number, so it can be kept in the state, be
shared, and be forced within its own expression.  The program runs with fuel; without
enough there is no result.

**Callback.**  The hash table is the finite map that C43 proves it to be.  A
reference of `alloc_valueptr` is its number.  That the collector keeps these
references where they are and does not free them is not modelled (`alloc_shr`
allocates in the old heap, C26, and the table keeps them reachable).
-/

namespace Mosml.Lazy

/-! ## Susp -/

inductive Comp (S V X : Type) where
  | ret (v : V)
  | raise (x : X)
  | bind (c : Comp S V X) (k : V → Comp S V X)
  | handle (c : Comp S V X) (h : X → Comp S V X)
  /-- any effect: the state becomes `f s`, and `k s` follows -/
  | act (f : S → S) (k : S → Comp S V X)
  /-- `delay (fn () => c)`, its result bound to the argument of `k` -/
  | delay (c : Comp S V X) (k : Nat → Comp S V X)
  | force (i : Nat)

/-- `thunk`, Susp.sml:4 -/
inductive Cell (S V X : Type) where
  | val (v : V)
  | thunk (c : Comp S V X)

inductive Out (V X : Type) where
  | ok (v : V)
  | exn (x : X)
  deriving DecidableEq

/-- What an observer of suspension `i` sees: `force` is called, its expression begins
to be evaluated, has a value, or raises an exception; `force` returns. -/
inductive Event (V X : Type) where
  | call (i : Nat)
  | start (i : Nat)
  | done (i : Nat) (v : V)
  | failed (i : Nat) (x : X)
  | forced (i : Nat) (v : V)
  deriving DecidableEq

structure Run (S V X : Type) where
  heap : List (Cell S V X)
  state : S
  out : Out V X
  trace : List (Event V X)

variable {S V X : Type}

/-- The evaluation of a program.  `delay` is Susp.sml:9-10: a new reference to a
THUNK.  `force` is Susp.sml:12-16. -/
def run : Nat → Comp S V X → List (Cell S V X) → S → Option (Run S V X)
  | 0, _, _, _ => none
  | _ + 1, .ret v, H, s => some ⟨H, s, .ok v, []⟩
  | _ + 1, .raise x, H, s => some ⟨H, s, .exn x, []⟩
  | n + 1, .bind c k, H, s =>
    match run n c H s with
    | none => none
    | some ⟨H1, s1, .exn x, t⟩ => some ⟨H1, s1, .exn x, t⟩
    | some ⟨H1, s1, .ok v, t⟩ =>
      match run n (k v) H1 s1 with
      | none => none
      | some r => some { r with trace := t ++ r.trace }
  | n + 1, .handle c h, H, s =>
    match run n c H s with
    | none => none
    | some ⟨H1, s1, .ok v, t⟩ => some ⟨H1, s1, .ok v, t⟩
    | some ⟨H1, s1, .exn x, t⟩ =>
      match run n (h x) H1 s1 with
      | none => none
      | some r => some { r with trace := t ++ r.trace }
  | n + 1, .act f k, H, s => run n (k s) H (f s)
  | n + 1, .delay c k, H, s => run n (k H.length) (H ++ [.thunk c]) s
  | n + 1, .force i, H, s =>
    match H[i]? with
    | none => none                                    -- there is no such reference
    | some (.val v) => some ⟨H, s, .ok v, [.call i, .forced i v]⟩
    | some (.thunk c) =>
      match run n c H s with                          -- f ()
      | none => none
      | some ⟨H1, s1, .exn x, t⟩ => some ⟨H1, s1, .exn x, [.call i, .start i] ++ t ++ [.failed i x]⟩
      | some ⟨H1, s1, .ok v, t⟩ =>                    -- su := VAL v; v
        some ⟨H1.set i (.val v), s1, .ok v, [.call i, .start i] ++ t ++ [.done i v, .forced i v]⟩

/-! ## Callback -/

abbrev Name := List Nat

/-- `mltable` with its references, Callback.sml:17; `cfuntable`, Callback.sml:71. -/
structure Registry (V P : Type) where
  table : Name → Option Nat
  refs : List (Option V)
  cptrs : Name → Option P

inductive Res (V P : Type) where
  | unit
  | fail                      -- exception Fail
  | bool (b : Bool)
  | ptr (p : Option Nat)      -- a C value pointer; `none` is NULL
  | val (v : Option V)        -- an ML value; `none` is NULL
  | cptr (p : P)
  | crash                     -- the interpreter is called with NULL as closure
  deriving DecidableEq

variable {P : Type}

/-- A program that has not registered anything. -/
def Registry.empty : Registry V P := ⟨fun _ => none, [], fun _ => none⟩

/-- Polyhash.peekInsert (C43): an entry that is there stays. -/
def peekInsert {α : Type} (t : Name → Option α) (k : Name) (x : α) : Option α × (Name → Option α) :=
  match t k with
  | some y => (some y, t)
  | none => (none, fun n => if n = k then some x else t n)

/-- `register`, Callback.sml:32-38, with `alloc_valueptr`, callback.c:89-98. -/
def register (σ : Registry V P) (nam : Name) (v : V) : Registry V P × Res V P :=
  let new := σ.refs.length
  let refs := σ.refs ++ [some v]
  match peekInsert σ.table nam new with
  | (none, t) => (⟨t, refs, σ.cptrs⟩, .unit)
  | (some r, t) =>
    match refs.getD r none with
    | none => (⟨t, refs.set r (some v), σ.cptrs⟩, .unit)
    | some _ => (⟨t, refs, σ.cptrs⟩, .fail)

/-- `unregister`, Callback.sml:45-48 -/
def unregister (σ : Registry V P) (nam : Name) : Registry V P × Res V P :=
  match σ.table nam with
  | none => (σ, .fail)
  | some r => ({ σ with refs := σ.refs.set r none }, .unit)

/-- `isRegistered`, Callback.sml:53-56 -/
def isRegistered (σ : Registry V P) (nam : Name) : Bool :=
  match σ.table nam with
  | some r => (σ.refs.getD r none).isSome
  | none => false

/-- `get_valueptr`, Callback.sml:24-27 and callback.c:24-31 -/
def getValueptr (σ : Registry V P) (nam : Name) : Option Nat :=
  match σ.table nam with
  | some r => match σ.refs.getD r none with
    | some _ => some r
    | none => none
  | none => none

/-- `get_value`, callback.c:36-45 -/
def getValue (σ : Registry V P) (mvp : Option Nat) : Res V P :=
  match mvp with
  | none => .fail
  | some r => .val (σ.refs.getD r none)

/-- `registervalue`, callback.c:70-77: `reg` is `reg_mlvalueptr_ptr_`.  The closure
registered there is `register`. -/
def registervalue (reg : Option Nat) (σ : Registry V P) (nam : Name) (v : V) :
    Registry V P × Res V P :=
  match getValue σ reg with
  | .val (some _) => register σ nam v
  | .val none => (σ, .crash)
  | _ => (σ, .fail)

/-- `registercptr`, Callback.sml:75-78 -/
def registercptr (σ : Registry V P) (nam : Name) (p : P) : Registry V P × Res V P :=
  match peekInsert σ.cptrs nam p with
  | (none, t) => ({ σ with cptrs := t }, .unit)
  | (some _, t) => ({ σ with cptrs := t }, .fail)

/-- `getcptr`, Callback.sml:80-83 -/
def getcptr (σ : Registry V P) (nam : Name) : Res V P :=
  match σ.cptrs nam with
  | none => .fail
  | some p => .cptr p

/-- What ML and C code may do with the registry. -/
inductive Op (V P : Type) where
  | register (nam : Name) (v : V)
  | unregister (nam : Name)
  | isRegistered (nam : Name)
  | getValueptr (nam : Name)
  | getValue (mvp : Option Nat)
  | registercptr (nam : Name) (p : P)
  | getcptr (nam : Name)

def step (σ : Registry V P) : Op V P → Registry V P × Res V P
  | .register nam v => register σ nam v
  | .unregister nam => unregister σ nam
  | .isRegistered nam => (σ, .bool (isRegistered σ nam))
  | .getValueptr nam => (σ, .ptr (getValueptr σ nam))
  | .getValue mvp => (σ, getValue σ mvp)
  | .registercptr nam p => registercptr σ nam p
  | .getcptr nam => (σ, getcptr σ nam)

/-- The registry after a history of operations. -/
def after (σ : Registry V P) (ops : List (Op V P)) : Registry V P :=
  ops.foldl (fun σ o => (step σ o).1) σ

end Mosml.Lazy
