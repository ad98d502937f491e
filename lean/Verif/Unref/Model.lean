import Verif.Util

/-!
# Local references as stack cells

Source: `src/compiler/Back.sml`, `unref` (l.293-349) and `opt_refs` (l.366-384).
`let val r = ref e in .. !r .. r := e' .. end` becomes a `let` whose variable is
assigned, when the variable is used in no other way.

The terms are those that lifting (`lftexp`) makes: a variable is the place of
its stack slot, counted from the bottom of the frame, or, if negative, one of
the free variables of the function; functions are closures `closure lbl` of
the free variables.

Not modelled: strings, reals, and all primitives but those of `Prim`; the
operation `opt_refs` treats them all alike.
-/

namespace Mosml.Unref

inductive Prim
  /-- `Pmakeblock (CONtag (tag, span))` -/
  | mk (tag span : Nat)
  /-- `Pfield` -/
  | field (k : Nat)
  /-- `Psetfield` -/
  | setfield (k : Nat)
  /-- `Pclosure` -/
  | closure (lbl : Nat)
  /-- `Praise` -/
  | raise
  /-- `Ptest Peq_test`: equality of words, so that of addresses. -/
  | eq
  /-- `Psmladdint`, without overflow. -/
  | add
  deriving DecidableEq

/-- `datatype Lambda` (`Lambda.sml:8-28`).  An `Lshared` node is known by a
number; what it stands for is kept in a store. -/
inductive Lam
  | var (n : Int)
  | assign (n : Int) (e : Lam)
  | const (z : Int)
  | apply (f : Lam) (args : List Lam)
  | lett (args : List Lam) (body : Lam)
  | letrec (args : List Lam) (body : Lam)
  | prim (p : Prim) (args : List Lam)
  | statichandle (body handler : Lam)
  | staticfail
  | handle (body handler : Lam)
  | cond (c a b : Lam)
  | seq (a b : Lam)
  | while (c b : Lam)
  | andalso (a b : Lam)
  | orelse (a b : Lam)
  /-- `Lcase`: the clauses, keys and actions apart. -/
  | case (arg : Lam) (keys : List Int) (acts : List Lam)
  /-- `Lswitch`, on the tag of a block. -/
  | switch (arg : Lam) (keys : List Nat) (acts : List Lam)
  | unspec
  | shared (j : Nat)

/-- The shared nodes: what each stands for, and its label.  A label that is
negative tells which pass has seen the node. -/
structure Store where
  term : Nat → Lam
  label : Nat → Int

def Store.put (S : Store) (j : Nat) (e : Lam) : Store :=
  { S with term := fun k => if k = j then e else S.term k }

def Store.mark (S : Store) (j : Nat) (l : Int) : Store :=
  { S with label := fun k => if k = j then l else S.label k }

/-- The outcome of a pass: a term, or the exception `Refs'R'Us`.  What has been
done to the store stays done in both cases. -/
inductive Out (α : Type)
  | ok (e : α) (S : Store)
  | raised (S : Store)

/-- A pass over a term.  `none`: the bound on the depth of nodes was too
small. -/
abbrev M (α : Type) := Store → Option (Out α)

def M.ret {α} (a : α) : M α := fun S => some (.ok a S)

def M.bind {α β} (m : M α) (f : α → M β) : M β := fun S =>
  match m S with
  | some (.ok a S') => f a S'
  | some (.raised S') => some (.raised S')
  | none => none

/-- `List.map`, from left to right. -/
def mapM (f : Lam → M Lam) : List Lam → M (List Lam)
  | [] => .ret []
  | e :: es => M.bind (f e) fun e' => M.bind (mapM f es) fun es' => .ret (e' :: es')

/-- `unref` (`Back.sml:293-349`): `i` is the variable, `c` the value of
`labelNotCtr`.  The first argument bounds the depth to which nodes are
followed. -/
def unref : Nat → Int → Int → Lam → M Lam
  | 0, _, _, _ => fun _ => none
  | n + 1, i, c, e =>
    match e with
    | .var v => if v = i then fun S => some (.raised S) else .ret (.var v)
    | .assign v a => (unref n i c a).bind fun a => .ret (.assign v a)
    | .const z => .ret (.const z)
    | .apply f args =>
      (unref n i c f).bind fun f => (mapM (unref n i c) args).bind fun args => .ret (.apply f args)
    | .lett args body =>
      (mapM (unref n i c) args).bind fun args => (unref n i c body).bind fun body =>
        .ret (.lett args body)
    | .letrec args body =>
      (mapM (unref n i c) args).bind fun args => (unref n i c body).bind fun body =>
        .ret (.letrec args body)
    | .prim (.field 0) [.var v] => if v = i then .ret (.var v) else .ret (.prim (.field 0) [.var v])
    | .prim (.setfield 0) [.var v, a] =>
      if v = i then (unref n i c a).bind fun a => .ret (.assign i a)
      else (unref n i c a).bind fun a => .ret (.prim (.setfield 0) [.var v, a])
    | .prim p args => (mapM (unref n i c) args).bind fun args => .ret (.prim p args)
    | .statichandle a b =>
      (unref n i c a).bind fun a => (unref n i c b).bind fun b => .ret (.statichandle a b)
    | .staticfail => .ret .staticfail
    | .handle a b => (unref n i c a).bind fun a => (unref n i c b).bind fun b => .ret (.handle a b)
    | .cond x a b =>
      (unref n i c x).bind fun x => (unref n i c a).bind fun a => (unref n i c b).bind fun b =>
        .ret (.cond x a b)
    | .seq a b => (unref n i c a).bind fun a => (unref n i c b).bind fun b => .ret (.seq a b)
    | .while a b => (unref n i c a).bind fun a => (unref n i c b).bind fun b => .ret (.while a b)
    | .andalso a b => (unref n i c a).bind fun a => (unref n i c b).bind fun b => .ret (.andalso a b)
    | .orelse a b => (unref n i c a).bind fun a => (unref n i c b).bind fun b => .ret (.orelse a b)
    | .case a ks acts =>
      (unref n i c a).bind fun a => (mapM (unref n i c) acts).bind fun acts => .ret (.case a ks acts)
    | .switch a ks acts =>
      (unref n i c a).bind fun a => (mapM (unref n i c) acts).bind fun acts => .ret (.switch a ks acts)
    | .unspec => .ret .unspec
    | .shared j => fun S =>
      if S.label j ≠ c then
        match unref n i c (S.term j) (S.mark j c) with
        | some (.ok e S') => some (.ok (.shared j) (S'.put j e))
        | some (.raised S') => some (.raised S')
        | none => none
      else some (.ok (.shared j) S)

/-- The term of an argument that may become a stack cell: a block with one field
and span 1.  (The pattern `CONtag(refTag,1)` binds `refTag`: any tag will do.) -/
def cellOf : Lam → Option Lam
  | .prim (.mk _ 1) [e] => some e
  | _ => none

/-- One attempt (`Back.sml:374-375`): the arguments after the block, and the
body. -/
def pass (n : Nat) (i c : Int) (acc : List Lam) (body : Lam) : M (List Lam × Lam) :=
  M.bind (mapM (unref n i c) acc) fun acc' =>
    M.bind (unref n i c body) fun body' => .ret (acc', body')

/-- `opt_refs` (`Back.sml:367-384`), without the final `Llet`: `rest` are the
arguments that remain, the last one first, `i` is the place of the first of
them, `acc` are those that have been dealt with and `c` is `labelNotCtr`.
`newLabelNot` decreases `labelNotCtr`. -/
def optRefs (n : Nat) : List Lam → Int → Int → List Lam → Lam → Store → Option (List Lam × Lam × Store)
  | [], _, _, acc, body, S => some (acc, body, S)
  | x :: rest, i, c, acc, body, S =>
    match cellOf x with
    | some e =>
      (match pass n i (c - 1) acc body S with
       | some (.ok (acc', body') S') => optRefs n rest (i - 1) (c - 1) (e :: acc') body' S'
       | some (.raised S') => optRefs n rest (i - 1) (c - 1) (x :: acc) body S'
       | none => none)
    | none => optRefs n rest (i - 1) c (x :: acc) body S

/-- What becomes of `Llet (args, body)` at depth `d` when the arguments and the
body have been lifted (`Back.sml:385-389`). -/
def optLet (n : Nat) (c : Int) (d : Nat) (args : List Lam) (body : Lam) (S : Store) :
    Option (Lam × Store) :=
  match optRefs n args.reverse (d + args.length - 1) c [] body S with
  | some (args', body', S') => some (.lett args' body', S')
  | none => none

end Mosml.Unref
