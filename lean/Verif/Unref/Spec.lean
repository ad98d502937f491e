import Verif.Unref.Model

/-!
# What lifted terms mean

An evaluator with slots and a heap.  Every block, closures included, is in the
heap; the address of the `k`th block that is made is `al k`.  `eval` is given a
bound on the depth of its own recursion; `none` stands for "not found yet" and
for terms that go wrong.  A function is called with as many arguments as it
takes (partial and over-application are the subject of C31).
-/

namespace Mosml.Unref

inductive Val
  | int (z : Int)
  | atom (t : Nat)
  | addr (a : Nat)
  deriving DecidableEq

inductive Cell
  | block (tag : Nat) (fields : List Val)
  | clos (lbl : Nat) (fields : List Val)
  deriving DecidableEq

def Cell.fields : Cell → List Val
  | .block _ l => l
  | .clos _ l => l

structure St where
  env : Int → Option Val
  heap : Nat → Option Cell
  /-- The number of blocks made. -/
  k : Nat

inductive Res
  | val (v : Val)
  | exn (v : Val)
  | fail
  deriving DecidableEq

inductive Ress
  | vals (vs : List Val)
  | stop (r : Res)

/-- A function: how many arguments it takes, its body and its shared nodes. -/
structure Fn where
  nargs : Nat
  body : Lam
  nodes : Nat → Lam

abbrev Ev := St → Option (Res × St)

def St.set (s : St) (x : Int) (v : Val) : St :=
  { s with env := fun y => if y = x then some v else s.env y }

def St.put (s : St) (a : Nat) (c : Cell) : St :=
  { s with heap := fun b => if b = a then some c else s.heap b }

/-- A new block. -/
def St.alloc (al : Nat → Nat) (s : St) (c : Cell) : St :=
  { s.put (al s.k) c with k := s.k + 1 }

/-- Go on with the value, if there is one. -/
def andThen (m : Option (Res × St)) (f : Val → Ev) : Option (Res × St) :=
  match m with
  | some (.val v, s) => f v s
  | m => m

def andThens (m : Option (Ress × St)) (f : List Val → Ev) : Option (Res × St) :=
  match m with
  | some (.vals vs, s) => f vs s
  | some (.stop r, s) => some (r, s)
  | none => none

def evalLR (ev : Lam → Ev) : List Lam → St → Option (Ress × St)
  | [], s => some (.vals [], s)
  | e :: es, s =>
    match ev e s with
    | some (.val v, s) =>
      (match evalLR ev es s with
       | some (.vals vs, s) => some (.vals (v :: vs), s)
       | r => r)
    | some (r, s) => some (.stop r, s)
    | none => none

def evalRL (ev : Lam → Ev) : List Lam → St → Option (Ress × St)
  | [], s => some (.vals [], s)
  | e :: es, s =>
    match evalRL ev es s with
    | some (.vals vs, s) =>
      (match ev e s with
       | some (.val v, s) => some (.vals (v :: vs), s)
       | some (r, s) => some (.stop r, s)
       | none => none)
    | r => r

/-- The arguments of a `let`, each put into its slot. -/
def evalLets (ev : Nat → Lam → Ev) (d : Nat) : List Lam → St → Option (Ress × St)
  | [], s => some (.vals [], s)
  | e :: es, s =>
    match ev d e s with
    | some (.val v, s) => evalLets ev (d + 1) es (s.set d v)
    | some (r, s) => some (.stop r, s)
    | none => none

/-- Room for the closures of a `letrec`. -/
def dummies (al : Nat → Nat) (d : Nat) : List Lam → St → St
  | [], s => s
  | _ :: es, s => dummies al (d + 1) es ((s.alloc al (.clos 0 [])).set d (.addr (al s.k)))

/-- The closures of a `letrec`. -/
def fills (ev : Lam → Ev) (d : Nat) : List Lam → St → Option (Ress × St)
  | [], s => some (.vals [], s)
  | .prim (.closure lbl) fre :: es, s =>
    (match evalLR ev fre s with
     | some (.vals vs, s) =>
       (match s.env d with
        | some (.addr a) => fills ev (d + 1) es (s.put a (.clos lbl vs))
        | _ => none)
     | r => r)
  | _ :: _, _ => none

def bool (b : Bool) : Val := .atom (if b then 1 else 0)

def truth : Val → Option Bool
  | .atom t => some (t != 0)
  | _ => none

def Cell.setField : Cell → Nat → Val → Option Cell
  | .block t l, k, v => if k < l.length then some (.block t (l.set k v)) else none
  | _, _, _ => none

def primSem (al : Nat → Nat) : Prim → List Val → Ev
  | .mk t _, vs, s => some (.val (.addr (al s.k)), s.alloc al (.block t vs))
  | .closure l, vs, s => some (.val (.addr (al s.k)), s.alloc al (.clos l vs))
  | .field k, [.addr a], s =>
    (match s.heap a with
     | some c => (c.fields[k]?).map fun v => (.val v, s)
     | none => none)
  | .setfield k, [.addr a, v], s =>
    (match s.heap a with
     | some c => (c.setField k v).map fun c => (.val (.atom 0), s.put a c)
     | none => none)
  | .raise, [v], s => some (.exn v, s)
  | .eq, [v, w], s => some (.val (bool (v == w)), s)
  | .add, [.int a, .int b], s => some (.val (.int (a + b)), s)
  | _, _, _ => none

/-- The clause of a case. -/
def pick {α} [BEq α] (x : α) : List α → List Lam → Option Lam
  | k :: ks, e :: es => if k == x then some e else pick x ks es
  | _, _ => none

def orFail (f : Lam → Ev) : Option Lam → Ev
  | some e, s => f e s
  | none, s => some (.fail, s)

def tagOf (s : St) : Val → Option Nat
  | .atom t => some t
  | .addr a =>
    match s.heap a with
    | some (.block t _) => some t
    | _ => none
  | .int _ => none

/-- The slots of a function that is called. -/
def frame (args fields : List Val) : Int → Option Val := fun x =>
  if x < 0 then fields[(-1 - x).toNat]? else args[x.toNat]?

def eval (F : Nat → Option Fn) (al : Nat → Nat) : Nat → (Nat → Lam) → Nat → Lam → Ev
  | 0, _, _, _, _ => none
  | n + 1, N, d, e, s =>
    match e with
    | .var x => (s.env x).map fun v => (.val v, s)
    | .assign x a => andThen (eval F al n N d a s) fun v s => some (.val (.atom 0), s.set x v)
    | .const z => some (.val (.int z), s)
    | .apply f args =>
      andThens (evalRL (eval F al n N d) args s) fun vs s =>
        andThen (eval F al n N d f s) fun g s =>
          match g with
          | .addr a =>
            (match s.heap a with
             | some (.clos lbl fre) =>
               (match F lbl with
                | some fn =>
                  if fn.nargs = vs.length then
                    match eval F al n fn.nodes fn.nargs fn.body { s with env := frame vs fre } with
                    | some (r, s') => some (r, { s' with env := s.env })
                    | none => none
                  else none
                | none => none)
             | _ => none)
          | _ => none
    | .lett args body =>
      andThens (evalLets (eval F al n N) d args s) fun _ s => eval F al n N (d + args.length) body s
    | .letrec args body =>
      andThens (fills (eval F al n N (d + args.length)) d args (dummies al d args s)) fun _ s =>
        eval F al n N (d + args.length) body s
    | .prim p args => andThens (evalLR (eval F al n N d) args s) (primSem al p)
    | .statichandle a b =>
      (match eval F al n N d a s with
       | some (.fail, s) => eval F al n N d b s
       | r => r)
    | .staticfail => some (.fail, s)
    | .handle a b =>
      (match eval F al n N d a s with
       | some (.exn v, s) => eval F al n N (d + 1) b (s.set d v)
       | r => r)
    | .cond c a b =>
      andThen (eval F al n N d c s) fun v s =>
        match truth v with
        | some true => eval F al n N d a s
        | some false => eval F al n N d b s
        | none => none
    | .seq a b => andThen (eval F al n N d a s) fun _ s => eval F al n N d b s
    | .while c b =>
      andThen (eval F al n N d c s) fun v s =>
        match truth v with
        | some true => andThen (eval F al n N d b s) fun _ s => eval F al n N d (.while c b) s
        | some false => some (.val (.atom 0), s)
        | none => none
    | .andalso a b =>
      andThen (eval F al n N d a s) fun v s =>
        match truth v with
        | some true => eval F al n N d b s
        | some false => some (.val v, s)
        | none => none
    | .orelse a b =>
      andThen (eval F al n N d a s) fun v s =>
        match truth v with
        | some true => some (.val v, s)
        | some false => eval F al n N d b s
        | none => none
    | .case a ks acts =>
      andThen (eval F al n N d a s) fun v s =>
        match v with
        | .int z => orFail (eval F al n N d) (pick z ks acts) s
        | _ => none
    | .switch a ks acts =>
      andThen (eval F al n N d a s) fun v s =>
        match tagOf s v with
        | some t => orFail (eval F al n N d) (pick t ks acts) s
        | none => none
    | .unspec => none
    | .shared j => eval F al n N d (N j) s

/-- The result does not refer to the block at `a0`. -/
def Res.No (a0 : Nat) : Res → Prop
  | .val v => v ≠ .addr a0
  | .exn v => v ≠ .addr a0
  | .fail => True

/-- The addresses of blocks yet to be made are not in use. -/
def Fresh (al : Nat → Nat) (s : St) : Prop :=
  ∀ j, s.k ≤ j → s.heap (al j) = none ∧
    (∀ b c, s.heap b = some c → ∀ v ∈ c.fields, v ≠ .addr (al j)) ∧
    ∀ x v, s.env x = some v → v ≠ .addr (al j)

/-- The states after a run and after one that leaves out the blocks `D`; `s` is
the state before both, and the slots from `d` on are no longer in use. -/
structure Agree (al : Nat → Nat) (d : Nat) (s : St) (D : Nat → Prop) (r : Res) (s1 s1' : St) :
    Prop where
  new : ∀ a, D a → ∃ j, s.k ≤ j ∧ a = al j
  heap : ∀ b, ¬ D b → s1.heap b = s1'.heap b
  gone : ∀ b, D b → s1'.heap b = none
  cells : ∀ b c, s1'.heap b = some c → ∀ v ∈ c.fields, ∀ a, D a → v ≠ .addr a
  env : ∀ x : Int, x < d → s1.env x = s1'.env x ∧
    ∀ v, s1'.env x = some v → ∀ a, D a → v ≠ .addr a
  res : ∀ a, D a → r.No a

/-- Wherever `e` ends, `e'` ends in the same way, in a state that lacks some
blocks made by `e`, to which nothing that remains refers.  `N` and `N'` are the
shared nodes. -/
def Sound (N : Nat → Lam) (d : Nat) (e : Lam) (N' : Nat → Lam) (e' : Lam) : Prop :=
  ∀ F al s n r s1, Function.Injective al → Fresh al s → eval F al n N d e s = some (r, s1) →
    ∃ (g : Nat → Nat) (D : Nat → Prop) (s1' : St), (∀ a b, a < b → g a < g b) ∧
      eval F (fun j => al (g j)) n N' d e' s = some (r, s1') ∧ Agree al d s D r s1 s1'

end Mosml.Unref
