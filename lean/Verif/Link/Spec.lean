import Verif.Link.Model

/-!
# What linking should achieve

A program is the sequence of all phrases of all its units in order, each unit followed by
the publication of its exported names.  Running a phrase is left abstract: it reads
globals and either goes on, having produced some events and values for the globals it
sets, or stops for good.
-/

namespace Mosml.Link

open Mosml.Emit (Uid Reloc SC Lk)

/-- The globals set by relocations. -/
def setsOf : List (Reloc × Nat) → List Uid
  | [] => []
  | (.setglobal u, _) :: rs => u :: setsOf rs
  | _ :: rs => setsOf rs

/-- The globals read by relocations. -/
def getsOf : List (Reloc × Nat) → List Uid
  | [] => []
  | (.getglobal u, _) :: rs => u :: getsOf rs
  | _ :: rs => getsOf rs

def Phrase.sets (p : Phrase) : List Uid := setsOf p.others
def Phrase.gets (p : Phrase) : List Uid := getsOf p.others

/-- One step of the whole program: a phrase, or making `v` known under the name `u`. -/
inductive Item where
  | phrase (p : Phrase)
  | publish (u v : Uid)

/-- The whole of a unit: its phrases (the index has them in reverse), then its exported
names. -/
def unitItems (u : Name × Tables) : List Item :=
  u.2.index.reverse.map .phrase ++
    u.2.vals.reverse.map fun v => .publish (qid u.1 v.1, 0) (qid u.1 v.1, v.2)

/-- The whole program, the units given in order. -/
def program (units : List (Name × Tables)) : List Item := units.flatMap unitItems

/-- How the execution of a phrase may end. -/
inductive Out (V E X : Type) where
  | stop (x : X)
  | go (es : List E) (w : Uid → V)

/-- The behaviour of phrases, given the values of globals. -/
abbrev Beh (V E X : Type) := Phrase → (Uid → Option V) → Out V E X

/-- A phrase only depends on the globals that it reads and does not itself set. -/
def Beh.Local {V E X : Type} (B : Beh V E X) : Prop :=
  ∀ p ρ ρ', (∀ u ∈ p.gets, u ∉ p.sets → ρ u = ρ' u) → B p ρ = B p ρ'

/-- Running all the phrases. -/
def run {V E X : Type} (B : Beh V E X) : List Item → (Uid → Option V) → List E × Option X
  | [], _ => ([], none)
  | .phrase p :: is, ρ =>
      match B p ρ with
      | .stop x => ([], some x)
      | .go es w =>
          let r := run B is (fun u => if u ∈ p.sets then some (w u) else ρ u)
          (es ++ r.1, r.2)
  | .publish u v :: is, ρ => run B is (fun y => if y = u then ρ v else ρ y)

/-- In this execution the phrases marked pure go on and have no events. -/
def Silent {V E X : Type} (B : Beh V E X) : List Item → (Uid → Option V) → Prop
  | [], _ => True
  | .phrase p :: is, ρ =>
      (p.pure = true → ∃ w, B p ρ = .go [] w) ∧
        ∀ es w, B p ρ = .go es w → Silent B is (fun u => if u ∈ p.sets then some (w u) else ρ u)
  | .publish u v :: is, ρ => Silent B is (fun y => if y = u then ρ v else ρ y)

/-- Storing the globals `us` in their slots. -/
def write {V : Type} (lk : Lk) (us : List Uid) (w : Uid → V) (M : Nat → Option V) (s : Nat) :
    Option V :=
  match us.find? (fun u => lk.lookup u = some s) with
  | some u => some (w u)
  | none => M s

/-- Running linked code: globals live in slots, whose numbers were fixed when the phrase
was linked. -/
def runLinked {V E X : Type} (B : Beh V E X) :
    List (List Nat × Phrase × Lk) → (Nat → Option V) → List E × Option X
  | [], _ => ([], none)
  | (_, p, lk) :: is, M =>
      match B p (fun u => (lk.lookup u).bind M) with
      | .stop x => ([], some x)
      | .go es w =>
          let r := runLinked B is (write lk p.sets w M)
          (es ++ r.1, r.2)

/-- All phrases would link in this order, starting with the globals `D` known: a phrase
reads what is known or what it has set before, and nothing is defined twice. -/
inductive Closed : (Uid → Prop) → List Item → Prop where
  | nil {D} : Closed D []
  | phrase {D p is} :
      (∀ pre u pos post, p.others = pre ++ (.getglobal u, pos) :: post → D u ∨ u ∈ setsOf pre) →
      (∀ u ∈ p.sets, ¬ D u) →
      Closed (fun u => D u ∨ u ∈ p.sets) is → Closed D (.phrase p :: is)
  | publish {D u v is} : D v → ¬ D u → Closed (fun y => D y ∨ y = u) is →
      Closed D (.publish u v :: is)

/-- The C primitives of a phrase are available. -/
def PrimsOk (prims : String → Option Nat) (p : Phrase) : Prop :=
  ∀ f pos, (Reloc.primitive f, pos) ∈ p.others → ∃ v, prims f = some v ∧ v < 65536

/-- The items of the units as reduced by the second pass. -/
def reqItems (rs : List Req) : List Item :=
  rs.flatMap fun r =>
    r.required.map .phrase ++
      r.exported.map fun v => .publish (qid r.name v.1, 0) (qid r.name v.1, v.2)

/-- What an item reads and defines. -/
def Item.reads : Item → List Uid
  | .phrase p => p.gets
  | .publish _ v => [v]

def Item.defines : Item → List Uid
  | .phrase p => p.sets
  | .publish u _ => [u]

end Mosml.Link

namespace Mosml.Link

/-- Each unit comes after the units it mentions (the last unit is first in the list), with
the stamps it was compiled against, and no unit comes twice. -/
def InOrder : List (Name × Tables) → Prop
  | [] => True
  | u :: b =>
      u.1 ∉ b.map (·.1) ∧ (∀ m ∈ u.2.mentions, ∃ t, (m.1, t) ∈ b ∧ t.stamp = m.2) ∧ InOrder b

/-- The units needed by the units listed. -/
inductive Reach (env : Env) (roots : List Name) : Name → Prop where
  | root {n} : n ∈ roots → Reach env roots n
  | step {n t m} : Reach env roots n → env.files n = some t → m ∈ t.mentions →
      Reach env roots m.1

/-- Nothing is wrong with the units needed: they can be read, are not reserved, were
compiled against each other, and do not depend on themselves. -/
structure Linkable (env : Env) (roots : List Name) (rank : Name → Nat) : Prop where
  readable : ∀ n, Reach env roots n → ∃ t, env.files n = some t
  free : ∀ n, Reach env roots n → n ∉ env.reserved
  stamps : ∀ n t m t', Reach env roots n → env.files n = some t → m ∈ t.mentions →
    env.files m.1 = some t' → t'.stamp = m.2
  acyclic : ∀ n t m, Reach env roots n → env.files n = some t → m ∈ t.mentions →
    rank m.1 < rank n

end Mosml.Link

namespace Mosml.Link

open Mosml.Emit (Uid)

/-- All that a unit defines. -/
def unitDefs (u : Name × Tables) : List Uid := (unitItems u).flatMap Item.defines

/-- A unit by itself is in order: its definitions carry its name and are not predefined;
it reads only what is predefined, what a unit it mentions defines, and what it has
defined before; and it defines nothing twice. -/
structure UnitOk (env : Env) (pre : Uid → Prop) (u : Name × Tables) : Prop where
  own : ∀ x ∈ unitDefs u, (∃ i, x.1 = qid u.1 i) ∧ ¬ pre x
  closed : Closed (fun x => pre x ∨ ∃ m ∈ u.2.mentions, ∃ t, env.files m.1 = some t ∧
    x ∈ unitDefs (m.1, t)) (unitItems u)

end Mosml.Link
