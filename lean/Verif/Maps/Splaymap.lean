import Verif.Maps.Sorted

/-!
src/mosmllib/Splaytree.sml and Splaymap.sml.  A dictionary has a reference cell of its own for its root, which lookups assign; the
memory is modelled as the list of the dictionaries made so far.  The comparison function has no effects.
-/
namespace Mosml.Maps.Splaymap

/-- Splaytree.sml:9-13 -/
inductive Splay (A : Type) where
  | SplayObj (value : A) (left right : Splay A)
  | SplayNil
  deriving DecidableEq

open Splay

/-- Splaytree.sml:15 -/
inductive Ans (A : Type) where
  | No
  | Eq (a : A)
  | Lt (a : A)
  | Gt (a : A)

variable {A : Type}

/-- Splaytree.sml:18-82 -/
def adj (compf : A → Ordering) : Splay A → Ans A × Splay A × Splay A
  | SplayNil => (.No, SplayNil, SplayNil)
  | SplayObj value left right =>
    match compf value with
    | .eq => (.Eq value, left, right)
    | .gt =>
      match left with
      | SplayNil => (.Gt value, SplayNil, right)
      | SplayObj value' left' right' =>
        match compf value' with
        | .eq => (.Eq value', left', SplayObj value right' right)
        | .gt =>
          match left' with
          | SplayNil => (.Gt value', SplayNil, SplayObj value right' right)
          | SplayObj a b c =>
            let r := adj compf (SplayObj a b c)
            let rchild := SplayObj value right' right
            (r.1, r.2.1, SplayObj value' r.2.2 rchild)
        | .lt =>
          match right' with
          | SplayNil => (.Lt value', left', SplayObj value SplayNil right)
          | SplayObj a b c =>
            let r := adj compf (SplayObj a b c)
            let rchild := SplayObj value r.2.2 right
            let lchild := SplayObj value' left' r.2.1
            (r.1, lchild, rchild)
    | .lt =>
      match right with
      | SplayNil => (.Lt value, left, SplayNil)
      | SplayObj value' left' right' =>
        match compf value' with
        | .eq => (.Eq value', SplayObj value left left', right')
        | .lt =>
          match right' with
          | SplayNil => (.Lt value', SplayObj value left left', SplayNil)
          | SplayObj a b c =>
            let r := adj compf (SplayObj a b c)
            let lchild := SplayObj value left left'
            (r.1, SplayObj value' lchild r.2.1, r.2.2)
        | .gt =>
          match left' with
          | SplayNil => (.Gt value', SplayObj value left SplayNil, right')
          | SplayObj a b c =>
            let r := adj compf (SplayObj a b c)
            let rchild := SplayObj value' r.2.2 right'
            let lchild := SplayObj value left r.2.1
            (r.1, lchild, rchild)

/-- Splaytree.sml:84-89 -/
def splay (compf : A → Ordering) (root : Splay A) : Ordering × Splay A :=
  match adj compf root with
  | (.No, _, _) => (.gt, SplayNil)
  | (.Eq v, l, r) => (.eq, SplayObj v l r)
  | (.Lt v, l, r) => (.lt, SplayObj v l r)
  | (.Gt v, l, r) => (.gt, SplayObj v l r)

/-- Splaytree.sml:91-96; the tree is given as its root value and its subtrees when it is not empty -/
def lrotateObj (value : A) (left : Splay A) : Splay A → Splay A
  | SplayNil => SplayObj value left SplayNil
  | SplayObj v l r => lrotateObj v (SplayObj value left l) r

def lrotate : Splay A → Splay A
  | SplayNil => SplayNil
  | SplayObj value left right => lrotateObj value left right

/-- Splaytree.sml:98-104 -/
def join : Splay A → Splay A → Splay A
  | SplayNil, SplayNil => SplayNil
  | SplayNil, t => t
  | t, SplayNil => t
  | l, r =>
    match lrotate l with
    | SplayNil => r
    | SplayObj value left _ => SplayObj value left r

variable {K V : Type}

/-- Splaymap.sml:11-14; the comparison function is kept apart, `root` is the contents of the reference -/
structure Dict (K V : Type) where
  root : Splay (K × V)
  nobj : Int
  deriving DecidableEq

/-- Splaymap.sml:18 -/
def cmpf (cmp : K → K → Ordering) (k : K) : K × V → Ordering := fun p => cmp p.1 k

/-- Splaymap.sml:20 -/
def mkDict : Dict K V := ⟨SplayNil, 0⟩

/-- Splaymap.sml:23-49 -/
def insert (cmp : K → K → Ordering) (d : Dict K V) (key : K) (v : V) : Dict K V :=
  match splay (cmpf cmp key) d.root with
  | (_, SplayNil) => ⟨SplayObj (key, v) SplayNil SplayNil, 1⟩
  | (.eq, SplayObj _ left right) => ⟨SplayObj (key, v) left right, d.nobj⟩
  | (.lt, SplayObj value left right) => ⟨SplayObj (key, v) (SplayObj value left SplayNil) right, d.nobj + 1⟩
  | (.gt, SplayObj value left right) => ⟨SplayObj (key, v) left (SplayObj value SplayNil right), d.nobj + 1⟩

/-- Splaymap.sml:52-59 `find`, `peek`: the value (`none` is NotFound) and the dictionary with its new root -/
def find (cmp : K → K → Ordering) (d : Dict K V) (key : K) : Option V × Dict K V :=
  match splay (cmpf cmp key) d.root with
  | (_, SplayNil) => (none, d)
  | (.eq, SplayObj value l r) => (some value.2, { d with root := SplayObj value l r })
  | (_, r) => (none, { d with root := r })

/-- Splaymap.sml:62-69: the new dictionary and the value (`none` is NotFound), and the old dictionary with its new root -/
def remove (cmp : K → K → Ordering) (d : Dict K V) (key : K) : Option (Dict K V × V) × Dict K V :=
  match splay (cmpf cmp key) d.root with
  | (_, SplayNil) => (none, d)
  | (.eq, SplayObj value left right) => (some (⟨join left right, d.nobj - 1⟩, value.2), d)
  | (_, r) => (none, { d with root := r })

/-- Splaymap.sml:72 -/
def numItems (d : Dict K V) : Int := d.nobj

/-- Splaymap.sml:75-79 -/
def applyList : Splay A → List A → List A
  | SplayNil, res => res
  | SplayObj value left right, res => applyList left (value :: applyList right res)

def listItems (d : Dict K V) : List (K × V) := applyList d.root []

/-- Splaymap.sml:82-88; `f` acts on a state -/
def app {S : Type} (f : A → S → S) : Splay A → S → S
  | SplayNil, s => s
  | SplayObj value left right, s => app f right (f value (app f left s))

/-- Splaymap.sml:90-94 -/
def revapp {S : Type} (f : A → S → S) : Splay A → S → S
  | SplayNil, s => s
  | SplayObj value left right, s => revapp f left (f value (revapp f right s))

/-- Splaymap.sml:97-101 -/
def foldr {S : Type} (f : K × V × S → S) : Splay (K × V) → S → S
  | SplayNil, s => s
  | SplayObj value left right, s => foldr f left (f (value.1, value.2, foldr f right s))

/-- Splaymap.sml:103-107 -/
def foldl {S : Type} (f : K × V × S → S) : Splay (K × V) → S → S
  | SplayNil, s => s
  | SplayObj value left right, s => foldl f right (f (value.1, value.2, foldl f left s))

/-- Splaymap.sml:110-129 `map`, and `transform` when `f` looks at the value only -/
def map {S W : Type} (f : K × V → S → W × S) : Splay (K × V) → S → Splay (K × W) × S
  | SplayNil, s => (SplayNil, s)
  | SplayObj value left right, s =>
    let (left', s) := map f left s
    let (v, s) := f value s
    let (right', s) := map f right s
    (SplayObj (value.1, v) left' right', s)

end Mosml.Maps.Splaymap
