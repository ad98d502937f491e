import Verif.Sets.Order
import Verif.Maps.Splaymap

/-!
src/mosmllib/Splayset.sml (Splaytree.sml is modelled in Verif.Maps.Splaymap).  A set has a reference cell of its own for its root, which
lookups assign.  The comparison function has no effects.  `int` counts are integers without bound.
-/
namespace Mosml.Sets.Splayset
open Mosml.Maps.Splaymap (Splay splay join)
open Mosml.Maps.Splaymap.Splay

variable {K : Type}

/-- Splayset.sml:12-15; the comparison function is kept apart, `root` is the contents of the reference -/
structure OSet (K : Type) where
  root : Splay K
  nobj : Int
  deriving DecidableEq

/-- Splayset.sml:18 -/
def cmpf (cmp : K → K → Ordering) (k : K) : K → Ordering := fun k' => cmp k' k

/-- Splayset.sml:20 -/
def empty : OSet K := ⟨SplayNil, 0⟩

/-- Splayset.sml:22-25 -/
def singleton (v : K) : OSet K := ⟨SplayObj v SplayNil SplayNil, 1⟩

/-- Splayset.sml:28-45 -/
def insert (cmp : K → K → Ordering) (v : K) (nobj : Int) (root : Splay K) : Int × Splay K :=
  match splay (cmpf cmp v) root with
  | (_, SplayNil) => (1, SplayObj v SplayNil SplayNil)
  | (.eq, SplayObj _ left right) => (nobj, SplayObj v left right)
  | (.lt, SplayObj value left right) => (nobj + 1, SplayObj v (SplayObj value left SplayNil) right)
  | (.gt, SplayObj value left right) => (nobj + 1, SplayObj v left (SplayObj value SplayNil right))

/-- Splayset.sml:48-52 -/
def add (cmp : K → K → Ordering) (s : OSet K) (v : K) : OSet K :=
  let r := insert cmp v s.nobj s.root
  ⟨r.2, r.1⟩

/-- Splayset.sml:55-57 -/
def addList (cmp : K → K → Ordering) (s : OSet K) (l : List K) : OSet K :=
  let r := l.foldl (fun a v => insert cmp v a.1 a.2) (s.nobj, s.root)
  ⟨r.2, r.1⟩

/-- Splayset.sml:60-70 `peek`, `member`, `retrieve`: the element (`none` is NONE, false or NotFound) and the set with its new root -/
def peek (cmp : K → K → Ordering) (s : OSet K) (key : K) : Option K × OSet K :=
  match splay (cmpf cmp key) s.root with
  | (_, SplayNil) => (none, s)
  | (.eq, SplayObj value l r) => (some value, { s with root := SplayObj value l r })
  | (_, r) => (none, { s with root := r })

/-- Splayset.sml:75-80: the new set (`none` is NotFound), and the old set with its new root -/
def delete (cmp : K → K → Ordering) (s : OSet K) (key : K) : Option (OSet K) × OSet K :=
  match splay (cmpf cmp key) s.root with
  | (_, SplayNil) => (none, s)
  | (.eq, SplayObj _ left right) => (some ⟨join left right, s.nobj - 1⟩, s)
  | (_, r) => (none, { s with root := r })

/-- Splayset.sml:83 -/
def numItems (s : OSet K) : Int := s.nobj

/-- Splayset.sml:85-86 -/
def isEmpty (s : OSet K) : Bool := s.nobj == 0

/-- Splayset.sml:89-96 -/
def mbr (cmp : K → K → Ordering) (x : K) : Splay K → Bool
  | SplayNil => false
  | SplayObj value left right =>
    match cmp x value with
    | .lt => mbr cmp x left
    | .gt => mbr cmp x right
    | _ => true

/-- Splayset.sml:99-111; `t'` is the other tree -/
def isIn (cmp : K → K → Ordering) (t' : Splay K) : Splay K → Bool
  | SplayNil => true
  | SplayObj value SplayNil SplayNil => mbr cmp value t'
  | SplayObj value left SplayNil => mbr cmp value t' && isIn cmp t' left
  | SplayObj value SplayNil right => mbr cmp value t' && isIn cmp t' right
  | SplayObj value left right => mbr cmp value t' && isIn cmp t' left && isIn cmp t' right

/-- Splayset.sml:113-114 -/
def isSubset (cmp : K → K → Ordering) (s s' : OSet K) : Bool := decide (s.nobj ≤ s'.nobj) && isIn cmp s'.root s.root

/-- Splayset.sml:116-117 -/
def equal (cmp : K → K → Ordering) (s s' : OSet K) : Bool := decide (s.nobj = s'.nobj) && isIn cmp s'.root s.root

/-- Splayset.sml:120-125 -/
def split (cmp : K → K → Ordering) (value : K) (s : Splay K) : Option K × Splay K × Splay K :=
  match splay (cmpf cmp value) s with
  | (.eq, SplayObj value left right) => (some value, left, right)
  | (.lt, SplayObj value left right) => (none, SplayObj value left SplayNil, right)
  | (.gt, SplayObj value left right) => (none, left, SplayObj value SplayNil right)
  | (_, SplayNil) => (none, SplayNil, SplayNil)

/-- a set made from two sets: one of them (with its reference), or a new one -/
inductive Made (K : Type) where
  | first
  | second
  | fresh (s : OSet K)

/-- Splayset.sml:130-141 -/
def inter (cmp : K → K → Ordering) : Splay K → Splay K → Splay K × Int
  | SplayNil, _ => (SplayNil, 0)
  | _, SplayNil => (SplayNil, 0)
  | s, SplayObj value left right =>
    match split cmp value s with
    | (some v, l, r) =>
      let a := inter cmp l left
      let b := inter cmp r right
      (SplayObj v a.1 b.1, a.2 + b.2 + 1)
    | (_, l, r) =>
      let a := inter cmp l left
      let b := inter cmp r right
      (join a.1 b.1, a.2 + b.2)

/-- Splayset.sml:127-129, 142-143 -/
def intersection (cmp : K → K → Ordering) (s s' : OSet K) : Made K :=
  if s.nobj = 0 then .first
  else if s'.nobj = 0 then .second
  else
    let r := inter cmp s.root s'.root
    .fresh ⟨r.1, r.2⟩

/-- Splayset.sml:145-148 -/
def cnt : Splay K → Int → Int
  | SplayNil, n => n
  | SplayObj _ left right, n => cnt left (cnt right (n + 1))

def count (st : Splay K) : Int := cnt st 0

/-- Splayset.sml:153-159 -/
def diff (cmp : K → K → Ordering) : Splay K → Splay K → Splay K × Int
  | SplayNil, _ => (SplayNil, 0)
  | s, SplayNil => (s, count s)
  | s, SplayObj value left right =>
    let t := split cmp value s
    let a := diff cmp t.2.1 left
    let b := diff cmp t.2.2 right
    (join a.1 b.1, a.2 + b.2)

/-- Splayset.sml:150-152, 160-161 -/
def difference (cmp : K → K → Ordering) (s s' : OSet K) : Made K :=
  if s.nobj = 0 then .first
  else if s'.nobj = 0 then .first
  else
    let r := diff cmp s.root s'.root
    .fresh ⟨r.1, r.2⟩

/-- Splayset.sml:166-174 -/
def uni (cmp : K → K → Ordering) : Splay K → Splay K → Splay K × Int
  | SplayNil, s => (s, count s)
  | s, SplayNil => (s, count s)
  | s, SplayObj value left right =>
    let t := split cmp value s
    let a := uni cmp t.2.1 left
    let b := uni cmp t.2.2 right
    (SplayObj value a.1 b.1, a.2 + b.2 + 1)

/-- Splayset.sml:163-165, 175-178 -/
def union (cmp : K → K → Ordering) (s s' : OSet K) : Made K :=
  if s.nobj = 0 then .second
  else if s'.nobj = 0 then .first
  else
    let r := uni cmp s.root s'.root
    .fresh ⟨r.1, r.2⟩

/-- Splayset.sml:182-185 -/
def applyList : Splay K → List K → List K
  | SplayNil, res => res
  | SplayObj value left right, res => applyList left (value :: applyList right res)

/-- Splayset.sml:181-185 -/
def listItems (s : OSet K) : List K := applyList s.root []

/-- Splayset.sml:188-194; `f` acts on a state -/
def app {S : Type} (f : K → S → S) : Splay K → S → S
  | SplayNil, s => s
  | SplayObj value left right, s => app f right (f value (app f left s))

/-- Splayset.sml:196-200 -/
def revapp {S : Type} (f : K → S → S) : Splay K → S → S
  | SplayNil, s => s
  | SplayObj value left right, s => revapp f left (f value (revapp f right s))

/-- Splayset.sml:203-207; `f` is any function, the state of the program being part of the accumulator -/
def foldr {S : Type} (f : K → S → S) : Splay K → S → S
  | SplayNil, s => s
  | SplayObj value left right, s => foldr f left (f value (foldr f right s))

/-- Splayset.sml:209-213 -/
def foldl {S : Type} (f : K → S → S) : Splay K → S → S
  | SplayNil, s => s
  | SplayObj value left right, s => foldl f right (f value (foldl f left s))

/-- Splayset.sml:215-222; `p` has no effects -/
def find (p : K → Bool) : Splay K → Option K
  | SplayNil => none
  | SplayObj v l r =>
    if p v then some v
    else match find p l with
      | none => find p r
      | a => a

end Mosml.Sets.Splayset
