import Verif.Maps.Sorted

/-!
src/mosmllib/Binarymap.sml and Intmap.sml.  `int` counts are integers without bound: a tree of 2^62 nodes does not fit in memory.
`none` stands for `raise Match`.
-/
namespace Mosml.Maps.Binarymap

/-- Binarymap.sml:50-56 -/
inductive Tree (K V : Type) where
  | E
  | T (key : K) (value : V) (cnt : Int) (left right : Tree K V)
  deriving DecidableEq

open Tree
variable {K V : Type}

/-- Binarymap.sml:46 -/
def wt (i : Int) : Int := 3 * i

/-- Binarymap.sml:58-61 `treeSize`, `numItems` -/
def treeSize : Tree K V → Int
  | E => 0
  | T _ _ cnt _ _ => cnt

/-- Binarymap.sml:64-68 -/
def N (k : K) (v : V) : Tree K V → Tree K V → Tree K V
  | E, E => T k v 1 E E
  | E, r@(T _ _ c _ _) => T k v (1 + c) E r
  | l@(T _ _ c _ _), E => T k v (1 + c) l E
  | l@(T _ _ c _ _), r@(T _ _ c' _ _) => T k v (1 + c + c') l r

/-- Binarymap.sml:70-72 -/
def single_L (a : K) (av : V) (x : Tree K V) : Tree K V → Option (Tree K V)
  | T b bv _ y z => some (N b bv (N a av x y) z)
  | _ => none

/-- Binarymap.sml:73-75 -/
def single_R (b : K) (bv : V) (l z : Tree K V) : Option (Tree K V) :=
  match l with
  | T a av _ x y => some (N a av x (N b bv y z))
  | _ => none

/-- Binarymap.sml:76-80 -/
def double_L (a : K) (av : V) (w : Tree K V) : Tree K V → Option (Tree K V)
  | T c cv _ (T b bv _ x y) z => some (N b bv (N a av w x) (N c cv y z))
  | _ => none

/-- Binarymap.sml:81-84 -/
def double_R (c : K) (cv : V) (l z : Tree K V) : Option (Tree K V) :=
  match l with
  | T a av _ w (T b bv _ x y) => some (N b bv (N a av w x) (N c cv y z))
  | _ => none

/-- Binarymap.sml:86-120 -/
def T' (k : K) (v : V) (l r : Tree K V) : Option (Tree K V) :=
  match l, r with
  | E, E => some (T k v 1 E E)
  | E, T _ _ _ E E => some (T k v 2 E r)
  | T _ _ _ E E, E => some (T k v 2 l E)
  | E, T _ _ _ (T _ _ _ _ _) E => double_L k v l r
  | T _ _ _ E (T _ _ _ _ _), E => double_R k v l r
  | E, T _ _ _ (T _ _ ln _ _) (T _ _ rn _ _) => if ln < rn then single_L k v l r else double_L k v l r
  | T _ _ _ (T _ _ ln _ _) (T _ _ rn _ _), E => if ln > rn then single_R k v l r else double_R k v l r
  | E, T _ _ _ E _ => single_L k v l r
  | T _ _ _ _ E, E => single_R k v l r
  | T _ _ ln ll lr, T _ _ rn rl rr =>
    if rn ≥ wt ln then
      let rln := treeSize rl
      let rrn := treeSize rr
      if rln < rrn then single_L k v l r else double_L k v l r
    else if ln ≥ wt rn then
      let lln := treeSize ll
      let lrn := treeSize lr
      if lrn < lln then single_R k v l r else double_R k v l r
    else some (T k v (ln + rn + 1) l r)

/-- Binarymap.sml:123-125 -/
def tmin : Tree K V → Option (K × V)
  | T key value _ E _ => some (key, value)
  | T _ _ _ left _ => tmin left
  | E => none

/-- Binarymap.sml:127-130 -/
def delmin : Tree K V → Option (Tree K V)
  | T _ _ _ E right => some right
  | T key value _ left right => do
    let l ← delmin left
    T' key value l right
  | E => none

/-- Binarymap.sml:132-135 -/
def delete' : Tree K V → Tree K V → Option (Tree K V)
  | E, r => some r
  | l, E => some l
  | l, r => do
    let (mink, minv) ← tmin r
    let r' ← delmin r
    T' mink minv l r'

/-- Binarymap.sml:138 `mkDict` -/
def empty : Tree K V := E

/-- Binarymap.sml:140-148 -/
def insert (cmp : K → K → Ordering) (x : K) (v : V) : Tree K V → Option (Tree K V)
  | E => some (T x v 1 E E)
  | T key value cnt left right =>
    match cmp key x with
    | .gt => do let l ← insert cmp x v left; T' key value l right
    | .lt => do let r ← insert cmp x v right; T' key value left r
    | _ => some (T x v cnt left right)

/-- Binarymap.sml:150-159 `find`, `peek`; here `none` is NotFound -/
def find (cmp : K → K → Ordering) (x : K) : Tree K V → Option V
  | E => none
  | T key value _ left right =>
    match cmp x key with
    | .gt => find cmp x right
    | .lt => find cmp x left
    | _ => some value

/-- the ways `remove` can end -/
inductive Rm (K V : Type) where
  | notFound
  | matchFail
  | ok (t : Tree K V) (v : V)

/-- Binarymap.sml:163-169: rebuilding the node on the way back -/
def rebuild (r : Rm K V) (f : Tree K V → Option (Tree K V)) : Rm K V :=
  match r with
  | .ok t v => match f t with
    | some t' => .ok t' v
    | none => .matchFail
  | r => r

/-- Binarymap.sml:161-171 -/
def remove (cmp : K → K → Ordering) (x : K) : Tree K V → Rm K V
  | E => .notFound
  | T key value _ left right =>
    match cmp key x with
    | .gt => rebuild (remove cmp x left) (fun l => T' key value l right)
    | .lt => rebuild (remove cmp x right) (fun r => T' key value left r)
    | _ => match delete' left right with
      | some t => .ok t value
      | none => .matchFail

/-- Binarymap.sml:173-177 -/
def d2l : Tree K V → List (K × V) → List (K × V)
  | E, res => res
  | T key value _ left right, res => d2l left ((key, value) :: d2l right res)

def listItems (t : Tree K V) : List (K × V) := d2l t []

/-- Binarymap.sml:179-182; `f` acts on a state -/
def revapp {S : Type} (f : K × V → S → S) : Tree K V → S → S
  | E, s => s
  | T key value _ left right, s => revapp f left (f (key, value) (revapp f right s))

/-- Binarymap.sml:184-187 -/
def app {S : Type} (f : K × V → S → S) : Tree K V → S → S
  | E, s => s
  | T key value _ left right, s => app f right (f (key, value) (app f left s))

/-- Binarymap.sml:189-192 -/
def foldr {S : Type} (f : K × V × S → S) : Tree K V → S → S
  | E, v => v
  | T key value _ left right, v => foldr f left (f (key, value, foldr f right v))

/-- Binarymap.sml:194-197 -/
def foldl {S : Type} (f : K × V × S → S) : Tree K V → S → S
  | E, v => v
  | T key value _ left right, v => foldl f right (f (key, value, foldl f left v))

/-- Binarymap.sml:199-207; `f` acts on a state as well (left subtree first, then the item, then the right subtree) -/
def map {S W : Type} (f : K × V → S → W × S) : Tree K V → S → Tree K W × S
  | E, s => (E, s)
  | T key value cnt left right, s =>
    let (left', s) := map f left s
    let (value', s) := f (key, value) s
    let (right', s) := map f right s
    (T key value' cnt left' right', s)

/-- Binarymap.sml:209-217.  The SML order of evaluation of the record fields is as written: the value, then the right subtree. -/
def transform {S W : Type} (f : V → S → W × S) : Tree K V → S → Tree K W × S
  | E, s => (E, s)
  | T key value cnt left right, s =>
    let (left', s) := transform f left s
    let (value', s) := f value s
    let (right', s) := transform f right s
    (T key value' cnt left' right', s)

/-- Intmap.sml:136-140 -/
def Intmap.insert (x : Int) (v : V) : Tree Int V → Option (Tree Int V)
  | E => some (T x v 1 E E)
  | T key value cnt left right =>
    if key > x then do let l ← Intmap.insert x v left; T' key value l right
    else if key < x then do let r ← Intmap.insert x v right; T' key value left r
    else some (T x v cnt left right)

/-- Intmap.sml:142-150 `retrieve`, `peek` -/
def Intmap.retrieve (x : Int) : Tree Int V → Option V
  | E => none
  | T key value _ left right =>
    if x > key then Intmap.retrieve x right
    else if x < key then Intmap.retrieve x left
    else some value

/-- Intmap.sml:152-160 -/
def Intmap.remove (x : Int) : Tree Int V → Rm Int V
  | E => .notFound
  | T key value _ left right =>
    if key > x then rebuild (Intmap.remove x left) (fun l => T' key value l right)
    else if key < x then rebuild (Intmap.remove x right) (fun r => T' key value left r)
    else match delete' left right with
      | some t => .ok t value
      | none => .matchFail

end Mosml.Maps.Binarymap
