import Verif.Sets.Order

/-!
src/mosmllib/Binaryset.sml.  `int` counts are integers without bound: a tree of 2^62 nodes does not fit in memory.  `none` stands for
`raise Match`, except where stated.  A set (Binaryset.sml:65, `SET`) is modelled by its tree, the ordering being an argument of every function.
src/mosmllib/Intset.sml has the same functions, line for line, with the comparisons of integers in the place of `cmpKey` (and at
Intset.sml:122-126 an integer that is in the set is not replaced by itself); it is the case `cmp = compare` on integers.
-/
namespace Mosml.Sets.Binaryset

/-- Binaryset.sml:66-71 -/
inductive Tree (K : Type) where
  | E
  | T (elt : K) (cnt : Int) (left right : Tree K)
  deriving DecidableEq

open Binaryset.Tree
variable {K : Type}

/-- Binaryset.sml:73-74 -/
def treeSize : Tree K → Int
  | E => 0
  | T _ cnt _ _ => cnt

/-- Binaryset.sml:76 -/
def numItems (t : Tree K) : Int := treeSize t

/-- Binaryset.sml:78-79 -/
def isEmpty : Tree K → Bool
  | E => true
  | _ => false

/-- Binaryset.sml:84-87 -/
def N (v : K) : Tree K → Tree K → Tree K
  | E, E => T v 1 E E
  | E, r@(T _ n _ _) => T v (n + 1) E r
  | l@(T _ n _ _), E => T v (n + 1) l E
  | l@(T _ n _ _), r@(T _ m _ _) => T v (n + m + 1) l r

/-- Binaryset.sml:89-90 -/
def single_L (a : K) (x : Tree K) : Tree K → Option (Tree K)
  | T b _ y z => some (N b (N a x y) z)
  | _ => none

/-- Binaryset.sml:91-92 -/
def single_R (b : K) (l z : Tree K) : Option (Tree K) :=
  match l with
  | T a _ x y => some (N a x (N b y z))
  | _ => none

/-- Binaryset.sml:93-95 -/
def double_L (a : K) (w : Tree K) : Tree K → Option (Tree K)
  | T c _ (T b _ x y) z => some (N b (N a w x) (N c y z))
  | _ => none

/-- Binaryset.sml:96-98 -/
def double_R (c : K) (l z : Tree K) : Option (Tree K) :=
  match l with
  | T a _ w (T b _ x y) => some (N b (N a w x) (N c y z))
  | _ => none

/-- Binaryset.sml:104 -/
def wt (i : Int) : Int := i + i + i

/-- Binaryset.sml:106-138 -/
def T' (v : K) (l r : Tree K) : Option (Tree K) :=
  match l, r with
  | E, E => some (T v 1 E E)
  | E, T _ _ E E => some (T v 2 E r)
  | T _ _ E E, E => some (T v 2 l E)
  | E, T _ _ (T _ _ _ _) E => double_L v l r
  | T _ _ E (T _ _ _ _), E => double_R v l r
  | E, T _ _ (T _ ln _ _) (T _ rn _ _) => if ln < rn then single_L v l r else double_L v l r
  | T _ _ (T _ ln _ _) (T _ rn _ _), E => if ln > rn then single_R v l r else double_R v l r
  | E, T _ _ E _ => single_L v l r
  | T _ _ _ E, E => single_R v l r
  | T _ ln ll lr, T _ rn rl rr =>
    if rn ≥ wt ln then
      let rln := treeSize rl
      let rrn := treeSize rr
      if rln < rrn then single_L v l r else double_L v l r
    else if ln ≥ wt rn then
      let lln := treeSize ll
      let lrn := treeSize lr
      if lrn < lln then single_R v l r else double_R v l r
    else some (T v (ln + rn + 1) l r)

/-- Binaryset.sml:140-147 -/
def addt (cmp : K → K → Ordering) (x : K) : Tree K → Option (Tree K)
  | E => some (T x 1 E E)
  | T v cnt l r =>
    match cmp x v with
    | .lt => do let l' ← addt cmp x l; T' v l' r
    | .gt => do let r' ← addt cmp x r; T' v l r'
    | .eq => some (T x cnt l r)

/-- Binaryset.sml:149-156 -/
def concat3 (cmp : K → K → Ordering) (l : Tree K) (v : K) (r : Tree K) : Option (Tree K) :=
  match l, r with
  | E, r => addt cmp v r
  | l, E => addt cmp v l
  | T v1 n1 l1 r1, T v2 n2 l2 r2 =>
    if wt n1 < n2 then do let t ← concat3 cmp (T v1 n1 l1 r1) v l2; T' v2 t r2
    else if wt n2 < n1 then do let t ← concat3 cmp r1 v (T v2 n2 l2 r2); T' v1 l1 t
    else some (N v (T v1 n1 l1 r1) (T v2 n2 l2 r2))
termination_by sizeOf l + sizeOf r

/-- Binaryset.sml:158-163 -/
def split_lt (cmp : K → K → Ordering) (x : K) : Tree K → Option (Tree K)
  | E => some E
  | T v _ l r =>
    match cmp v x with
    | .gt => split_lt cmp x l
    | .lt => do let t ← split_lt cmp x r; concat3 cmp l v t
    | _ => some l

/-- Binaryset.sml:165-170 -/
def split_gt (cmp : K → K → Ordering) (x : K) : Tree K → Option (Tree K)
  | E => some E
  | T v _ l r =>
    match cmp v x with
    | .lt => split_gt cmp x r
    | .gt => do let t ← split_gt cmp x l; concat3 cmp t v r
    | _ => some r

/-- Binaryset.sml:172-174 -/
def tmin : Tree K → Option K
  | T v _ E _ => some v
  | T _ _ l _ => tmin l
  | E => none

/-- Binaryset.sml:176-178 -/
def delmin : Tree K → Option (Tree K)
  | T _ _ E r => some r
  | T v _ l r => do
    let l' ← delmin l
    T' v l' r
  | E => none

/-- Binaryset.sml:180-182 -/
def delete' : Tree K → Tree K → Option (Tree K)
  | E, r => some r
  | l, E => some l
  | l, r => do
    let m ← tmin r
    let r' ← delmin r
    T' m l r'

/-- Binaryset.sml:184-190 -/
def concat (t1 t2 : Tree K) : Option (Tree K) :=
  match t1, t2 with
  | E, s => some s
  | s, E => some s
  | T v1 n1 l1 r1, T v2 n2 l2 r2 =>
    if wt n1 < n2 then do let t ← concat (T v1 n1 l1 r1) l2; T' v2 t r2
    else if wt n2 < n1 then do let t ← concat r1 (T v2 n2 l2 r2); T' v1 l1 t
    else do
      let m ← tmin (T v2 n2 l2 r2)
      let t ← delmin (T v2 n2 l2 r2)
      T' m (T v1 n1 l1 r1) t
termination_by sizeOf t1 + sizeOf t2

/-- Binaryset.sml:196-200 -/
def trim (cmp : K → K → Ordering) (lo hi : K) : Tree K → Tree K
  | E => E
  | s@(T v _ l r) =>
    if cmp v lo = .gt then
      if cmp v hi = .lt then s else trim cmp lo hi l
    else trim cmp lo hi r

/-- Binaryset.sml:202-208 -/
def uni_bd (cmp : K → K → Ordering) : Tree K → Tree K → K → K → Option (Tree K)
  | s, E, _, _ => some s
  | E, T v _ l r, lo, hi => do
    let a ← split_gt cmp lo l
    let b ← split_lt cmp hi r
    concat3 cmp a v b
  | T v _ l1 r1, s2, lo, hi => do
    let a ← uni_bd cmp l1 (trim cmp lo v s2) lo v
    let b ← uni_bd cmp r1 (trim cmp v hi s2) v hi
    concat3 cmp a v b

/-- Binaryset.sml:216-220 -/
def trim_lo (cmp : K → K → Ordering) (lo : K) : Tree K → Tree K
  | E => E
  | s@(T v _ _ r) =>
    match cmp v lo with
    | .gt => s
    | _ => trim_lo cmp lo r

/-- Binaryset.sml:222-226 -/
def trim_hi (cmp : K → K → Ordering) (hi : K) : Tree K → Tree K
  | E => E
  | s@(T v _ l _) =>
    match cmp v hi with
    | .lt => s
    | _ => trim_hi cmp hi l

/-- Binaryset.sml:228-234 -/
def uni_hi (cmp : K → K → Ordering) : Tree K → Tree K → K → Option (Tree K)
  | s, E, _ => some s
  | E, T v _ l r, hi => do
    let b ← split_lt cmp hi r
    concat3 cmp l v b
  | T v _ l1 r1, s2, hi => do
    let a ← uni_hi cmp l1 (trim_hi cmp v s2) v
    let b ← uni_bd cmp r1 (trim cmp v hi s2) v hi
    concat3 cmp a v b

/-- Binaryset.sml:236-242 -/
def uni_lo (cmp : K → K → Ordering) : Tree K → Tree K → K → Option (Tree K)
  | s, E, _ => some s
  | E, T v _ l r, lo => do
    let a ← split_gt cmp lo l
    concat3 cmp a v r
  | T v _ l1 r1, s2, lo => do
    let a ← uni_bd cmp l1 (trim cmp lo v s2) lo v
    let b ← uni_lo cmp r1 (trim_lo cmp v s2) v
    concat3 cmp a v b

/-- Binaryset.sml:192-195, 243-246 -/
def hedge_union (cmp : K → K → Ordering) : Tree K → Tree K → Option (Tree K)
  | s, E => some s
  | E, s => some s
  | T v _ l1 r1, s2 => do
    let a ← uni_hi cmp l1 (trim_hi cmp v s2) v
    let b ← uni_lo cmp r1 (trim_lo cmp v s2) v
    concat3 cmp a v b

/-- Binaryset.sml:262 -/
def empty : Tree K := E

/-- Binaryset.sml:264 -/
def singleton (x : K) : Tree K := T x 1 E E

/-- Binaryset.sml:266-267 -/
def addList (cmp : K → K → Ordering) (t : Tree K) : List K → Option (Tree K)
  | [] => some t
  | i :: l => do let s ← addt cmp i t; addList cmp s l

/-- Binaryset.sml:269 -/
def add (cmp : K → K → Ordering) (t : Tree K) (x : K) : Option (Tree K) := addt cmp x t

/-- Binaryset.sml:271-278 `peekt`, 283 `peek`, 313-314 `retrieve` (where `none` is NotFound) -/
def peek (cmp : K → K → Ordering) (x : K) : Tree K → Option K
  | E => none
  | T v _ l r =>
    match cmp x v with
    | .lt => peek cmp x l
    | .gt => peek cmp x r
    | _ => some v

/-- Binaryset.sml:280-281 `membert`, 284 `member` -/
def member (cmp : K → K → Ordering) (t : Tree K) (x : K) : Bool :=
  match peek cmp x t with
  | none => false
  | _ => true

/-- Binaryset.sml:288-298; `t'` is the other tree -/
def isIn (cmp : K → K → Ordering) (t' : Tree K) : Tree K → Bool
  | E => true
  | T elt _ E E => member cmp t' elt
  | T elt _ left E => member cmp t' elt && isIn cmp t' left
  | T elt _ E right => member cmp t' elt && isIn cmp t' right
  | T elt _ left right => member cmp t' elt && isIn cmp t' left && isIn cmp t' right

/-- Binaryset.sml:300-304 -/
def isSubset (cmp : K → K → Ordering) : Tree K → Tree K → Bool
  | E, _ => true
  | _, E => false
  | t@(T _ n _ _), t'@(T _ n' _ _) => decide (n ≤ n') && isIn cmp t' t

/-- Binaryset.sml:306-310 -/
def equal (cmp : K → K → Ordering) : Tree K → Tree K → Bool
  | E, E => true
  | t@(T _ n _ _), t'@(T _ n' _ _) => decide (n = n') && isIn cmp t' t
  | _, _ => false

/-- the ways `delete` can end -/
inductive Rm (K : Type) where
  | notFound
  | matchFail
  | ok (t : Tree K)

/-- Binaryset.sml:320-321: rebuilding the node on the way back -/
def rebuild (r : Rm K) (f : Tree K → Option (Tree K)) : Rm K :=
  match r with
  | .ok t => match f t with
    | some t' => .ok t'
    | none => .matchFail
  | r => r

/-- Binaryset.sml:316-323 -/
def delete (cmp : K → K → Ordering) (x : K) : Tree K → Rm K
  | E => .notFound
  | T v _ l r =>
    match cmp x v with
    | .lt => rebuild (delete cmp x l) (fun l' => T' v l' r)
    | .gt => rebuild (delete cmp x r) (fun r' => T' v l r')
    | _ => match delete' l r with
      | some t => .ok t
      | none => .matchFail

/-- Binaryset.sml:325-326 -/
def union (cmp : K → K → Ordering) (t1 t2 : Tree K) : Option (Tree K) := hedge_union cmp t1 t2

/-- Binaryset.sml:328-339 -/
def intersection (cmp : K → K → Ordering) : Tree K → Tree K → Option (Tree K)
  | E, _ => some E
  | _, E => some E
  | t, T v _ l r => do
    let l2 ← split_lt cmp v t
    let r2 ← split_gt cmp v t
    let a ← intersection cmp l2 l
    let b ← intersection cmp r2 r
    match peek cmp v t with
    | none => concat a b
    | _ => concat3 cmp a v b

/-- Binaryset.sml:341-350 -/
def difference (cmp : K → K → Ordering) : Tree K → Tree K → Option (Tree K)
  | E, _ => some E
  | s, E => some s
  | s, T v _ l r => do
    let l2 ← split_lt cmp v s
    let r2 ← split_gt cmp v s
    let a ← difference cmp l2 l
    let b ← difference cmp r2 r
    concat a b

/-- Binaryset.sml:352-356; `f` is any function, the state of the program being part of the accumulator -/
def foldr {S : Type} (f : K → S → S) : Tree K → S → S
  | E, b => b
  | T elt _ left right, b => foldr f left (f elt (foldr f right b))

/-- Binaryset.sml:358-362 -/
def foldl {S : Type} (f : K → S → S) : Tree K → S → S
  | E, b => b
  | T elt _ left right, b => foldl f right (f elt (foldl f left b))

/-- Binaryset.sml:364 -/
def listItems (t : Tree K) : List K := foldr List.cons t []

/-- Binaryset.sml:366-370; `f` acts on a state -/
def revapp {S : Type} (f : K → S → S) : Tree K → S → S
  | E, s => s
  | T elt _ left right, s => revapp f left (f elt (revapp f right s))

/-- Binaryset.sml:372-376 -/
def app {S : Type} (f : K → S → S) : Tree K → S → S
  | E, s => s
  | T elt _ left right, s => app f right (f elt (app f left s))

/-- Binaryset.sml:378-385; `p` acts on a state as well -/
def find {S : Type} (p : K → S → Bool × S) : Tree K → S → Option K × S
  | E, s => (none, s)
  | T elt _ left right, s =>
    match p elt s with
    | (true, s) => (some elt, s)
    | (false, s) => match find p left s with
      | (none, s) => find p right s
      | a => a

end Mosml.Sets.Binaryset
