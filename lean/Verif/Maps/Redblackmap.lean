import Verif.Maps.Sorted

/-!
src/mosmllib/Redblackmap.sml.  The count of items is an integer without bound.
-/
namespace Mosml.Maps.Redblackmap

/-- Redblackmap.sml:7-10 -/
inductive Tree (K V : Type) where
  | LEAF
  | RED (k : K) (x : V) (l r : Tree K V)
  | BLACK (k : K) (x : V) (l r : Tree K V)
  deriving DecidableEq

open Tree
variable {K V : Type}

/-- Redblackmap.sml:12; the comparison function is kept apart -/
structure Dict (K V : Type) where
  tree : Tree K V
  n : Int
  deriving DecidableEq

/-- Redblackmap.sml:16 -/
def mkDict : Dict K V := ⟨LEAF, 0⟩

/-- Redblackmap.sml:18 -/
def numItems (d : Dict K V) : Int := d.n

/-- Redblackmap.sml:20-29 `loop`; the value (`none` is NotFound) and the number of comparisons made -/
def findLoop (cmp : K → K → Ordering) (key : K) : Tree K V → Option V × Nat
  | LEAF => (none, 0)
  | RED k x left right | BLACK k x left right =>
    match cmp key k with
    | .eq => (some x, 1)
    | .lt => let r := findLoop cmp key left; (r.1, r.2 + 1)
    | .gt => let r := findLoop cmp key right; (r.1, r.2 + 1)

/-- Redblackmap.sml:20-32 `find`, `peek` -/
def find (cmp : K → K → Ordering) (d : Dict K V) (key : K) : Option V := (findLoop cmp key d.tree).1

/-- Redblackmap.sml:34-38 -/
def lbalance (z : K) (zd : V) (l d : Tree K V) : Tree K V :=
  match l with
  | RED y yd (RED x xd a b) c => RED y yd (BLACK x xd a b) (BLACK z zd c d)
  | RED x xd a (RED y yd b c) => RED y yd (BLACK x xd a b) (BLACK z zd c d)
  | left => BLACK z zd left d

/-- Redblackmap.sml:40-44 -/
def rbalance (x : K) (xd : V) (a r : Tree K V) : Tree K V :=
  match r with
  | RED y yd b (RED z zd c d) => RED y yd (BLACK x xd a b) (BLACK z zd c d)
  | RED z zd (RED y yd b c) d => RED y yd (BLACK x xd a b) (BLACK z zd c d)
  | right => BLACK x xd a right

/-- Redblackmap.sml:50-60 `ins`; the tree, and the final value of `addone` -/
def ins (cmp : K → K → Ordering) (key : K) (data : V) : Tree K V → Tree K V × Bool
  | LEAF => (RED key data LEAF LEAF, true)
  | BLACK k x left right =>
    match cmp key k with
    | .lt => let r := ins cmp key data left; (lbalance k x r.1 right, r.2)
    | .gt => let r := ins cmp key data right; (rbalance k x left r.1, r.2)
    | .eq => (BLACK key data left right, false)
  | RED k x left right =>
    match cmp key k with
    | .lt => let r := ins cmp key data left; (RED k x r.1 right, r.2)
    | .gt => let r := ins cmp key data right; (RED k x left r.1, r.2)
    | .eq => (RED key data left right, false)

/-- Redblackmap.sml:62-64, 168-170: a red root is made black -/
def blacken : Tree K V → Tree K V
  | RED k x a b => BLACK k x a b
  | t => t

/-- Redblackmap.sml:48-65 -/
def insert (cmp : K → K → Ordering) (d : Dict K V) (key : K) (data : V) : Dict K V :=
  let r := ins cmp key data d.tree
  ⟨blacken r.1, if r.2 then d.n + 1 else d.n⟩

/-- Redblackmap.sml:67-68 -/
def push : Tree K V → List (Tree K V) → List (Tree K V)
  | LEAF, stack => stack
  | tree, stack => tree :: stack

/-- Redblackmap.sml:70-71 -/
def pushNode (left : Tree K V) (k : K) (x : V) (right : Tree K V) (stack : List (Tree K V)) : List (Tree K V) :=
  left :: BLACK k x LEAF LEAF :: push right stack

/-- number of nodes (used for termination only) -/
def size : Tree K V → Nat
  | LEAF => 0
  | RED _ _ l r | BLACK _ _ l r => size l + size r + 1

def weight (s : List (Tree K V)) : Nat := (s.map (fun t => size t * size t + 1)).sum

theorem weight_pushNode (a : Tree K V) (k : K) (x : V) (b : Tree K V) (rest : List (Tree K V)) (h : a ≠ LEAF) :
    weight (pushNode a k x b rest) < (size a + size b + 1) * (size a + size b + 1) + 1 + weight rest := by
  have ha : 1 ≤ size a := by cases a <;> simp [size] at h ⊢
  cases b with
  | LEAF => simp [pushNode, push, weight, size]; nlinarith
  | RED bk bx l r =>
    generalize hb : RED bk bx l r = b
    have h1 : 1 ≤ size b := by rw [← hb]; simp [size]
    have h2 : push b rest = b :: rest := by rw [← hb]; rfl
    rw [pushNode, h2]; simp [weight, size]; nlinarith
  | BLACK bk bx l r =>
    generalize hb : BLACK bk bx l r = b
    have h1 : 1 ≤ size b := by rw [← hb]; simp [size]
    have h2 : push b rest = b :: rest := by rw [← hb]; rfl
    rw [pushNode, h2]; simp [weight, size]; nlinarith

def isLeaf : Tree K V → Bool
  | LEAF => true
  | _ => false

theorem isLeaf_iff (t : Tree K V) : isLeaf t = true ↔ t = LEAF := by cases t <;> simp [isLeaf]

/-- Redblackmap.sml:73-80; the continuations `some` and `none` get the result -/
def getMin : List (Tree K V) → Option (K × V × List (Tree K V))
  | [] => none
  | LEAF :: rest => getMin rest
  | RED k x a b :: rest => if h : isLeaf a then some (k, x, push b rest) else getMin (pushNode a k x b rest)
  | BLACK k x a b :: rest => if h : isLeaf a then some (k, x, push b rest) else getMin (pushNode a k x b rest)
termination_by s => weight s
decreasing_by
  · simp [weight]
  · rw [isLeaf_iff] at h; have := weight_pushNode a k x b rest h; simpa [weight, size] using this
  · rw [isLeaf_iff] at h; have := weight_pushNode a k x b rest h; simpa [weight, size] using this

/-- Redblackmap.sml:82-89 -/
def getMax : List (Tree K V) → Option (K × V × List (Tree K V))
  | [] => none
  | LEAF :: rest => getMax rest
  | RED k x a b :: rest => if h : isLeaf b then some (k, x, push a rest) else getMax (pushNode b k x a rest)
  | BLACK k x a b :: rest => if h : isLeaf b then some (k, x, push a rest) else getMax (pushNode b k x a rest)
termination_by s => weight s
decreasing_by
  · simp [weight]
  · rw [isLeaf_iff] at h; have := weight_pushNode b k x a rest h; simpa [weight, size, Nat.add_comm (size a)] using this
  · rw [isLeaf_iff] at h; have := weight_pushNode b k x a rest h; simpa [weight, size, Nat.add_comm (size a)] using this

/-- total number of nodes (used for termination only) -/
def nodes (s : List (Tree K V)) : Nat := (s.map size).sum

theorem nodes_push (b : Tree K V) (s : List (Tree K V)) : nodes (push b s) = size b + nodes s := by
  cases b <;> simp [push, nodes, size]

theorem getMin_nodes (s : List (Tree K V)) : ∀ k x s', getMin s = some (k, x, s') → nodes s = nodes s' + 1 := by
  fun_induction getMin s with
  | case1 => simp
  | case2 rest ih => intro k x s' h; simpa [nodes, size] using ih k x s' h
  | case3 k x a b rest h | case5 k x a b rest h =>
    intro k' x' s' h'
    simp only [Option.some.injEq, Prod.mk.injEq] at h'
    rw [isLeaf_iff] at h; subst h
    rw [← h'.2.2, nodes_push]; simp [nodes, size]; omega
  | case4 k x a b rest h ih | case6 k x a b rest h ih =>
    intro k' x' s' h'
    rw [← ih k' x' s' h']
    have := nodes_push b rest
    simp only [nodes, pushNode, List.map_cons, List.sum_cons, size] at *; omega

theorem getMax_nodes (s : List (Tree K V)) : ∀ k x s', getMax s = some (k, x, s') → nodes s = nodes s' + 1 := by
  fun_induction getMax s with
  | case1 => simp
  | case2 rest ih => intro k x s' h; simpa [nodes, size] using ih k x s' h
  | case3 k x a b rest h | case5 k x a b rest h =>
    intro k' x' s' h'
    simp only [Option.some.injEq, Prod.mk.injEq] at h'
    rw [isLeaf_iff] at h; subst h
    rw [← h'.2.2, nodes_push]; simp [nodes, size]; omega
  | case4 k x a b rest h ih | case6 k x a b rest h ih =>
    intro k' x' s' h'
    rw [← ih k' x' s' h']
    have := nodes_push a rest
    simp only [nodes, pushNode, List.map_cons, List.sum_cons, size] at *; omega

/-- Redblackmap.sml:91-96 `foldl` (and, with the items as effects, `app` of 102-106) -/
def foldlLoop {S : Type} (f : K × V × S → S) (stack : List (Tree K V)) (acc : S) : S :=
  match h : getMin stack with
  | some (k, x, stack') => foldlLoop f stack' (f (k, x, acc))
  | none => acc
termination_by nodes stack
decreasing_by have := getMin_nodes stack k x stack' h; omega

/-- Redblackmap.sml:91-98 `foldr` (and `revapp`) -/
def foldrLoop {S : Type} (f : K × V × S → S) (stack : List (Tree K V)) (acc : S) : S :=
  match h : getMax stack with
  | some (k, x, stack') => foldrLoop f stack' (f (k, x, acc))
  | none => acc
termination_by nodes stack
decreasing_by have := getMax_nodes stack k x stack' h; omega

def foldl {S : Type} (f : K × V × S → S) (e : S) (d : Dict K V) : S := foldlLoop f [d.tree] e
def foldr {S : Type} (f : K × V × S → S) (e : S) (d : Dict K V) : S := foldrLoop f [d.tree] e

/-- Redblackmap.sml:100 -/
def listItems (d : Dict K V) : List (K × V) := foldr (fun (k, x, res) => (k, x) :: res) [] d

/-- Redblackmap.sml:102-108; `f` acts on a state -/
def app {S : Type} (f : K × V → S → S) (d : Dict K V) (s : S) : S := foldl (fun (k, x, s) => f (k, x) s) s d
def revapp {S : Type} (f : K × V → S → S) (d : Dict K V) (s : S) : S := foldr (fun (k, x, s) => f (k, x) s) s d

/-- Redblackmap.sml:112-113; `none` is Fail -/
def redden : Tree K V → Option (Tree K V)
  | BLACK k x a b => some (RED k x a b)
  | _ => none

/-- Redblackmap.sml:115-121 -/
def balleft (y : K) (yd : V) (l c : Tree K V) : Option (Tree K V) :=
  match l, c with
  | RED x xd a b, c => some (RED y yd (BLACK x xd a b) c)
  | bl, BLACK z zd a b => some (rbalance y yd bl (RED z zd a b))
  | bl, RED z zd (BLACK w wd a b) c => do
    let c' ← redden c
    some (RED w wd (BLACK y yd bl a) (rbalance z zd b c'))
  | _, _ => none

/-- Redblackmap.sml:123-129 -/
def balright (x : K) (xd : V) (a r : Tree K V) : Option (Tree K V) :=
  match a, r with
  | a, RED y yd b c => some (RED x xd a (BLACK y yd b c))
  | BLACK w wd a b, br => some (lbalance x xd (RED w wd a b) br)
  | RED w wd a (BLACK y yd b c), br => do
    let a' ← redden a
    some (RED y yd (lbalance w wd a' b) (BLACK x xd c br))
  | _, _ => none

/-- Redblackmap.sml:137-148 -/
def append : Tree K V → Tree K V → Option (Tree K V)
  | LEAF, right => some right
  | left, LEAF => some left
  | RED x xd a b, RED y yd c d => do
    match ← append b c with
    | RED z zd b c => some (RED z zd (RED x xd a b) (RED y yd c d))
    | bc => some (RED x xd a (RED y yd bc d))
  | a, RED x xd b c => do let ab ← append a b; some (RED x xd ab c)
  | RED x xd a b, c => do let bc ← append b c; some (RED x xd a bc)
  | BLACK x xd a b, BLACK y yd c d => do
    match ← append b c with
    | RED z zd b c => some (RED z zd (BLACK x xd a b) (BLACK y yd c d))
    | bc => balleft x xd a (BLACK y yd bc d)
termination_by l r => size l + size r
decreasing_by all_goals (simp [size]; try omega)

/-- the ways `del` can end -/
inductive Rm (K V : Type) where
  | notFound
  | fail
  | ok (res : V) (t : Tree K V)
  deriving DecidableEq

def Rm.bind (r : Rm K V) (f : Tree K V → Option (Tree K V)) : Rm K V :=
  match r with
  | .ok v t => match f t with
    | some t' => .ok v t'
    | none => .fail
  | r => r

/-- Redblackmap.sml:156-158 -/
def delLeft (k : K) (x : V) (a b a' : Tree K V) : Option (Tree K V) :=
  match a with
  | BLACK _ _ _ _ => balleft k x a' b
  | _ => some (RED k x a' b)

/-- Redblackmap.sml:161-163 -/
def delRight (k : K) (x : V) (a b b' : Tree K V) : Option (Tree K V) :=
  match b with
  | BLACK _ _ _ _ => balright k x a b'
  | _ => some (RED k x a b')

/-- Redblackmap.sml:150-166 `del`, `delShared` -/
def del (cmp : K → K → Ordering) (key : K) : Tree K V → Rm K V
  | LEAF => .notFound
  | RED k x a b | BLACK k x a b =>
    match cmp key k with
    | .eq => Rm.bind (.ok x LEAF) (fun _ => append a b)
    | .lt => (del cmp key a).bind (delLeft k x a b)
    | .gt => (del cmp key b).bind (delRight k x a b)

/-- the ways `remove` can end -/
inductive Removal (K V : Type) where
  | notFound
  | fail
  | ok (d : Dict K V) (res : V)
  deriving DecidableEq

/-- Redblackmap.sml:150-171 -/
def remove (cmp : K → K → Ordering) (d : Dict K V) (key : K) : Removal K V :=
  match del cmp key d.tree with
  | .notFound => .notFound
  | .fail => .fail
  | .ok res t => .ok ⟨blacken t, d.n - 1⟩ res

/-- Redblackmap.sml:173-183; `f` acts on a state as well -/
def mapLoop {S W : Type} (f : K × V → S → W × S) : Tree K V → S → Tree K W × S
  | LEAF, s => (LEAF, s)
  | RED k x a b, s =>
    let (a, s) := mapLoop f a s
    let (x, s) := f (k, x) s
    let (b, s) := mapLoop f b s
    (RED k x a b, s)
  | BLACK k x a b, s =>
    let (a, s) := mapLoop f a s
    let (x, s) := f (k, x) s
    let (b, s) := mapLoop f b s
    (BLACK k x a b, s)

def map {S W : Type} (f : K × V → S → W × S) (d : Dict K V) (s : S) : Dict K W × S :=
  let (t, s) := mapLoop f d.tree s
  (⟨t, d.n⟩, s)

/-- Redblackmap.sml:185-193 -/
def transform {S W : Type} (f : V → S → W × S) (d : Dict K V) (s : S) : Dict K W × S := map (fun p => f p.2) d s

end Mosml.Maps.Redblackmap
