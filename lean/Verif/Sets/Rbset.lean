import Verif.Sets.Order

/-!
src/mosmllib/Rbset.sml.  The count of items is an integer without bound.  A set carries its comparison function, which is here a
parameter: the documentation leaves combining sets with different comparison functions undefined.
-/
namespace Mosml.Sets.Rbset

/-- Rbset.sml:8-10 -/
inductive Tree (K : Type) where
  | LEAF
  | RED (x : K) (l r : Tree K)
  | BLACK (x : K) (l r : Tree K)
  deriving DecidableEq

open Tree
variable {K : Type}

/-- Rbset.sml:12 -/
structure RSet (K : Type) where
  tree : Tree K
  n : Int
  deriving DecidableEq

/-- Rbset.sml:14-18 -/
inductive Intv (K : Type) where
  | All
  | From (a : K)
  | To (b : K)
  | FromTo (a b : K)

/-- Rbset.sml:22 -/
def empty : RSet K := ⟨LEAF, 0⟩

/-- Rbset.sml:26 -/
def numItems (s : RSet K) : Int := s.n

/-- Rbset.sml:28 -/
def singleton (x : K) : RSet K := ⟨BLACK x LEAF LEAF, 1⟩

/-- Rbset.sml:30-31 -/
def isEmpty (s : RSet K) : Bool := match s.tree with
  | LEAF => true
  | _ => false

/-- Rbset.sml:34-41 `mem`, `memShared`; the answer and the number of comparisons made -/
def mem (cmp : K → K → Ordering) (elm : K) : Tree K → Bool × Nat
  | LEAF => (false, 0)
  | RED x left right | BLACK x left right =>
    match cmp elm x with
    | .eq => (true, 1)
    | .lt => let r := mem cmp elm left; (r.1, r.2 + 1)
    | .gt => let r := mem cmp elm right; (r.1, r.2 + 1)

/-- Rbset.sml:33-42 -/
def member (cmp : K → K → Ordering) (s : RSet K) (elm : K) : Bool := (mem cmp elm s.tree).1

/-- Rbset.sml:48-52 -/
def lbalance (z : K) (l d : Tree K) : Tree K :=
  match l with
  | RED y (RED x a b) c => RED y (BLACK x a b) (BLACK z c d)
  | RED x a (RED y b c) => RED y (BLACK x a b) (BLACK z c d)
  | left => BLACK z left d

/-- Rbset.sml:54-58 -/
def rbalance (x : K) (a r : Tree K) : Tree K :=
  match r with
  | RED y b (RED z c d) => RED y (BLACK x a b) (BLACK z c d)
  | RED z (RED y b c) d => RED y (BLACK x a b) (BLACK z c d)
  | right => BLACK x a right

/-- Rbset.sml:64-75 `ins`; `none` is GETOUT -/
def ins (cmp : K → K → Ordering) (elm : K) : Tree K → Option (Tree K)
  | LEAF => some (RED elm LEAF LEAF)
  | BLACK x left right =>
    match cmp elm x with
    | .lt => do let l ← ins cmp elm left; some (lbalance x l right)
    | .gt => do let r ← ins cmp elm right; some (rbalance x left r)
    | .eq => none
  | RED x left right =>
    match cmp elm x with
    | .lt => do let l ← ins cmp elm left; some (RED x l right)
    | .gt => do let r ← ins cmp elm right; some (RED x left r)
    | .eq => none

/-- Rbset.sml:80-82, 435-437: a red root is made black -/
def blacken : Tree K → Tree K
  | RED x a b => BLACK x a b
  | t => t

/-- Rbset.sml:78-84 -/
def add (cmp : K → K → Ordering) (s : RSet K) (elm : K) : RSet K :=
  match ins cmp elm s.tree with
  | some t => ⟨blacken t, s.n + 1⟩
  | none => s

/-- Rbset.sml:86-88 -/
def addList (cmp : K → K → Ordering) (s : RSet K) (xs : List K) : RSet K := xs.foldl (fun s x => add cmp s x) s

/-- Rbset.sml:91-92 -/
def push : Tree K → List (Tree K) → List (Tree K)
  | LEAF, stack => stack
  | tree, stack => tree :: stack

/-- Rbset.sml:94 -/
def pushNode (x : K) (right : Tree K) (stack : List (Tree K)) : List (Tree K) :=
  BLACK x LEAF LEAF :: push right stack

/-- number of nodes (used for termination only) -/
def size : Tree K → Nat
  | LEAF => 0
  | RED _ l r | BLACK _ l r => size l + size r + 1

def weight (s : List (Tree K)) : Nat := (s.map (fun t => size t * size t + 1)).sum

theorem weight_pushNode (a : Tree K) (k : K) (b : Tree K) (rest : List (Tree K)) (h : a ≠ LEAF) :
    weight (a :: pushNode k b rest) < (size a + size b + 1) * (size a + size b + 1) + 1 + weight rest := by
  have ha : 1 ≤ size a := by cases a <;> simp [size] at h ⊢
  cases b with
  | LEAF => simp [pushNode, push, weight, size]; nlinarith
  | RED bk l r =>
    generalize hb : RED bk l r = b
    have h1 : 1 ≤ size b := by rw [← hb]; simp [size]
    have h2 : push b rest = b :: rest := by rw [← hb]; rfl
    rw [pushNode, h2]; simp [weight, size]; nlinarith
  | BLACK bk l r =>
    generalize hb : BLACK bk l r = b
    have h1 : 1 ≤ size b := by rw [← hb]; simp [size]
    have h2 : push b rest = b :: rest := by rw [← hb]; rfl
    rw [pushNode, h2]; simp [weight, size]; nlinarith

def isLeaf : Tree K → Bool
  | LEAF => true
  | _ => false

theorem isLeaf_iff (t : Tree K) : isLeaf t = true ↔ t = LEAF := by cases t <;> simp [isLeaf]

/-- Rbset.sml:96-105; the continuations `some` and `none` get the result; `descend tree stack` is `getMin (tree :: stack)` -/
def getMin : List (Tree K) → Option (K × List (Tree K))
  | [] => none
  | LEAF :: rest => getMin rest
  | RED x a b :: rest => if h : isLeaf a then some (x, push b rest) else getMin (a :: pushNode x b rest)
  | BLACK x a b :: rest => if h : isLeaf a then some (x, push b rest) else getMin (a :: pushNode x b rest)
termination_by s => weight s
decreasing_by
  · simp [weight]
  · rw [isLeaf_iff] at h; have := weight_pushNode a x b rest h; simpa [weight, size] using this
  · rw [isLeaf_iff] at h; have := weight_pushNode a x b rest h; simpa [weight, size] using this

/-- Rbset.sml:117-126 -/
def getMax : List (Tree K) → Option (K × List (Tree K))
  | [] => none
  | LEAF :: rest => getMax rest
  | RED x a b :: rest => if h : isLeaf b then some (x, push a rest) else getMax (b :: pushNode x a rest)
  | BLACK x a b :: rest => if h : isLeaf b then some (x, push a rest) else getMax (b :: pushNode x a rest)
termination_by s => weight s
decreasing_by
  · simp [weight]
  · rw [isLeaf_iff] at h; have := weight_pushNode b x a rest h; simpa [weight, size, Nat.add_comm (size a)] using this
  · rw [isLeaf_iff] at h; have := weight_pushNode b x a rest h; simpa [weight, size, Nat.add_comm (size a)] using this

/-- total number of nodes (used for termination only) -/
def nodes (s : List (Tree K)) : Nat := (s.map size).sum

theorem nodes_push (b : Tree K) (s : List (Tree K)) : nodes (push b s) = size b + nodes s := by
  cases b <;> simp [push, nodes, size]

theorem getMin_nodes (s : List (Tree K)) : ∀ k s', getMin s = some (k, s') → nodes s = nodes s' + 1 := by
  fun_induction getMin s with
  | case1 => simp
  | case2 rest ih => intro k s' h; simpa [nodes, size] using ih k s' h
  | case3 k a b rest h | case5 k a b rest h =>
    intro k' s' h'
    simp only [Option.some.injEq, Prod.mk.injEq] at h'
    rw [isLeaf_iff] at h; subst h
    rw [← h'.2, nodes_push]; simp [nodes, size]; omega
  | case4 k a b rest h ih | case6 k a b rest h ih =>
    intro k' s' h'
    rw [← ih k' s' h']
    have := nodes_push b rest
    simp only [nodes, pushNode, List.map_cons, List.sum_cons, size] at *; omega

theorem getMax_nodes (s : List (Tree K)) : ∀ k s', getMax s = some (k, s') → nodes s = nodes s' + 1 := by
  fun_induction getMax s with
  | case1 => simp
  | case2 rest ih => intro k s' h; simpa [nodes, size] using ih k s' h
  | case3 k a b rest h | case5 k a b rest h =>
    intro k' s' h'
    simp only [Option.some.injEq, Prod.mk.injEq] at h'
    rw [isLeaf_iff] at h; subst h
    rw [← h'.2, nodes_push]; simp [nodes, size]; omega
  | case4 k a b rest h ih | case6 k a b rest h ih =>
    intro k' s' h'
    rw [← ih k' s' h']
    have := nodes_push a rest
    simp only [nodes, pushNode, List.map_cons, List.sum_cons, size] at *; omega

/-- Rbset.sml:137-140 `loop` with `getMin` -/
def foldlLoop {S : Type} (f : K → S → S) (stack : List (Tree K)) (acc : S) : S :=
  match h : getMin stack with
  | some (x, stack') => foldlLoop f stack' (f x acc)
  | none => acc
termination_by nodes stack
decreasing_by have := getMin_nodes stack x stack' h; omega

/-- Rbset.sml:137-140 `loop` with `getMax` -/
def foldrLoop {S : Type} (f : K → S → S) (stack : List (Tree K)) (acc : S) : S :=
  match h : getMax stack with
  | some (x, stack') => foldrLoop f stack' (f x acc)
  | none => acc
termination_by nodes stack
decreasing_by have := getMax_nodes stack x stack' h; omega

/-- Rbset.sml:137-144 -/
def foldl {S : Type} (f : K → S → S) (e : S) (s : RSet K) : S := foldlLoop f (push s.tree []) e
def foldr {S : Type} (f : K → S → S) (e : S) (s : RSet K) : S := foldrLoop f (push s.tree []) e

/-- Rbset.sml:146 -/
def listItems (s : RSet K) : List K := foldr (fun x r => x :: r) [] s

/-- Rbset.sml:148-154; `f` acts on a state -/
def app {S : Type} (f : K → S → S) (s : RSet K) (e : S) : S := foldlLoop f [s.tree] e
def revapp {S : Type} (f : K → S → S) (s : RSet K) (e : S) : S := foldrLoop f [s.tree] e

/-- Rbset.sml:157-159 `loop`; `p` acts on a state -/
def findLoop {S : Type} (p : K → S → Bool × S) (stack : List (Tree K)) (e : S) : Option K × S :=
  match h : getMin stack with
  | some (x, stack') => if (p x e).1 then (some x, (p x e).2) else findLoop p stack' (p x e).2
  | none => (none, e)
termination_by nodes stack
decreasing_by have := getMin_nodes stack x stack' h; omega

/-- Rbset.sml:156-160 -/
def find {S : Type} (p : K → S → Bool × S) (s : RSet K) (e : S) : Option K × S := findLoop p (push s.tree []) e

/-- Rbset.sml:162-163 -/
def map {L : Type} (f : K → L) (cmp : L → L → Ordering) (s : RSet K) : RSet L :=
  foldl (fun k res => add cmp res (f k)) empty s

/-- Rbset.sml:167-170 -/
inductive Digits (K : Type) where
  | ZERO
  | ONE (x : K) (a : Tree K) (ds : Digits K)
  | TWO (y : K) (b : Tree K) (x : K) (a : Tree K) (ds : Digits K)

open Digits

/-- Rbset.sml:172-175 -/
def incr (z : K) (c : Tree K) : Digits K → Digits K
  | ZERO => ONE z c ZERO
  | ONE y b ds => TWO z c y b ds
  | TWO y b x a ds => ONE z c (incr y (BLACK x a b) ds)

/-- Rbset.sml:177 -/
def insertMax (a : K) (digits : Digits K) : Digits K := incr a LEAF digits

/-- Rbset.sml:179-181 -/
def build : Digits K → Tree K → Tree K
  | ZERO, a => a
  | ONE x a ds, b => build ds (BLACK x a b)
  | TWO y b x a ds, c => build ds (BLACK x a (RED y b c))

/-- Rbset.sml:183 -/
def buildAll (digits : Digits K) : Tree K := build digits LEAF

/-- Rbset.sml:186-190 -/
def toIntLoop : Digits K → Int → Int → Int
  | ZERO, _, acc => acc
  | ONE _ _ rest, power, acc => toIntLoop rest (2 * power) (power + acc)
  | TWO _ _ _ _ rest, power, acc => toIntLoop rest (2 * power) (2 * power + acc)

/-- Rbset.sml:185-191 -/
def toInt (digits : Digits K) : Int := toIntLoop digits 1 0

/-- Rbset.sml:195-197 -/
def insRest (stack : List (Tree K)) (acc : Digits K) : Digits K :=
  match h : getMin stack with
  | some (x, stack') => insRest stack' (insertMax x acc)
  | none => acc
termination_by nodes stack
decreasing_by have := getMin_nodes stack x stack' h; omega

/-- Rbset.sml:202, 231, 257, 284 -/
def ofDigits (digits : Digits K) : RSet K := ⟨buildAll digits, toInt digits⟩

/-- Rbset.sml:200-202 -/
def fromSortedList (ls : List K) : RSet K := ofDigits (ls.foldl (fun d x => insertMax x d) ZERO)

/-- Rbset.sml:209-226 -/
def unionLoop (cmp : K → K → Ordering) (x y : K) (stack1 stack2 : List (Tree K)) (res : Digits K) : Digits K :=
  match cmp x y with
  | .eq =>
    match h1 : getMin stack1, h2 : getMin stack2 with
    | some (x', s1), some (y', s2) => unionLoop cmp x' y' s1 s2 (insertMax x res)
    | none, none => insertMax x res
    | some _, none => insRest stack1 (insertMax x res)
    | none, some _ => insRest stack2 (insertMax x res)
  | .lt =>
    match h1 : getMin stack1 with
    | none => insRest stack2 (insertMax y (insertMax x res))
    | some (x', s1) => unionLoop cmp x' y s1 stack2 (insertMax x res)
  | .gt =>
    match h2 : getMin stack2 with
    | none => insRest stack1 (insertMax x (insertMax y res))
    | some (y', s2) => unionLoop cmp x y' stack1 s2 (insertMax y res)
termination_by nodes stack1 + nodes stack2
decreasing_by
  · have := getMin_nodes _ _ _ h1; have := getMin_nodes _ _ _ h2; omega
  · have := getMin_nodes _ _ _ h1; omega
  · have := getMin_nodes _ _ _ h2; omega

/-- Rbset.sml:208-237 -/
def union (cmp : K → K → Ordering) (s1 s2 : RSet K) : RSet K :=
  match getMin [s1.tree], getMin [s2.tree] with
  | some (x, stack1), some (y, stack2) => ofDigits (unionLoop cmp x y stack1 stack2 ZERO)
  | none, some _ => s2
  | _, _ => s1

/-- Rbset.sml:241-254 -/
def interLoop (cmp : K → K → Ordering) (x y : K) (stack1 stack2 : List (Tree K)) (res : Digits K) : Digits K :=
  match cmp x y with
  | .eq =>
    match h1 : getMin stack1, h2 : getMin stack2 with
    | some (x', s1), some (y', s2) => interLoop cmp x' y' s1 s2 (insertMax x res)
    | none, _ => insertMax x res
    | some _, none => insertMax x res
  | .lt =>
    match h1 : getMin stack1 with
    | none => res
    | some (x', s1) => interLoop cmp x' y s1 stack2 res
  | .gt =>
    match h2 : getMin stack2 with
    | none => res
    | some (y', s2) => interLoop cmp x y' stack1 s2 res
termination_by nodes stack1 + nodes stack2
decreasing_by
  · have := getMin_nodes _ _ _ h1; have := getMin_nodes _ _ _ h2; omega
  · have := getMin_nodes _ _ _ h1; omega
  · have := getMin_nodes _ _ _ h2; omega

/-- Rbset.sml:240-262 -/
def intersection (cmp : K → K → Ordering) (s1 s2 : RSet K) : RSet K :=
  match getMin [s1.tree], getMin [s2.tree] with
  | some (x, stack1), some (y, stack2) => ofDigits (interLoop cmp x y stack1 stack2 ZERO)
  | _, _ => empty

/-- Rbset.sml:266-281 -/
def diffLoop (cmp : K → K → Ordering) (x y : K) (stack1 stack2 : List (Tree K)) (res : Digits K) : Digits K :=
  match cmp x y with
  | .eq =>
    match h1 : getMin stack1, h2 : getMin stack2 with
    | some (x', s1), some (y', s2) => diffLoop cmp x' y' s1 s2 res
    | some _, none => insRest stack1 res
    | none, _ => res
  | .lt =>
    match h1 : getMin stack1 with
    | none => insertMax x res
    | some (x', s1) => diffLoop cmp x' y s1 stack2 (insertMax x res)
  | .gt =>
    match h2 : getMin stack2 with
    | none => insRest stack1 (insertMax x res)
    | some (y', s2) => diffLoop cmp x y' stack1 s2 res
termination_by nodes stack1 + nodes stack2
decreasing_by
  · have := getMin_nodes _ _ _ h1; have := getMin_nodes _ _ _ h2; omega
  · have := getMin_nodes _ _ _ h1; omega
  · have := getMin_nodes _ _ _ h2; omega

/-- Rbset.sml:265-289 -/
def difference (cmp : K → K → Ordering) (s1 s2 : RSet K) : RSet K :=
  match getMin [s1.tree], getMin [s2.tree] with
  | some (x, stack1), some (y, stack2) => ofDigits (diffLoop cmp x y stack1 stack2 ZERO)
  | none, some _ => empty
  | _, none => s1

/-- Rbset.sml:292-299 -/
def equalLoop (cmp : K → K → Ordering) (x y : K) (stack1 stack2 : List (Tree K)) : Bool :=
  match cmp x y with
  | .eq =>
    match h1 : getMin stack1, h2 : getMin stack2 with
    | some (x', s1), some (y', s2) => equalLoop cmp x' y' s1 s2
    | none, none => true
    | none, some _ => false
    | some _, none => false
  | _ => false
termination_by nodes stack1
decreasing_by have := getMin_nodes _ _ _ h1; omega

/-- Rbset.sml:291-304 -/
def equal (cmp : K → K → Ordering) (s1 s2 : RSet K) : Bool :=
  match getMin [s1.tree], getMin [s2.tree] with
  | some (x, stack1), some (y, stack2) => equalLoop cmp x y stack1 stack2
  | none, none => true
  | _, _ => false

/-- Rbset.sml:307-315 -/
def compareLoop (cmp : K → K → Ordering) (x y : K) (stack1 stack2 : List (Tree K)) : Ordering :=
  match cmp x y with
  | .eq =>
    match h1 : getMin stack1, h2 : getMin stack2 with
    | some (x', s1), some (y', s2) => compareLoop cmp x' y' s1 s2
    | none, none => .eq
    | none, some _ => .lt
    | some _, none => .gt
  | order => order
termination_by nodes stack1
decreasing_by have := getMin_nodes _ _ _ h1; omega

/-- Rbset.sml:306-322 -/
def compare (cmp : K → K → Ordering) (s1 s2 : RSet K) : Ordering :=
  match getMin [s1.tree], getMin [s2.tree] with
  | some (x, stack1), some (y, stack2) => compareLoop cmp x y stack1 stack2
  | none, none => .eq
  | none, some _ => .lt
  | some _, none => .gt

/-- Rbset.sml:325-335 -/
def isSubsetLoop (cmp : K → K → Ordering) (x y : K) (stack1 stack2 : List (Tree K)) : Bool :=
  match cmp x y with
  | .eq =>
    match h1 : getMin stack1, h2 : getMin stack2 with
    | some (x', s1), some (y', s2) => isSubsetLoop cmp x' y' s1 s2
    | none, _ => true
    | some _, none => false
  | .lt => false
  | .gt =>
    match h2 : getMin stack2 with
    | some (y', s2) => isSubsetLoop cmp x y' stack1 s2
    | none => false
termination_by nodes stack1 + nodes stack2
decreasing_by
  · have := getMin_nodes _ _ _ h1; have := getMin_nodes _ _ _ h2; omega
  · have := getMin_nodes _ _ _ h2; omega

/-- Rbset.sml:324-341 -/
def isSubset (cmp : K → K → Ordering) (s1 s2 : RSet K) : Bool :=
  match getMin [s1.tree], getMin [s2.tree] with
  | some (x, stack1), some (y, stack2) => isSubsetLoop cmp x y stack1 stack2
  | none, _ => true
  | some _, none => false

/-- Rbset.sml:354-355 -/
def sortedFrom (cmp : K → K → Ordering) (x0 : K) : List K → Bool
  | [] => true
  | x1 :: xr => cmp x0 x1 == .lt && sortedFrom cmp x1 xr

/-- Rbset.sml:352-356 -/
def sorted (cmp : K → K → Ordering) : List K → Bool
  | [] => true
  | y1 :: yr => sortedFrom cmp y1 yr

/-- Rbset.sml:350-362; `none` is NonMonotonic -/
def mapMono {L : Type} (f : K → L) (cmp : L → L → Ordering) (s : RSet K) : Option (RSet L) :=
  let fxs := foldl (fun x res => f x :: res) [] s
  if sorted cmp fxs then some (fromSortedList fxs) else none

/-- Rbset.sml:388-389; `none` is Fail -/
def sub1 : Tree K → Option (Tree K)
  | BLACK x a b => some (RED x a b)
  | _ => none

/-- Rbset.sml:391-395 -/
def balleft (y : K) (l c : Tree K) : Option (Tree K) :=
  match l, c with
  | RED x a b, c => some (RED y (BLACK x a b) c)
  | bl, BLACK z a b => some (rbalance y bl (RED z a b))
  | bl, RED z (BLACK w a b) c => do
    let c' ← sub1 c
    some (RED w (BLACK y bl a) (rbalance z b c'))
  | _, _ => none

/-- Rbset.sml:397-401 -/
def balright (x : K) (a r : Tree K) : Option (Tree K) :=
  match a, r with
  | a, RED y b c => some (RED x a (BLACK y b c))
  | BLACK w a b, br => some (lbalance x (RED w a b) br)
  | RED w a (BLACK y b c), br => do
    let a' ← sub1 a
    some (RED y (lbalance w a' b) (BLACK x c br))
  | _, _ => none

/-- Rbset.sml:408-419 -/
def append : Tree K → Tree K → Option (Tree K)
  | LEAF, right => some right
  | left, LEAF => some left
  | RED x a b, RED y c d => do
    match ← append b c with
    | RED z b c => some (RED z (RED x a b) (RED y c d))
    | bc => some (RED x a (RED y bc d))
  | a, RED x b c => do let ab ← append a b; some (RED x ab c)
  | RED x a b, c => do let bc ← append b c; some (RED x a bc)
  | BLACK x a b, BLACK y c d => do
    match ← append b c with
    | RED z b c => some (RED z (BLACK x a b) (BLACK y c d))
    | bc => balleft x a (BLACK y bc d)
termination_by l r => size l + size r
decreasing_by all_goals (simp [size]; try omega)

/-- the ways `del` can end -/
inductive Rm (T : Type) where
  | notFound
  | fail
  | ok (t : T)
  deriving DecidableEq

def Rm.bind {T : Type} (r : Rm T) (f : T → Option T) : Rm T :=
  match r with
  | .ok t => match f t with
    | some t' => .ok t'
    | none => .fail
  | r => r

/-- Rbset.sml:425-427 -/
def delLeft (y : K) (a b a' : Tree K) : Option (Tree K) :=
  match a with
  | BLACK _ _ _ => balleft y a' b
  | _ => some (RED y a' b)

/-- Rbset.sml:428-430 -/
def delRight (y : K) (a b b' : Tree K) : Option (Tree K) :=
  match b with
  | BLACK _ _ _ => balright y a b'
  | _ => some (RED y a b')

/-- Rbset.sml:422-433 `del`, `delShared` -/
def del (cmp : K → K → Ordering) (x : K) : Tree K → Rm (Tree K)
  | LEAF => .notFound
  | RED y a b | BLACK y a b =>
    match cmp x y with
    | .eq => Rm.bind (.ok LEAF) (fun _ => append a b)
    | .lt => (del cmp x a).bind (delLeft y a b)
    | .gt => (del cmp x b).bind (delRight y a b)

/-- Rbset.sml:421-438 -/
def delete (cmp : K → K → Ordering) (s : RSet K) (x : K) : Rm (RSet K) :=
  match del cmp x s.tree with
  | .notFound => .notFound
  | .fail => .fail
  | .ok t => .ok ⟨blacken t, s.n - 1⟩

/-- Rbset.sml:441-445 -/
def minTree : Tree K → Option K
  | LEAF => none
  | RED k LEAF _ => some k
  | RED _ t1 _ => minTree t1
  | BLACK k LEAF _ => some k
  | BLACK _ t1 _ => minTree t1

/-- Rbset.sml:449-453 -/
def maxTree : Tree K → Option K
  | LEAF => none
  | RED k _ LEAF => some k
  | RED _ _ t2 => maxTree t2
  | BLACK k _ LEAF => some k
  | BLACK _ _ t2 => maxTree t2

/-- Rbset.sml:440-454 -/
def min (s : RSet K) : Option K := minTree s.tree
def max (s : RSet K) : Option K := maxTree s.tree

/-- Rbset.sml:456-457; words of `n` bits -/
def hash {n : Nat} (h : K → BitVec n) (s : RSet K) : BitVec n := foldl (fun k res => h k + res) 0 s

/-- Rbset.sml:462-466 -/
def collectall : Tree K → List K → List K
  | LEAF, res => res
  | RED k t1 t2, res | BLACK k t1 t2, res => collectall t1 (k :: collectall t2 res)

/-- Rbset.sml:468-485 -/
def collectfrom (cmp : K → K → Ordering) (intv : Intv K) : Tree K → List K → List K
  | LEAF, res => res
  | RED k t1 t2, res =>
    match intv with
    | .From a =>
      if cmp a k = .gt then collectfrom cmp intv t2 res
      else collectfrom cmp intv t1 (k :: collectall t2 res)
    | .FromTo a _ =>
      if cmp a k = .gt then collectfrom cmp intv t2 res
      else collectfrom cmp intv t1 (k :: collectfrom cmp intv t2 res)
    | _ => collectall (RED k t1 t2) res
  | BLACK k t1 t2, res =>
    match intv with
    | .From a =>
      if cmp a k = .gt then collectfrom cmp intv t2 res
      else collectfrom cmp intv t1 (k :: collectall t2 res)
    | .FromTo a _ =>
      if cmp a k = .gt then collectfrom cmp intv t2 res
      else collectfrom cmp intv t1 (k :: collectfrom cmp intv t2 res)
    | _ => collectall (BLACK k t1 t2) res

/-- Rbset.sml:487-504 -/
def collectto (cmp : K → K → Ordering) (intv : Intv K) : Tree K → List K → List K
  | LEAF, res => res
  | RED k t1 t2, res =>
    match intv with
    | .To b | .FromTo _ b =>
      if cmp k b = .lt then collectall t1 (k :: collectto cmp intv t2 res)
      else collectto cmp intv t1 res
    | _ => collectall (RED k t1 t2) res
  | BLACK k t1 t2, res =>
    match intv with
    | .To b | .FromTo _ b =>
      if cmp k b = .lt then collectall t1 (k :: collectto cmp intv t2 res)
      else collectto cmp intv t1 res
    | _ => collectall (BLACK k t1 t2) res

/-- Rbset.sml:506-522 -/
def collectfromto (cmp : K → K → Ordering) (intv : Intv K) : Tree K → List K → List K
  | LEAF, res => res
  | RED k t1 t2, res =>
    match intv with
    | .From _ => collectfrom cmp intv (RED k t1 t2) res
    | .To _ => collectto cmp intv (RED k t1 t2) res
    | .FromTo a b =>
      if cmp a k = .gt then collectfromto cmp intv t2 res
      else if cmp k b = .lt then collectfrom cmp intv t1 (k :: collectto cmp intv t2 res)
      else collectfromto cmp intv t1 res
    | .All => collectall (RED k t1 t2) res
  | BLACK k t1 t2, res =>
    match intv with
    | .From _ => collectfrom cmp intv (BLACK k t1 t2) res
    | .To _ => collectto cmp intv (BLACK k t1 t2) res
    | .FromTo a b =>
      if cmp a k = .gt then collectfromto cmp intv t2 res
      else if cmp k b = .lt then collectfrom cmp intv t1 (k :: collectto cmp intv t2 res)
      else collectfromto cmp intv t1 res
    | .All => collectall (BLACK k t1 t2) res

/-- Rbset.sml:461-523 -/
def sublist (cmp : K → K → Ordering) (s : RSet K) (intv : Intv K) : List K := collectfromto cmp intv s.tree []

/-- Rbset.sml:526-527 -/
def subset (cmp : K → K → Ordering) (s : RSet K) (intv : Intv K) : RSet K := fromSortedList (sublist cmp s intv)

/-- Rbset.sml:531-533 -/
def depth : Tree K → Nat
  | LEAF => 0
  | RED _ l r | BLACK _ l r => 1 + Max.max (depth l) (depth r)

end Mosml.Sets.Rbset
