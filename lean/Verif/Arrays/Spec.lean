import Verif.Arrays.Model

/-!
# What arrays, vectors and slices are to do

The documentation is in `src/mosmllib/Array.sig`, `Vector.sig`, `ArraySlice.sig`
and `VectorSlice.sig`.  Nothing here refers to the loops of the model.
-/

namespace Mosml.Arrays

variable {V X : Type}

/-- The container exists (a vector always does). -/
def Exists (w : World V X) : Cont V → Prop
  | .arr l => l < w.heap.length
  | .vec _ => True

/-- A valid slice (ArraySlice.sig: `0 <= i <= i+n <= size`) of a container that
`Array` or `Vector` could have made. -/
def Valid (w : World V X) (s : Slice V) : Prop :=
  Exists w s.c ∧ 0 ≤ s.i ∧ 0 ≤ s.n ∧ s.i + s.n ≤ (cells w s.c).length ∧
    ((cells w s.c).length : Int) ≤ maxLen

/-- From `w` to `w'` arrays may have been made and updated, but none has another
length.  There is no operation that would do that. -/
def Keeps (w w' : World V X) : Prop :=
  ∀ l, l < w.heap.length → l < w'.heap.length ∧
    (w'.heap.getD l []).length = (w.heap.getD l []).length

/-- What can be said of every function that is passed to the library: it does
not alter the length of an array. -/
def Steady {α : Type} (p : Prog (World V X) α) : Prop :=
  ∀ w, match p w with
    | .ok _ w' => Keeps w w'
    | .raise _ w' => Keeps w w'
    | .bad => True

/-- The computation does not itself access memory outside arrays. -/
def Safe {α : Type} (p : Prog (World V X) α) : Prop := ∀ w, p w ≠ .bad

/-- The indices `j, j+1, ..., j+k-1`. -/
def idx (j : Int) (k : Nat) : List Int := (List.range k).map (fun m : Nat => j + (m : Int))

/-- The indices of a slice `(a,i,n)`: `i, i+1, ..., i+n-1`. -/
def indices (s : Slice V) : List Int := idx s.i s.n.toNat

/-- `k` elements from `j` on. -/
def seg (xs : List V) (j : Int) (k : Nat) : List V := (xs.drop j.toNat).take k

/-- The elements of a slice `(a,i,n)`: `a[i], a[i+1], ..., a[i+n-1]`. -/
def elems (w : World V X) (s : Slice V) : List V := seg (cells w s.c) s.i s.n.toNat

/-- Do something for each index, in order. -/
def each {W : Type} (body : Int → Prog W Unit) : List Int → Prog W Unit
  | [] => pure ()
  | j :: js => do body j; each body js

/-- Thread a value through the indices, in order. -/
def thread {W β : Type} (body : Int → β → Prog W β) : List Int → β → Prog W β
  | [], b => pure b
  | j :: js, b => do let b' ← body j b; thread body js b'

/-- Go through the indices, in order, until there is an answer. -/
def firstly {W β : Type} (body : Int → Prog W (Option β)) : List Int → Prog W (Option β)
  | [] => pure none
  | j :: js => do
      let r ← body j
      match r with
      | some b => pure (some b)
      | none => firstly body js

/-- Collect the results for the indices, in order. -/
def collect {W β : Type} (body : Int → Prog W β) : List Int → Prog W (List β)
  | [] => pure []
  | j :: js => do
      let y ← body j
      let ys ← collect body js
      pure (y :: ys)

/-- The element at index `j`, as it is now. -/
def item (c : Cont V) (j : Int) : Prog (World V X) V := fun w =>
  match (cells w c)[j.toNat]? with
  | some v => .ok v w
  | none => .bad

/-- The element at index `j` of the array at `l` becomes `v`. -/
def become (l : Nat) (j : Int) (v : V) : Prog (World V X) Unit := fun w =>
  .ok () { w with heap := w.heap.set l ((w.heap.getD l []).set j.toNat v) }

/-- `xs` with the elements from `j` on replaced by `ys`. -/
def splice (xs : List V) (j : Int) (ys : List V) : List V :=
  xs.take j.toNat ++ ys ++ xs.drop (j.toNat + ys.length)

/-- The world in which the array at `l` has the elements `xs`, and nothing else is different. -/
def withArr (w : World V X) (l : Nat) (xs : List V) : World V X :=
  { w with heap := w.heap.set l xs }

/-- The computation ended, by its result or an exception, and left the lengths of arrays
alone. -/
def Fine {α : Type} (w : World V X) : Out (World V X) α → Prop
  | .ok _ w' => Keeps w w'
  | .raise _ w' => Keeps w w'
  | .bad => False

/-- The lexicographic order induced by `cmp`. -/
def lex (cmp : V → V → Ordering) : List V → List V → Ordering
  | [], [] => .eq
  | [], _ :: _ => .lt
  | _ :: _, [] => .gt
  | x :: xs, y :: ys => match cmp x y with
    | .eq => lex cmp xs ys
    | r => r

end Mosml.Arrays
