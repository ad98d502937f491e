import Verif.Matrix.Model
import Verif.Arrays.Spec

/-!
# What two-dimensional arrays are to do

The documentation is in `src/mosmllib/Array2.sig`.  Nothing here refers to the
loops of the model.
-/

namespace Mosml.Matrix

open Mosml.Arrays

variable {V X : Type}

/-- The rows of an array, from top to bottom, as they are now. -/
def mat (w : World V X) (a : Arr2) : List (List V) := a.rows.map (fun r => w.heap.getD r [])

/-- The array exists and has the dimensions it says. -/
structure Made (w : World V X) (a : Arr2) : Prop where
  height : a.m = a.rows.length
  width : ∀ r ∈ a.rows, ((w.heap.getD r []).length : Int) = a.n
  there : ∀ r ∈ a.rows, r < w.heap.length
  distinct : a.rows.Nodup
  nonneg : 0 ≤ a.n
  few : a.m ≤ maxLen
  narrow : a.n ≤ maxLen

/-- `p` for the elements of a list, in order, with a value passed along. -/
def walk {W ι β : Type} (body : ι → β → Prog W β) : List ι → β → Prog W β
  | [], b => pure b
  | k :: ks, b => do let b' ← body k b; walk body ks b'

/-- The positions of `h` rows from `r` on and `k` columns from `c` on, in row-major or
column-major order. -/
def order (tr : Traversal) (r : Int) (h : Nat) (c : Int) (k : Nat) : List (Int × Int) :=
  match tr with
  | .rowMajor => (idx r h).flatMap (fun i => (idx c k).map (fun j => (i, j)))
  | .colMajor => (idx c k).flatMap (fun j => (idx r h).map (fun i => (i, j)))

/-- The element at `(i, j)`, as it is now. -/
def cell (a : Arr2) (i j : Int) : Prog (World V X) V := item (.arr (a.rows.getD i.toNat 0)) j

/-- The element at `(i, j)` becomes `v`. -/
def setCell (a : Arr2) (i j : Int) (v : V) : Prog (World V X) Unit :=
  become (a.rows.getD i.toNat 0) j v

/-- What is done at a position. -/
def visit {β : Type} (a : Arr2) (f : Int → Int → V → β → Prog (World V X) β) (p : Int × Int)
    (b : β) : Prog (World V X) β := do
  let x ← cell a p.1 p.2
  f p.1 p.2 x b

/-- What is done at a position that is modified. -/
def alter (a : Arr2) (f : Int → Int → V → Prog (World V X) V) (p : Int × Int) :
    Prog (World V X) Unit := do
  let x ← cell a p.1 p.2
  let y ← f p.1 p.2 x
  setCell a p.1 p.2 y

/-- One dimension of a valid region: `start` and `size` lie within `len`. -/
def Within (len start : Int) (size : Option Int) : Prop :=
  match size with
  | none => 0 ≤ start ∧ start ≤ len
  | some k => 0 ≤ start ∧ 0 ≤ k ∧ start + k ≤ len

instance (len start : Int) (size : Option Int) : Decidable (Within len start size) := by
  unfold Within; split <;> infer_instance

/-- The extent of one dimension of a region. -/
def extent (len start : Int) : Option Int → Nat
  | none => (len - start).toNat
  | some k => k.toNat

/-- A valid region (Array2.sig, `region`). -/
def ValidRegion (reg : Region) : Prop :=
  Within reg.base.m reg.row reg.nrows ∧ Within reg.base.n reg.col reg.ncols

/-- The positions in a region. -/
def positions (tr : Traversal) (reg : Region) : List (Int × Int) :=
  order tr reg.row (extent reg.base.m reg.row reg.nrows)
    reg.col (extent reg.base.n reg.col reg.ncols)

/-- All positions of an array. -/
def places (tr : Traversal) (a : Arr2) : List (Int × Int) :=
  order tr 0 a.m.toNat 0 a.n.toNat

/-- The element of a matrix at a position. -/
def elem (M : List (List V)) (p : Int × Int) : Option V := do
  let row ← M[p.1.toNat]?
  row[p.2.toNat]?

/-- A function that does not touch arrays. -/
def effect {α : Type} (p : Prog X α) : Prog (World V X) α := fun w =>
  match p w.ext with
  | .ok a x => .ok a { w with ext := x }
  | .raise e x => .raise e { w with ext := x }
  | .bad => .bad

/-- The results for the elements of a list, in order. -/
def results {W ι β : Type} (g : ι → Prog W β) : List ι → Prog W (List β)
  | [] => pure []
  | k :: ks => do
      let y ← g k
      let ys ← results g ks
      pure (y :: ys)

/-- The array is new: its rows are none of the arrays of `w`, all of which are as they were. -/
def New (w w' : World V X) (a : Arr2) : Prop :=
  w.heap <+: w'.heap ∧ ∀ r ∈ a.rows, w.heap.length ≤ r

end Mosml.Matrix
