import Verif.Arrays.Model

/-!
# Two-dimensional arrays

Model of `src/mosmllib/Array2.sml` on top of the model of `Array`, `Vector`,
`ArraySlice` and `VectorSlice` (`Verif/Arrays/Model.lean`), whose functions it
calls as the code does.

An array is the vector of its rows, which are one-dimensional arrays, by their
locations, and the two dimensions.  The reference around the triple
(Array2.sml:9) is never assigned and is left out.  The functions on the vector
of rows run on a machine of their own (`World Nat W`) whose remaining state is
the machine `W` that holds the rows.
-/

namespace Mosml.Matrix

open Mosml.Arrays

variable {V X : Type}

/-- `type 'a array`: Array2.sml:9. -/
structure Arr2 where
  rows : List Nat
  m : Int
  n : Int
deriving DecidableEq

/-- `datatype traversal`: Array2.sml:11. -/
inductive Traversal where
  | rowMajor | colMajor
deriving DecidableEq

/-- `type 'a region`: Array2.sml:13-14. -/
structure Region where
  base : Arr2
  row : Int
  col : Int
  nrows : Option Int
  ncols : Option Int

/-- A computation on rows inside one on the vector of rows. -/
def inner {W α : Type} (p : Prog W α) : Prog (World Nat W) α := fun w =>
  match p w.ext with
  | .ok a w' => .ok a { w with ext := w' }
  | .raise e w' => .raise e { w with ext := w' }
  | .bad => .bad

/-- A computation on the vector of rows. -/
def vecOp {W α : Type} (p : Prog (World Nat W) α) : Prog W α := fun w =>
  match p ⟨[], w⟩ with
  | .ok a w' => .ok a w'.ext
  | .raise e w' => .raise e w'.ext
  | .bad => .bad

/-- `List.map Array.fromList`: Array2.sml:19. -/
def mkRows : List (List V) → Prog (World V X) (List Nat)
  | [] => pure []
  | xs :: xss => do
      let r ← fromListArray xs
      let rs ← mkRows xss
      pure (r :: rs)

/-- `List.all (fn r => Array.length r = cols)`: Array2.sml:22. -/
def sameLen (cols : Int) : List Nat → Prog (World V X) Bool
  | [] => pure true
  | r :: rs => do
      let k ← len (.arr r)
      if k = cols then sameLen cols rs else pure false

/-- `fromList`: Array2.sml:16-28. -/
def fromList : List (List V) → Prog (World V X) Arr2
  | [] => do
      let v ← vecOp (Arrays.fromList [])
      pure ⟨v, 0, 0⟩
  | xs1 :: xsr => do
      let row1 ← fromListArray xs1
      let rowr ← mkRows xsr
      let cols ← len (.arr row1)
      let b ← sameLen cols rowr
      if b then do
        let vec ← vecOp (Arrays.fromList (row1 :: rowr))
        let m ← vecOp (len (.vec vec))
        pure ⟨vec, m, cols⟩
      else Prog.throw .size

/-- `array`: Array2.sml:30-31. -/
def array (m n : Int) (x : V) : Prog (World V X) Arr2 := do
  let v ← vecOp (Arrays.tabulate m (fun _ => inner (Arrays.array n x)))
  pure ⟨v, m, n⟩

/-- `tabulate RowMajor`: Array2.sml:33-34. -/
def tabulateRow (m n : Int) (f : Int → Int → Prog (World V X) V) : Prog (World V X) Arr2 := do
  let v ← vecOp (Arrays.tabulate m (fun i => inner (tabulateArray n (fun j => f i j))))
  pure ⟨v, m, n⟩

/-- `fn (r, a) => Array.update(a, c, f(r, c))`: Array2.sml:40, 45. -/
def setCol (f : Int → Int → Prog (World V X) V) (c : Int) (r : Int) (a : Nat) :
    Prog (World V X) Unit := do
  let y ← f r c
  Arrays.update a c y

/-- `loop` of `tabulate ColMajor`: Array2.sml:43-48. -/
def tabLoop (f : Int → Int → Prog (World V X) V) (arr : List Nat) (n : Int) :
    Nat → Int → Prog (World V X) Unit
  | 0, _ => Prog.fail
  | fuel + 1, c =>
      if c < n then do
        vecOp (whole (.vec arr) (appi (fun r a => inner (setCol f c r a))))
        chk (c + 1) (tabLoop f arr n fuel (c + 1))
      else pure ()

/-- `tabulate`: Array2.sml:33-51. -/
def tabulate (tr : Traversal) (m n : Int) (f : Int → Int → Prog (World V X) V) :
    Prog (World V X) Arr2 :=
  match tr with
  | .rowMajor => tabulateRow m n f
  | .colMajor =>
      if m > 0 ∧ n > 0 then do
        let f00 ← f 0 0
        let arr ← vecOp (Arrays.tabulate m (fun _ => inner (Arrays.array n f00)))
        vecOp (do
          let s ← slice (.vec arr) 1 none
          appi (fun r a => inner (setCol f 0 r a)) s)
        tabLoop f arr n (rounds n) 1
        pure ⟨arr, m, n⟩
      else tabulateRow m n f

/-- `dimensions`, `nRows`, `nCols`: Array2.sml:53-57. -/
def dimensions (a : Arr2) : Int × Int := (a.m, a.n)
def nRows (a : Arr2) : Int := a.m
def nCols (a : Arr2) : Int := a.n

/-- `Vector.sub(a, i)`, in Array2.sml:59-68 and others. -/
def rowAt (a : Arr2) (i : Int) : Prog (World V X) Nat := vecOp (Arrays.sub (.vec a.rows) i)

/-- `sub`: Array2.sml:59. -/
def sub (a : Arr2) (i j : Int) : Prog (World V X) V := do
  let r ← rowAt a i
  Arrays.sub (.arr r) j

/-- `update`: Array2.sml:61. -/
def update (a : Arr2) (i j : Int) (x : V) : Prog (World V X) Unit := do
  let r ← rowAt a i
  Arrays.update r j x

/-- `row`: Array2.sml:63-64. -/
def row (a : Arr2) (i : Int) : Prog (World V X) (List V) := do
  let r ← rowAt a i
  whole (.arr r) vector

/-- `column`: Array2.sml:66-68. -/
def column (a : Arr2) (j : Int) : Prog (World V X) (List V) :=
  if j < 0 ∨ j ≥ a.n then Prog.throw .subscript
  else Arrays.tabulate a.m (fun k => sub a k j)

/-- `rows` of `fold ColMajor` and `foldi ColMajor`: Array2.sml:73-75, 97-99. -/
def rowsLoop {β : Type} (a : Arr2) (f : Int → Int → V → β → Prog (World V X) β) (stop j : Int) :
    Nat → Int → β → Prog (World V X) β
  | 0, _, _ => Prog.fail
  | fuel + 1, i, b =>
      if i ≥ stop then pure b
      else chk (i + 1) (do
        let x ← sub a i j
        let b' ← f i j x b
        rowsLoop a f stop j fuel (i + 1) b')

/-- `cols` of `fold ColMajor` and `foldi ColMajor`: Array2.sml:76-79, 100-103. -/
def colsLoop {β : Type} (a : Arr2) (f : Int → Int → V → β → Prog (World V X) β)
    (row stoprow stopcol : Int) : Nat → Int → β → Prog (World V X) β
  | 0, _, _ => Prog.fail
  | fuel + 1, j, b =>
      if j ≥ stopcol then pure b
      else chk (j + 1) (do
        let b' ← rowsLoop a f stoprow j (rounds (stoprow - row)) row b
        colsLoop a f row stoprow stopcol fuel (j + 1) b')

/-- `fold`: Array2.sml:70-79. -/
def fold {β : Type} (tr : Traversal) (f : V → β → Prog (World V X) β) (b : β) (a : Arr2) :
    Prog (World V X) β :=
  match tr with
  | .rowMajor =>
      vecOp (whole (.vec a.rows)
        (Arrays.foldl (fun xs res => inner (whole (.arr xs) (Arrays.foldl f res))) b))
  | .colMajor => colsLoop a (fun _ _ x b => f x b) 0 a.m a.n (rounds a.n) 0 b

/-- `stop`: Array2.sml:81-86. -/
def stop {W : Type} (len i : Int) : Option Int → Prog W Int
  | none => if i < 0 ∨ i > len then Prog.throw .subscript else pure len
  | some n =>
      if i < 0 ∨ n < 0 then Prog.throw .subscript
      else chk (i + n) (if i + n > len then Prog.throw .subscript else pure (i + n))

/-- `foldi`: Array2.sml:88-103. -/
def foldi {β : Type} (tr : Traversal) (f : Int → Int → V → β → Prog (World V X) β) (b : β)
    (reg : Region) : Prog (World V X) β :=
  match tr with
  | .rowMajor =>
      vecOp (do
        let s ← slice (.vec reg.base.rows) reg.row reg.nrows
        foldli (fun i xs res => inner (do
          let t ← slice (.arr xs) reg.col reg.ncols
          foldli (fun j x res => f i j x res) res t)) b s)
  | .colMajor => do
      let stoprow ← stop reg.base.m reg.row reg.nrows
      let stopcol ← stop reg.base.n reg.col reg.ncols
      colsLoop reg.base f reg.row stoprow stopcol (rounds (stopcol - reg.col)) reg.col b

/-- `app`: Array2.sml:105-108. -/
def app (tr : Traversal) (f : V → Prog (World V X) Unit) (a : Arr2) : Prog (World V X) Unit :=
  match tr with
  | .rowMajor =>
      vecOp (whole (.vec a.rows)
        (Arrays.app (fun xs => inner (whole (.arr xs) (Arrays.app f)))))
  | .colMajor => fold .colMajor (fun x _ => f x) () a

/-- `appi`: Array2.sml:110-115. -/
def appi (tr : Traversal) (f : Int → Int → V → Prog (World V X) Unit) (reg : Region) :
    Prog (World V X) Unit :=
  match tr with
  | .rowMajor =>
      vecOp (do
        let s ← slice (.vec reg.base.rows) reg.row reg.nrows
        Arrays.appi (fun i xs => inner (do
          let t ← slice (.arr xs) reg.col reg.ncols
          Arrays.appi (fun j x => f i j x) t)) s)
  | .colMajor => foldi .colMajor (fun i j x _ => f i j x) () reg

/-- `modify`: Array2.sml:117-121. -/
def modify (tr : Traversal) (f : V → Prog (World V X) V) (a : Arr2) : Prog (World V X) Unit :=
  match tr with
  | .rowMajor =>
      vecOp (whole (.vec a.rows)
        (Arrays.app (fun xs => inner (do
          let k ← len (.arr xs)
          Arrays.modify f xs 0 k))))
  | .colMajor =>
      foldi .colMajor (fun i j x _ => do
        let y ← f x
        update a i j y) () ⟨a, 0, 0, none, none⟩

/-- `modifyi`: Array2.sml:123-129. -/
def modifyi (tr : Traversal) (f : Int → Int → V → Prog (World V X) V) (reg : Region) :
    Prog (World V X) Unit :=
  match tr with
  | .rowMajor =>
      vecOp (do
        let s ← slice (.vec reg.base.rows) reg.row reg.nrows
        Arrays.appi (fun i xs => inner (do
          let t ← slice (.arr xs) reg.col reg.ncols
          Arrays.modifyi (fun j x => f i j x) xs t.i t.n)) s)
  | .colMajor =>
      foldi .colMajor (fun i j x _ => do
        let y ← f i j x
        update reg.base i j y) () reg

/-- The call of `ArraySlice.copy` in `bottomUp` and `topDown`: Array2.sml:138-141, 146-149. -/
def copyRow (sa da : Arr2) (col : Int) (ncols : Option Int) (dcol fromRow toRow : Int) :
    Prog (World V X) Unit := do
  let r1 ← rowAt sa fromRow
  let s ← slice (.arr r1) col ncols
  let r2 ← rowAt da toRow
  Arrays.copy r1 s.i s.n r2 dcol

/-- `bottomUp`: Array2.sml:135-142. -/
def bottomUp (sa da : Arr2) (col : Int) (ncols : Option Int) (dcol srcRow : Int) :
    Nat → Int → Int → Prog (World V X) Unit
  | 0, _, _ => Prog.fail
  | fuel + 1, fromRow, toRow =>
      if fromRow < srcRow then pure ()
      else do
        copyRow sa da col ncols dcol fromRow toRow
        chk (fromRow - 1) (chk (toRow - 1)
          (bottomUp sa da col ncols dcol srcRow fuel (fromRow - 1) (toRow - 1)))

/-- `topDown`: Array2.sml:143-150. -/
def topDown (sa da : Arr2) (col : Int) (ncols : Option Int) (dcol stoprow : Int) :
    Nat → Int → Int → Prog (World V X) Unit
  | 0, _, _ => Prog.fail
  | fuel + 1, fromRow, toRow =>
      if fromRow ≥ stoprow then pure ()
      else do
        copyRow sa da col ncols dcol fromRow toRow
        chk (fromRow + 1) (chk (toRow + 1)
          (topDown sa da col ncols dcol stoprow fuel (fromRow + 1) (toRow + 1)))

/-- `copy`: Array2.sml:131-157. -/
def copy (src : Region) (dst : Arr2) (dstRow dstCol : Int) : Prog (World V X) Unit := do
  let stoprow ← stop src.base.m src.row src.nrows
  if src.row ≤ dstRow then
    chk (stoprow - 1) (chk (stoprow - 1 + dstRow) (chk (stoprow - 1 + dstRow - src.row)
      (bottomUp src.base dst src.col src.ncols dstCol src.row (rounds (stoprow - src.row))
        (stoprow - 1) (stoprow - 1 + dstRow - src.row))))
  else
    topDown src.base dst src.col src.ncols dstCol stoprow (rounds (stoprow - src.row))
      src.row dstRow

end Mosml.Matrix
