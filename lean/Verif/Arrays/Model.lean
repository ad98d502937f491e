import Verif.Util

/-!
# One-dimensional arrays, vectors and slices

Model of `src/mosmllib/Array.mlp`, `Vector.mlp`, `ArraySlice.sml` and
`VectorSlice.sml`.  These units are written with primitives that do not check
their subscripts (`get_vect_item`, `set_vect_item`, Array.mlp:22-26): an access
outside a block reads or overwrites foreign memory.  Such an access is the
outcome `bad` of the model.

`Word8Array.mlp`, `Word8Vector.mlp`, `Word8ArraySlice.sml`,
`Word8VectorSlice.sml` contain the same loops, word for word, over
`get_nth_char`/`set_nth_char`; the `Char*` units are these under another type
(`magic`, CharArray.sml:11-58).  Their `copy`, `vector` and `concat` on whole
arrays call `blit_string`, which is modelled in `Verif/Strings` (C12).

Simplifications: an array is its block (the reference around it, Array.mlp:30-31,
is never assigned); a vector under construction (`newvec`) is a list of
optional elements that is handed through the loop, as nobody else can refer to
it; it is an error (`bad`) to hand it out with an element missing.  Integers
are checked against the range of `int` (63 bits).  Loops take a fuel that is
bounded by the number of rounds; running out of it is `bad` as well.
-/

namespace Mosml.Arrays

/-- The machine: the arrays, by location, and whatever else there is. -/
structure World (V X : Type) where
  heap : List (List V)
  ext : X

/-- The exceptions the units raise, and those of the functions they are given. -/
inductive Exn where
  | subscript | size | overflow
  | user (n : Nat)
deriving DecidableEq, Repr

/-- What becomes of a computation. -/
inductive Out (W α : Type) where
  | ok (a : α) (w : W)
  | raise (e : Exn) (w : W)
  | bad
deriving DecidableEq

/-- A computation on the machine. -/
def Prog (W α : Type) := W → Out W α

namespace Prog

/-- Sequencing: an exception or an error ends the computation. -/
def andThen {W α β : Type} (p : Prog W α) (k : α → Prog W β) : Prog W β := fun w =>
  match p w with
  | .ok a w' => k a w'
  | .raise e w' => .raise e w'
  | .bad => .bad

instance {W : Type} : Monad (Prog W) where
  pure a := fun w => .ok a w
  bind := andThen

/-- `raise e`. -/
def throw {W α : Type} (e : Exn) : Prog W α := fun w => .raise e w

/-- The error. -/
def fail {W α : Type} : Prog W α := fun _ => .bad

end Prog

/-- The bounds of `int` on a 64-bit machine (Int.mlp, `minInt`, `maxInt`). -/
def minInt : Int := -4611686018427387904
def maxInt : Int := 4611686018427387903

/-- `Array.maxLen` with SIXTYFOUR (Array.mlp:43, Vector.mlp:14). -/
def maxLen : Int := 18014398509481983

/-- The result `n` of an integer operation is used in `p`; the operation raises
Overflow if it is not an `int`. -/
def chk {W α : Type} (n : Int) (p : Prog W α) : Prog W α :=
  if minInt ≤ n ∧ n ≤ maxInt then p else Prog.throw .overflow

variable {V X : Type}

/-- An array, by its location, or a vector. -/
inductive Cont (V : Type) where
  | arr (l : Nat)
  | vec (xs : List V)
deriving DecidableEq

/-- The elements of a container now. -/
def cells (w : World V X) : Cont V → List V
  | .arr l => w.heap.getD l []
  | .vec xs => xs

/-- `get_vect_item` (`sub_`, `subv_`; Array.mlp:23-24): unchecked. -/
def rd (c : Cont V) (j : Int) : Prog (World V X) V := fun w =>
  if 0 ≤ j then
    match (cells w c)[j.toNat]? with
    | some v => .ok v w
    | none => .bad
  else .bad

/-- `set_vect_item` (`update_`; Array.mlp:25): unchecked. -/
def wr (l : Nat) (j : Int) (v : V) : Prog (World V X) Unit := fun w =>
  if 0 ≤ j ∧ j.toNat < (w.heap.getD l []).length then
    .ok () { w with heap := w.heap.set l ((w.heap.getD l []).set j.toNat v) }
  else .bad

/-- `vect_length` (`length_`, `lengthv_`; Array.mlp:13-14). -/
def len (c : Cont V) : Prog (World V X) Int := fun w => .ok ((cells w c).length : Int) w

/-- `make_ref_vect n v` and `make_array` (Array.mlp:16, 31), filled with `xs`: a
new array. -/
def alloc (xs : List V) : Prog (World V X) Nat := fun w =>
  .ok w.heap.length { w with heap := w.heap ++ [xs] }

/-- `vector_ n ()` (Vector.mlp:20): a block whose elements are still to come. -/
def blank (n : Int) : List (Option V) := List.replicate n.toNat none

/-- `updatev newvec j v` (Vector.mlp:22): unchecked. -/
def put {W : Type} (nv : List (Option V)) (j : Int) (v : V) : Prog W (List (Option V)) := fun w =>
  if 0 ≤ j ∧ j.toNat < nv.length then .ok (nv.set j.toNat (some v)) w else .bad

/-- The new block is handed out. -/
def handOut {W : Type} (nv : List (Option V)) : Prog W (List V) := fun w =>
  match nv.mapM id with
  | some xs => .ok xs w
  | none => .bad

/-! ## Slices: ArraySlice.sml:23-59, VectorSlice.sml:13-45 -/

/-- `type 'a slice = 'a array * int * int` (ArraySlice.sml:23, VectorSlice.sml:13). -/
structure Slice (V : Type) where
  c : Cont V
  i : Int
  n : Int
deriving DecidableEq

/-- `slice`: ArraySlice.sml:40-48, VectorSlice.sml:26-34. -/
def slice (c : Cont V) (i : Int) (ln : Option Int) : Prog (World V X) (Slice V) := do
  let alen ← len c
  match ln with
  | none => if 0 ≤ i ∧ i ≤ alen then chk (alen - i) (pure ⟨c, i, alen - i⟩)
            else Prog.throw .subscript
  | some n =>
      if 0 ≤ i then
        if 0 ≤ n then
          chk (alen - i) (if n ≤ alen - i then pure ⟨c, i, n⟩ else Prog.throw .subscript)
        else Prog.throw .subscript
      else Prog.throw .subscript

/-- `full`: ArraySlice.sml:50-50, VectorSlice.sml:36-36. -/
def full (c : Cont V) : Prog (World V X) (Slice V) := do
  let alen ← len c
  pure ⟨c, 0, alen⟩

/-- `subslice`: ArraySlice.sml:52-57, VectorSlice.sml:38-43. -/
def subslice (s : Slice V) (i' : Int) (ln : Option Int) : Prog (World V X) (Slice V) :=
  match ln with
  | none =>
      if 0 ≤ i' ∧ i' ≤ s.n then
        chk (s.i + i') (chk (s.n - i') (pure ⟨s.c, s.i + i', s.n - i'⟩))
      else Prog.throw .subscript
  | some n' =>
      if 0 ≤ i' then
        if 0 ≤ n' then
          chk (s.n - i') (if n' ≤ s.n - i' then chk (s.i + i') (pure ⟨s.c, s.i + i', n'⟩)
            else Prog.throw .subscript)
        else Prog.throw .subscript
      else Prog.throw .subscript

/-- `getItem`: ArraySlice.sml:104-105, VectorSlice.sml:76-77. -/
def getItem (s : Slice V) : Prog (World V X) (Option (V × Slice V)) :=
  if s.n = 0 then pure none
  else do
    let x ← rd s.c s.i
    chk (s.i + 1) (chk (s.n - 1) (pure (some (x, ⟨s.c, s.i + 1, s.n - 1⟩))))

/-- `ArraySlice.sub`, `VectorSlice.sub`: ArraySlice.sml:32-34, VectorSlice.sml:22-24. -/
def sliceSub (s : Slice V) (k : Int) : Prog (World V X) V :=
  if k < 0 ∨ k ≥ s.n then Prog.throw .subscript else chk (s.i + k) (rd s.c (s.i + k))

/-- `ArraySlice.update`: ArraySlice.sml:36-38; the slice is one of the array at `l`. -/
def sliceUpdate (l : Nat) (i n : Int) (k : Int) (v : V) : Prog (World V X) Unit :=
  if k < 0 ∨ k ≥ n then Prog.throw .subscript else chk (i + k) (wr l (i + k) v)

/-- `Array.sub`, `Vector.sub`: Array.mlp:68-73, Vector.mlp:40-42. -/
def sub (c : Cont V) (k : Int) : Prog (World V X) V := do
  let n ← len c
  if k < 0 ∨ k ≥ n then Prog.throw .subscript else rd c k

/-- `Array.update`: Array.mlp:75-80. -/
def update (l : Nat) (k : Int) (v : V) : Prog (World V X) Unit := do
  let n ← len (.arr l)
  if k < 0 ∨ k ≥ n then Prog.throw .subscript else wr l k v

/-! ## Loops

The functions on whole arrays and vectors (Array.mlp:122-225, Vector.mlp:68-169)
and those on slices (ArraySlice.sml:107-209, VectorSlice.sml:79-175) have the same
local function, `lr` or `rl`, which is called with 0 and the length in the first
case and with `i` and `i+n` in the second.  The functions without `i` in their
name differ from those with it in that the index is not passed on. -/

/-- The loop of `appi`: ArraySlice.sml:164-170, VectorSlice.sml:133-138, Array.mlp:202-208,
Vector.mlp:139-144; and of `app`: ArraySlice.sml:128-133, VectorSlice.sml:97-101,
Array.mlp:163-168, Vector.mlp:97-101. -/
def lrApp (c : Cont V) (f : Int → V → Prog (World V X) Unit) (stop : Int) :
    Nat → Int → Prog (World V X) Unit
  | 0, _ => Prog.fail
  | fuel + 1, j =>
      if j < stop then do
        let x ← rd c j
        f j x
        chk (j + 1) (lrApp c f stop fuel (j + 1))
      else pure ()

/-- The loop of `foldli`: ArraySlice.sml:172-178, VectorSlice.sml:150-155, Array.mlp:179-185,
Vector.mlp:126-131; and of `foldl`: ArraySlice.sml:135-140, VectorSlice.sml:113-117,
Array.mlp:143-148, Vector.mlp:86-90. -/
def lrFold {β : Type} (c : Cont V) (f : Int → V → β → Prog (World V X) β) (stop : Int) :
    Nat → Int → β → Prog (World V X) β
  | 0, _, _ => Prog.fail
  | fuel + 1, j, res =>
      if j < stop then
        chk (j + 1) (do
          let x ← rd c j
          let r ← f j x res
          lrFold c f stop fuel (j + 1) r)
      else pure res

/-- The loop of `foldri`: ArraySlice.sml:180-185, VectorSlice.sml:157-161, Array.mlp:187-192,
Vector.mlp:133-137; and of `foldr`: ArraySlice.sml:142-146, VectorSlice.sml:119-122,
Array.mlp:150-154, Vector.mlp:92-95. -/
def rlFold {β : Type} (c : Cont V) (f : Int → V → β → Prog (World V X) β) (start : Int) :
    Nat → Int → β → Prog (World V X) β
  | 0, _, _ => Prog.fail
  | fuel + 1, j, res =>
      if j ≥ start then
        chk (j - 1) (do
          let x ← rd c j
          let r ← f j x res
          rlFold c f start fuel (j - 1) r)
      else pure res

/-- The loop of `findi`: ArraySlice.sml:155-162, VectorSlice.sml:124-131, Array.mlp:170-177,
Vector.mlp:111-117; and of `find`: ArraySlice.sml:107-114, VectorSlice.sml:79-85,
Array.mlp:122-129, Vector.mlp:68-74. -/
def lrFind (c : Cont V) (p : Int → V → Prog (World V X) Bool) (stop : Int) :
    Nat → Int → Prog (World V X) (Option (Int × V))
  | 0, _ => Prog.fail
  | fuel + 1, j =>
      if j < stop then do
        let x ← rd c j
        let b ← p j x
        if b then do
          let y ← rd c j
          pure (some (j, y))
        else chk (j + 1) (lrFind c p stop fuel (j + 1))
      else pure none

/-- The loop of `exists`: ArraySlice.sml:116-120, VectorSlice.sml:87-90, Array.mlp:131-135,
Vector.mlp:76-79. -/
def lrExists (c : Cont V) (p : V → Prog (World V X) Bool) (stop : Int) :
    Nat → Int → Prog (World V X) Bool
  | 0, _ => Prog.fail
  | fuel + 1, j =>
      if j < stop then do
        let x ← rd c j
        let b ← p x
        if b then pure true else chk (j + 1) (lrExists c p stop fuel (j + 1))
      else pure false

/-- The loop of `all`: ArraySlice.sml:122-126, VectorSlice.sml:92-95, Array.mlp:137-141,
Vector.mlp:81-84. -/
def lrAll (c : Cont V) (p : V → Prog (World V X) Bool) (stop : Int) :
    Nat → Int → Prog (World V X) Bool
  | 0, _ => Prog.fail
  | fuel + 1, j =>
      if j ≥ stop then pure true
      else do
        let x ← rd c j
        let b ← p x
        if b then chk (j + 1) (lrAll c p stop fuel (j + 1)) else pure false

/-- The loop of `modifyi`: ArraySlice.sml:187-193, Array.mlp:194-200; and of `modify`:
ArraySlice.sml:148-153, Array.mlp:156-161. -/
def lrModify (l : Nat) (f : Int → V → Prog (World V X) V) (stop : Int) :
    Nat → Int → Prog (World V X) Unit
  | 0, _ => Prog.fail
  | fuel + 1, j =>
      if j < stop then do
        let x ← rd (.arr l) j
        let y ← f j x
        wr l j y
        chk (j + 1) (lrModify l f stop fuel (j + 1))
      else pure ()

/-- The loop of `mapi`: VectorSlice.sml:140-148, Vector.mlp:146-154; and of `map`:
VectorSlice.sml:103-111, Vector.mlp:103-109. -/
def lrMap {U : Type} (c : Cont V) (f : Int → V → Prog (World V X) U) (i stop : Int) :
    Nat → Int → List (Option U) → Prog (World V X) (List (Option U))
  | 0, _, _ => Prog.fail
  | fuel + 1, j, nv =>
      if j < stop then do
        let x ← rd c j
        let y ← f j x
        chk (j - i) (do
          let nv ← put nv (j - i) y
          chk (j + 1) (lrMap c f i stop fuel (j + 1) nv))
      else pure nv

/-- `h` of `collate`: ArraySlice.sml:195-207, VectorSlice.sml:163-173, Array.mlp:210-224,
Vector.mlp:156-168. -/
def lrCollate (c1 c2 : Cont V) (i1 i2 n1 n2 : Int) (cmp : V → V → Prog (World V X) Ordering)
    (stop : Int) : Nat → Int → Prog (World V X) Ordering
  | 0, _ => Prog.fail
  | fuel + 1, j =>
      if j = stop then pure (if n1 < n2 then .lt else if n1 > n2 then .gt else .eq)
      else
        chk (i1 + j) (do
          let x ← rd c1 (i1 + j)
          chk (i2 + j) (do
            let y ← rd c2 (i2 + j)
            let r ← cmp x y
            match r with
            | .eq => chk (j + 1) (lrCollate c1 c2 i1 i2 n1 n2 cmp stop fuel (j + 1))
            | r => pure r))

/-- `copy` of `vector`: ArraySlice.sml:61-69, VectorSlice.sml:47-54, Array.mlp:82-91; `lr` of
`Vector.update`: Vector.mlp:44-50 (`i` is 0 on whole arrays and vectors). -/
def lrVector (c : Cont V) (i n : Int) :
    Nat → Int → List (Option V) → Prog (World V X) (List (Option V))
  | 0, _, _ => Prog.fail
  | fuel + 1, j, nv =>
      if j < n then
        chk (i + j) (do
          let x ← rd c (i + j)
          let nv ← put nv j x
          chk (j + 1) (lrVector c i n fuel (j + 1) nv))
      else pure nv

/-- `hi2lo` of `copy`: ArraySlice.sml:77-81, Array.mlp:101-105 (where `i1` is 0). -/
def hi2lo (c1 : Cont V) (l2 : Nat) (i1 i2 : Int) : Nat → Int → Prog (World V X) Unit
  | 0, _ => Prog.fail
  | fuel + 1, j =>
      if j ≥ 0 then
        chk (i2 + j) (chk (i1 + j) (do
          let x ← rd c1 (i1 + j)
          wr l2 (i2 + j) x
          chk (j - 1) (hi2lo c1 l2 i1 i2 fuel (j - 1))))
      else pure ()

/-- `lo2hi` of `copy` and `copyVec`: ArraySlice.sml:83-87, 96-98, Array.mlp:115-119 (where `i1`
is 0). -/
def lo2hi (c1 : Cont V) (l2 : Nat) (i1 i2 n : Int) : Nat → Int → Prog (World V X) Unit
  | 0, _ => Prog.fail
  | fuel + 1, j =>
      if j < n then
        chk (i2 + j) (chk (i1 + j) (do
          let x ← rd c1 (i1 + j)
          wr l2 (i2 + j) x
          chk (j + 1) (lo2hi c1 l2 i1 i2 n fuel (j + 1))))
      else pure ()

/-- The fuel of a loop of `n` rounds. -/
def rounds (n : Int) : Nat := n.toNat + 1

/-! ## The functions on slices -/

/-- `appi` on slices: ArraySlice.sml:164-170, VectorSlice.sml:133-138. -/
def appi (f : Int → V → Prog (World V X) Unit) (s : Slice V) : Prog (World V X) Unit :=
  chk (s.i + s.n) (lrApp s.c f (s.i + s.n) (rounds s.n) s.i)

/-- `app` on slices: ArraySlice.sml:128-133, VectorSlice.sml:97-101. -/
def app (f : V → Prog (World V X) Unit) (s : Slice V) : Prog (World V X) Unit :=
  chk (s.i + s.n) (lrApp s.c (fun _ x => f x) (s.i + s.n) (rounds s.n) s.i)

/-- `foldli` on slices: ArraySlice.sml:172-178, VectorSlice.sml:150-155. -/
def foldli {β : Type} (f : Int → V → β → Prog (World V X) β) (e : β) (s : Slice V) :
    Prog (World V X) β :=
  chk (s.i + s.n) (lrFold s.c f (s.i + s.n) (rounds s.n) s.i e)

/-- `foldl` on slices: ArraySlice.sml:135-140, VectorSlice.sml:113-117. -/
def foldl {β : Type} (f : V → β → Prog (World V X) β) (e : β) (s : Slice V) :
    Prog (World V X) β :=
  chk (s.i + s.n) (lrFold s.c (fun _ x r => f x r) (s.i + s.n) (rounds s.n) s.i e)

/-- `foldri` on slices: ArraySlice.sml:180-185, VectorSlice.sml:157-161. -/
def foldri {β : Type} (f : Int → V → β → Prog (World V X) β) (e : β) (s : Slice V) :
    Prog (World V X) β :=
  chk (s.i + s.n) (chk (s.i + s.n - 1)
    (rlFold s.c f s.i (rounds s.n) (s.i + s.n - 1) e))

/-- `foldr` on slices: ArraySlice.sml:142-146, VectorSlice.sml:119-122. -/
def foldr {β : Type} (f : V → β → Prog (World V X) β) (e : β) (s : Slice V) :
    Prog (World V X) β :=
  chk (s.i + s.n) (chk (s.i + s.n - 1)
    (rlFold s.c (fun _ x r => f x r) s.i (rounds s.n) (s.i + s.n - 1) e))

/-- `findi` on slices: ArraySlice.sml:155-162, VectorSlice.sml:124-131. -/
def findi (p : Int → V → Prog (World V X) Bool) (s : Slice V) :
    Prog (World V X) (Option (Int × V)) :=
  chk (s.i + s.n) (lrFind s.c p (s.i + s.n) (rounds s.n) s.i)

/-- `find` on slices: ArraySlice.sml:107-114, VectorSlice.sml:79-85. -/
def find (p : V → Prog (World V X) Bool) (s : Slice V) : Prog (World V X) (Option V) :=
  chk (s.i + s.n) (do
    let r ← lrFind s.c (fun _ x => p x) (s.i + s.n) (rounds s.n) s.i
    pure (r.map Prod.snd))

/-- `exists` on slices: ArraySlice.sml:116-120, VectorSlice.sml:87-90. -/
def «exists» (p : V → Prog (World V X) Bool) (s : Slice V) : Prog (World V X) Bool :=
  chk (s.i + s.n) (lrExists s.c p (s.i + s.n) (rounds s.n) s.i)

/-- `all` on slices: ArraySlice.sml:122-126, VectorSlice.sml:92-95. -/
def all (p : V → Prog (World V X) Bool) (s : Slice V) : Prog (World V X) Bool :=
  chk (s.i + s.n) (lrAll s.c p (s.i + s.n) (rounds s.n) s.i)

/-- `modifyi`: ArraySlice.sml:187-193; the slice is one of the array at `l`. -/
def modifyi (f : Int → V → Prog (World V X) V) (l : Nat) (i n : Int) : Prog (World V X) Unit :=
  chk (i + n) (lrModify l f (i + n) (rounds n) i)

/-- `modify`: ArraySlice.sml:148-153; the slice is one of the array at `l`. -/
def modify (f : V → Prog (World V X) V) (l : Nat) (i n : Int) : Prog (World V X) Unit :=
  chk (i + n) (lrModify l (fun _ x => f x) (i + n) (rounds n) i)

/-- `mapi` on slices: VectorSlice.sml:140-148. -/
def mapi {U : Type} (f : Int → V → Prog (World V X) U) (s : Slice V) :
    Prog (World V X) (List U) :=
  chk (s.i + s.n) (do
    let nv ← lrMap s.c f s.i (s.i + s.n) (rounds s.n) s.i (blank s.n)
    handOut nv)

/-- `map` on slices: VectorSlice.sml:103-111. -/
def map {U : Type} (f : V → Prog (World V X) U) (s : Slice V) : Prog (World V X) (List U) :=
  chk (s.i + s.n) (do
    let nv ← lrMap s.c (fun _ x => f x) s.i (s.i + s.n) (rounds s.n) s.i (blank s.n)
    handOut nv)

/-- `collate` on slices: ArraySlice.sml:195-207, VectorSlice.sml:163-173. -/
def collate (cmp : V → V → Prog (World V X) Ordering) (s1 s2 : Slice V) :
    Prog (World V X) Ordering :=
  let stop := if s1.n < s2.n then s1.n else s2.n
  lrCollate s1.c s2.c s1.i s2.i s1.n s2.n cmp stop (rounds stop) 0

/-- `vector` on slices: ArraySlice.sml:61-69, VectorSlice.sml:47-54. -/
def vector (s : Slice V) : Prog (World V X) (List V) := do
  let nv ← lrVector s.c s.i s.n (rounds s.n) 0 (blank s.n)
  handOut nv

/-- `ArraySlice.copy`: ArraySlice.sml:71-88. -/
def copy (l1 : Nat) (i1 n : Int) (l2 : Nat) (i2 : Int) : Prog (World V X) Unit := do
  let n2 ← len (.arr l2)
  if i2 < 0 then Prog.throw .subscript
  else chk (i2 + n) (
    if i2 + n > n2 then Prog.throw .subscript
    else if i1 < i2 then chk (n - 1) (hi2lo (.arr l1) l2 i1 i2 (rounds n) (n - 1))
    else lo2hi (.arr l1) l2 i1 i2 n (rounds n) 0)

/-- `ArraySlice.copyVec`: ArraySlice.sml:90-100; `src` is a slice of the vector `xs`. -/
def copyVec (xs : List V) (i1 n : Int) (l2 : Nat) (i2 : Int) : Prog (World V X) Unit := do
  let n2 ← len (.arr l2)
  if i2 < 0 then Prog.throw .subscript
  else chk (i2 + n) (
    if i2 + n > n2 then Prog.throw .subscript
    else lo2hi (.vec xs) l2 i1 i2 n (rounds n) 0)

/-- `acc` of `concat`: VectorSlice.sml:59-60, Vector.mlp:53-54. -/
def sumLen {W : Type} : List (Slice V) → Int → Prog W Int
  | [], n => pure n
  | s :: ss, n => chk (s.n + n) (sumLen ss (s.n + n))

/-- `copyv1` of `concat`: VectorSlice.sml:66-70; `copy`, Vector.mlp:60-64. -/
def lrPut (c : Cont V) (i n pos : Int) :
    Nat → Int → List (Option V) → Prog (World V X) (List (Option V))
  | 0, _, _ => Prog.fail
  | fuel + 1, j, nv =>
      if j < n then
        chk (pos + j) (chk (i + j) (do
          let x ← rd c (i + j)
          let nv ← put nv (pos + j) x
          chk (j + 1) (lrPut c i n pos fuel (j + 1) nv)))
      else pure nv

/-- `copyall` of `concat`: VectorSlice.sml:64-73, Vector.mlp:57-65. -/
def copyall : List (Slice V) → Int → List (Option V) → Prog (World V X) (List (Option V))
  | [], _, nv => pure nv
  | s :: ss, pos, nv => do
      let nv ← lrPut s.c s.i s.n pos (rounds s.n) 0 nv
      chk (pos + s.n) (copyall ss (pos + s.n) nv)

/-- `VectorSlice.concat`: VectorSlice.sml:58-74; `Vector.concat` (Vector.mlp:52-66) is the same
with `i1` 0 and `n1` the length. -/
def concat (ss : List (Slice V)) : Prog (World V X) (List V) := do
  let n ← sumLen ss 0
  if n > maxLen then Prog.throw .size
  else do
    let nv ← copyall ss 0 (blank n)
    handOut nv

/-! ## The functions on whole arrays and vectors -/

/-- `Array.array`: Array.mlp:48-50. -/
def array (n : Int) (v : V) : Prog (World V X) Nat :=
  if n < 0 ∨ n > maxLen then Prog.throw .size else alloc (List.replicate n.toNat v)

/-- `init` of `tabulate`: Array.mlp:55, Vector.mlp:37. -/
def lrTab (f : Int → Prog (World V X) V) (n : Int) :
    Nat → Int → List (Option V) → Prog (World V X) (List (Option V))
  | 0, _, _ => Prog.fail
  | fuel + 1, i, nv =>
      if i ≥ n then pure nv
      else do
        let y ← f i
        let nv ← put nv i y
        chk (i + 1) (lrTab f n fuel (i + 1) nv)

/-- `Vector.tabulate`: Vector.mlp:34-38. -/
def tabulate (n : Int) (f : Int → Prog (World V X) V) : Prog (World V X) (List V) :=
  if n < 0 ∨ n > maxLen then Prog.throw .size
  else do
    let nv ← lrTab f n (rounds n) 0 (blank n)
    handOut nv

/-- `Array.tabulate`: Array.mlp:52-56. -/
def tabulateArray (n : Int) (f : Int → Prog (World V X) V) : Prog (World V X) Nat := do
  let xs ← tabulate n f
  alloc xs

/-- `init` of `fromList`: Array.mlp:62-63, Vector.mlp:30-31. -/
def lrInit {W : Type} : List V → Int → List (Option V) → Prog W (List (Option V))
  | [], _, nv => pure nv
  | v :: vs, i, nv => do
      let nv ← put nv i v
      chk (i + 1) (lrInit vs (i + 1) nv)

/-- `Vector.fromList`: Vector.mlp:27-32. -/
def fromList (vs : List V) : Prog (World V X) (List V) :=
  if (vs.length : Int) > maxLen then Prog.throw .size
  else do
    let nv ← lrInit vs 0 (blank vs.length)
    handOut nv

/-- `Array.fromList`: Array.mlp:58-64. -/
def fromListArray (vs : List V) : Prog (World V X) Nat := do
  let xs ← fromList vs
  alloc xs

/-- `Vector.update`: Vector.mlp:44-50 (the loop is that of `vector`). -/
def vectorUpdate (xs : List V) (i : Int) (x : V) : Prog (World V X) (List V) :=
  if i < 0 ∨ i ≥ (xs.length : Int) then Prog.throw .subscript
  else do
    let nv ← lrVector (.vec xs) 0 xs.length (rounds xs.length) 0 (blank xs.length)
    let nv ← put nv i x
    handOut nv

/-- `Array.copy`: Array.mlp:93-106. -/
def copyArray (l1 l2 : Nat) (i2 : Int) : Prog (World V X) Unit := do
  let n ← len (.arr l1)
  let n2 ← len (.arr l2)
  if i2 < 0 then Prog.throw .subscript
  else chk (i2 + n) (
    if i2 + n > n2 then Prog.throw .subscript
    else chk (n - 1) (hi2lo (.arr l1) l2 0 i2 (rounds n) (n - 1)))

/-- The other functions on a whole array or vector (Array.mlp:122-225, Vector.mlp:68-169):
the loop of the function on slices with `i` 0 and `n` the length. -/
def whole {α : Type} (c : Cont V) (g : Slice V → Prog (World V X) α) : Prog (World V X) α := do
  let n ← len c
  g ⟨c, 0, n⟩

end Mosml.Arrays
