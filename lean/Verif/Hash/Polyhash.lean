import Verif.Util

/-!
C43: src/mosmllib/Polyhash.sml on a 64-bit machine (int has 63 bits, `Array.maxLen` is 2^54-1, Array.mlp:43).

A bucket (`NIL`, `B`) is the list of its entries, an array the list of its elements.  The functions given by the user (`hashVal`,
`sameKey`, `pred`, `f`) have no effects; `pred` may raise an exception.  Exceptions are outcomes; a Size raised by an array larger than
`maxLen` ends the run.
-/
namespace Mosml.Hash.Polyhash

variable {K V W : Type}

/-- Polyhash.sml:9-11 the constructor `B` without the rest -/
structure Ent (K V : Type) where
  h : BitVec 63
  key : K
  data : V
  deriving DecidableEq

/-- Polyhash.sml:13-18: the mutable part of a table -/
structure Tbl (K V : Type) where
  table : List (List (Ent K V))
  n : Int
  deriving DecidableEq

inductive Exn where
  | Subscript
  | Size
  | not_found
  | diverge
  deriving DecidableEq

/-- Array.mlp:43 -/
def maxLen : Nat := 18014398509481983

/-- Array.mlp:47-50 `Array.array` -/
def mkArray (n : Nat) (x : W) : Except Exn (List W) := if n > maxLen then .error .Size else .ok (List.replicate n x)

/-- `Array.sub` -/
def asub (a : List W) (i : Nat) : Except Exn W :=
  match a[i]? with
  | some x => .ok x
  | none => .error .Subscript

/-- `Array.update` -/
def aupd (a : List W) (i : Nat) (x : W) : Except Exn (List W) := if i < a.length then .ok (a.set i x) else .error .Subscript

/-- Polyhash.sml:24 `index` -/
def index (h : BitVec 63) (sz : Nat) : Nat := (h &&& BitVec.ofNat 63 (sz - 1)).toNat

/-- Polyhash.sml:27-29 `f` of `roundUp`; `lshift_` is not checked for overflow; `none`: does not stop within `fuel` steps -/
def roundF (n : Int) (i : BitVec 63) : Nat → Option (BitVec 63)
  | 0 => none
  | fuel + 1 => if i.toInt ≥ n then some i else roundF n (i <<< 1) fuel

/-- Polyhash.sml:27-29 -/
def roundUp (n : Int) (fuel : Nat) : Option (BitVec 63) := roundF n 32 fuel

/-- Polyhash.sml:35-41; the size hint is at most 2^61 (see `C43_hint_violation` for others) -/
def mkTable (sizeHint : Int) : Except Exn (Tbl K V) := do
  match roundUp sizeHint 64 with
  | some sz => do
    let a ← mkArray sz.toNat []
    .ok ⟨a, 0⟩
  | none => .error .diverge

/-- Polyhash.sml:52-59 `copy`: the new array, and whether no exception was raised -/
def copyB (newSz : Nat) : List (Ent K V) → List (List (Ent K V)) → List (List (Ent K V)) × Bool
  | [], newArr => (newArr, true)
  | e :: rest, newArr =>
    let indx := index e.h newSz
    match asub newArr indx with
    | .error _ => (newArr, false)
    | .ok b =>
      match aupd newArr indx (⟨e.h, e.key, e.data⟩ :: b) with
      | .error _ => (newArr, false)
      | .ok newArr => copyB newSz rest newArr

/-- Polyhash.sml:60-62: `bucket n` with all exceptions handled. If `intr` is some bucket number, the asynchronous exception Interrupt
comes just then. -/
def bucketLoop (intr : Option Nat) (newSz : Nat) (arr : List (List (Ent K V))) (n : Nat) (newArr : List (List (Ent K V))) :
    List (List (Ent K V)) :=
  if intr = some n then newArr
  else if h : n < arr.length then
    match copyB newSz arr[n] newArr with
    | (newArr, true) => bucketLoop intr newSz arr (n + 1) newArr
    | (newArr, false) => newArr
  else newArr
termination_by arr.length - n

/-- Polyhash.sml:44-66 -/
def growTable (intr : Option Nat) (t : Tbl K V) : Except Exn (Tbl K V) :=
  let sz := t.table.length
  if t.n ≥ sz then do
    let newSz := sz + sz
    let newArr ← mkArray newSz []
    .ok { t with table := bucketLoop intr newSz t.table 0 newArr }
  else .ok t

section
variable (hashVal : K → BitVec 63) (sameKey : K → K → Bool)

/-- Polyhash.sml:77-87 `look` of `insert`, the value; `[]` is NIL, and means that the key was not there -/
def lookIns (hash : BitVec 63) (key : K) (item : V) : List (Ent K V) → List (Ent K V)
  | [] => []
  | ⟨h, k, v⟩ :: r =>
    if hash = h ∧ sameKey key k then ⟨hash, key, item⟩ :: r
    else match lookIns hash key item r with
      | [] => []
      | rest => ⟨h, k, v⟩ :: rest

/-- Polyhash.sml:78-80, 103-106 -/
def addNew (intr : Option Nat) (t : Tbl K V) (indx : Nat) (e : Ent K V) : Except Exn (Tbl K V) := do
  let b ← asub t.table indx
  let a ← aupd t.table indx (e :: b)
  growTable intr ⟨a, t.n + 1⟩

/-- Polyhash.sml:71-92 -/
def insert (intr : Option Nat) (t : Tbl K V) (key : K) (item : V) : Except Exn (Tbl K V) := do
  let sz := t.table.length
  let hash := hashVal key
  let indx := index hash sz
  let b ← asub t.table indx
  match lookIns sameKey hash key item b with
  | [] => addNew intr t indx ⟨hash, key, item⟩
  | b => do
    let a ← aupd t.table indx b
    .ok { t with table := a }

/-- Polyhash.sml:108-110, 121-124, 135-138 `look` of `peekInsert`, `find`, `peek` -/
def look (hash : BitVec 63) (key : K) : List (Ent K V) → Option V
  | [] => none
  | ⟨h, k, v⟩ :: r => if hash = h ∧ sameKey key k then some v else look hash key r

/-- Polyhash.sml:97-113 -/
def peekInsert (intr : Option Nat) (t : Tbl K V) (key : K) (item : V) : Except Exn (Option V × Tbl K V) := do
  let sz := t.table.length
  let hash := hashVal key
  let indx := index hash sz
  let b ← asub t.table indx
  match look sameKey hash key b with
  | some v => .ok (some v, t)
  | none => do
    let t ← addNew intr t indx ⟨hash, key, item⟩
    .ok (none, t)

/-- Polyhash.sml:116-127 -/
def find (t : Tbl K V) (key : K) : Except Exn V := do
  let b ← asub t.table (index (hashVal key) t.table.length)
  match look sameKey (hashVal key) key b with
  | some v => .ok v
  | none => .error .not_found

/-- Polyhash.sml:130-141 -/
def peek (t : Tbl K V) (key : K) : Except Exn (Option V) := do
  let b ← asub t.table (index (hashVal key) t.table.length)
  .ok (look sameKey (hashVal key) key b)

/-- Polyhash.sml:151-154 `look` of `remove` -/
def lookRm (hash : BitVec 63) (key : K) : List (Ent K V) → Except Exn (V × List (Ent K V))
  | [] => .error .not_found
  | ⟨h, k, v⟩ :: r =>
    if hash = h ∧ sameKey key k then .ok (v, r)
    else do
      let (item, r') ← lookRm hash key r
      .ok (item, ⟨h, k, v⟩ :: r')

/-- Polyhash.sml:146-160 -/
def remove (t : Tbl K V) (key : K) : Except Exn (V × Tbl K V) := do
  let sz := t.table.length
  let hash := hashVal key
  let indx := index hash sz
  let b ← asub t.table indx
  let (item, bucket) ← lookRm sameKey hash key b
  let a ← aupd t.table indx bucket
  .ok (item, ⟨a, t.n - 1⟩)

end

/-- Polyhash.sml:163 -/
def numItems (t : Tbl K V) : Int := t.n

/-- Polyhash.sml:170-171 `g`: the list and the count at its end -/
def itemsG : List (Ent K V) → List (K × V) → Int → List (K × V) × Int
  | [], l, n => (l, n)
  | e :: r, l, n => itemsG r ((e.key, e.data) :: l) (n - 1)

/-- Polyhash.sml:167-174 `f`; `i` is one more than in the code -/
def itemsF (arr : List (List (Ent K V))) : Nat → List (K × V) → Int → Except Exn (List (K × V))
  | 0, l, _ => .ok l
  | i + 1, l, n =>
    if n = 0 then .ok l
    else do
      let b ← asub arr i
      let r := itemsG b l n
      itemsF arr i r.1 r.2

/-- Polyhash.sml:166-177 -/
def listItems (t : Tbl K V) : Except Exn (List (K × V)) := itemsF t.table t.table.length [] t.n

/-- Polyhash.sml:181-184 -/
def appF {S : Type} (f : K × V → S → S) : List (Ent K V) → S → S
  | [], s => s
  | e :: rest, s => appF f rest (f (e.key, e.data) s)

/-- Polyhash.sml:187-189 -/
def appToTbl {S : Type} (f : K × V → S → S) (arr : List (List (Ent K V))) (i : Nat) (s : S) : S :=
  if h : i < arr.length then appToTbl f arr (i + 1) (appF f arr[i] s) else s
termination_by arr.length - i

/-- Polyhash.sml:180-192; `f` works on a state -/
def apply {S : Type} (f : K × V → S → S) (t : Tbl K V) (s : S) : S := appToTbl f t.table 0 s

/-- Polyhash.sml:196-198 -/
def mapF (f : K × V → W) : List (Ent K V) → List (Ent K W)
  | [] => []
  | e :: rest => ⟨e.h, e.key, f (e.key, e.data)⟩ :: mapF f rest

/-- Polyhash.sml:202-206, 244-248 -/
def mapTbl (g : List (Ent K V) → List (Ent K W)) (arr : List (List (Ent K V))) (i : Nat) (newArr : List (List (Ent K W))) :
    Except Exn (List (List (Ent K W))) :=
  if h : i < arr.length then do
    let newArr ← aupd newArr i (g arr[i])
    mapTbl g arr (i + 1) newArr
  else .ok newArr
termination_by arr.length - i

/-- Polyhash.sml:195-214 -/
def map (f : K × V → W) (t : Tbl K V) : Except Exn (Tbl K W) := do
  let newArr ← mkArray t.table.length []
  let a ← mapTbl (mapF f) t.table 0 newArr
  .ok ⟨a, t.n⟩

/-- Polyhash.sml:239-240 -/
def transF (f : V → W) : List (Ent K V) → List (Ent K W)
  | [] => []
  | e :: rest => ⟨e.h, e.key, f e.data⟩ :: transF f rest

/-- Polyhash.sml:238-256 -/
def transform (f : V → W) (t : Tbl K V) : Except Exn (Tbl K W) := do
  let newArr ← mkArray t.table.length []
  let a ← mapTbl (transF f) t.table 0 newArr
  .ok ⟨a, t.n⟩

/-- Polyhash.sml:220-223; `none` from `pred`: it raised an exception. The bucket (`none`: exception) and the count -/
def filterP (pred : K × V → Option Bool) : List (Ent K V) → Int → Option (List (Ent K V)) × Int
  | [], n => (some [], n)
  | e :: rest, n =>
    match pred (e.key, e.data) with
    | none => (none, n)
    | some true =>
      let r := filterP pred rest n
      (r.1.map (⟨e.h, e.key, e.data⟩ :: ·), r.2)
    | some false => filterP pred rest (n - 1)

/-- Polyhash.sml:226-230: the table after the run, and whether it ended without exception -/
def filterTbl (pred : K × V → Option Bool) (t : Tbl K V) (i : Nat) (fuel : Nat) : Tbl K V × Bool :=
  match fuel with
  | 0 => (t, true)
  | fuel + 1 =>
    match t.table[i]? with
    | none => (t, true)
    | some b =>
      match filterP pred b t.n with
      | (none, n) => ({ t with n := n }, false)
      | (some b', n) => filterTbl pred ⟨t.table.set i b', n⟩ (i + 1) fuel

/-- Polyhash.sml:219-233 -/
def filter (pred : K × V → Option Bool) (t : Tbl K V) : Tbl K V × Bool := filterTbl pred t 0 t.table.length

/-- Polyhash.sml:263-267 `mapTbl` of `copy`, with all exceptions handled; `intr` as above -/
def copyTbl (intr : Option Nat) (arr : List (List (Ent K V))) (i : Nat) (newArr : List (List (Ent K V))) : List (List (Ent K V)) :=
  if intr = some i then newArr
  else if h : i < arr.length then
    match aupd newArr i arr[i] with
    | .ok newArr => copyTbl intr arr (i + 1) newArr
    | .error _ => newArr
  else newArr
termination_by arr.length - i

/-- Polyhash.sml:259-273 -/
def copy (intr : Option Nat) (t : Tbl K V) : Except Exn (Tbl K V) := do
  let newArr ← mkArray t.table.length []
  .ok ⟨copyTbl intr t.table 0 newArr, t.n⟩

/-- Polyhash.sml:279-280 -/
def lenB : List (Ent K V) → Int → Int
  | [], n => n
  | _ :: r, n => lenB r (n + 1)

/-- Polyhash.sml:281-282; `i` is one more than in the code -/
def sizesF (arr : List (List (Ent K V))) : Nat → List Int → Except Exn (List Int)
  | 0, l => .ok l
  | i + 1, l => do
    let b ← asub arr i
    sizesF arr i (lenB b 0 :: l)

/-- Polyhash.sml:278-285 -/
def bucketSizes (t : Tbl K V) : Except Exn (List Int) := sizesF t.table t.table.length []

end Mosml.Hash.Polyhash
