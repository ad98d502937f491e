import Verif.Hash.Polyhash

/-!
C79: src/mosmllib/Hashset.sml on a 64-bit machine.

A bucket (`NIL`, `B`) is the list of its entries (hash code and item), an array the list of its elements, so `copy` makes an array of its
own.  The functions given by the user (`hashVal`, `sameKey`, `p`, `f`) are total; `f` of `app` and `fold` works on a state.
Exceptions are outcomes.  `Array.app`, `foldr`, `all`, `exists` (Array.mlp:131-168) are the functions on lists.
-/
namespace Mosml.Hash.Hashset

open Polyhash (Ent Tbl Exn mkArray asub aupd index roundUp)

variable {K : Type}

/-- Hashset.sml:29-31 the constructor `B` without the rest -/
abbrev Item (K : Type) := Ent K Unit

/-- Hashset.sml:33-37: the mutable part of a set -/
abbrev HSet (K : Type) := Tbl K Unit

/-- Hashset.sml:60-67 `copy` of `growTable` -/
def copyB (newSz : Nat) : List (Item K) → List (List (Item K)) → Except Exn (List (List (Item K)))
  | [], newArr => .ok newArr
  | e :: rest, newArr => do
    let indx := index e.h newSz
    let b ← asub newArr indx
    let newArr ← aupd newArr indx (⟨e.h, e.key, ()⟩ :: b)
    copyB newSz rest newArr

/-- Hashset.sml:69 `Array.app copy arr` -/
def copyAll (newSz : Nat) : List (List (Item K)) → List (List (Item K)) → Except Exn (List (List (Item K)))
  | [], newArr => .ok newArr
  | b :: arr, newArr => do
    let newArr ← copyB newSz b newArr
    copyAll newSz arr newArr

/-- Hashset.sml:53-73 -/
def growTable (t : HSet K) : Except Exn (HSet K) :=
  let sz := t.table.length
  if t.n ≥ sz then do
    let newSz := sz + sz
    let newArr ← mkArray newSz []
    let a ← copyAll newSz t.table newArr
    .ok { t with table := a }
  else .ok t

/-- Hashset.sml:77-83 -/
def empty : Except Exn (HSet K) :=
  match roundUp 13 64 with
  | some sz => do
    let a ← mkArray sz.toNat []
    .ok ⟨a, 0⟩
  | none => .error .diverge

section
variable (hashVal : K → BitVec 63) (sameKey : K → K → Bool)

/-- Hashset.sml:93-104 `look` of `add`, the value; `[]` is NIL, and means that the item was not there -/
def lookAdd (hash : BitVec 63) (key : K) : List (Item K) → List (Item K)
  | [] => []
  | ⟨h, k, u⟩ :: r =>
    if hash = h ∧ sameKey key k then ⟨hash, key, ()⟩ :: r
    else match lookAdd hash key r with
      | [] => []
      | rest => ⟨h, k, u⟩ :: rest

/-- Hashset.sml:88-109; the effects of `look NIL` are those of lines 94-96 -/
def add (t : HSet K) (key : K) : Except Exn (HSet K) := do
  let sz := t.table.length
  let hash := hashVal key
  let indx := index hash sz
  let b ← asub t.table indx
  match lookAdd sameKey hash key b with
  | [] => do
    let b ← asub t.table indx
    let a ← aupd t.table indx (⟨hash, key, ()⟩ :: b)
    growTable ⟨a, t.n + 1⟩
  | b => do
    let a ← aupd t.table indx b
    .ok { t with table := a }

/-- Hashset.sml:113-114 -/
def addList : HSet K → List K → Except Exn (HSet K)
  | t, [] => .ok t
  | t, x :: xs => do
    let t ← add hashVal sameKey t x
    addList t xs

/-- Hashset.sml:118-124 -/
def singleton (item : K) : Except Exn (HSet K) := do
  let t ← empty
  add hashVal sameKey t item

/-- Hashset.sml:128 -/
def isEmpty (t : HSet K) : Bool := t.n = 0

/-- Hashset.sml:131-132, 138-139 -/
def allF (p : K → Bool) : List (Item K) → Bool
  | [] => true
  | e :: rest => p e.key && allF p rest

def existsF (p : K → Bool) : List (Item K) → Bool
  | [] => false
  | e :: rest => p e.key || existsF p rest

/-- Hashset.sml:130-135, 137-142 -/
def all (p : K → Bool) (t : HSet K) : Bool := t.table.all (allF p)
def exists_ (p : K → Bool) (t : HSet K) : Bool := t.table.any (existsF p)

/-- Hashset.sml:144-145 -/
def member (t : HSet K) (x : K) : Bool := exists_ (fun y => sameKey x y) t

/-- Hashset.sml:147-150; the equality is that of the first set -/
def isSubset (t1 t2 : HSet K) : Bool :=
  t1.n ≤ t2.n && all (fun x1 => exists_ (fun x2 => sameKey x1 x2) t2) t1

/-- Hashset.sml:152-153; each set has its equality -/
def equal (sameKey2 : K → K → Bool) (t1 t2 : HSet K) : Bool :=
  t1.n = t2.n && isSubset sameKey t1 t2 && isSubset sameKey2 t2 t1

/-- Hashset.sml:162-165, 176-179 `look` of `retrieve`, `peek` -/
def look (hash : BitVec 63) (key : K) : List (Item K) → Option K
  | [] => none
  | e :: r => if hash = e.h ∧ sameKey key e.key then some e.key else look hash key r

/-- Hashset.sml:157-168 -/
def retrieve (t : HSet K) (key : K) : Except Exn K := do
  let b ← asub t.table (index (hashVal key) t.table.length)
  match look sameKey (hashVal key) key b with
  | some k => .ok k
  | none => .error .not_found

/-- Hashset.sml:172-182 -/
def peek (t : HSet K) (key : K) : Except Exn (Option K) := do
  let b ← asub t.table (index (hashVal key) t.table.length)
  .ok (look sameKey (hashVal key) key b)

/-- Hashset.sml:191-197 `look` of `delete` -/
def lookDel (hash : BitVec 63) (key : K) : List (Item K) → Except Exn (K × List (Item K))
  | [] => .error .not_found
  | ⟨h, k, u⟩ :: r =>
    if hash = h ∧ sameKey key k then .ok (k, r)
    else do
      let (item, r') ← lookDel hash key r
      .ok (item, ⟨h, k, u⟩ :: r')

/-- Hashset.sml:186-202 -/
def delete (t : HSet K) (key : K) : Except Exn (HSet K) := do
  let hash := hashVal key
  let indx := index hash t.table.length
  let b ← asub t.table indx
  let (_, bucket) ← lookDel sameKey hash key b
  let a ← aupd t.table indx bucket
  .ok ⟨a, t.n - 1⟩

end

/-- Hashset.sml:206 -/
def numItems (t : HSet K) : Int := t.n

/-- Hashset.sml:211-212 -/
def listLoop : List (Item K) → List K → List K
  | [], res => res
  | e :: rest, res => listLoop rest (e.key :: res)

/-- Hashset.sml:210-216 -/
def listItems (t : HSet K) : List K := t.table.foldr (fun bucket res => listLoop bucket res) []

/-- Hashset.sml:221-222 -/
def appF {S : Type} (f : K → S → S) : List (Item K) → S → S
  | [], s => s
  | e :: rest, s => appF f rest (f e.key s)

/-- Hashset.sml:220-225 -/
def app {S : Type} (f : K → S → S) (t : HSet K) (s : S) : S := t.table.foldl (fun s b => appF f b s) s

/-- Hashset.sml:230-231 -/
def foldLoop {S : Type} (f : K → S → S) : List (Item K) → S → S
  | [], res => res
  | e :: rest, res => foldLoop f rest (f e.key res)

/-- Hashset.sml:229-235 -/
def fold {S : Type} (f : K → S → S) (e : S) (t : HSet K) : S := t.table.foldr (fun bucket res => foldLoop f bucket res) e

/-- Hashset.sml:240-241 -/
def findB (p : K → Bool) : List (Item K) → Option K
  | [] => none
  | e :: rest => if p e.key then some e.key else findB p rest

/-- Hashset.sml:242-248; `i` is one more than in the code -/
def findF (p : K → Bool) (arr : List (List (Item K))) : Nat → Except Exn (Option K)
  | 0 => .ok none
  | i + 1 => do
    let b ← asub arr i
    match findB p b with
    | none => findF p arr i
    | res => .ok res

/-- Hashset.sml:239-251 -/
def find (p : K → Bool) (t : HSet K) : Except Exn (Option K) := findF p t.table t.table.length

/-- Hashset.sml:258 `Array.copy` with `di=0` (Array.mlp:93-106): the whole of `src` replaces the beginning of `dst` -/
def copyArr (src dst : List (List (Item K))) : Except Exn (List (List (Item K))) :=
  if src.length > dst.length then .error .Subscript else .ok (src ++ dst.drop src.length)

/-- Hashset.sml:255-263 -/
def copy (t : HSet K) : Except Exn (HSet K) := do
  let newArr ← mkArray t.table.length []
  let a ← copyArr t.table newArr
  .ok ⟨a, t.n⟩

/-- Hashset.sml:268-269 -/
def hashLoop : List (Item K) → BitVec 63 → BitVec 63
  | [], res => res
  | e :: rest, res => hashLoop rest (e.h + res)

/-- Hashset.sml:267-273 -/
def hash (t : HSet K) : BitVec 63 := t.table.foldr (fun bucket res => hashLoop bucket res) 0

end Mosml.Hash.Hashset
