import Verif.Yacc.ClosureProps

/-!
C36: `digraph` and `traverse` of src/mosmlyac/lalr.c, with 32-bit words.  The array `F` is a list of words, in rows of `ts` (`tokensetsize`) words.  A row of
`R` is `none` for a null pointer, or the list of the entries before the -1.  An access outside an array is `none`; numbers that are stored in arrays of short
are converted.
-/
namespace Mosml.Yacc.Digraph

open Warshall (Mem orLoop)

/-- the globals -/
structure St where
  F : Mem
  index : List Int
  vert : List Nat
  top : Nat

/-- conversion to short -/
def short (x : Int) : Int := (x + 32768) % 65536 - 32768

/-- lalr.c:611-624, `traverse(j)` being `rec` -/
def edgeLoop (rec : Nat → St → Option St) (ts i : Nat) : List Nat → St → Option St
  | [], s => some s
  | j :: rp, s => do
    let ij ← s.index[j]?
    let s ← (if ij = 0 then rec j s else some s : Option St)
    let ii ← s.index[i]?
    let ij ← s.index[j]?
    let s := if ii > ij then { s with index := s.index.set i ij } else s
    let F ← orLoop s.F (i * ts) (j * ts) (i * ts + ts)
    edgeLoop rec ts i rp { s with F := F }

/-- lalr.c:608-625 -/
def edges (rec : Nat → St → Option St) (ts i : Nat) : Option (List Nat) → St → Option St
  | none, s => some s
  | some rp, s => edgeLoop rec ts i rp s

/-- lalr.c:637-641: `*fp2++ = *fp1++`, up to `fp3` -/
def copyLoop (m : Mem) (fp1 fp2 fp3 : Nat) : Option Mem :=
  if fp1 < fp3 then
    match m[fp1]? with
    | none => none
    | some w => if fp2 < m.length then copyLoop (m.set fp2 w) (fp1 + 1) (fp2 + 1) fp3 else none
  else some m
termination_by fp3 - fp1

/-- lalr.c:629-642; the first argument is `top`.  `VERTICES[0]` is never set, so reading it is counted as an error -/
def popLoop (ts : Nat) (inf : Int) (i : Nat) : Nat → St → Option St
  | 0, _ => none
  | top + 1, s =>
    match s.vert[top + 1]? with
    | none => none
    | some j =>
      if j < s.index.length then
        let s := { s with index := s.index.set j inf, top := top }
        if i = j then some s
        else match copyLoop s.F (i * ts) (j * ts) (i * ts + ts) with
          | none => none
          | some F => popLoop ts inf i top { s with F := F }
      else none

/-- lalr.c:591-644; the fuel bounds the depth of the recursion -/
def traverse (R : List (Option (List Nat))) (ts : Nat) (inf : Int) : Nat → Nat → St → Option St
  | 0, _, _ => none
  | fuel + 1, i, s =>
    let top := s.top + 1
    if top < s.vert.length ∧ i < s.index.length then do
      let s := { s with vert := s.vert.set top i, index := s.index.set i (short top), top := top }
      let row ← R[i]?
      let s ← edges (traverse R ts inf fuel) ts i row s
      let ii ← s.index[i]?
      if ii = top then popLoop ts (short inf) i s.top s else some s
    else none

/-- lalr.c:579-583; `k` vertices are left -/
def mainLoop (R : List (Option (List Nat))) (ts : Nat) (inf : Int) (fuel : Nat) : Nat → Nat → St → Option St
  | 0, _, s => some s
  | k + 1, i, s => do
    let ii ← s.index[i]?
    let row ← R[i]?
    let s ← (if ii = 0 ∧ row ≠ none then traverse R ts inf fuel i s else some s : Option St)
    mainLoop R ts inf fuel k (i + 1) s

/-- lalr.c:565-587: the array `F` afterwards.  `n` is `ngotos` -/
def digraph (R : List (Option (List Nat))) (ts n : Nat) (F : Mem) : Option Mem := do
  let s ← mainLoop R ts (n + 2) n n 0 { F := F, index := List.replicate (n + 1) 0, vert := List.replicate (n + 1) 0, top := 0 }
  some s.F

/-! ### specification -/

/-- the relation `R` -/
def Succ (R : List (Option (List Nat))) (v w : Nat) : Prop := ∃ l, R[v]? = some (some l) ∧ w ∈ l

/-- bit `k` of row `v` of `F` -/
def Bit (F : Mem) (ts v k : Nat) : Prop := Closure.bitr F ts v k = true

/-- the least solution: the union of the initial sets of all vertices that can be reached -/
def Fin (R : List (Option (List Nat))) (F0 : Mem) (ts v k : Nat) : Prop := ∃ w, Relation.ReflTransGen (Succ R) v w ∧ Bit F0 ts w k

/-- `Fin` is the least family of sets above `F0` and closed under the relation -/
theorem Fin_least (R : List (Option (List Nat))) (F0 : Mem) (ts : Nat) :
    (∀ v k, Bit F0 ts v k → Fin R F0 ts v k) ∧ (∀ v w k, Succ R v w → Fin R F0 ts w k → Fin R F0 ts v k) ∧
    ∀ X : Nat → Nat → Prop, (∀ v k, Bit F0 ts v k → X v k) → (∀ v w k, Succ R v w → X w k → X v k) → ∀ v k, Fin R F0 ts v k → X v k := by
  refine ⟨fun v k h => ⟨v, .refl, h⟩, fun v w k h1 ⟨u, h2, h3⟩ => ⟨u, h2.head h1, h3⟩, ?_⟩
  rintro X h1 h2 v k ⟨w, h3, h4⟩
  induction h3 using Relation.ReflTransGen.head_induction_on with
  | refl => exact h1 _ _ h4
  | head a _ ih => exact h2 _ _ _ a ih

/-- the rows of `R` are those of a relation on {0, …, n-1} -/
structure Valid (R : List (Option (List Nat))) (n : Nat) : Prop where
  len : R.length = n
  lt : ∀ v w, Succ R v w → w < n

end Mosml.Yacc.Digraph
