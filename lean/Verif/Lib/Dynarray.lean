import Verif.Util
import Mathlib.Data.List.GetD
import Mathlib.Data.List.Forall2

/-!
C44: src/mosmllib/Dynarray.sml, on a 64-bit machine (`Array.maxLen` is 2^54-1).  Integers are without bound; the bounds assumed in the
theorem exclude Overflow.  The array in the reference of a `BLOCK` belongs to it alone, so a program's state is the list of the dynamic
arrays made so far.
-/
namespace Mosml.Lib.Dynarray

variable {A : Type}

inductive Exn where
  | Size
  | Subscript
  deriving DecidableEq

/-- Array.mlp:43 -/
def maxLen : Int := 18014398509481983

/-- Dynarray.sml:10 -/
structure Block (A : Type) where
  arr : List A
  dflt : A

/-- Array.mlp:52-56 (and 48-50 for a constant function) -/
def Array.tabulate (n : Int) (f : Int → A) : Except Exn (List A) :=
  if n < 0 ∨ n > maxLen then .error .Size else .ok ((List.range n.toNat).map (fun i : Nat => f i))

/-- Array.mlp `sub` -/
def Array.sub (a : List A) (i : Int) : Except Exn A :=
  if i < 0 ∨ i ≥ a.length then .error .Subscript
  else match a[i.toNat]? with
    | some x => .ok x
    | none => .error .Subscript

/-- Array.mlp `update` -/
def Array.update (a : List A) (i : Int) (x : A) : Except Exn (List A) :=
  if i < 0 ∨ i ≥ a.length then .error .Subscript else .ok (a.set i.toNat x)

/-- Dynarray.sml:12 -/
def array (sz : Int) (dflt : A) : Except Exn (Block A) := do .ok ⟨← Array.tabulate sz (fun _ => dflt), dflt⟩

/-- Dynarray.sml:16 -/
def copy (b : Block A) (lo i : Int) : A :=
  match Array.sub b.arr (i + lo) with
  | .ok x => x
  | .error _ => b.dflt

/-- Dynarray.sml:14-19 -/
def subArray (b : Block A) (lo hi : Int) : Except Exn (Block A) := do .ok ⟨← Array.tabulate (hi - lo) (copy b lo), b.dflt⟩

/-- Dynarray.sml:21 -/
def fromList (l : List A) (dflt : A) : Except Exn (Block A) := if l.length > maxLen then .error .Size else .ok ⟨l, dflt⟩

/-- Dynarray.sml:23 -/
def tabulate (sz : Int) (f : Int → A) (dflt : A) : Except Exn (Block A) := do .ok ⟨← Array.tabulate sz f, dflt⟩

/-- Dynarray.sml:25 -/
def default (b : Block A) : A := b.dflt

/-- Dynarray.sml:27-28 -/
def sub (b : Block A) (idx : Int) : Except Exn A :=
  match Array.sub b.arr idx with
  | .ok x => .ok x
  | .error .Subscript => if idx < 0 then .error .Subscript else .ok b.dflt
  | .error e => .error e

/-- Dynarray.sml:30 -/
def bound (b : Block A) : Int := b.arr.length

/-- Dynarray.sml:32-36; the call of `Array.sub` in `fillfn` is within bounds -/
def expand (arr : List A) (oldlen newlen : Int) (dflt : A) : Except Exn (List A) :=
  Array.tabulate newlen (fun i => if i < oldlen then arr.getD i.toNat dflt else dflt)

/-- Dynarray.sml:39 -/
def max (x y : Int) : Int := if x > y then x else y

/-- Dynarray.sml:38-46 -/
def update (b : Block A) (idx : Int) (v : A) : Except Exn (Block A) := do
  let len := bound b
  let arr ← if idx ≥ len then expand b.arr len (max (len + len) (idx + 1)) b.dflt else .ok b.arr
  .ok { b with arr := ← Array.update arr idx v }

/-! ### properties -/

inductive Op (A : Type) where
  | array (n : Int) (d : A)
  | fromList (l : List A) (d : A)
  | tabulate (n : Int) (f : Int → A) (d : A)
  | subArray (a : Nat) (m n : Int)
  | sub (a : Nat) (i : Int)
  | update (a : Nat) (i : Int) (x : A)
  | default (a : Nat)
  | bound (a : Nat)

inductive Out (A : Type) where
  | new
  | unit
  | val (x : A)
  | num (n : Int)
  | exn (e : Exn)
  | bad

def push (s : List (Block A)) : Except Exn (Block A) → List (Block A) × Out A
  | .ok b => (s ++ [b], .new)
  | .error e => (s, .exn e)

def onArr (s : List (Block A)) (a : Nat) (f : Block A → List (Block A) × Out A) : List (Block A) × Out A :=
  match s[a]? with
  | some b => f b
  | none => (s, .bad)

def step (s : List (Block A)) : Op A → List (Block A) × Out A
  | .array n d => push s (array n d)
  | .fromList l d => push s (fromList l d)
  | .tabulate n f d => push s (tabulate n f d)
  | .subArray a m n => onArr s a fun b => push s (subArray b m n)
  | .sub a i => onArr s a fun b => match sub b i with
    | .ok x => (s, .val x)
    | .error e => (s, .exn e)
  | .update a i x => onArr s a fun b => match update b i x with
    | .ok b' => (s.set a b', .unit)
    | .error e => (s, .exn e)
  | .default a => onArr s a fun b => (s, .val (default b))
  | .bound a => onArr s a fun b => (s, .num (bound b))

def run (s : List (Block A)) : List (Op A) → List (Out A)
  | [] => []
  | o :: os => (step s o).2 :: run (step s o).1 os

/-- an infinite array and its default -/
structure Inf (A : Type) where
  f : Int → A
  d : A

/-- the arrays after an operation; indices are nonnegative, values elsewhere do not matter -/
def after (s : List (Inf A)) : Op A → List (Inf A)
  | .array n d => if n < 0 then s else s ++ [⟨fun _ => d, d⟩]
  | .fromList l d => s ++ [⟨fun i => l.getD i.toNat d, d⟩]
  | .tabulate n f d => if n < 0 then s else s ++ [⟨fun i => if i < n then f i else d, d⟩]
  | .subArray a m n => match s[a]? with
    | some b => if n < m then s else s ++ [⟨fun i => if i < n - m ∧ 0 ≤ i + m then b.f (i + m) else b.d, b.d⟩]
    | none => s
  | .update a i x => match s[a]? with
    | some b => if i < 0 then s else s.set a ⟨fun j => if j = i then x else b.f j, b.d⟩
    | none => s
  | _ => s

/-- the results an operation may have -/
def Result (s : List (Inf A)) : Op A → Out A → Prop
  | .array n _, o => o = if n < 0 then .exn .Size else .new
  | .fromList _ _, o => o = .new
  | .tabulate n _ _, o => o = if n < 0 then .exn .Size else .new
  | .subArray a m n, o => o = match s[a]? with
    | some _ => if n < m then .exn .Size else .new
    | none => .bad
  | .sub a i, o => o = match s[a]? with
    | some b => if i < 0 then .exn .Subscript else .val (b.f i)
    | none => .bad
  | .update a i _, o => o = match s[a]? with
    | some _ => if i < 0 then .exn .Subscript else .unit
    | none => .bad
  | .default a, o => o = match s[a]? with
    | some b => .val b.d
    | none => .bad
  | .bound a, o => match s[a]? with
    | some b => ∃ n, o = .num n ∧ ∀ i, n ≤ i → 0 ≤ i → b.f i = b.d
    | none => o = .bad

def Results (s : List (Inf A)) : List (Op A) → List (Out A) → Prop
  | [], os => os = []
  | o :: os, r :: rs => Result s o r ∧ Results (after s o) os rs
  | _ :: _, [] => False

/-- sizes are at most `maxLen`, indices of updates below 2^53 -/
def Small : Op A → Prop
  | .array n _ => n ≤ maxLen
  | .fromList l _ => l.length ≤ maxLen
  | .tabulate n _ _ => n ≤ maxLen
  | .subArray _ m n => n - m ≤ maxLen
  | .update _ i _ => i < 2 ^ 53
  | _ => True

def Holds (b : Block A) (v : Inf A) : Prop := b.dflt = v.d ∧ ∀ i : Int, 0 ≤ i → b.arr.getD i.toNat b.dflt = v.f i

def AllHold (s : List (Block A)) (v : List (Inf A)) : Prop := List.Forall₂ Holds s v

theorem arr_sub_ok {a : List A} {i : Int} (d : A) (h0 : 0 ≤ i) (h1 : i < a.length) : Array.sub a i = .ok (a.getD i.toNat d) := by
  unfold Array.sub
  have : i.toNat < a.length := by omega
  rw [if_neg (by omega), List.getElem?_eq_getElem this]
  simp [List.getD, this]

theorem sub_spec {b : Block A} {v : Inf A} (h : Holds b v) (i : Int) : sub b i = if i < 0 then .error .Subscript else .ok (v.f i) := by
  unfold sub
  by_cases c : 0 ≤ i ∧ i < b.arr.length
  · rw [arr_sub_ok b.dflt c.1 c.2, h.2 i c.1]
    have c0 : ¬ i < 0 := by omega
    simp only [c0, if_false]
  · have e : Array.sub b.arr i = .error .Subscript := by unfold Array.sub; rw [if_pos (by omega)]
    rw [e]
    by_cases c' : i < 0
    · simp [c']
    · simp only [c', if_false]
      rw [← h.2 i (by omega), List.getD_eq_default _ _ (by omega)]

theorem tab_getD (n : Nat) (f : Int → A) (d : A) (i : Int) (h0 : 0 ≤ i) : ((List.range n).map (fun j : Nat => f j)).getD i.toNat d = if i < n then f i else d := by
  by_cases c : i < n
  · have : i.toNat < ((List.range n).map (fun j : Nat => f j)).length := by simp; omega
    rw [if_pos c, List.getD_eq_getElem _ _ this]
    simp; congr 1; omega
  · rw [if_neg c, List.getD_eq_default _ _ (by simp; omega)]

theorem update_spec {b : Block A} {v : Inf A} (h : Holds b v) (i : Int) (x : A) (hi : i < 2 ^ 53) :
    if i < 0 then update b i x = .error .Subscript
    else ∃ b', update b i x = .ok b' ∧ Holds b' ⟨fun j => if j = i then x else v.f j, v.d⟩ := by
  by_cases c : i < 0
  · rw [if_pos c]
    unfold update
    dsimp only
    rw [if_neg (by unfold bound; omega)]
    show (Array.update b.arr i x).bind _ = _
    unfold Array.update
    rw [if_pos (by omega)]; rfl
  · rw [if_neg c]
    have key : ∀ arr' : List A, i < arr'.length → (∀ j : Int, 0 ≤ j → arr'.getD j.toNat b.dflt = b.arr.getD j.toNat b.dflt) →
        ∃ b', (Array.update arr' i x).bind (fun a => Except.ok { b with arr := a }) = .ok b' ∧ Holds b' ⟨fun j => if j = i then x else v.f j, v.d⟩ := by
      intro arr' hl hg
      unfold Array.update
      rw [if_neg (by omega)]
      refine ⟨_, rfl, h.1, ?_⟩
      intro j hj
      dsimp only
      by_cases e : j = i
      · subst e
        have : j.toNat < arr'.length := by omega
        simp [List.getD, this]
      · rw [if_neg e, ← h.2 j hj, ← hg j hj]
        simp only [List.getD]
        rw [List.getElem?_set_ne (by omega)]
    unfold update
    dsimp only
    by_cases c2 : i ≥ bound b
    · rw [if_pos c2]
      unfold expand Array.tabulate
      have hb : bound b = b.arr.length := rfl
      have hmax : max (bound b + bound b) (i + 1) = if bound b + bound b > i + 1 then bound b + bound b else i + 1 := rfl
      have hm1 : 0 ≤ max (bound b + bound b) (i + 1) := by rw [hmax]; split <;> omega
      have hm2 : max (bound b + bound b) (i + 1) ≤ maxLen := by unfold maxLen; rw [hmax]; split <;> omega
      have hm3 : i < max (bound b + bound b) (i + 1) := by rw [hmax]; split <;> omega
      have hm4 : bound b ≤ max (bound b + bound b) (i + 1) := by rw [hmax]; split <;> omega
      generalize max (bound b + bound b) (i + 1) = M at hm1 hm2 hm3 hm4 ⊢
      rw [if_neg (by omega)]
      refine key _ (by simp; omega) ?_
      intro j hj
      rw [tab_getD M.toNat (fun i => if i < bound b then b.arr.getD i.toNat b.dflt else b.dflt) _ j hj]
      by_cases e : j < M.toNat
      · rw [if_pos e]
        by_cases e2 : j < bound b
        · rw [if_pos e2]
        · rw [if_neg e2, List.getD_eq_default _ _ (by omega)]
      · rw [if_neg e, List.getD_eq_default _ _ (by omega)]
    · rw [if_neg c2]
      exact key b.arr (by unfold bound at c2; omega) (fun _ _ => rfl)

theorem bound_spec {b : Block A} {v : Inf A} (h : Holds b v) : ∀ i, bound b ≤ i → 0 ≤ i → v.f i = v.d := by
  intro i h1 h2
  unfold bound at h1
  rw [← h.2 i h2, List.getD_eq_default _ _ (by omega), h.1]

theorem tab_hold (n : Int) (f : Int → A) (d : A) (hn : n ≤ maxLen) :
    Array.tabulate n f = if n < 0 then .error .Size else .ok ((List.range n.toNat).map (fun i : Nat => f i)) := by
  unfold Array.tabulate
  by_cases c : n < 0
  · rw [if_pos (.inl c), if_pos c]
  · rw [if_neg (by omega), if_neg c]

theorem allHold_get {s : List (Block A)} {v : List (Inf A)} (h : AllHold s v) (a : Nat) :
    (s[a]? = none ∧ v[a]? = none) ∨ ∃ b w, s[a]? = some b ∧ v[a]? = some w ∧ Holds b w := by
  have hl := h.length_eq
  by_cases c : a < s.length
  · right
    have c2 : a < v.length := by omega
    refine ⟨s[a], v[a], List.getElem?_eq_getElem c, List.getElem?_eq_getElem c2, ?_⟩
    exact List.Forall₂.get h c c2
  · left; exact ⟨List.getElem?_eq_none (by omega), List.getElem?_eq_none (by omega)⟩

theorem allHold_push {s : List (Block A)} {v : List (Inf A)} (h : AllHold s v) {b : Block A} {w : Inf A} (hb : Holds b w) : AllHold (s ++ [b]) (v ++ [w]) :=
  List.rel_append h (.cons hb .nil)

theorem allHold_set {s : List (Block A)} {v : List (Inf A)} (h : AllHold s v) {b : Block A} {w : Inf A} (hb : Holds b w) (a : Nat) : AllHold (s.set a b) (v.set a w) := by
  induction h generalizing a with
  | nil => exact .nil
  | cons h1 h2 ih =>
    cases a with
    | zero => exact .cons hb h2
    | succ a => exact .cons h1 (ih a)

theorem step_spec {s : List (Block A)} {v : List (Inf A)} (h : AllHold s v) (o : Op A) (ho : Small o) :
    Result v o (step s o).2 ∧ AllHold (step s o).1 (after v o) := by
  cases o with
  | array n d =>
    simp only [step, Result, after, array, tab_hold n _ d ho]
    by_cases c : n < 0
    · simp only [c, if_true]; exact ⟨rfl, h⟩
    · simp only [c, if_false]
      refine ⟨rfl, allHold_push h ⟨rfl, fun i hi => ?_⟩⟩
      dsimp only
      rw [tab_getD n.toNat (fun _ => d) d i hi]; simp
  | fromList l d =>
    simp only [step, Result, after, fromList]
    rw [if_neg (by simp only [Small] at ho; omega)]
    exact ⟨rfl, allHold_push h ⟨rfl, fun i hi => rfl⟩⟩
  | tabulate n f d =>
    simp only [step, Result, after, tabulate, tab_hold n _ d ho]
    by_cases c : n < 0
    · simp only [c, if_true]; exact ⟨rfl, h⟩
    · simp only [c, if_false]
      refine ⟨rfl, allHold_push h ⟨rfl, fun i hi => ?_⟩⟩
      dsimp only
      rw [tab_getD n.toNat f d i hi]
      by_cases c2 : i < n
      · rw [if_pos (by omega), if_pos c2]
      · rw [if_neg (by omega), if_neg c2]
  | subArray a m n =>
    simp only [step, Result, after, onArr]
    rcases allHold_get h a with ⟨h1, h2⟩ | ⟨b, w, h1, h2, h3⟩
    · rw [h1, h2]; exact ⟨rfl, h⟩
    · rw [h1, h2]
      simp only [subArray, tab_hold (n - m) _ b.dflt ho]
      by_cases c : n < m
      · rw [if_pos (by omega)]; simp only [c, if_true]; exact ⟨rfl, h⟩
      · rw [if_neg (by omega)]; simp only [c, if_false]
        refine ⟨rfl, allHold_push h ⟨h3.1, fun i hi => ?_⟩⟩
        dsimp only
        rw [tab_getD (n - m).toNat _ _ i hi]
        by_cases c2 : i < n - m
        · rw [if_pos (by omega)]
          unfold copy
          by_cases c3 : 0 ≤ i + m
          · rw [if_pos ⟨c2, c3⟩]
            by_cases c4 : i + m < b.arr.length
            · rw [arr_sub_ok b.dflt c3 c4]; exact h3.2 _ c3
            · have e : Array.sub b.arr (i + m) = .error .Subscript := by unfold Array.sub; rw [if_pos (by omega)]
              rw [e, ← h3.2 _ c3, List.getD_eq_default _ _ (by omega)]
          · have e : Array.sub b.arr (i + m) = .error .Subscript := by unfold Array.sub; rw [if_pos (by omega)]
            rw [e, if_neg (by omega)]; exact h3.1
        · rw [if_neg (by omega), if_neg (by omega)]; exact h3.1
  | sub a i =>
    simp only [step, Result, after, onArr]
    rcases allHold_get h a with ⟨h1, h2⟩ | ⟨b, w, h1, h2, h3⟩
    · rw [h1, h2]; exact ⟨rfl, h⟩
    · rw [h1, h2]
      simp only [sub_spec h3]
      by_cases c : i < 0
      · simp only [c, if_true]; exact ⟨trivial, h⟩
      · simp only [c, if_false]; exact ⟨trivial, h⟩
  | update a i x =>
    simp only [step, Result, after, onArr]
    rcases allHold_get h a with ⟨h1, h2⟩ | ⟨b, w, h1, h2, h3⟩
    · rw [h1, h2]; exact ⟨rfl, h⟩
    · rw [h1, h2]
      have hu := update_spec h3 i x ho
      by_cases c : i < 0
      · rw [if_pos c] at hu
        simp only [hu, c, if_true]; exact ⟨trivial, h⟩
      · rw [if_neg c] at hu
        obtain ⟨b', e1, e2⟩ := hu
        simp only [e1, c, if_false]
        exact ⟨trivial, allHold_set h e2 a⟩
  | default a =>
    simp only [step, Result, after, onArr]
    rcases allHold_get h a with ⟨h1, h2⟩ | ⟨b, w, h1, h2, h3⟩
    · rw [h1, h2]; exact ⟨rfl, h⟩
    · rw [h1, h2]; simp only [default, h3.1]; exact ⟨trivial, h⟩
  | bound a =>
    simp only [step, Result, after, onArr]
    rcases allHold_get h a with ⟨h1, h2⟩ | ⟨b, w, h1, h2, h3⟩
    · rw [h1, h2]; exact ⟨rfl, h⟩
    · rw [h1, h2]
      exact ⟨⟨_, rfl, bound_spec h3⟩, h⟩

theorem run_spec (os : List (Op A)) : ∀ {s : List (Block A)} {v : List (Inf A)}, AllHold s v → (∀ o ∈ os, Small o) → Results v os (run s os) := by
  induction os with
  | nil => intro s v _ _; rfl
  | cons o os ih =>
    intro s v h ho
    obtain ⟨h1, h2⟩ := step_spec h o (ho o (by simp))
    exact ⟨h1, ih h2 (fun o' h' => ho o' (by simp [h']))⟩

/-- C44: every sequence of operations on any number of dynamic arrays, with indices of updates below 2^53 and sizes up to
`Array.maxLen`, gives the results of infinite arrays. `subArray (a, m, n)` has the values of `a` in [m, n-1] (see the violation below). -/
theorem C44_dynarray_partial (os : List (Op A)) (ho : ∀ o ∈ os, Small o) : Results [] os (run [] os) := run_spec os .nil ho

/-- Dynarray.sig promises the values of `a` in [m, n] in the range [0, n-m] of `subArray (a, m, n)`; the last is missing. -/
theorem C44_subArray_violation : ∃ (a : Block Nat) (m n : Int) (b : Block Nat), 0 ≤ m ∧ m ≤ n ∧ subArray a m n = .ok b ∧
    ∃ i, 0 ≤ i ∧ i ≤ n - m ∧ sub b i ≠ sub a (i + m) :=
  ⟨⟨[1, 2, 3], 0⟩, 0, 1, ⟨[1], 0⟩, by omega, by omega, by rfl, 1, by omega, by omega, by decide⟩

example : ∀ o ∈ ([.array 3 0, .update 0 7 9, .subArray 0 2 8, .sub 1 5, .update 0 7 1, .sub 1 5, .sub 0 (-1), .bound 0] : List (Op Nat)), Small o := by
  simp [Small, maxLen]

end Mosml.Lib.Dynarray
