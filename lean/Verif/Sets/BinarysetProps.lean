import Verif.Sets.BinarysetLemmas

/-!
C69: Binaryset and Intset are sets.
-/
namespace Mosml.Sets.Binaryset
open Binaryset.Tree
open Mosml.Maps (Lawful)
variable {K : Type}

/-- the operations that make a new set -/
inductive Exp (K : Type) where
  | empty
  | singleton (x : K)
  | add (e : Exp K) (x : K)
  | addList (e : Exp K) (xs : List K)
  | delete (e : Exp K) (x : K)
  | union (a b : Exp K)
  | intersection (a b : Exp K)
  | difference (a b : Exp K)

/-- a program that makes a set: `none` if Match was raised; deletions that raise NotFound leave the set as it was -/
def run (cmp : K → K → Ordering) : Exp K → Option (Tree K)
  | .empty => some Binaryset.empty
  | .singleton x => some (Binaryset.singleton x)
  | .add e x => do let s ← run cmp e; Binaryset.add cmp s x
  | .addList e xs => do let s ← run cmp e; Binaryset.addList cmp s xs
  | .delete e x => do
    let s ← run cmp e
    match Binaryset.delete cmp x s with
    | .ok s' => some s'
    | .notFound => some s
    | .matchFail => none
  | .union a b => do let s ← run cmp a; let t ← run cmp b; Binaryset.union cmp s t
  | .intersection a b => do let s ← run cmp a; let t ← run cmp b; Binaryset.intersection cmp s t
  | .difference a b => do let s ← run cmp a; let t ← run cmp b; Binaryset.difference cmp s t

/-- the same on sets.  Of elements that compare EQUAL, `add` keeps the new one, `union` that of the first set, `intersection` that of the
second. -/
def spec (cmp : K → K → Ordering) : Exp K → FSet K
  | .empty => FSet.empty
  | .singleton x => FSet.put cmp FSet.empty x
  | .add e x => FSet.put cmp (spec cmp e) x
  | .addList e xs => xs.foldl (FSet.put cmp) (spec cmp e)
  | .delete e x => FSet.remove cmp (spec cmp e) x
  | .union a b => FSet.union (spec cmp a) (spec cmp b)
  | .intersection a b => FSet.inter (spec cmp b) (spec cmp a)
  | .difference a b => FSet.diff (spec cmp a) (spec cmp b)

/-- a tree with right counts that stands for the set -/
def Repr (cmp : K → K → Ordering) (t : Tree K) (m : FSet K) : Prop := Sized t ∧ Lists cmp (flat t) m

section
variable {cmp : K → K → Ordering} (h : Lawful cmp)
include h

theorem add_ok {t : Tree K} {m : FSet K} (k : Repr cmp t m) (x : K) : ∃ t', add cmp t x = some t' ∧ Repr cmp t' (FSet.put cmp m x) := by
  obtain ⟨t', h1, h2, h3⟩ := addt_ok h x t k.1 k.2.1
  exact ⟨t', h1, h2, by rw [h3]; exact k.2.put h x⟩

theorem addList_ok (xs : List K) : ∀ {t : Tree K} {m : FSet K}, Repr cmp t m →
    ∃ t', addList cmp t xs = some t' ∧ Repr cmp t' (xs.foldl (FSet.put cmp) m) := by
  induction xs with
  | nil => intro t m k; exact ⟨t, rfl, k⟩
  | cons x xs ih =>
    intro t m k
    obtain ⟨t1, h1, h2⟩ := add_ok h k x
    obtain ⟨t2, h3, h4⟩ := ih h2
    refine ⟨t2, ?_, h4⟩
    have h1' : addt cmp x t = some t1 := h1
    simp only [addList, h1']; exact h3

theorem run_ok (e : Exp K) : ∃ s, run cmp e = some s ∧ Repr cmp s (spec cmp e) := by
  induction e with
  | empty => exact ⟨_, rfl, trivial, Lists.empty⟩
  | singleton x => exact ⟨_, rfl, by simp [singleton, Sized, flat], (Lists.empty (cmp := cmp)).put h x⟩
  | add e x ih =>
    obtain ⟨s, h1, h2⟩ := ih
    obtain ⟨t, h3, h4⟩ := add_ok h h2 x
    exact ⟨t, by simp only [run, h1]; exact h3, h4⟩
  | addList e xs ih =>
    obtain ⟨s, h1, h2⟩ := ih
    obtain ⟨t, h3, h4⟩ := addList_ok h xs h2
    exact ⟨t, by simp only [run, h1]; exact h3, h4⟩
  | delete e x ih =>
    obtain ⟨s, h1, h2⟩ := ih
    rcases delete_ok h x s h2.1 h2.2.1 with ⟨k1, k2⟩ | ⟨p, s', k1, k2, k3, k4⟩
    · refine ⟨s, by simp [run, h1, k2], ?_⟩
      simp only [spec]
      rw [h2.2.remove_absent h x (by rw [← h2.2.find h]; exact k1)]; exact h2
    · exact ⟨s', by simp [run, h1, k2], k3, by rw [k4]; exact h2.2.remove h x⟩
  | union a b iha ihb =>
    obtain ⟨s, h1, h2⟩ := iha
    obtain ⟨t, h3, h4⟩ := ihb
    obtain ⟨u, k1, k2, k3, k4⟩ := hedge_union_ok h s t h2.1 h2.2.1 h4.1 h4.2.1
    refine ⟨u, by simp only [run, h1, h3]; exact k1, k2, ?_⟩
    exact Lists.of_union h h2.2 h4.2 k3 (fun x => by rw [k4]; simp [Between])
  | intersection a b iha ihb =>
    obtain ⟨s, h1, h2⟩ := iha
    obtain ⟨t, h3, h4⟩ := ihb
    obtain ⟨u, k1, k2, k3, k4⟩ := intersection_ok h t s h2.1 h2.2.1 h4.2.1
    exact ⟨u, by simp only [run, h1, h3]; exact k1, k2, Lists.of_inter h h4.2 h2.2 k3 k4⟩
  | difference a b iha ihb =>
    obtain ⟨s, h1, h2⟩ := iha
    obtain ⟨t, h3, h4⟩ := ihb
    obtain ⟨u, k1, k2, k3, k4⟩ := difference_ok h t s h2.1 h2.2.1 h4.2.1
    exact ⟨u, by simp only [run, h1, h3]; exact k1, k2, Lists.of_diff h h2.2 h4.2 k3 k4⟩

/-- C69: every set, in whatever way it was made, is the set that the operations mean, and Match is never raised: `peek`, `retrieve` and
`member`; `listItems` (increasing, exactly the elements); `numItems`, `isEmpty`; and `delete` raises NotFound just for the elements that are not there. -/
theorem C69_binaryset (e : Exp K) :
    ∃ s, run cmp e = some s ∧
      (∀ x, peek cmp x s = spec cmp e x) ∧
      (∀ x, member cmp s x = (spec cmp e x).isSome) ∧
      Lists cmp (listItems s) (spec cmp e) ∧
      numItems s = (listItems s).length ∧
      (isEmpty s = true ↔ listItems s = []) ∧
      (∀ x, (spec cmp e x = none ∧ delete cmp x s = .notFound) ∨ ∃ s', (spec cmp e x).isSome ∧ delete cmp x s = .ok s') := by
  obtain ⟨s, h1, h2⟩ := run_ok h e
  refine ⟨s, h1, ?_, ?_, ?_, ?_, ?_, ?_⟩
  · intro x
    rw [peek_ok h x s h2.2.1, h2.2.find h]
  · intro x
    rw [member_ok h x s h2.2.1, h2.2.find h]
  · rw [listItems_eq]; exact h2.2
  · rw [listItems_eq]; exact size_eq h2.1
  · rw [listItems_eq]
    cases s <;> simp [isEmpty, flat]
  · intro x
    rcases delete_ok h x s h2.1 h2.2.1 with ⟨k1, k2⟩ | ⟨p, s', k1, k2, _⟩
    · exact .inl ⟨by rw [← h2.2.find h]; exact k1, k2⟩
    · exact .inr ⟨s', by rw [← h2.2.find h, k1]; rfl, k2⟩

/-- C69: `equal` and `isSubset` -/
theorem C69_relations (a b : Exp K) (s t : Tree K) (hs : run cmp a = some s) (ht : run cmp b = some t) :
    (equal cmp s t = true ↔ ∀ x, (spec cmp a).Mem x ↔ (spec cmp b).Mem x) ∧
    (isSubset cmp s t = true ↔ (spec cmp a).Subset (spec cmp b)) := by
  obtain ⟨s', h1, h2⟩ := run_ok h a
  obtain ⟨t', h3, h4⟩ := run_ok h b
  rw [hs] at h1; cases h1
  rw [ht] at h3; cases h3
  have e1 := Lists.subset_iff h h2.2 h4.2
  have e2 := Lists.subset_iff h h4.2 h2.2
  have z1 := size_eq h2.1
  have z2 := size_eq h4.1
  have i1 := isIn_ok h t h4.2.1 s
  have both : (∀ x, (spec cmp a).Mem x ↔ (spec cmp b).Mem x) ↔
      (∀ x ∈ flat s, ∃ y ∈ flat t, cmp y x = .eq) ∧ (∀ x ∈ flat t, ∃ y ∈ flat s, cmp y x = .eq) := by
    rw [← e1, ← e2]
    exact ⟨fun k => ⟨fun x => (k x).1, fun x => (k x).2⟩, fun k x => ⟨k.1 x, k.2 x⟩⟩
  constructor
  · rw [both]
    cases s with
    | E =>
      cases t with
      | E => simp [equal, flat]
      | T v c l r =>
        simp only [equal, flat, Bool.false_eq_true, false_iff, not_and]
        intro _ k
        obtain ⟨y, hy, _⟩ := k v (by simp)
        simp at hy
    | T v c l r =>
      cases t with
      | E =>
        simp only [equal, flat, Bool.false_eq_true, false_iff, not_and]
        intro k
        obtain ⟨y, hy, _⟩ := k v (by simp)
        simp at hy
      | T v2 c2 l2 r2 =>
        simp only [equal, Bool.and_eq_true, decide_eq_true_eq, i1]
        simp only [treeSize] at z1 z2
        constructor
        · rintro ⟨k1, k2⟩
          exact ⟨k2, subset_full h h2.2.1 h4.2.1 k2 (by omega)⟩
        · rintro ⟨k1, k2⟩
          have l1 := subset_length h h2.2.1 h4.2.1 k1
          have l2 := subset_length h h4.2.1 h2.2.1 k2
          exact ⟨by omega, k1⟩
  · rw [e1]
    cases s with
    | E => simp [isSubset, flat]
    | T v c l r =>
      cases t with
      | E =>
        simp only [isSubset, flat, Bool.false_eq_true, false_iff]
        intro k
        obtain ⟨y, hy, _⟩ := k v (by simp)
        simp at hy
      | T v2 c2 l2 r2 =>
        simp only [isSubset, Bool.and_eq_true, decide_eq_true_eq, i1]
        simp only [treeSize] at z1 z2
        constructor
        · exact fun k => k.2
        · intro k
          have l1 := subset_length h h2.2.1 h4.2.1 k
          exact ⟨by omega, k⟩

end

/-- C69: the traversals go through the elements in (reverse) order. -/
theorem C69_traversals {S : Type} (t : Tree K) (s : S) (f : K → S → S) :
    app f t s = (listItems t).foldl (fun a x => f x a) s ∧
    revapp f t s = (listItems t).reverse.foldl (fun a x => f x a) s ∧
    foldl f t s = (listItems t).foldl (fun a x => f x a) s ∧
    foldr f t s = (listItems t).foldr f s := by
  rw [listItems_eq]
  refine ⟨?_, ?_, ?_, foldr_eq f t s⟩
  · induction t generalizing s with
    | E => rfl
    | T v c l r ihl ihr => simp [app, flat, ihl, ihr]
  · induction t generalizing s with
    | E => rfl
    | T v c l r ihl ihr =>
      simp only [revapp, flat, ihl, ihr, List.reverse_append, List.reverse_cons, List.foldl_append, List.foldl_cons, List.foldl_nil]
  · induction t generalizing s with
    | E => rfl
    | T v c l r ihl ihr => simp [foldl, flat, ihl, ihr]

/-- C69: `find` returns an element that satisfies the condition, if there is one (not necessarily the least). -/
theorem C69_find (p : K → Bool) (t : Tree K) :
    match (find (fun x (_ : Unit) => (p x, ())) t ()).1 with
    | some x => x ∈ listItems t ∧ p x = true
    | none => ∀ x ∈ listItems t, p x = false := by
  rw [listItems_eq]
  induction t with
  | E => simp [find, flat]
  | T v c l r ihl ihr =>
    simp only [find, flat]
    cases e : p v with
    | true => simp [e]
    | false =>
      simp only
      generalize e1 : find (fun x (_ : Unit) => (p x, ())) l () = fl at ihl ⊢
      obtain ⟨o1, ⟨⟩⟩ := fl
      cases o1 with
      | some x =>
        simp only at ihl ⊢
        exact ⟨by simp [ihl.1], ihl.2⟩
      | none =>
        simp only at ihl ⊢
        generalize e2 : find (fun x (_ : Unit) => (p x, ())) r () = fr at ihr ⊢
        obtain ⟨o2, ⟨⟩⟩ := fr
        cases o2 with
        | some x =>
          simp only at ihr ⊢
          exact ⟨by simp [ihr.1], ihr.2⟩
        | none =>
          simp only at ihr ⊢
          intro x hx
          rcases List.mem_append.1 hx with hx | hx
          · exact ihl x hx
          · rcases List.mem_cons.1 hx with rfl | hx
            · exact e
            · exact ihr x hx

/-- a run with all operations, under a comparison for which 1 and 11 are the same: `add` replaces, `union` prefers the first set and
`intersection` the second -/
example : ((run (fun a b : Int => Ord.compare (a % 10) (b % 10)) (.union
      (.difference (.addList .empty [5, 3, 8, 1, 4, 2, 7, 11]) (.addList .empty [23, 14, 9]))
      (.intersection (.addList .empty [4, 6, 8]) (.delete (.addList (.singleton 18) [34, 6, 9, 36]) 9)))).map
        (fun s => (listItems s, numItems s))) =
    some ([11, 2, 34, 5, 36, 7, 8], 7) := by decide +kernel

example : Lawful (fun a b : Int => Ord.compare (a % 10) (b % 10)) := Mosml.Maps.mod_lawful 10

end Mosml.Sets.Binaryset
