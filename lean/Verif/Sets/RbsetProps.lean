import Verif.Sets.RbsetLemmas

/-!
C68: Rbset is a set.
-/
namespace Mosml.Sets.Rbset
open Mosml.Maps (Lawful)
variable {K : Type}

/-- the operations that make a new set -/
inductive Exp (K : Type) where
  | empty
  | singleton (x : K)
  | add (e : Exp K) (x : K)
  | addList (e : Exp K) (xs : List K)
  | delete (e : Exp K) (x : K)
  | union (a b : Exp K)
  | intersection (a b : Exp K)
  | difference (a b : Exp K)
  | subset (e : Exp K) (i : Intv K)
  | map (f : K → K) (e : Exp K)

/-- a program that makes a set: `none` if Fail was raised; deletions that raise NotFound leave the set as it was -/
def run (cmp : K → K → Ordering) : Exp K → Option (RSet K)
  | .empty => some Rbset.empty
  | .singleton x => some (Rbset.singleton x)
  | .add e x => do let s ← run cmp e; some (Rbset.add cmp s x)
  | .addList e xs => do let s ← run cmp e; some (Rbset.addList cmp s xs)
  | .delete e x => do
    let s ← run cmp e
    match Rbset.delete cmp s x with
    | .ok s' => some s'
    | .notFound => some s
    | .fail => none
  | .union a b => do let s ← run cmp a; let t ← run cmp b; some (Rbset.union cmp s t)
  | .intersection a b => do let s ← run cmp a; let t ← run cmp b; some (Rbset.intersection cmp s t)
  | .difference a b => do let s ← run cmp a; let t ← run cmp b; some (Rbset.difference cmp s t)
  | .subset e i => do let s ← run cmp e; some (Rbset.subset cmp s i)
  | .map f e => do let s ← run cmp e; some (Rbset.map f cmp s)

open Classical in
/-- the image of a set: of equal images, that of the least element -/
noncomputable def image (cmp : K → K → Ordering) (f : K → K) (m : FSet K) : FSet K := fun y =>
  if h : ∃ x, m x = some x ∧ cmp (f x) y = .eq ∧ ∀ x', m x' = some x' → cmp (f x') y = .eq → cmp x x' ≠ .gt then some (f h.choose) else none

/-- the same on sets -/
noncomputable def spec (cmp : K → K → Ordering) : Exp K → FSet K
  | .empty => FSet.empty
  | .singleton x => FSet.add cmp FSet.empty x
  | .add e x => FSet.add cmp (spec cmp e) x
  | .addList e xs => xs.foldl (FSet.add cmp) (spec cmp e)
  | .delete e x => FSet.remove cmp (spec cmp e) x
  | .union a b => FSet.union (spec cmp a) (spec cmp b)
  | .intersection a b => FSet.inter (spec cmp a) (spec cmp b)
  | .difference a b => FSet.diff (spec cmp a) (spec cmp b)
  | .subset e i => FSet.filter (inside cmp i) (spec cmp e)
  | .map f e => image cmp f (spec cmp e)

section
variable {cmp : K → K → Ordering} (h : Lawful cmp)
include h

theorem image_ok {s : RSet K} {m : FSet K} (hs : Repr cmp s m) (f : K → K) : Repr cmp (map f cmp s) (image cmp f m) := by
  obtain ⟨h1, h2, h3⟩ := map_ok h f s
  refine ⟨h1, h3, ?_⟩
  intro y e
  rw [h2, foldl_ladd_mem h f _ _ List.Pairwise.nil]
  have inl : ∀ x, m x = some x ↔ x ∈ Rbset.flat s.tree := fun x => by
    rw [hs.2.2 x x]; exact ⟨fun k => k.1, fun k => ⟨k, h.refl x⟩⟩
  have ho := hs.2.1
  unfold image
  constructor
  · intro k
    split at k
    · rename_i ex
      cases k
      obtain ⟨k1, k2, k3⟩ := ex.choose_spec
      obtain ⟨pre, post, e1⟩ := List.append_of_mem ((inl _).1 k1)
      refine ⟨.inr ⟨by simp, pre, _, post, e1, rfl, ?_⟩, k2⟩
      intro z hz e2
      rw [e1] at ho
      have z1 := (asc_mid.mp ho).2.2.1 z hz
      have z2 : z ∈ Rbset.flat s.tree := by rw [e1]; simp [hz]
      exact k3 z ((inl z).2 z2) (h.eq_trans (h.eq_symm e2) k2) ((h.gt_iff _ _).2 z1)
    · cases k
  · rintro ⟨k1 | ⟨_, pre, x, post, e1, rfl, k1⟩, k2⟩
    · cases k1
    · have hx : x ∈ Rbset.flat s.tree := by rw [e1]; simp
      have least : ∀ x', m x' = some x' → cmp (f x') y = .eq → cmp x x' ≠ .gt := by
        intro x' e2 e3 e4
        have e5 := (inl x').1 e2
        rw [e1] at e5 ho
        obtain ⟨_, _, _, o4, _⟩ := asc_mid.mp ho
        rcases List.mem_append.mp e5 with e5 | e5
        · exact k1 x' e5 (h.eq_trans k2 (h.eq_symm e3))
        · rcases List.mem_cons.mp e5 with rfl | e5
          · rw [h.refl] at e4; cases e4
          · rw [o4 x' e5] at e4; cases e4
      have ex : ∃ x, m x = some x ∧ cmp (f x) y = .eq ∧ ∀ x', m x' = some x' → cmp (f x') y = .eq → cmp x x' ≠ .gt :=
        ⟨x, (inl x).2 hx, k2, least⟩
      rw [dif_pos ex]
      obtain ⟨c1, c2, c3⟩ := ex.choose_spec
      have c4 := c3 x ((inl x).2 hx) k2
      have c5 := least _ c1 c2
      have c6 : cmp x ex.choose = .eq := by
        cases e6 : cmp x ex.choose with
        | eq => rfl
        | gt => exact absurd e6 c5
        | lt => exact absurd ((h.gt_iff _ _).2 e6) c4
      rw [← asc_unique h ho hx ((inl _).1 c1) c6]

theorem run_ok (e : Exp K) : ∃ s, run cmp e = some s ∧ Repr cmp s (spec cmp e) := by
  induction e with
  | empty => exact ⟨_, rfl, empty_ok⟩
  | singleton x => exact ⟨_, rfl, singleton_ok h x⟩
  | add e x ih =>
    obtain ⟨s, h1, h2⟩ := ih
    exact ⟨_, by simp only [run, h1]; rfl, add_ok h h2 x⟩
  | addList e xs ih =>
    obtain ⟨s, h1, h2⟩ := ih
    refine ⟨_, by simp only [run, h1]; rfl, ?_⟩
    clear h1
    simp only [spec, addList]
    generalize spec cmp e = m at h2
    induction xs generalizing s m with
    | nil => exact h2
    | cons x xs ih => exact ih _ _ (add_ok h h2 x)
  | delete e x ih =>
    obtain ⟨s, h1, h2⟩ := ih
    rcases delete_ok h h2 x with ⟨k1, k2⟩ | ⟨s', k1, k2, k3⟩
    · exact ⟨s, by simp [run, h1, k2], by simp only [spec]; rw [h2.2.remove_absent h x k1]; exact h2⟩
    · exact ⟨s', by simp [run, h1, k2], k3⟩
  | union a b iha ihb =>
    obtain ⟨s, h1, h2⟩ := iha
    obtain ⟨t, h3, h4⟩ := ihb
    exact ⟨_, by simp only [run, h1, h3]; rfl, union_ok h h2 h4⟩
  | intersection a b iha ihb =>
    obtain ⟨s, h1, h2⟩ := iha
    obtain ⟨t, h3, h4⟩ := ihb
    exact ⟨_, by simp only [run, h1, h3]; rfl, inter_ok h h2 h4⟩
  | difference a b iha ihb =>
    obtain ⟨s, h1, h2⟩ := iha
    obtain ⟨t, h3, h4⟩ := ihb
    exact ⟨_, by simp only [run, h1, h3]; rfl, diff_ok h h2 h4⟩
  | subset e i ih =>
    obtain ⟨s, h1, h2⟩ := ih
    exact ⟨_, by simp only [run, h1]; rfl, subset_ok h h2 i⟩
  | map f e ih =>
    obtain ⟨s, h1, h2⟩ := ih
    exact ⟨_, by simp only [run, h1]; rfl, image_ok h h2 f⟩

/-- C68: every program makes a set, without raising Fail, and what it makes behaves as the set. -/
theorem C68_rbset (e : Exp K) :
    ∃ s, run cmp e = some s ∧
      (∀ x, member cmp s x = (spec cmp e x).isSome) ∧
      Lists cmp (listItems s) (spec cmp e) ∧
      numItems s = (listItems s).length ∧
      (isEmpty s = true ↔ listItems s = []) ∧
      (∀ x, (spec cmp e x = none ∧ delete cmp s x = .notFound) ∨ ∃ s', (spec cmp e x).isSome ∧ delete cmp s x = .ok s') := by
  obtain ⟨s, h1, h2⟩ := run_ok h e
  refine ⟨s, h1, ?_, ?_, ?_, ?_, ?_⟩
  · intro x
    rw [member, (mem_ok h x s.tree h2.2.1).1, h2.2.find h]
  · rw [listItems_eq]; exact h2.2
  · rw [listItems_eq]; exact h2.1.2.2.2
  · rw [listItems_eq, isEmpty]
    cases s.tree <;> simp [Rbset.flat]
  · intro x
    rcases delete_ok h h2 x with k | ⟨s', k1, k2, _⟩
    · exact .inl k
    · exact .inr ⟨s', k1, k2⟩

/-- C68: `equal` is having the same elements, `isSubset` is inclusion, and `compare` is the lexicographic order of the sorted lists,
which is EQUAL just for equal sets. -/
theorem C68_relations (a b : Exp K) (s t : RSet K) (hs : run cmp a = some s) (ht : run cmp b = some t) :
    (equal cmp s t = true ↔ ∀ x, (spec cmp a).Mem x ↔ (spec cmp b).Mem x) ∧
    (isSubset cmp s t = true ↔ (spec cmp a).Subset (spec cmp b)) ∧
    compare cmp s t = llex cmp (listItems s) (listItems t) ∧
    (equal cmp s t = true ↔ compare cmp s t = .eq) := by
  obtain ⟨s', h1, h2⟩ := run_ok h a
  obtain ⟨t', h3, h4⟩ := run_ok h b
  rw [hs] at h1; cases h1
  rw [ht] at h3; cases h3
  refine ⟨?_, ?_, ?_, ?_⟩
  · rw [equal_ok, beq_iff_eq, llex_eq h _ _ h2.2.1 h4.2.1, ← Lists.subset_iff h h2.2 h4.2, ← Lists.subset_iff h h4.2 h2.2]
    exact ⟨fun k x => ⟨k.1 x, k.2 x⟩, fun k => ⟨fun x => (k x).1, fun x => (k x).2⟩⟩
  · rw [isSubset_ok, lsub_iff h _ _ h2.2.1 h4.2.1, ← Lists.subset_iff h h2.2 h4.2]
  · rw [compare_ok, listItems_eq, listItems_eq]
  · rw [equal_ok, compare_ok, beq_iff_eq]

omit h in
theorem min_eq (t : Tree K) : minTree t = (flat t).head? := by
  fun_induction minTree t with
  | case1 => rfl
  | case2 | case4 => rfl
  | case3 k l r hl ih | case5 k l r hl ih =>
    rw [ih]
    cases l with
    | LEAF => exact absurd rfl hl
    | _ => simp [flat, List.head?_append]

omit h in
theorem max_eq (t : Tree K) : maxTree t = (flat t).getLast? := by
  fun_induction maxTree t with
  | case1 => rfl
  | case2 | case4 => simp [flat]
  | case3 k l r hl ih | case5 k l r hl ih =>
    rw [ih]
    cases r with
    | LEAF => exact absurd rfl hl
    | _ => simp [flat, List.getLast?_append, List.getLast?_cons]

/-- looking for the first item, calling `p` on the items in turn -/
def findList {S : Type} (p : K → S → Bool × S) : List K → S → Option K × S
  | [], s => (none, s)
  | x :: l, s => if (p x s).1 then (some x, (p x s).2) else findList p l (p x s).2

omit h in
theorem findLoop_eq {S : Type} (p : K → S → Bool × S) (stack : List (Tree K)) (s : S) :
    findLoop p stack s = findList p (stack.flatMap flat) s := by
  fun_induction findLoop p stack s with
  | case1 stack s x s' e k => rw [getMin_some e, findList, if_pos k]
  | case2 stack s x s' e k ih => rw [getMin_some e, findList, if_neg k, ih]
  | case3 stack s e => rw [getMin_none e, findList]

omit h in
/-- C68: the traversals go through the elements in (reverse) order. -/
theorem C68_traversals {S : Type} {n : Nat} (s : RSet K) (st : S) (f : K → S → S) (p : K → S → Bool × S) (hf : K → BitVec n) :
    app f s st = (listItems s).foldl (fun a x => f x a) st ∧
    revapp f s st = (listItems s).reverse.foldl (fun a x => f x a) st ∧
    foldl f st s = (listItems s).foldl (fun a x => f x a) st ∧
    foldr f st s = (listItems s).foldr f st ∧
    find p s st = findList p (listItems s) st ∧
    min s = (listItems s).head? ∧ max s = (listItems s).getLast? ∧
    hash hf s = ((listItems s).map hf).sum := by
  have e : (push s.tree []).flatMap flat = flat s.tree := by rw [flat_push]; simp
  have e' : (push s.tree []).reverse.flatMap flat = flat s.tree := by
    have : push s.tree [] = [] ∧ flat s.tree = [] ∨ push s.tree [] = [s.tree] := by cases s.tree <;> simp [push, flat]
    rcases this with ⟨h1, h2⟩ | h1
    · rw [h1, h2]; rfl
    · rw [h1]; simp
  rw [listItems_eq]
  refine ⟨?_, ?_, ?_, ?_, ?_, min_eq _, max_eq _, ?_⟩
  · simp [app, foldlLoop_eq]
  · simp [revapp, foldrLoop_eq]
  · rw [foldl, foldlLoop_eq, e]
  · rw [foldr, foldrLoop_eq, e']
  · rw [find, findLoop_eq, e]
  · rw [hash, foldl, foldlLoop_eq, e]
    have : ∀ (l : List K) (a : BitVec n), l.foldl (fun a x => hf x + a) a = (l.map hf).sum + a := by
      intro l
      induction l with
      | nil => intro a; simp
      | cons x l ih => intro a; rw [List.foldl_cons, ih, List.map_cons, List.sum_cons, BitVec.add_comm (hf x) (l.map hf).sum, BitVec.add_assoc]
    rw [this]; simp

/-- C68: `sublist` lists the elements that belong to the interval. -/
theorem C68_sublist (e : Exp K) (s : RSet K) (hs : run cmp e = some s) (i : Intv K) :
    sublist cmp s i = (listItems s).filter (inside cmp i) := by
  obtain ⟨s', h1, h2⟩ := run_ok h e
  rw [hs] at h1; cases h1
  rw [sublist, collectfromto_ok h _ _ h2.2.1, listItems_eq, List.append_nil]

/-- C68: sets stay balanced: neither the depth nor the number of comparisons of `member` is more than 2 log2 (n+1). -/
theorem C68_balanced (e : Exp K) (s : RSet K) (hs : run cmp e = some s) (x : K) :
    (mem cmp x s.tree).2 ≤ depth s.tree ∧ depth s.tree ≤ 2 * Nat.log2 ((listItems s).length + 1) := by
  obtain ⟨s', h1, ⟨h2, h3, h4, h5⟩, h6⟩ := run_ok h e
  rw [hs] at h1; cases h1
  refine ⟨(mem_ok h x s.tree h6.1).2, ?_⟩
  have e2 := (depth_le s.tree h3 h2).2 h4
  have e3 := count_ge s.tree h2
  rw [listItems_eq]
  have e4 : bh s.tree ≤ Nat.log2 ((flat s.tree).length + 1) := (Nat.le_log2 (by omega)).2 e3
  omega

/-! ### mapMono -/

omit h in
theorem sortedFrom_iff {L : Type} {cmp : L → L → Ordering} (h : Lawful cmp) (x : L) (l : List L) : sortedFrom cmp x l = true ↔ Asc cmp (x :: l) := by
  induction l generalizing x with
  | nil => simp [sortedFrom, Asc]
  | cons y l ih =>
    rw [sortedFrom, Bool.and_eq_true, beq_iff_eq, ih]
    constructor
    · rintro ⟨h1, h2⟩
      refine asc_cons.mpr ⟨?_, h2⟩
      intro z hz
      rcases List.mem_cons.mp hz with rfl | hz
      · exact h1
      · exact h.lt_trans h1 ((asc_cons.mp h2).1 z hz)
    · intro h1
      obtain ⟨h2, h3⟩ := asc_cons.mp h1
      exact ⟨h2 y (by simp), h3⟩

omit h in
theorem sorted_iff {L : Type} {cmp : L → L → Ordering} (h : Lawful cmp) (l : List L) : sorted cmp l = true ↔ Asc cmp l := by
  cases l with
  | nil => simp [sorted, Asc]
  | cons x l => exact sortedFrom_iff h x l

omit h in
/-- C68: what `mapMono` does: it succeeds just when the function is strictly DEcreasing on the elements; what it then returns has the
images as elements.  The documentation has increasing instead. -/
theorem C68_mapMono_partial {L : Type} {cmp : L → L → Ordering} (h : Lawful cmp) (f : K → L) (s : RSet K) :
    ((mapMono f cmp s).isSome ↔ (listItems s).Pairwise (fun x y => cmp (f y) (f x) = .lt)) ∧
    ∀ t, mapMono f cmp s = some t → Ok t ∧ listItems t = ((listItems s).map f).reverse := by
  have e : (push s.tree []).flatMap flat = flat s.tree := by rw [flat_push]; simp
  have e1 : ∀ (l : List K) (acc : List L), l.foldl (fun r x => f x :: r) acc = (l.map f).reverse ++ acc := by
    intro l
    induction l with
    | nil => intro acc; rfl
    | cons x l ih => intro acc; rw [List.foldl_cons, ih]; simp
  have e2 : foldl (fun x res => f x :: res) [] s = ((listItems s).map f).reverse := by
    rw [foldl, foldlLoop_eq, e, e1, listItems_eq, List.append_nil]
  have e3 : sorted cmp ((listItems s).map f).reverse = true ↔ (listItems s).Pairwise (fun x y => cmp (f y) (f x) = .lt) := by
    rw [sorted_iff h, Asc, List.pairwise_reverse, List.pairwise_map]
  unfold mapMono
  simp only [e2]
  constructor
  · rw [← e3]; split <;> simp_all
  · intro t ht
    split at ht
    · cases ht
      obtain ⟨k1, k2⟩ := fromSortedList_ok ((listItems s).map f).reverse
      exact ⟨k1, by rw [listItems_eq, k2]⟩
    · cases ht

end

/-- C68 violated: `mapMono (fn x => x + 1, Int.compare)` on {1, 2} raises NonMonotonic, and `mapMono (~, Int.compare)` does not. -/
theorem C68_mapMono_violation :
    let cmp := fun a b : Int => Ord.compare a b
    ∃ s, run cmp (.add (.singleton 1) 2) = some s ∧ listItems s = [1, 2] ∧
      mapMono (fun x => x + 1) cmp s = none ∧ (mapMono (fun x => -x) cmp s).map listItems = some [-2, -1] := by
  refine ⟨⟨.BLACK 1 .LEAF (.RED 2 .LEAF .LEAF), 2⟩, by decide +kernel, by decide +kernel, by decide +kernel, by decide +kernel⟩

/-- the law of the documentation about `isSubset` and `compare` fails: {2} is a subset of {1, 2}, but `compare` gives GREATER; and a set
is a subset of itself. -/
theorem C68_subset_compare_violation :
    let cmp := fun a b : Int => Ord.compare a b
    ∃ s t, run cmp (.singleton 2) = some s ∧ run cmp (.add (.singleton 1) 2) = some t ∧
      isSubset cmp s t = true ∧ compare cmp s t = .gt ∧ isSubset cmp s s = true ∧ compare cmp s s = .eq := by
  refine ⟨⟨.BLACK 2 .LEAF .LEAF, 1⟩, ⟨.BLACK 1 .LEAF (.RED 2 .LEAF .LEAF), 2⟩, by decide +kernel, by decide +kernel, by decide +kernel,
    by decide +kernel, by decide +kernel, by decide +kernel⟩

/-- a run with all operations, under a comparison for which 1 and 11 are the same -/
example : ((run (fun a b : Int => Ord.compare (a % 10) (b % 10)) (.union
      (.difference (.addList .empty [5, 3, 8, 1, 4, 2, 7, 11]) (.addList .empty [23, 14, 9]))
      (.intersection (.map (fun x => 2 * x) (.subset (.addList .empty [1, 2, 3, 4]) (.FromTo 2 4))) (.delete (.addList .empty [4, 6, 8]) 8)))).map
        (fun s => (listItems s, numItems s))) =
    some ([1, 2, 4, 5, 6, 7, 8], 7) := by decide +kernel

example : Lawful (fun a b : Int => Ord.compare (a % 10) (b % 10)) := Mosml.Maps.mod_lawful 10

end Mosml.Sets.Rbset
