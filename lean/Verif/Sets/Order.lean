import Verif.Maps.Sorted

/-!
Finite sets as the user sees them, and sorted lists.
-/
namespace Mosml.Sets
open Mosml.Maps (Lawful)

/-- A finite set as the user sees it: for each item, the element of the set that compares EQUAL to it, if there is one. -/
def FSet (K : Type) := K → Option K

namespace FSet
variable {K : Type} (cmp : K → K → Ordering)

def empty : FSet K := fun _ => none
/-- an element that is there already stays -/
def add (m : FSet K) (x : K) : FSet K := fun y => match m y with
  | some e => some e
  | none => if cmp x y = .eq then some x else none
/-- an element that is there already is replaced -/
def put (m : FSet K) (x : K) : FSet K := fun y => if cmp x y = .eq then some x else m y
def remove (m : FSet K) (x : K) : FSet K := fun y => if cmp x y = .eq then none else m y
/-- elements in both are taken from the first -/
def union (a b : FSet K) : FSet K := fun y => match a y with
  | some e => some e
  | none => b y
/-- elements in both are taken from the first -/
def inter (a b : FSet K) : FSet K := fun y => match b y with
  | some _ => a y
  | none => none
def diff (a b : FSet K) : FSet K := fun y => match b y with
  | some _ => none
  | none => a y
/-- the elements that satisfy a condition -/
def filter (p : K → Bool) (a : FSet K) : FSet K := fun y => match a y with
  | some e => if p e then some e else none
  | none => none
def Mem (m : FSet K) (x : K) : Prop := (m x).isSome
def Subset (a b : FSet K) : Prop := ∀ x, a.Mem x → b.Mem x
end FSet

variable {K : Type}

/-- strictly increasing, hence no duplicates -/
def Asc (cmp : K → K → Ordering) (l : List K) : Prop := l.Pairwise (fun p q => cmp p q = .lt)

/-- `l` lists the elements of `m`, in increasing order, each once -/
def Lists (cmp : K → K → Ordering) (l : List K) (m : FSet K) : Prop :=
  Asc cmp l ∧ ∀ x e, m x = some e ↔ e ∈ l ∧ cmp e x = .eq

/-- addition to a sorted list, an equal element stays -/
def ladd (cmp : K → K → Ordering) (x : K) : List K → List K
  | [] => [x]
  | p :: l => match cmp x p with
    | .lt => x :: p :: l
    | .eq => p :: l
    | .gt => p :: ladd cmp x l

/-- addition to a sorted list, an equal element is replaced -/
def lput (cmp : K → K → Ordering) (x : K) : List K → List K
  | [] => [x]
  | p :: l => match cmp x p with
    | .lt => x :: p :: l
    | .eq => x :: l
    | .gt => p :: lput cmp x l

def lrem (cmp : K → K → Ordering) (x : K) : List K → List K
  | [] => []
  | p :: l => match cmp x p with
    | .lt => p :: l
    | .eq => l
    | .gt => p :: lrem cmp x l

def lfind (cmp : K → K → Ordering) (x : K) : List K → Option K
  | [] => none
  | p :: l => match cmp x p with
    | .lt => none
    | .eq => some p
    | .gt => lfind cmp x l

/-- lexicographic comparison of lists -/
def llex (cmp : K → K → Ordering) : List K → List K → Ordering
  | [], [] => .eq
  | [], _ :: _ => .lt
  | _ :: _, [] => .gt
  | x :: l, y :: r => match cmp x y with
    | .eq => llex cmp l r
    | o => o

section
variable {cmp : K → K → Ordering} (h : Lawful cmp)

theorem asc_mid {l r : List K} {p : K} :
    Asc cmp (l ++ p :: r) ↔ Asc cmp l ∧ Asc cmp r ∧ (∀ q ∈ l, cmp q p = .lt) ∧ (∀ q ∈ r, cmp p q = .lt) ∧
      ∀ a ∈ l, ∀ b ∈ r, cmp a b = .lt := by
  simp only [Asc, List.pairwise_append, List.pairwise_cons, List.mem_cons]
  constructor
  · rintro ⟨h1, ⟨h2, h3⟩, h4⟩
    exact ⟨h1, h3, fun q hq => h4 q hq p (.inl rfl), h2, fun a ha b hb => h4 a ha b (.inr hb)⟩
  · rintro ⟨h1, h2, h3, h4, h5⟩
    refine ⟨h1, ⟨h4, h2⟩, ?_⟩
    rintro a ha b (rfl | hb)
    · exact h3 a ha
    · exact h5 a ha b hb

theorem asc_append {l r : List K} : Asc cmp (l ++ r) ↔ Asc cmp l ∧ Asc cmp r ∧ ∀ a ∈ l, ∀ b ∈ r, cmp a b = .lt :=
  List.pairwise_append

theorem asc_cons {x : K} {l : List K} : Asc cmp (x :: l) ↔ (∀ q ∈ l, cmp x q = .lt) ∧ Asc cmp l := List.pairwise_cons

theorem asc_filter {l : List K} (p : K → Bool) (s : Asc cmp l) : Asc cmp (l.filter p) := List.Pairwise.filter p s

include h

/-- an element is determined by what it compares EQUAL to -/
theorem asc_unique {l : List K} (s : Asc cmp l) {a b : K} (ha : a ∈ l) (hb : b ∈ l) (e : cmp a b = .eq) : a = b := by
  induction l with
  | nil => cases ha
  | cons p l ih =>
    obtain ⟨s1, s2⟩ := asc_cons.mp s
    rcases List.mem_cons.mp ha with rfl | ha'
    · rcases List.mem_cons.mp hb with rfl | hb'
      · rfl
      · rw [s1 b hb'] at e; cases e
    · rcases List.mem_cons.mp hb with rfl | hb'
      · rw [(h.gt_iff _ _).2 (s1 a ha')] at e; cases e
      · exact ih s2 ha' hb'

theorem ladd_lt {x p : K} {l r : List K} (e : cmp x p = .lt) : ladd cmp x (l ++ p :: r) = ladd cmp x l ++ p :: r := by
  induction l with
  | nil => simp [ladd, e]
  | cons q l ih => simp only [List.cons_append, ladd]; cases cmp x q <;> simp [ih]

theorem ladd_gt {x p : K} {l r : List K} (e : cmp x p = .gt) (s : ∀ q ∈ l, cmp q p = .lt) :
    ladd cmp x (l ++ p :: r) = l ++ p :: ladd cmp x r := by
  induction l with
  | nil => simp [ladd, e]
  | cons q l ih =>
    have : cmp x q = .gt := (h.gt_iff _ _).2 (h.lt_trans (s q (by simp)) ((h.gt_iff _ _).1 e))
    simp only [List.cons_append, ladd, this, ih (fun q hq => s q (by simp [hq]))]

theorem ladd_eq {x p : K} {l r : List K} (e : cmp x p = .eq) (s : ∀ q ∈ l, cmp q p = .lt) :
    ladd cmp x (l ++ p :: r) = l ++ p :: r := by
  induction l with
  | nil => simp [ladd, e]
  | cons q l ih =>
    have : cmp x q = .gt := (h.gt_iff _ _).2 (h.lt_of_lt_of_eq (s q (by simp)) (h.eq_symm e))
    simp only [List.cons_append, ladd, this, ih (fun q hq => s q (by simp [hq]))]

theorem lput_lt {x p : K} {l r : List K} (e : cmp x p = .lt) : lput cmp x (l ++ p :: r) = lput cmp x l ++ p :: r := by
  induction l with
  | nil => simp [lput, e]
  | cons q l ih => simp only [List.cons_append, lput]; cases cmp x q <;> simp [ih]

theorem lput_gt {x p : K} {l r : List K} (e : cmp x p = .gt) (s : ∀ q ∈ l, cmp q p = .lt) :
    lput cmp x (l ++ p :: r) = l ++ p :: lput cmp x r := by
  induction l with
  | nil => simp [lput, e]
  | cons q l ih =>
    have : cmp x q = .gt := (h.gt_iff _ _).2 (h.lt_trans (s q (by simp)) ((h.gt_iff _ _).1 e))
    simp only [List.cons_append, lput, this, ih (fun q hq => s q (by simp [hq]))]

theorem lput_eq {x p : K} {l r : List K} (e : cmp x p = .eq) (s : ∀ q ∈ l, cmp q p = .lt) :
    lput cmp x (l ++ p :: r) = l ++ x :: r := by
  induction l with
  | nil => simp [lput, e]
  | cons q l ih =>
    have : cmp x q = .gt := (h.gt_iff _ _).2 (h.lt_of_lt_of_eq (s q (by simp)) (h.eq_symm e))
    simp only [List.cons_append, lput, this, ih (fun q hq => s q (by simp [hq]))]

theorem lrem_lt {x p : K} {l r : List K} (e : cmp x p = .lt) : lrem cmp x (l ++ p :: r) = lrem cmp x l ++ p :: r := by
  induction l with
  | nil => simp [lrem, e]
  | cons q l ih => simp only [List.cons_append, lrem]; cases cmp x q <;> simp [ih]

theorem lrem_gt {x p : K} {l r : List K} (e : cmp x p = .gt) (s : ∀ q ∈ l, cmp q p = .lt) :
    lrem cmp x (l ++ p :: r) = l ++ p :: lrem cmp x r := by
  induction l with
  | nil => simp [lrem, e]
  | cons q l ih =>
    have : cmp x q = .gt := (h.gt_iff _ _).2 (h.lt_trans (s q (by simp)) ((h.gt_iff _ _).1 e))
    simp only [List.cons_append, lrem, this, ih (fun q hq => s q (by simp [hq]))]

theorem lrem_eq {x p : K} {l r : List K} (e : cmp x p = .eq) (s : ∀ q ∈ l, cmp q p = .lt) :
    lrem cmp x (l ++ p :: r) = l ++ r := by
  induction l with
  | nil => simp [lrem, e]
  | cons q l ih =>
    have : cmp x q = .gt := (h.gt_iff _ _).2 (h.lt_of_lt_of_eq (s q (by simp)) (h.eq_symm e))
    simp only [List.cons_append, lrem, this, ih (fun q hq => s q (by simp [hq]))]

theorem lfind_lt {x p : K} {l r : List K} (e : cmp x p = .lt) : lfind cmp x (l ++ p :: r) = lfind cmp x l := by
  induction l with
  | nil => simp [lfind, e]
  | cons q l ih => simp only [List.cons_append, lfind]; cases cmp x q <;> simp [ih]

theorem lfind_gt {x p : K} {l r : List K} (e : cmp x p = .gt) (s : ∀ q ∈ l, cmp q p = .lt) :
    lfind cmp x (l ++ p :: r) = lfind cmp x r := by
  induction l with
  | nil => simp [lfind, e]
  | cons q l ih =>
    have : cmp x q = .gt := (h.gt_iff _ _).2 (h.lt_trans (s q (by simp)) ((h.gt_iff _ _).1 e))
    simp only [List.cons_append, lfind, this, ih (fun q hq => s q (by simp [hq]))]

theorem lfind_eq {x p : K} {l r : List K} (e : cmp x p = .eq) (s : ∀ q ∈ l, cmp q p = .lt) :
    lfind cmp x (l ++ p :: r) = some p := by
  induction l with
  | nil => simp [lfind, e]
  | cons q l ih =>
    have : cmp x q = .gt := (h.gt_iff _ _).2 (h.lt_of_lt_of_eq (s q (by simp)) (h.eq_symm e))
    simp only [List.cons_append, lfind, this, ih (fun q hq => s q (by simp [hq]))]

theorem lfind_some {x p : K} {l : List K} (s : Asc cmp l) : lfind cmp x l = some p ↔ p ∈ l ∧ cmp p x = .eq := by
  induction l with
  | nil => simp [lfind]
  | cons q l ih =>
    obtain ⟨s1, s2⟩ := asc_cons.mp s
    simp only [lfind, List.mem_cons]
    cases e : cmp x q with
    | lt =>
      simp only [reduceCtorEq, false_iff, not_and]
      rintro (rfl | hp) e'
      · rw [h.eq_symm e'] at e; cases e
      · have := h.lt_trans e (s1 p hp)
        rw [h.eq_symm e'] at this; cases this
    | eq =>
      simp only [Option.some.injEq]
      constructor
      · rintro rfl; exact ⟨.inl rfl, h.eq_symm e⟩
      · rintro ⟨rfl | hp, e'⟩
        · rfl
        · have := h.lt_of_eq_of_lt e (s1 p hp)
          rw [h.eq_symm e'] at this; cases this
    | gt =>
      rw [ih s2]
      constructor
      · rintro ⟨a, b⟩; exact ⟨.inr a, b⟩
      · rintro ⟨rfl | hp, e'⟩
        · rw [h.eq_symm e'] at e; cases e
        · exact ⟨hp, e'⟩

theorem lfind_none {x : K} {l : List K} (s : Asc cmp l) : lfind cmp x l = none ↔ ∀ p ∈ l, cmp p x ≠ .eq := by
  constructor
  · intro e p hp e'
    rw [(lfind_some h s).2 ⟨hp, e'⟩] at e; cases e
  · intro k
    cases e : lfind cmp x l with
    | none => rfl
    | some p => exact absurd ((lfind_some h s).1 e).2 (k p ((lfind_some h s).1 e).1)

/-- a sorted list determines a set -/
theorem Lists.find {l : List K} {m : FSet K} (hl : Lists cmp l m) (x : K) : lfind cmp x l = m x := by
  cases e : m x with
  | some p => exact (lfind_some h hl.1).2 ((hl.2 x p).1 e)
  | none =>
    cases e' : lfind cmp x l with
    | none => rfl
    | some p => rw [(hl.2 x p).2 ((lfind_some h hl.1).1 e')] at e; cases e

theorem lists_self {l : List K} (s : Asc cmp l) : Lists cmp l (fun x => lfind cmp x l) :=
  ⟨s, fun _ _ => lfind_some h s⟩

omit h in
theorem Lists.absent {l : List K} {m : FSet K} (hl : Lists cmp l m) (x : K) : m x = none ↔ ∀ p ∈ l, cmp p x ≠ .eq := by
  constructor
  · intro e p hp e'
    rw [(hl.2 x p).2 ⟨hp, e'⟩] at e; cases e
  · intro k
    cases e : m x with
    | none => rfl
    | some p => exact absurd ((hl.2 x p).1 e).2 (k p ((hl.2 x p).1 e).1)

theorem Lists.self {l : List K} {m : FSet K} (hl : Lists cmp l m) {x : K} (hx : x ∈ l) : m x = some x :=
  (hl.2 x x).2 ⟨hx, h.refl x⟩

/-- equal items give the same answer -/
theorem Lists.congr {l : List K} {m : FSet K} (hl : Lists cmp l m) {x y : K} (e : cmp x y = .eq) : m x = m y := by
  cases e1 : m x with
  | some p =>
    obtain ⟨k1, k2⟩ := (hl.2 x p).1 e1
    exact ((hl.2 y p).2 ⟨k1, h.eq_trans k2 e⟩).symm
  | none =>
    symm
    rw [hl.absent]
    intro p hp e2
    exact (hl.absent x).1 e1 p hp (h.eq_trans e2 (h.eq_symm e))

theorem ladd_mem {x : K} {l : List K} (s : Asc cmp l) (q : K) :
    q ∈ ladd cmp x l ↔ q ∈ l ∨ (q = x ∧ ∀ p ∈ l, cmp x p ≠ .eq) := by
  induction l with
  | nil => simp [ladd]
  | cons p l ih =>
    obtain ⟨s1, s2⟩ := asc_cons.mp s
    simp only [ladd]
    cases e : cmp x p with
    | lt =>
      simp only [List.mem_cons]
      constructor
      · rintro (rfl | h1)
        · refine .inr ⟨rfl, ?_⟩
          rintro r (rfl | hr)
          · simp [e]
          · simp [h.lt_trans e (s1 r hr)]
        · exact .inl h1
      · rintro (h1 | ⟨h1, _⟩)
        · exact .inr h1
        · exact .inl h1
    | eq =>
      constructor
      · exact .inl
      · rintro (h1 | ⟨h1, h2⟩)
        · exact h1
        · exact absurd e (h2 p (by simp))
    | gt =>
      simp only [List.mem_cons, ih s2]
      constructor
      · rintro (h1 | h1 | ⟨h1, h2⟩)
        · exact .inl (.inl h1)
        · exact .inl (.inr h1)
        · refine .inr ⟨h1, ?_⟩
          rintro r (rfl | hr)
          · simp [e]
          · exact h2 r hr
      · rintro ((h1 | h1) | ⟨h1, h2⟩)
        · exact .inl h1
        · exact .inr (.inl h1)
        · exact .inr (.inr ⟨h1, fun r hr => h2 r (.inr hr)⟩)

theorem lput_mem {x : K} {l : List K} (s : Asc cmp l) (q : K) :
    q ∈ lput cmp x l ↔ q = x ∨ (q ∈ l ∧ cmp x q ≠ .eq) := by
  induction l with
  | nil => simp [lput]
  | cons p l ih =>
    obtain ⟨s1, s2⟩ := asc_cons.mp s
    simp only [lput, List.mem_cons]
    cases e : cmp x p with
    | lt =>
      simp only [List.mem_cons]
      constructor
      · rintro (h1 | rfl | h1)
        · exact .inl h1
        · exact .inr ⟨.inl rfl, by simp [e]⟩
        · exact .inr ⟨.inr h1, by simp [h.lt_trans e (s1 q h1)]⟩
      · rintro (h1 | ⟨h1, _⟩)
        · exact .inl h1
        · exact .inr h1
    | eq =>
      simp only [List.mem_cons]
      constructor
      · rintro (h1 | h1)
        · exact .inl h1
        · exact .inr ⟨.inr h1, by simp [h.lt_of_eq_of_lt e (s1 q h1)]⟩
      · rintro (h1 | ⟨rfl | h1, h2⟩)
        · exact .inl h1
        · exact absurd e h2
        · exact .inr h1
    | gt =>
      simp only [List.mem_cons, ih s2]
      constructor
      · rintro (rfl | h1 | ⟨h1, h2⟩)
        · exact .inr ⟨.inl rfl, by simp [e]⟩
        · exact .inl h1
        · exact .inr ⟨.inr h1, h2⟩
      · rintro (h1 | ⟨h1 | h1, h2⟩)
        · exact .inr (.inl h1)
        · exact .inl h1
        · exact .inr (.inr ⟨h1, h2⟩)

theorem lrem_mem {x : K} {l : List K} (s : Asc cmp l) (q : K) : q ∈ lrem cmp x l ↔ q ∈ l ∧ cmp x q ≠ .eq := by
  induction l with
  | nil => simp [lrem]
  | cons p l ih =>
    obtain ⟨s1, s2⟩ := asc_cons.mp s
    simp only [lrem, List.mem_cons]
    cases e : cmp x p with
    | lt =>
      simp only [List.mem_cons]
      constructor
      · rintro (rfl | h1)
        · exact ⟨.inl rfl, by simp [e]⟩
        · exact ⟨.inr h1, by simp [h.lt_trans e (s1 q h1)]⟩
      · rintro ⟨h1, _⟩; exact h1
    | eq =>
      simp only
      constructor
      · intro h1
        exact ⟨.inr h1, by simp [h.lt_of_eq_of_lt e (s1 q h1)]⟩
      · rintro ⟨rfl | h1, h2⟩
        · exact absurd e h2
        · exact h1
    | gt =>
      simp only [List.mem_cons, ih s2]
      constructor
      · rintro (rfl | ⟨h1, h2⟩)
        · exact ⟨.inl rfl, by simp [e]⟩
        · exact ⟨.inr h1, h2⟩
      · rintro ⟨h1 | h1, h2⟩
        · exact .inl h1
        · exact .inr ⟨h1, h2⟩

theorem ladd_asc {x : K} {l : List K} (s : Asc cmp l) : Asc cmp (ladd cmp x l) := by
  induction l with
  | nil => simp [ladd, Asc]
  | cons p l ih =>
    obtain ⟨s1, s2⟩ := asc_cons.mp s
    simp only [ladd]
    cases e : cmp x p with
    | lt =>
      refine asc_cons.mpr ⟨?_, s⟩
      intro q hq
      rcases List.mem_cons.mp hq with rfl | hq
      · exact e
      · exact h.lt_trans e (s1 q hq)
    | eq => exact s
    | gt =>
      refine asc_cons.mpr ⟨?_, ih s2⟩
      intro q hq
      rcases (ladd_mem h s2 q).1 hq with hq | ⟨rfl, _⟩
      · exact s1 q hq
      · exact (h.gt_iff _ _).1 e

theorem lput_asc {x : K} {l : List K} (s : Asc cmp l) : Asc cmp (lput cmp x l) := by
  induction l with
  | nil => simp [lput, Asc]
  | cons p l ih =>
    obtain ⟨s1, s2⟩ := asc_cons.mp s
    simp only [lput]
    cases e : cmp x p with
    | lt =>
      refine asc_cons.mpr ⟨?_, s⟩
      intro q hq
      rcases List.mem_cons.mp hq with rfl | hq
      · exact e
      · exact h.lt_trans e (s1 q hq)
    | eq => exact asc_cons.mpr ⟨fun q hq => h.lt_of_eq_of_lt e (s1 q hq), s2⟩
    | gt =>
      refine asc_cons.mpr ⟨?_, ih s2⟩
      intro q hq
      rcases (lput_mem h s2 q).1 hq with rfl | ⟨hq, _⟩
      · exact (h.gt_iff _ _).1 e
      · exact s1 q hq

theorem lrem_asc {x : K} {l : List K} (s : Asc cmp l) : Asc cmp (lrem cmp x l) := by
  induction l with
  | nil => simp [lrem, Asc]
  | cons p l ih =>
    obtain ⟨s1, s2⟩ := asc_cons.mp s
    simp only [lrem]
    cases e : cmp x p with
    | lt => exact s
    | eq => exact s2
    | gt => exact asc_cons.mpr ⟨fun q hq => s1 q ((lrem_mem h s2 q).1 hq).1, ih s2⟩

omit h in
theorem Lists.empty : Lists cmp ([] : List K) FSet.empty := by
  refine ⟨List.Pairwise.nil, ?_⟩
  intro x p
  simp [FSet.empty]

theorem Lists.add {l : List K} {m : FSet K} (hl : Lists cmp l m) (x : K) : Lists cmp (ladd cmp x l) (FSet.add cmp m x) := by
  refine ⟨ladd_asc h hl.1, ?_⟩
  intro y p
  rw [ladd_mem h hl.1]
  unfold FSet.add
  cases e1 : m y with
  | some e =>
    obtain ⟨k1, k2⟩ := (hl.2 y e).1 e1
    simp only [Option.some.injEq]
    constructor
    · rintro rfl; exact ⟨.inl k1, k2⟩
    · rintro ⟨h1 | ⟨rfl, h1⟩, h2⟩
      · exact asc_unique h hl.1 k1 h1 (h.eq_trans k2 (h.eq_symm h2))
      · exact absurd (h.eq_trans h2 (h.eq_symm k2)) (h1 e k1)
  | none =>
    have k := (hl.absent y).1 e1
    simp only
    constructor
    · intro h1
      split at h1
      · cases h1; rename_i e2
        exact ⟨.inr ⟨rfl, fun r hr e3 => k r hr (h.eq_trans (h.eq_symm e3) e2)⟩, e2⟩
      · cases h1
    · rintro ⟨h1 | ⟨rfl, h1⟩, h2⟩
      · exact absurd h2 (k p h1)
      · rw [if_pos h2]

theorem Lists.put {l : List K} {m : FSet K} (hl : Lists cmp l m) (x : K) : Lists cmp (lput cmp x l) (FSet.put cmp m x) := by
  refine ⟨lput_asc h hl.1, ?_⟩
  intro y p
  rw [lput_mem h hl.1]
  unfold FSet.put
  split
  · rename_i e
    simp only [Option.some.injEq]
    constructor
    · rintro rfl; exact ⟨.inl rfl, e⟩
    · rintro ⟨h1 | ⟨h1, h2⟩, h3⟩
      · exact h1.symm
      · exact absurd (h.eq_trans e (h.eq_symm h3)) h2
  · rename_i e
    rw [hl.2]
    constructor
    · rintro ⟨h1, h2⟩
      exact ⟨.inr ⟨h1, fun h3 => e (h.eq_trans h3 h2)⟩, h2⟩
    · rintro ⟨rfl | ⟨h1, _⟩, h3⟩
      · exact absurd h3 e
      · exact ⟨h1, h3⟩

theorem Lists.remove {l : List K} {m : FSet K} (hl : Lists cmp l m) (x : K) : Lists cmp (lrem cmp x l) (FSet.remove cmp m x) := by
  refine ⟨lrem_asc h hl.1, ?_⟩
  intro y p
  rw [lrem_mem h hl.1]
  unfold FSet.remove
  split
  · rename_i e
    simp only [reduceCtorEq, false_iff, not_and, and_imp]
    intro _ h2 h3
    exact h2 (h.eq_trans e (h.eq_symm h3))
  · rename_i e
    rw [hl.2]
    constructor
    · rintro ⟨h1, h2⟩
      exact ⟨⟨h1, fun h3 => e (h.eq_trans h3 h2)⟩, h2⟩
    · rintro ⟨⟨h1, _⟩, h3⟩
      exact ⟨h1, h3⟩

omit h in
theorem Lists.remove_absent {l : List K} {m : FSet K} (hl : Lists cmp l m) (h : Lawful cmp) (x : K) (e : m x = none) : FSet.remove cmp m x = m := by
  funext y
  simp only [FSet.remove]
  split
  · rename_i e1; rw [← hl.congr h e1, e]
  · rfl

theorem Lists.filter {l : List K} {m : FSet K} (hl : Lists cmp l m) (p : K → Bool) : Lists cmp (l.filter p) (FSet.filter p m) := by
  refine ⟨asc_filter p hl.1, ?_⟩
  intro y e
  rw [List.mem_filter]
  unfold FSet.filter
  cases e1 : m y with
  | none =>
    simp only [reduceCtorEq, false_iff, not_and, and_imp]
    intro h1 _ h2
    exact (hl.absent y).1 e1 e h1 h2
  | some d =>
    obtain ⟨k1, k2⟩ := (hl.2 y d).1 e1
    simp only
    constructor
    · intro h1
      split at h1
      · cases h1; rename_i h2; exact ⟨⟨k1, h2⟩, k2⟩
      · cases h1
    · rintro ⟨⟨h1, h2⟩, h3⟩
      have := asc_unique h hl.1 k1 h1 (h.eq_trans k2 (h.eq_symm h3))
      subst this
      rw [if_pos h2]

/-- a sorted list with the right elements -/
theorem Lists.of_union {l a b : List K} {m n : FSet K} (ha : Lists cmp a m) (hb : Lists cmp b n) (s : Asc cmp l)
    (k : ∀ x, x ∈ l ↔ x ∈ a ∨ (x ∈ b ∧ ∀ y ∈ a, cmp y x ≠ .eq)) : Lists cmp l (FSet.union m n) := by
  refine ⟨s, fun y e => ?_⟩
  rw [k]
  unfold FSet.union
  cases e1 : m y with
  | some d =>
    obtain ⟨k1, k2⟩ := (ha.2 y d).1 e1
    simp only [Option.some.injEq]
    constructor
    · rintro rfl; exact ⟨.inl k1, k2⟩
    · rintro ⟨h1 | ⟨h1, h2⟩, h3⟩
      · exact asc_unique h ha.1 k1 h1 (h.eq_trans k2 (h.eq_symm h3))
      · exact absurd (h.eq_trans k2 (h.eq_symm h3)) (h2 d k1)
  | none =>
    simp only [hb.2]
    constructor
    · rintro ⟨h1, h2⟩
      exact ⟨.inr ⟨h1, fun z hz h3 => (ha.absent y).1 e1 z hz (h.eq_trans h3 h2)⟩, h2⟩
    · rintro ⟨h1 | ⟨h1, h2⟩, h3⟩
      · exact absurd h3 ((ha.absent y).1 e1 e h1)
      · exact ⟨h1, h3⟩

theorem Lists.of_inter {l a b : List K} {m n : FSet K} (ha : Lists cmp a m) (hb : Lists cmp b n) (s : Asc cmp l)
    (k : ∀ x, x ∈ l ↔ x ∈ a ∧ ∃ y ∈ b, cmp y x = .eq) : Lists cmp l (FSet.inter m n) := by
  refine ⟨s, fun y e => ?_⟩
  rw [k]
  unfold FSet.inter
  cases e1 : n y with
  | some d =>
    obtain ⟨k1, k2⟩ := (hb.2 y d).1 e1
    simp only [ha.2]
    constructor
    · rintro ⟨h1, h2⟩; exact ⟨⟨h1, d, k1, h.eq_trans k2 (h.eq_symm h2)⟩, h2⟩
    · rintro ⟨⟨h1, _⟩, h2⟩; exact ⟨h1, h2⟩
  | none =>
    simp only [reduceCtorEq, false_iff, not_and, and_imp]
    rintro h1 ⟨z, hz, h2⟩ h3
    exact (hb.absent y).1 e1 z hz (h.eq_trans h2 h3)

theorem Lists.of_diff {l a b : List K} {m n : FSet K} (ha : Lists cmp a m) (hb : Lists cmp b n) (s : Asc cmp l)
    (k : ∀ x, x ∈ l ↔ x ∈ a ∧ ∀ y ∈ b, cmp y x ≠ .eq) : Lists cmp l (FSet.diff m n) := by
  refine ⟨s, fun y e => ?_⟩
  rw [k]
  unfold FSet.diff
  cases e1 : n y with
  | some d =>
    obtain ⟨k1, k2⟩ := (hb.2 y d).1 e1
    simp only [reduceCtorEq, false_iff, not_and, and_imp]
    intro h1 h2 h3
    exact h2 d k1 (h.eq_trans k2 (h.eq_symm h3))
  | none =>
    simp only [ha.2]
    constructor
    · rintro ⟨h1, h2⟩; exact ⟨⟨h1, fun z hz h3 => (hb.absent y).1 e1 z hz (h.eq_trans h3 h2)⟩, h2⟩
    · rintro ⟨⟨h1, _⟩, h2⟩; exact ⟨h1, h2⟩

omit h in
theorem ladd_length {x : K} {l : List K} : (ladd cmp x l).length = l.length + (lfind cmp x l).isNone.toNat := by
  induction l with
  | nil => simp [ladd, lfind]
  | cons p l ih =>
    simp only [ladd, lfind]
    cases e : cmp x p <;> simp [ih]
    omega

omit h in
theorem lput_length {x : K} {l : List K} : (lput cmp x l).length = l.length + (lfind cmp x l).isNone.toNat := by
  induction l with
  | nil => simp [lput, lfind]
  | cons p l ih =>
    simp only [lput, lfind]
    cases e : cmp x p <;> simp [ih]
    omega

omit h in
theorem lrem_length {x p : K} {l : List K} (s : lfind cmp x l = some p) : (lrem cmp x l).length + 1 = l.length := by
  induction l with
  | nil => cases s
  | cons q l ih =>
    simp only [lrem, lfind] at *
    cases e : cmp x q <;> simp only [e] at s
    · cases s
    · simp
    · simp [ih s]

/-- a subset has no more elements -/
theorem subset_length {a b : List K} (sa : Asc cmp a) (sb : Asc cmp b) (k : ∀ x ∈ a, ∃ y ∈ b, cmp y x = .eq) : a.length ≤ b.length := by
  induction a generalizing b with
  | nil => simp
  | cons x a ih =>
    obtain ⟨s1, s2⟩ := asc_cons.mp sa
    obtain ⟨y, hy, e⟩ := k x (by simp)
    have e1 : lfind cmp x b = some y := (lfind_some h sb).2 ⟨hy, e⟩
    have := ih s2 (lrem_asc h (x := x) sb) (fun z hz => by
      obtain ⟨w, hw, e2⟩ := k z (by simp [hz])
      refine ⟨w, (lrem_mem h sb w).2 ⟨hw, fun e3 => ?_⟩, e2⟩
      have := h.lt_of_lt_of_eq (s1 z hz) (h.eq_symm e2)
      rw [e3] at this; cases this)
    have := lrem_length e1
    simp; omega

/-- a subset with as many elements has all of them -/
theorem subset_full {a b : List K} (sa : Asc cmp a) (sb : Asc cmp b) (k : ∀ x ∈ a, ∃ y ∈ b, cmp y x = .eq) (hl : b.length ≤ a.length) :
    ∀ y ∈ b, ∃ x ∈ a, cmp x y = .eq := by
  intro y hy
  by_contra hc
  push Not at hc
  have := subset_length h sa (lrem_asc h (x := y) sb) (fun z hz => by
    obtain ⟨w, hw, e2⟩ := k z hz
    exact ⟨w, (lrem_mem h sb w).2 ⟨hw, fun e3 => hc z hz (h.eq_symm (h.eq_trans e3 e2))⟩, e2⟩)
  have := lrem_length ((lfind_some h sb).2 ⟨hy, h.refl y⟩)
  omega

omit h in
theorem Lists.subset_iff {a b : List K} {m n : FSet K} (h : Lawful cmp) (ha : Lists cmp a m) (hb : Lists cmp b n) :
    FSet.Subset m n ↔ ∀ x ∈ a, ∃ y ∈ b, cmp y x = .eq := by
  constructor
  · intro k x hx
    have := k x (by rw [FSet.Mem, ha.self h hx]; rfl)
    rw [FSet.Mem, Option.isSome_iff_exists] at this
    obtain ⟨y, hy⟩ := this
    exact ⟨y, (hb.2 x y).1 hy⟩
  · intro k x hx
    rw [FSet.Mem, Option.isSome_iff_exists] at hx
    obtain ⟨y, hy⟩ := hx
    obtain ⟨k1, k2⟩ := (ha.2 x y).1 hy
    obtain ⟨z, hz, e⟩ := k y k1
    rw [FSet.Mem, (hb.2 x z).2 ⟨hz, h.eq_trans e k2⟩]; rfl

end

end Mosml.Sets
