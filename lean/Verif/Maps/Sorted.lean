import Verif.Util

/-!
Comparison functions, finite maps as the user sees them, and sorted association lists.
-/
namespace Mosml.Maps

/-- What the documentation asks of an ordering `'key * 'key -> order`: a total (pre)order.  Keys that compare EQUAL need not be the same. -/
structure Lawful {K : Type} (cmp : K → K → Ordering) : Prop where
  swap : ∀ a b, cmp b a = (cmp a b).swap
  trans : ∀ a b c, cmp a b ≠ .gt → cmp b c ≠ .gt → cmp a c ≠ .gt

namespace Lawful
variable {K : Type} {cmp : K → K → Ordering} (h : Lawful cmp)
include h

theorem refl (a : K) : cmp a a = .eq := by
  have := h.swap a a
  cases e : cmp a a <;> simp [e] at this ⊢

theorem gt_iff (a b : K) : cmp a b = .gt ↔ cmp b a = .lt := by
  rw [h.swap a b]; cases cmp a b <;> simp

theorem eq_symm {a b : K} (e : cmp a b = .eq) : cmp b a = .eq := by rw [h.swap a b, e]; rfl

theorem eq_iff (a b : K) : cmp a b = .eq ↔ cmp b a = .eq := ⟨h.eq_symm, h.eq_symm⟩

theorem lt_trans {a b c : K} (h1 : cmp a b = .lt) (h2 : cmp b c = .lt) : cmp a c = .lt := by
  have h3 := h.trans a b c (by simp [h1]) (by simp [h2])
  cases e : cmp a c with
  | lt => rfl
  | gt => exact absurd e h3
  | eq =>
    have := h.trans c a b (by simp [h.eq_symm e]) (by simp [h1])
    have h4 := (h.gt_iff c b).2 h2
    exact absurd h4 this

theorem lt_of_lt_of_eq {a b c : K} (h1 : cmp a b = .lt) (h2 : cmp b c = .eq) : cmp a c = .lt := by
  have h3 := h.trans a b c (by simp [h1]) (by simp [h2])
  cases e : cmp a c with
  | lt => rfl
  | gt => exact absurd e h3
  | eq =>
    have := h.trans b c a (by simp [h2]) (by simp [h.eq_symm e])
    exact absurd ((h.gt_iff b a).2 h1) this

theorem lt_of_eq_of_lt {a b c : K} (h1 : cmp a b = .eq) (h2 : cmp b c = .lt) : cmp a c = .lt := by
  have h3 := h.trans a b c (by simp [h1]) (by simp [h2])
  cases e : cmp a c with
  | lt => rfl
  | gt => exact absurd e h3
  | eq =>
    have := h.trans c a b (by simp [h.eq_symm e]) (by simp [h1])
    exact absurd ((h.gt_iff c b).2 h2) this

theorem eq_trans {a b c : K} (h1 : cmp a b = .eq) (h2 : cmp b c = .eq) : cmp a c = .eq := by
  have h3 := h.trans a b c (by simp [h1]) (by simp [h2])
  have h4 := h.trans c b a (by simp [h.eq_symm h2]) (by simp [h.eq_symm h1])
  cases e : cmp a c with
  | lt => exact absurd ((h.gt_iff c a).2 e) h4
  | gt => exact absurd e h3
  | eq => rfl

end Lawful

/-- A finite map as the user sees it: for each key the item (the key as it was inserted, and the value) stored under it or an equal key. -/
def FMap (K V : Type) := K → Option (K × V)

namespace FMap
variable {K V : Type} (cmp : K → K → Ordering)

def empty : FMap K V := fun _ => none
def insert (m : FMap K V) (k : K) (v : V) : FMap K V := fun x => if cmp k x = .eq then some (k, v) else m x
def remove (m : FMap K V) (k : K) : FMap K V := fun x => if cmp k x = .eq then none else m x
/-- the value stored under a key -/
def value (m : FMap K V) (k : K) : Option V := (m k).map Prod.snd
end FMap

variable {K V : Type}

/-- strictly increasing keys, hence no duplicates -/
def Sorted (cmp : K → K → Ordering) (l : List (K × V)) : Prop := l.Pairwise (fun p q => cmp p.1 q.1 = .lt)

/-- `l` lists the items of `m`, in increasing order of the keys, each once -/
def Lists (cmp : K → K → Ordering) (l : List (K × V)) (m : FMap K V) : Prop :=
  Sorted cmp l ∧ ∀ x p, m x = some p ↔ p ∈ l ∧ cmp p.1 x = .eq

/-- insertion into a sorted list -/
def lins (cmp : K → K → Ordering) (x : K) (v : V) : List (K × V) → List (K × V)
  | [] => [(x, v)]
  | p :: l => match cmp x p.1 with
    | .lt => (x, v) :: p :: l
    | .eq => (x, v) :: l
    | .gt => p :: lins cmp x v l

/-- removal from a sorted list -/
def lrem (cmp : K → K → Ordering) (x : K) : List (K × V) → List (K × V)
  | [] => []
  | p :: l => match cmp x p.1 with
    | .lt => p :: l
    | .eq => l
    | .gt => p :: lrem cmp x l

/-- search in a sorted list -/
def lfind (cmp : K → K → Ordering) (x : K) : List (K × V) → Option (K × V)
  | [] => none
  | p :: l => match cmp x p.1 with
    | .lt => none
    | .eq => some p
    | .gt => lfind cmp x l

section
variable {cmp : K → K → Ordering} (h : Lawful cmp)

theorem sorted_mid {l r : List (K × V)} {p : K × V} :
    Sorted cmp (l ++ p :: r) ↔ Sorted cmp l ∧ Sorted cmp r ∧ (∀ q ∈ l, cmp q.1 p.1 = .lt) ∧ (∀ q ∈ r, cmp p.1 q.1 = .lt) ∧
      ∀ a ∈ l, ∀ b ∈ r, cmp a.1 b.1 = .lt := by
  simp only [Sorted, List.pairwise_append, List.pairwise_cons, List.mem_cons]
  constructor
  · rintro ⟨h1, ⟨h2, h3⟩, h4⟩
    exact ⟨h1, h3, fun q hq => h4 q hq p (.inl rfl), h2, fun a ha b hb => h4 a ha b (.inr hb)⟩
  · rintro ⟨h1, h2, h3, h4, h5⟩
    refine ⟨h1, ⟨h4, h2⟩, ?_⟩
    rintro a ha b (rfl | hb)
    · exact h3 a ha
    · exact h5 a ha b hb

include h

theorem lins_lt {x : K} {v : V} {p : K × V} {l r : List (K × V)} (e : cmp x p.1 = .lt) :
    lins cmp x v (l ++ p :: r) = lins cmp x v l ++ p :: r := by
  induction l with
  | nil => simp [lins, e]
  | cons q l ih => simp only [List.cons_append, lins]; cases cmp x q.1 <;> simp [ih]

theorem lins_gt {x : K} {v : V} {p : K × V} {l r : List (K × V)} (e : cmp x p.1 = .gt) (s : ∀ q ∈ l, cmp q.1 p.1 = .lt) :
    lins cmp x v (l ++ p :: r) = l ++ p :: lins cmp x v r := by
  induction l with
  | nil => simp [lins, e]
  | cons q l ih =>
    have : cmp x q.1 = .gt := (h.gt_iff _ _).2 (h.lt_trans (s q (by simp)) ((h.gt_iff _ _).1 e))
    simp only [List.cons_append, lins, this, ih (fun q hq => s q (by simp [hq]))]

theorem lins_eq {x : K} {v : V} {p : K × V} {l r : List (K × V)} (e : cmp x p.1 = .eq) (s : ∀ q ∈ l, cmp q.1 p.1 = .lt) :
    lins cmp x v (l ++ p :: r) = l ++ (x, v) :: r := by
  induction l with
  | nil => simp [lins, e]
  | cons q l ih =>
    have : cmp x q.1 = .gt := (h.gt_iff _ _).2 (h.lt_of_lt_of_eq (s q (by simp)) (h.eq_symm e))
    simp only [List.cons_append, lins, this, ih (fun q hq => s q (by simp [hq]))]

theorem lrem_lt {x : K} {p : K × V} {l r : List (K × V)} (e : cmp x p.1 = .lt) :
    lrem cmp x (l ++ p :: r) = lrem cmp x l ++ p :: r := by
  induction l with
  | nil => simp [lrem, e]
  | cons q l ih => simp only [List.cons_append, lrem]; cases cmp x q.1 <;> simp [ih]

theorem lrem_gt {x : K} {p : K × V} {l r : List (K × V)} (e : cmp x p.1 = .gt) (s : ∀ q ∈ l, cmp q.1 p.1 = .lt) :
    lrem cmp x (l ++ p :: r) = l ++ p :: lrem cmp x r := by
  induction l with
  | nil => simp [lrem, e]
  | cons q l ih =>
    have : cmp x q.1 = .gt := (h.gt_iff _ _).2 (h.lt_trans (s q (by simp)) ((h.gt_iff _ _).1 e))
    simp only [List.cons_append, lrem, this, ih (fun q hq => s q (by simp [hq]))]

theorem lrem_eq {x : K} {p : K × V} {l r : List (K × V)} (e : cmp x p.1 = .eq) (s : ∀ q ∈ l, cmp q.1 p.1 = .lt) :
    lrem cmp x (l ++ p :: r) = l ++ r := by
  induction l with
  | nil => simp [lrem, e]
  | cons q l ih =>
    have : cmp x q.1 = .gt := (h.gt_iff _ _).2 (h.lt_of_lt_of_eq (s q (by simp)) (h.eq_symm e))
    simp only [List.cons_append, lrem, this, ih (fun q hq => s q (by simp [hq]))]

theorem lfind_lt {x : K} {p : K × V} {l r : List (K × V)} (e : cmp x p.1 = .lt) :
    lfind cmp x (l ++ p :: r) = lfind cmp x l := by
  induction l with
  | nil => simp [lfind, e]
  | cons q l ih => simp only [List.cons_append, lfind]; cases cmp x q.1 <;> simp [ih]

theorem lfind_gt {x : K} {p : K × V} {l r : List (K × V)} (e : cmp x p.1 = .gt) (s : ∀ q ∈ l, cmp q.1 p.1 = .lt) :
    lfind cmp x (l ++ p :: r) = lfind cmp x r := by
  induction l with
  | nil => simp [lfind, e]
  | cons q l ih =>
    have : cmp x q.1 = .gt := (h.gt_iff _ _).2 (h.lt_trans (s q (by simp)) ((h.gt_iff _ _).1 e))
    simp only [List.cons_append, lfind, this, ih (fun q hq => s q (by simp [hq]))]

theorem lfind_eq {x : K} {p : K × V} {l r : List (K × V)} (e : cmp x p.1 = .eq) (s : ∀ q ∈ l, cmp q.1 p.1 = .lt) :
    lfind cmp x (l ++ p :: r) = some p := by
  induction l with
  | nil => simp [lfind, e]
  | cons q l ih =>
    have : cmp x q.1 = .gt := (h.gt_iff _ _).2 (h.lt_of_lt_of_eq (s q (by simp)) (h.eq_symm e))
    simp only [List.cons_append, lfind, this, ih (fun q hq => s q (by simp [hq]))]

theorem lfind_some {x : K} {p : K × V} {l : List (K × V)} (s : Sorted cmp l) :
    lfind cmp x l = some p ↔ p ∈ l ∧ cmp p.1 x = .eq := by
  induction l with
  | nil => simp [lfind]
  | cons q l ih =>
    obtain ⟨s1, s2⟩ := List.pairwise_cons.mp s
    simp only [lfind, List.mem_cons]
    cases e : cmp x q.1 with
    | lt =>
      simp only [reduceCtorEq, false_iff, not_and]
      rintro (rfl | hp) e'
      · rw [h.eq_symm e'] at e; cases e
      · have := h.lt_trans e (s1 p hp)
        rw [h.eq_symm e'] at this; cases this
    | eq =>
      simp only [Option.some.injEq]
      constructor
      · rintro rfl; exact ⟨.inl rfl, h.eq_symm e⟩
      · rintro ⟨rfl | hp, e'⟩
        · rfl
        · have := h.lt_of_eq_of_lt e (s1 p hp)
          rw [h.eq_symm e'] at this; cases this
    | gt =>
      rw [ih s2]
      constructor
      · rintro ⟨a, b⟩; exact ⟨.inr a, b⟩
      · rintro ⟨rfl | hp, e'⟩
        · rw [h.eq_symm e'] at e; cases e
        · exact ⟨hp, e'⟩

theorem Lists.find {l : List (K × V)} {m : FMap K V} (hl : Lists cmp l m) (x : K) : lfind cmp x l = m x := by
  cases e : m x with
  | some p => exact (lfind_some h hl.1).2 ((hl.2 x p).1 e)
  | none =>
    cases e' : lfind cmp x l with
    | none => rfl
    | some p => rw [(hl.2 x p).2 ((lfind_some h hl.1).1 e')] at e; cases e

theorem lins_mem {x : K} {v : V} {l : List (K × V)} (s : Sorted cmp l) (q : K × V) :
    q ∈ lins cmp x v l ↔ q = (x, v) ∨ (q ∈ l ∧ cmp x q.1 ≠ .eq) := by
  induction l with
  | nil => simp [lins]
  | cons p l ih =>
    obtain ⟨s1, s2⟩ := List.pairwise_cons.mp s
    simp only [lins, List.mem_cons]
    cases e : cmp x p.1 with
    | lt =>
      simp only [List.mem_cons]
      constructor
      · rintro (h1 | rfl | h1)
        · exact .inl h1
        · exact .inr ⟨.inl rfl, by simp [e]⟩
        · exact .inr ⟨.inr h1, by simp [h.lt_trans e (s1 q h1)]⟩
      · rintro (h1 | ⟨h1, _⟩)
        · exact .inl h1
        · exact .inr h1
    | eq =>
      simp only [List.mem_cons]
      constructor
      · rintro (h1 | h1)
        · exact .inl h1
        · exact .inr ⟨.inr h1, by simp [h.lt_of_eq_of_lt e (s1 q h1)]⟩
      · rintro (h1 | ⟨rfl | h1, h2⟩)
        · exact .inl h1
        · exact absurd e h2
        · exact .inr h1
    | gt =>
      simp only [List.mem_cons, ih s2]
      constructor
      · rintro (rfl | h1 | ⟨h1, h2⟩)
        · exact .inr ⟨.inl rfl, by simp [e]⟩
        · exact .inl h1
        · exact .inr ⟨.inr h1, h2⟩
      · rintro (h1 | ⟨h1 | h1, h2⟩)
        · exact .inr (.inl h1)
        · exact .inl h1
        · exact .inr (.inr ⟨h1, h2⟩)

theorem lrem_mem {x : K} {l : List (K × V)} (s : Sorted cmp l) (q : K × V) :
    q ∈ lrem cmp x l ↔ q ∈ l ∧ cmp x q.1 ≠ .eq := by
  induction l with
  | nil => simp [lrem]
  | cons p l ih =>
    obtain ⟨s1, s2⟩ := List.pairwise_cons.mp s
    simp only [lrem, List.mem_cons]
    cases e : cmp x p.1 with
    | lt =>
      simp only [List.mem_cons]
      constructor
      · rintro (rfl | h1)
        · exact ⟨.inl rfl, by simp [e]⟩
        · exact ⟨.inr h1, by simp [h.lt_trans e (s1 q h1)]⟩
      · rintro ⟨h1, _⟩; exact h1
    | eq =>
      simp only
      constructor
      · intro h1
        exact ⟨.inr h1, by simp [h.lt_of_eq_of_lt e (s1 q h1)]⟩
      · rintro ⟨rfl | h1, h2⟩
        · exact absurd e h2
        · exact h1
    | gt =>
      simp only [List.mem_cons, ih s2]
      constructor
      · rintro (rfl | ⟨h1, h2⟩)
        · exact ⟨.inl rfl, by simp [e]⟩
        · exact ⟨.inr h1, h2⟩
      · rintro ⟨h1 | h1, h2⟩
        · exact .inl h1
        · exact .inr ⟨h1, h2⟩

theorem lins_sorted {x : K} {v : V} {l : List (K × V)} (s : Sorted cmp l) : Sorted cmp (lins cmp x v l) := by
  induction l with
  | nil => simp [lins, Sorted]
  | cons p l ih =>
    obtain ⟨s1, s2⟩ := List.pairwise_cons.mp s
    simp only [lins]
    cases e : cmp x p.1 with
    | lt =>
      refine List.pairwise_cons.mpr ⟨?_, s⟩
      intro q hq
      rcases List.mem_cons.mp hq with rfl | hq
      · exact e
      · exact h.lt_trans e (s1 q hq)
    | eq => exact List.pairwise_cons.mpr ⟨fun q hq => h.lt_of_eq_of_lt e (s1 q hq), s2⟩
    | gt =>
      refine List.pairwise_cons.mpr ⟨?_, ih s2⟩
      intro q hq
      rcases (lins_mem h s2 q).1 hq with rfl | ⟨hq, _⟩
      · exact (h.gt_iff _ _).1 e
      · exact s1 q hq

theorem lrem_sorted {x : K} {l : List (K × V)} (s : Sorted cmp l) : Sorted cmp (lrem cmp x l) := by
  induction l with
  | nil => simp [lrem, Sorted]
  | cons p l ih =>
    obtain ⟨s1, s2⟩ := List.pairwise_cons.mp s
    simp only [lrem]
    cases e : cmp x p.1 with
    | lt => exact s
    | eq => exact s2
    | gt => exact List.pairwise_cons.mpr ⟨fun q hq => s1 q ((lrem_mem h s2 q).1 hq).1, ih s2⟩

theorem Lists.insert {l : List (K × V)} {m : FMap K V} (hl : Lists cmp l m) (x : K) (v : V) :
    Lists cmp (lins cmp x v l) (FMap.insert cmp m x v) := by
  refine ⟨lins_sorted h hl.1, ?_⟩
  intro y p
  rw [lins_mem h hl.1]
  unfold FMap.insert
  split
  · rename_i e
    simp only [Option.some.injEq]
    constructor
    · rintro rfl; exact ⟨.inl rfl, e⟩
    · rintro ⟨h1 | ⟨h1, h2⟩, h3⟩
      · exact h1.symm
      · exact absurd (h.eq_trans e (h.eq_symm h3)) h2
  · rename_i e
    rw [hl.2]
    constructor
    · rintro ⟨h1, h2⟩
      exact ⟨.inr ⟨h1, fun h3 => e (h.eq_trans h3 h2)⟩, h2⟩
    · rintro ⟨rfl | ⟨h1, _⟩, h3⟩
      · exact absurd h3 e
      · exact ⟨h1, h3⟩

theorem Lists.remove {l : List (K × V)} {m : FMap K V} (hl : Lists cmp l m) (x : K) :
    Lists cmp (lrem cmp x l) (FMap.remove cmp m x) := by
  refine ⟨lrem_sorted h hl.1, ?_⟩
  intro y p
  rw [lrem_mem h hl.1]
  unfold FMap.remove
  split
  · rename_i e
    simp only [reduceCtorEq, false_iff, not_and, and_imp]
    intro _ h2 h3
    exact h2 (h.eq_trans e (h.eq_symm h3))
  · rename_i e
    rw [hl.2]
    constructor
    · rintro ⟨h1, h2⟩
      exact ⟨⟨h1, fun h3 => e (h.eq_trans h3 h2)⟩, h2⟩
    · rintro ⟨⟨h1, _⟩, h3⟩
      exact ⟨h1, h3⟩

omit h in
theorem Lists.empty : Lists cmp ([] : List (K × V)) FMap.empty := by
  refine ⟨List.Pairwise.nil, ?_⟩
  intro x p
  simp [FMap.empty]

end

theorem int_ne_gt (a b : Int) : compare a b ≠ .gt ↔ a ≤ b := by
  simp only [compare, compareOfLessAndEq]
  split
  · simp; omega
  · split
    · simp; omega
    · simp; omega

/-- comparing integers, as Int.compare does -/
theorem int_lawful : Lawful (fun a b : Int => compare a b) := by
  constructor
  · intro a b
    simp only [compare, compareOfLessAndEq]
    rcases Int.lt_trichotomy a b with e | e | e
    · rw [if_neg (by omega), if_neg (by omega), if_pos e]; rfl
    · subst e; simp
    · rw [if_pos e, if_neg (by omega), if_neg (by omega)]; rfl
  · intro a b c h1 h2
    rw [int_ne_gt] at *
    omega

/-- a comparison under which different keys are equal -/
theorem mod_lawful (n : Int) : Lawful (fun a b : Int => compare (a % n) (b % n)) := by
  constructor
  · intro a b; exact int_lawful.swap _ _
  · intro a b c; exact int_lawful.trans _ _ _

end Mosml.Maps
