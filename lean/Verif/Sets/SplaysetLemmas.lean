import Verif.Sets.Splayset
import Verif.Maps.SplaymapProps

/-!
Lemmas about Splayset.
-/
namespace Mosml.Sets.Splayset
open Mosml.Maps (Lawful)
open Mosml.Maps.Splaymap (Splay splay join flat Mono splay_ok join_flat)
open Mosml.Maps.Splaymap.Splay
variable {K : Type}

section
variable {cmp : K → K → Ordering} (h : Lawful cmp)
include h

theorem asc_mono (x : K) (l : List K) (s : Asc cmp l) : Mono (cmpf cmp x) l := by
  refine List.Pairwise.imp ?_ s
  intro p q hpq
  exact ⟨fun e => (h.gt_iff _ _).2 (h.lt_trans ((h.gt_iff _ _).1 e) hpq), fun e => h.lt_trans hpq e⟩

theorem lput_between {x : K} {l r : List K} (hl : ∀ q ∈ l, cmp q x = .lt) (hr : ∀ q ∈ r, cmp x q = .lt) :
    lput cmp x (l ++ r) = l ++ x :: r ∧ lfind cmp x (l ++ r) = none := by
  induction l with
  | nil =>
    cases r with
    | nil => simp [lput, lfind]
    | cons q r => simp [lput, lfind, hr q (by simp)]
  | cons q l ih =>
    have := (h.gt_iff _ _).2 (hl q (by simp))
    obtain ⟨i1, i2⟩ := ih (fun q hq => hl q (by simp [hq]))
    simp [lput, lfind, this, i1, i2]

/-- `splay` in terms of the sorted list of elements -/
theorem splay_find (x : K) (t : Splay K) (s : Asc cmp (flat t)) :
    (t = SplayNil ∧ splay (cmpf cmp x) t = (.gt, SplayNil)) ∨
    ∃ o a l r, splay (cmpf cmp x) t = (o, SplayObj a l r) ∧ flat t = flat l ++ a :: flat r ∧ cmp a x = o ∧
      (o = .eq → (∀ q ∈ flat l, cmp q x = .lt) ∧ (∀ q ∈ flat r, cmp x q = .lt)) ∧
      (o = .lt → (∀ q ∈ flat l, cmp q x = .lt) ∧ (∀ q ∈ flat r, cmp x q = .lt)) ∧
      (o = .gt → (∀ q ∈ flat l, cmp q x = .lt) ∧ (∀ q ∈ flat r, cmp x q = .lt)) := by
  rcases splay_ok (cmpf cmp x) t (asc_mono h x _ s) with h1 | ⟨o, a, l, r, h1, h2, h3, h4, h5⟩
  · exact .inl h1
  · rw [h2] at s
    obtain ⟨-, -, o3, o4, -⟩ := asc_mid.mp s
    refine .inr ⟨o, a, l, r, h1, h2, h3, ?_, ?_, ?_⟩
    · rintro rfl
      exact ⟨fun q hq => h.lt_of_lt_of_eq (o3 q hq) h3, fun q hq => h.lt_of_eq_of_lt (h.eq_symm h3) (o4 q hq)⟩
    · rintro rfl
      exact ⟨fun q hq => h.lt_trans (o3 q hq) h3, fun q hq => (h.gt_iff _ _).1 (h4 rfl q hq)⟩
    · rintro rfl
      exact ⟨h5 rfl, fun q hq => h.lt_trans ((h.gt_iff _ _).1 h3) (o4 q hq)⟩

theorem insert_ok (x : K) (n : Int) (t : Splay K) (s : Asc cmp (flat t)) (hn : n = (flat t).length) :
    flat (insert cmp x n t).2 = lput cmp x (flat t) ∧ (insert cmp x n t).1 = (flat (insert cmp x n t).2).length := by
  unfold insert
  rcases splay_find h x t s with ⟨h1, h2⟩ | ⟨o, a, l, r, h1, h2, h3, h4, h5, h6⟩
  · rw [h2, h1]; exact ⟨rfl, rfl⟩
  · rw [h1]
    rw [h2] at hn s ⊢
    obtain ⟨-, -, o3, o4, -⟩ := asc_mid.mp s
    simp only [List.length_append, List.length_cons] at hn
    cases o with
    | eq =>
      refine ⟨by simp only [flat]; rw [lput_eq h (h.eq_symm h3) o3], ?_⟩
      simp only [flat, List.length_append, List.length_cons]; exact hn
    | lt =>
      refine ⟨?_, ?_⟩
      · have := (lput_between h (x := x) (l := flat l ++ [a]) (r := flat r) (by
          intro q hq
          rcases List.mem_append.mp hq with hq | hq
          · exact (h5 rfl).1 q hq
          · rw [List.mem_singleton.mp hq]; exact h3) (h5 rfl).2).1
        simp only [List.append_assoc, List.cons_append, List.nil_append] at this
        simp only [flat, List.append_assoc, List.cons_append, List.nil_append, this]
      · simp only [flat, List.length_append, List.length_cons, List.length_nil]; omega
    | gt =>
      refine ⟨?_, ?_⟩
      · have := (lput_between h (x := x) (l := flat l) (r := a :: flat r) (h6 rfl).1 (by
          intro q hq
          rcases List.mem_cons.mp hq with rfl | hq
          · exact (h.gt_iff _ _).1 h3
          · exact (h6 rfl).2 q hq)).1
        simp only [flat, List.nil_append, this]
      · simp only [flat, List.length_append, List.length_cons, List.nil_append]; omega

/-- what `split` yields -/
theorem split_ok (x : K) (t : Splay K) (s : Asc cmp (flat t)) :
    (split cmp x t).1 = lfind cmp x (flat t) ∧
    flat t = flat (split cmp x t).2.1 ++ (lfind cmp x (flat t)).toList ++ flat (split cmp x t).2.2 ∧
    (∀ q ∈ flat (split cmp x t).2.1, cmp q x = .lt) ∧ (∀ q ∈ flat (split cmp x t).2.2, cmp x q = .lt) := by
  unfold split
  rcases splay_find h x t s with ⟨h1, h2⟩ | ⟨o, a, l, r, h1, h2, h3, h4, h5, h6⟩
  · rw [h2, h1]; simp [flat, lfind]
  · rw [h1]
    rw [h2] at s ⊢
    obtain ⟨-, -, o3, o4, -⟩ := asc_mid.mp s
    cases o with
    | eq =>
      rw [lfind_eq h (h.eq_symm h3) o3]
      exact ⟨rfl, by simp, (h4 rfl).1, (h4 rfl).2⟩
    | lt =>
      have hl : ∀ q ∈ flat l ++ [a], cmp q x = .lt := by
        intro q hq
        rcases List.mem_append.mp hq with hq | hq
        · exact (h5 rfl).1 q hq
        · rw [List.mem_singleton.mp hq]; exact h3
      have := (lput_between h hl (h5 rfl).2).2
      simp only [List.append_assoc, List.cons_append, List.nil_append] at this
      rw [this]
      exact ⟨rfl, by simp [flat], hl, (h5 rfl).2⟩
    | gt =>
      have hr : ∀ q ∈ a :: flat r, cmp x q = .lt := by
        intro q hq
        rcases List.mem_cons.mp hq with rfl | hq
        · exact (h.gt_iff _ _).1 h3
        · exact (h6 rfl).2 q hq
      have := (lput_between h (h6 rfl).1 hr).2
      rw [this]
      exact ⟨rfl, by simp [flat], (h6 rfl).1, hr⟩

/-- membership in the parts that `split` yields -/
theorem split_mem (x : K) (t : Splay K) (s : Asc cmp (flat t)) :
    Asc cmp (flat (split cmp x t).2.1) ∧ Asc cmp (flat (split cmp x t).2.2) ∧
    (∀ z, z ∈ flat (split cmp x t).2.1 ↔ z ∈ flat t ∧ cmp z x = .lt) ∧
    (∀ z, z ∈ flat (split cmp x t).2.2 ↔ z ∈ flat t ∧ cmp x z = .lt) := by
  obtain ⟨h1, h2, h3, h4⟩ := split_ok h x t s
  have s' := s
  rw [h2] at s'
  obtain ⟨s1, s2, -⟩ := asc_append.mp s'
  obtain ⟨s3, -, -⟩ := asc_append.mp s1
  have mem : ∀ z, z ∈ flat t → z ∈ flat (split cmp x t).2.1 ∨ cmp z x = .eq ∨ z ∈ flat (split cmp x t).2.2 := by
    intro z hz
    rw [h2] at hz
    rcases List.mem_append.mp hz with hz | hz
    · rcases List.mem_append.mp hz with hz | hz
      · exact .inl hz
      · rw [Option.mem_toList] at hz
        exact .inr (.inl ((lfind_some h s).1 hz).2)
    · exact .inr (.inr hz)
  refine ⟨s3, s2, fun z => ⟨fun hz => ⟨?_, h3 z hz⟩, ?_⟩, fun z => ⟨fun hz => ⟨?_, h4 z hz⟩, ?_⟩⟩
  · rw [h2]; simp [hz]
  · rintro ⟨k1, k2⟩
    rcases mem z k1 with k | k | k
    · exact k
    · rw [k] at k2; cases k2
    · rw [(h.gt_iff _ _).2 (h4 z k)] at k2; cases k2
  · rw [h2]; simp [hz]
  · rintro ⟨k1, k2⟩
    rcases mem z k1 with k | k | k
    · rw [(h.gt_iff _ _).2 (h3 z k)] at k2; cases k2
    · rw [h.eq_symm k] at k2; cases k2
    · exact k

omit h in
theorem cnt_ok (t : Splay K) : ∀ n, cnt t n = n + (flat t).length := by
  induction t with
  | SplayNil => intro n; simp [cnt, flat]
  | SplayObj v l r ihl ihr =>
    intro n
    simp only [cnt, flat, ihl, ihr, List.length_append, List.length_cons]
    push_cast; omega

omit h in
theorem count_ok (t : Splay K) : count t = (flat t).length := by simp [count, cnt_ok]

theorem inter_ok (t2 : Splay K) : ∀ (t1 : Splay K), Asc cmp (flat t1) → Asc cmp (flat t2) →
    Asc cmp (flat (inter cmp t1 t2).1) ∧ (inter cmp t1 t2).2 = (flat (inter cmp t1 t2).1).length ∧
    ∀ z, z ∈ flat (inter cmp t1 t2).1 ↔ z ∈ flat t1 ∧ ∃ y ∈ flat t2, cmp y z = .eq := by
  induction t2 with
  | SplayNil =>
    intro t1 _ _
    have : inter cmp t1 SplayNil = (SplayNil, 0) := by cases t1 <;> rfl
    rw [this]
    exact ⟨List.Pairwise.nil, rfl, fun z => by simp [flat]⟩
  | SplayObj v l r ihl ihr =>
    intro t1 s1 s2
    by_cases ne : t1 = SplayNil
    · subst ne; exact ⟨List.Pairwise.nil, rfl, fun z => by simp [inter, flat]⟩
    obtain ⟨o1, o2, o3, o4, o5⟩ := asc_mid.mp s2
    obtain ⟨k1, -, -, -⟩ := split_ok h v t1 s1
    obtain ⟨k2, k3, k4, k5⟩ := split_mem h v t1 s1
    have step : inter cmp t1 (SplayObj v l r) = match (split cmp v t1).1 with
        | some w => (SplayObj w (inter cmp (split cmp v t1).2.1 l).1 (inter cmp (split cmp v t1).2.2 r).1,
            (inter cmp (split cmp v t1).2.1 l).2 + (inter cmp (split cmp v t1).2.2 r).2 + 1)
        | none => (join (inter cmp (split cmp v t1).2.1 l).1 (inter cmp (split cmp v t1).2.2 r).1,
            (inter cmp (split cmp v t1).2.1 l).2 + (inter cmp (split cmp v t1).2.2 r).2) := by
      cases t1 with
      | SplayNil => exact absurd rfl ne
      | SplayObj a b c =>
        simp only [inter]
        generalize split cmp v (SplayObj a b c) = q
        obtain ⟨q1, q2, q3⟩ := q
        cases q1 <;> rfl
    rw [step, k1]
    obtain ⟨a1, a2, a3⟩ := ihl (split cmp v t1).2.1 k2 o1
    obtain ⟨b1, b2, b3⟩ := ihr (split cmp v t1).2.2 k3 o2
    generalize inter cmp (split cmp v t1).2.1 l = A at *
    generalize inter cmp (split cmp v t1).2.2 r = B at *
    have ma : ∀ z, z ∈ flat A.1 ↔ (z ∈ flat t1 ∧ cmp z v = .lt) ∧ ∃ y ∈ flat (SplayObj v l r), cmp y z = .eq := by
      intro z
      rw [a3, k4]
      constructor
      · rintro ⟨w1, y, w2, w3⟩
        exact ⟨w1, y, by simp [flat, w2], w3⟩
      · rintro ⟨w1, y, w2, w3⟩
        refine ⟨w1, y, ?_, w3⟩
        rw [flat, List.mem_append, List.mem_cons] at w2
        rcases w2 with w2 | rfl | w2
        · exact w2
        · rw [h.eq_symm w3] at w1; cases w1.2
        · have := h.lt_trans w1.2 (o4 y w2)
          rw [h.eq_symm w3] at this; cases this
    have mb : ∀ z, z ∈ flat B.1 ↔ (z ∈ flat t1 ∧ cmp v z = .lt) ∧ ∃ y ∈ flat (SplayObj v l r), cmp y z = .eq := by
      intro z
      rw [b3, k5]
      constructor
      · rintro ⟨w1, y, w2, w3⟩
        exact ⟨w1, y, by simp [flat, w2], w3⟩
      · rintro ⟨w1, y, w2, w3⟩
        refine ⟨w1, y, ?_, w3⟩
        rw [flat, List.mem_append, List.mem_cons] at w2
        rcases w2 with w2 | rfl | w2
        · have := h.lt_trans (o3 y w2) w1.2
          rw [w3] at this; cases this
        · rw [w3] at w1; cases w1.2
        · exact w2
    have la : ∀ z ∈ flat A.1, cmp z v = .lt := fun z hz => ((ma z).1 hz).1.2
    have lb : ∀ z ∈ flat B.1, cmp v z = .lt := fun z hz => ((mb z).1 hz).1.2
    cases e : lfind cmp v (flat t1) with
    | none =>
      simp only [join_flat]
      refine ⟨asc_append.mpr ⟨a1, b1, fun x hx y hy => h.lt_trans (la x hx) (lb y hy)⟩, by rw [a2, b2]; simp, fun z => ?_⟩
      rw [List.mem_append, ma, mb]
      constructor
      · rintro (⟨⟨w1, w2⟩, w3⟩ | ⟨⟨w1, w2⟩, w3⟩) <;> exact ⟨w1, w3⟩
      · rintro ⟨w1, w3⟩
        cases e1 : cmp z v with
        | lt => exact .inl ⟨⟨w1, rfl⟩, w3⟩
        | gt => exact .inr ⟨⟨w1, (h.gt_iff _ _).1 e1⟩, w3⟩
        | eq => exact absurd e1 ((lfind_none h s1).1 e z w1)
    | some p =>
      obtain ⟨p1, p2⟩ := (lfind_some h s1).1 e
      simp only [flat]
      have la' : ∀ z ∈ flat A.1, cmp z p = .lt := fun z hz => h.lt_of_lt_of_eq (la z hz) (h.eq_symm p2)
      have lb' : ∀ z ∈ flat B.1, cmp p z = .lt := fun z hz => h.lt_of_eq_of_lt p2 (lb z hz)
      refine ⟨asc_mid.mpr ⟨a1, b1, la', lb', fun x hx y hy => h.lt_trans (la x hx) (lb y hy)⟩, by rw [a2, b2]; simp; omega, fun z => ?_⟩
      rw [List.mem_append, List.mem_cons, ma, mb]
      constructor
      · rintro (⟨⟨w1, w2⟩, w3⟩ | rfl | ⟨⟨w1, w2⟩, w3⟩)
        · exact ⟨w1, w3⟩
        · exact ⟨p1, v, by simp, h.eq_symm p2⟩
        · exact ⟨w1, w3⟩
      · rintro ⟨w1, w3⟩
        cases e1 : cmp z v with
        | lt => exact .inl ⟨⟨w1, rfl⟩, w3⟩
        | gt => exact .inr (.inr ⟨⟨w1, (h.gt_iff _ _).1 e1⟩, w3⟩)
        | eq => exact .inr (.inl (asc_unique h s1 w1 p1 (h.eq_trans e1 (h.eq_symm p2))))

theorem diff_ok (t2 : Splay K) : ∀ (t1 : Splay K), Asc cmp (flat t1) → Asc cmp (flat t2) →
    Asc cmp (flat (diff cmp t1 t2).1) ∧ (diff cmp t1 t2).2 = (flat (diff cmp t1 t2).1).length ∧
    ∀ z, z ∈ flat (diff cmp t1 t2).1 ↔ z ∈ flat t1 ∧ ∀ y ∈ flat t2, cmp y z ≠ .eq := by
  induction t2 with
  | SplayNil =>
    intro t1 s1 _
    by_cases ne : t1 = SplayNil
    · subst ne; exact ⟨List.Pairwise.nil, rfl, fun z => by simp [diff, flat]⟩
    have : diff cmp t1 SplayNil = (t1, count t1) := by
      cases t1 with
      | SplayNil => exact absurd rfl ne
      | SplayObj => rfl
    rw [this]
    exact ⟨s1, count_ok t1, fun z => by simp [flat]⟩
  | SplayObj v l r ihl ihr =>
    intro t1 s1 s2
    by_cases ne : t1 = SplayNil
    · subst ne; exact ⟨List.Pairwise.nil, rfl, fun z => by simp [diff, flat]⟩
    obtain ⟨o1, o2, o3, o4, o5⟩ := asc_mid.mp s2
    obtain ⟨k2, k3, k4, k5⟩ := split_mem h v t1 s1
    have step : diff cmp t1 (SplayObj v l r) = (join (diff cmp (split cmp v t1).2.1 l).1 (diff cmp (split cmp v t1).2.2 r).1,
            (diff cmp (split cmp v t1).2.1 l).2 + (diff cmp (split cmp v t1).2.2 r).2) := by
      cases t1 with
      | SplayNil => exact absurd rfl ne
      | SplayObj a b c => rfl
    rw [step]
    obtain ⟨a1, a2, a3⟩ := ihl (split cmp v t1).2.1 k2 o1
    obtain ⟨b1, b2, b3⟩ := ihr (split cmp v t1).2.2 k3 o2
    generalize diff cmp (split cmp v t1).2.1 l = A at *
    generalize diff cmp (split cmp v t1).2.2 r = B at *
    have la : ∀ z ∈ flat A.1, cmp z v = .lt := fun z hz => ((k4 z).1 ((a3 z).1 hz).1).2
    have lb : ∀ z ∈ flat B.1, cmp v z = .lt := fun z hz => ((k5 z).1 ((b3 z).1 hz).1).2
    simp only [join_flat]
    refine ⟨asc_append.mpr ⟨a1, b1, fun x hx y hy => h.lt_trans (la x hx) (lb y hy)⟩, by rw [a2, b2]; simp, fun z => ?_⟩
    rw [List.mem_append, a3, b3, k4, k5]
    constructor
    · rintro (⟨⟨w1, w2⟩, w3⟩ | ⟨⟨w1, w2⟩, w3⟩)
      · refine ⟨w1, fun y hy => ?_⟩
        rw [flat, List.mem_append, List.mem_cons] at hy
        rcases hy with hy | rfl | hy
        · exact w3 y hy
        · intro e; rw [h.eq_symm e] at w2; cases w2
        · intro e
          have := h.lt_trans w2 (o4 y hy)
          rw [h.eq_symm e] at this; cases this
      · refine ⟨w1, fun y hy => ?_⟩
        rw [flat, List.mem_append, List.mem_cons] at hy
        rcases hy with hy | rfl | hy
        · intro e
          have := h.lt_trans (o3 y hy) w2
          rw [e] at this; cases this
        · intro e; rw [e] at w2; cases w2
        · exact w3 y hy
    · rintro ⟨w1, w3⟩
      have w4 : ∀ y ∈ flat l, cmp y z ≠ .eq := fun y hy => w3 y (by simp [flat, hy])
      have w5 : ∀ y ∈ flat r, cmp y z ≠ .eq := fun y hy => w3 y (by simp [flat, hy])
      cases e1 : cmp z v with
      | lt => exact .inl ⟨⟨w1, rfl⟩, w4⟩
      | gt => exact .inr ⟨⟨w1, (h.gt_iff _ _).1 e1⟩, w5⟩
      | eq => exact absurd (h.eq_symm e1) (w3 v (by simp [flat]))

theorem uni_ok (t2 : Splay K) : ∀ (t1 : Splay K), Asc cmp (flat t1) → Asc cmp (flat t2) →
    Asc cmp (flat (uni cmp t1 t2).1) ∧ (uni cmp t1 t2).2 = (flat (uni cmp t1 t2).1).length ∧
    ∀ z, z ∈ flat (uni cmp t1 t2).1 ↔ z ∈ flat t2 ∨ (z ∈ flat t1 ∧ ∀ y ∈ flat t2, cmp y z ≠ .eq) := by
  induction t2 with
  | SplayNil =>
    intro t1 s1 _
    have : uni cmp t1 SplayNil = (t1, count t1) := by cases t1 <;> rfl
    rw [this]
    exact ⟨s1, count_ok t1, fun z => by simp [flat]⟩
  | SplayObj v l r ihl ihr =>
    intro t1 s1 s2
    by_cases ne : t1 = SplayNil
    · subst ne; exact ⟨s2, count_ok _, fun z => by simp [uni, flat]⟩
    obtain ⟨o1, o2, o3, o4, o5⟩ := asc_mid.mp s2
    obtain ⟨k2, k3, k4, k5⟩ := split_mem h v t1 s1
    have step : uni cmp t1 (SplayObj v l r) = (SplayObj v (uni cmp (split cmp v t1).2.1 l).1 (uni cmp (split cmp v t1).2.2 r).1,
            (uni cmp (split cmp v t1).2.1 l).2 + (uni cmp (split cmp v t1).2.2 r).2 + 1) := by
      cases t1 with
      | SplayNil => exact absurd rfl ne
      | SplayObj a b c => rfl
    rw [step]
    obtain ⟨a1, a2, a3⟩ := ihl (split cmp v t1).2.1 k2 o1
    obtain ⟨b1, b2, b3⟩ := ihr (split cmp v t1).2.2 k3 o2
    generalize uni cmp (split cmp v t1).2.1 l = A at *
    generalize uni cmp (split cmp v t1).2.2 r = B at *
    have la : ∀ z ∈ flat A.1, cmp z v = .lt := fun z hz => by
      rcases (a3 z).1 hz with k | k
      · exact o3 z k
      · exact ((k4 z).1 k.1).2
    have lb : ∀ z ∈ flat B.1, cmp v z = .lt := fun z hz => by
      rcases (b3 z).1 hz with k | k
      · exact o4 z k
      · exact ((k5 z).1 k.1).2
    simp only [flat]
    refine ⟨asc_mid.mpr ⟨a1, b1, la, lb, fun x hx y hy => h.lt_trans (la x hx) (lb y hy)⟩, by rw [a2, b2]; simp; omega, fun z => ?_⟩
    simp only [List.mem_append, List.mem_cons, a3, b3, k4, k5]
    constructor
    · rintro ((w | ⟨⟨w1, w2⟩, w3⟩) | rfl | (w | ⟨⟨w1, w2⟩, w3⟩))
      · exact .inl (.inl w)
      · refine .inr ⟨w1, fun y hy => ?_⟩
        rcases hy with hy | rfl | hy
        · exact w3 y hy
        · intro e; rw [h.eq_symm e] at w2; cases w2
        · intro e
          have := h.lt_trans w2 (o4 y hy)
          rw [h.eq_symm e] at this; cases this
      · exact .inl (.inr (.inl rfl))
      · exact .inl (.inr (.inr w))
      · refine .inr ⟨w1, fun y hy => ?_⟩
        rcases hy with hy | rfl | hy
        · intro e
          have := h.lt_trans (o3 y hy) w2
          rw [e] at this; cases this
        · intro e; rw [e] at w2; cases w2
        · exact w3 y hy
    · rintro ((w | rfl | w) | ⟨w1, w3⟩)
      · exact .inl (.inl w)
      · exact .inr (.inl rfl)
      · exact .inr (.inr (.inl w))
      · have w4 : ∀ y ∈ flat l, cmp y z ≠ .eq := fun y hy => w3 y (.inl hy)
        have w5 : ∀ y ∈ flat r, cmp y z ≠ .eq := fun y hy => w3 y (.inr (.inr hy))
        cases e1 : cmp z v with
        | lt => exact .inl (.inr ⟨⟨w1, rfl⟩, w4⟩)
        | gt => exact .inr (.inr (.inr ⟨⟨w1, (h.gt_iff _ _).1 e1⟩, w5⟩))
        | eq => exact absurd (h.eq_symm e1) (w3 v (.inr (.inl rfl)))

theorem mbr_ok (x : K) (t : Splay K) (s : Asc cmp (flat t)) : mbr cmp x t = (lfind cmp x (flat t)).isSome := by
  induction t with
  | SplayNil => rfl
  | SplayObj v l r ihl ihr =>
    obtain ⟨o1, o2, o3, o4, o5⟩ := asc_mid.mp s
    unfold mbr
    rw [flat]
    cases e : cmp x v with
    | lt => rw [lfind_lt h e]; exact ihl o1
    | gt => rw [lfind_gt h e o3]; exact ihr o2
    | eq => rw [lfind_eq h e o3]; rfl

theorem isIn_ok (t' : Splay K) (ho' : Asc cmp (flat t')) (t : Splay K) : isIn cmp t' t = true ↔ ∀ x ∈ flat t, ∃ y ∈ flat t', cmp y x = .eq := by
  have mem : ∀ x, mbr cmp x t' = true ↔ ∃ y ∈ flat t', cmp y x = .eq := by
    intro x
    rw [mbr_ok h x t' ho', Option.isSome_iff_exists]
    exact ⟨fun ⟨y, hy⟩ => ⟨y, (lfind_some h ho').1 hy⟩, fun ⟨y, hy⟩ => ⟨y, (lfind_some h ho').2 hy⟩⟩
  have step : ∀ v l r, isIn cmp t' (SplayObj v l r) = (mbr cmp v t' && isIn cmp t' l && isIn cmp t' r) := by
    intro v l r
    cases l <;> cases r <;> simp [isIn]
  induction t with
  | SplayNil => simp [isIn, flat]
  | SplayObj v l r ihl ihr =>
    simp only [step, Bool.and_eq_true, mem, ihl, ihr, flat, List.mem_append, List.mem_cons]
    constructor
    · rintro ⟨⟨k1, k2⟩, k3⟩ x (hx | rfl | hx)
      · exact k2 x hx
      · exact k1
      · exact k3 x hx
    · intro k
      exact ⟨⟨k v (.inr (.inl rfl)), fun x hx => k x (.inl hx)⟩, fun x hx => k x (.inr (.inr hx))⟩

end

theorem applyList_eq (t : Splay K) : ∀ res, applyList t res = flat t ++ res := by
  induction t with
  | SplayNil => intro res; rfl
  | SplayObj a l r ihl ihr => intro res; simp [applyList, flat, ihl, ihr]

theorem listItems_eq (s : OSet K) : listItems s = flat s.root := by simp [listItems, applyList_eq]

end Mosml.Sets.Splayset
