import Verif.Sets.Order

/-!
Merging sorted lists.
-/
namespace Mosml.Sets
open Mosml.Maps (Lawful)
variable {K : Type}

def lunion (cmp : K → K → Ordering) : List K → List K → List K
  | [], r => r
  | x :: l, [] => x :: l
  | x :: l, y :: r => match cmp x y with
    | .eq => x :: lunion cmp l r
    | .lt => x :: lunion cmp l (y :: r)
    | .gt => y :: lunion cmp (x :: l) r
termination_by l r => l.length + r.length

def linter (cmp : K → K → Ordering) : List K → List K → List K
  | [], _ => []
  | _ :: _, [] => []
  | x :: l, y :: r => match cmp x y with
    | .eq => x :: linter cmp l r
    | .lt => linter cmp l (y :: r)
    | .gt => linter cmp (x :: l) r
termination_by l r => l.length + r.length

def ldiff (cmp : K → K → Ordering) : List K → List K → List K
  | [], _ => []
  | x :: l, [] => x :: l
  | x :: l, y :: r => match cmp x y with
    | .eq => ldiff cmp l r
    | .lt => x :: ldiff cmp l (y :: r)
    | .gt => ldiff cmp (x :: l) r
termination_by l r => l.length + r.length

def lsub (cmp : K → K → Ordering) : List K → List K → Bool
  | [], _ => true
  | _ :: _, [] => false
  | x :: l, y :: r => match cmp x y with
    | .eq => lsub cmp l r
    | .lt => false
    | .gt => lsub cmp (x :: l) r
termination_by l r => l.length + r.length

variable {cmp : K → K → Ordering} (h : Lawful cmp)
include h

theorem lunion_mem (a b : List K) (sa : Asc cmp a) (sb : Asc cmp b) (z : K) :
    z ∈ lunion cmp a b ↔ z ∈ a ∨ (z ∈ b ∧ ∀ y ∈ a, cmp y z ≠ .eq) := by
  fun_induction lunion cmp a b with
  | case1 r => simp
  | case2 x l => simp
  | case3 x l y r e ih =>
    obtain ⟨s1, s2⟩ := asc_cons.mp sa
    obtain ⟨t1, t2⟩ := asc_cons.mp sb
    simp only [List.mem_cons, ih s2 t2]
    constructor
    · rintro (rfl | h1 | ⟨h1, h2⟩)
      · exact .inl (.inl rfl)
      · exact .inl (.inr h1)
      · refine .inr ⟨.inr h1, ?_⟩
        rintro w (rfl | hw)
        · simp [h.lt_of_eq_of_lt e (t1 z h1)]
        · exact h2 w hw
    · rintro ((rfl | h1) | ⟨rfl | h1, h2⟩)
      · exact .inl rfl
      · exact .inr (.inl h1)
      · exact absurd e (h2 x (.inl rfl))
      · exact .inr (.inr ⟨h1, fun w hw => h2 w (.inr hw)⟩)
  | case4 x l y r e ih =>
    obtain ⟨s1, s2⟩ := asc_cons.mp sa
    obtain ⟨t1, t2⟩ := asc_cons.mp sb
    rw [List.mem_cons, ih s2 sb]
    simp only [List.mem_cons]
    constructor
    · rintro (rfl | h1 | ⟨h1, h2⟩)
      · exact .inl (.inl rfl)
      · exact .inl (.inr h1)
      · refine .inr ⟨h1, ?_⟩
        rintro w (rfl | hw)
        · rcases h1 with rfl | h1
          · simp [e]
          · simp [h.lt_trans e (t1 z h1)]
        · exact h2 w hw
    · rintro ((rfl | h1) | ⟨h1, h2⟩)
      · exact .inl rfl
      · exact .inr (.inl h1)
      · exact .inr (.inr ⟨h1, fun w hw => h2 w (.inr hw)⟩)
  | case5 x l y r e ih =>
    obtain ⟨s1, s2⟩ := asc_cons.mp sa
    obtain ⟨t1, t2⟩ := asc_cons.mp sb
    have e' := (h.gt_iff _ _).1 e
    rw [List.mem_cons, ih sa t2]
    simp only [List.mem_cons]
    constructor
    · rintro (rfl | h1 | ⟨h1, h2⟩)
      · refine .inr ⟨.inl rfl, ?_⟩
        rintro w (rfl | hw)
        · simp [e]
        · simp [(h.gt_iff w z).2 (h.lt_trans e' (s1 w hw))]
      · exact .inl h1
      · exact .inr ⟨.inr h1, h2⟩
    · rintro (h1 | ⟨rfl | h1, h2⟩)
      · exact .inr (.inl h1)
      · exact .inl rfl
      · exact .inr (.inr ⟨h1, h2⟩)

theorem lunion_asc (a b : List K) (sa : Asc cmp a) (sb : Asc cmp b) : Asc cmp (lunion cmp a b) := by
  fun_induction lunion cmp a b with
  | case1 r => exact sb
  | case2 x l => exact sa
  | case3 x l y r e ih =>
    obtain ⟨s1, s2⟩ := asc_cons.mp sa
    obtain ⟨t1, t2⟩ := asc_cons.mp sb
    refine asc_cons.mpr ⟨fun q hq => ?_, ih s2 t2⟩
    rcases (lunion_mem h _ _ s2 t2 q).1 hq with hq | ⟨hq, _⟩
    · exact s1 q hq
    · exact h.lt_of_eq_of_lt e (t1 q hq)
  | case4 x l y r e ih =>
    obtain ⟨s1, s2⟩ := asc_cons.mp sa
    obtain ⟨t1, t2⟩ := asc_cons.mp sb
    refine asc_cons.mpr ⟨fun q hq => ?_, ih s2 sb⟩
    rcases (lunion_mem h _ _ s2 sb q).1 hq with hq | ⟨hq, _⟩
    · exact s1 q hq
    · rcases List.mem_cons.mp hq with rfl | hq
      · exact e
      · exact h.lt_trans e (t1 q hq)
  | case5 x l y r e ih =>
    obtain ⟨s1, s2⟩ := asc_cons.mp sa
    obtain ⟨t1, t2⟩ := asc_cons.mp sb
    have e' := (h.gt_iff _ _).1 e
    refine asc_cons.mpr ⟨fun q hq => ?_, ih sa t2⟩
    rcases (lunion_mem h _ _ sa t2 q).1 hq with hq | ⟨hq, _⟩
    · rcases List.mem_cons.mp hq with rfl | hq
      · exact e'
      · exact h.lt_trans e' (s1 q hq)
    · exact t1 q hq

theorem linter_mem (a b : List K) (sa : Asc cmp a) (sb : Asc cmp b) (z : K) :
    z ∈ linter cmp a b ↔ z ∈ a ∧ ∃ y ∈ b, cmp y z = .eq := by
  fun_induction linter cmp a b with
  | case1 r => simp
  | case2 x l => simp
  | case3 x l y r e ih =>
    obtain ⟨s1, s2⟩ := asc_cons.mp sa
    obtain ⟨t1, t2⟩ := asc_cons.mp sb
    simp only [List.mem_cons, ih s2 t2]
    constructor
    · rintro (rfl | ⟨h1, w, h2, h3⟩)
      · exact ⟨.inl rfl, y, .inl rfl, h.eq_symm e⟩
      · exact ⟨.inr h1, w, .inr h2, h3⟩
    · rintro ⟨rfl | h1, w, h2, h3⟩
      · exact .inl rfl
      · refine .inr ⟨h1, ?_⟩
        rcases h2 with rfl | h2
        · have := h.lt_of_eq_of_lt (h.eq_symm e) (s1 z h1)
          rw [h3] at this; cases this
        · exact ⟨w, h2, h3⟩
  | case4 x l y r e ih =>
    obtain ⟨s1, s2⟩ := asc_cons.mp sa
    obtain ⟨t1, t2⟩ := asc_cons.mp sb
    rw [ih s2 sb]
    simp only [List.mem_cons]
    constructor
    · rintro ⟨h1, w, h2, h3⟩
      exact ⟨.inr h1, w, h2, h3⟩
    · rintro ⟨rfl | h1, w, h2, h3⟩
      · exfalso
        rcases h2 with rfl | h2
        · rw [h.eq_symm h3] at e; cases e
        · have := h.lt_trans e (t1 w h2)
          rw [h.eq_symm h3] at this; cases this
      · exact ⟨h1, w, h2, h3⟩
  | case5 x l y r e ih =>
    obtain ⟨s1, s2⟩ := asc_cons.mp sa
    obtain ⟨t1, t2⟩ := asc_cons.mp sb
    have e' := (h.gt_iff _ _).1 e
    rw [ih sa t2]
    simp only [List.mem_cons]
    constructor
    · rintro ⟨h1, w, h2, h3⟩
      exact ⟨h1, w, .inr h2, h3⟩
    · rintro ⟨h1, w, rfl | h2, h3⟩
      · exfalso
        rcases h1 with rfl | h1
        · rw [h3] at e'; cases e'
        · have := h.lt_trans e' (s1 z h1)
          rw [h3] at this; cases this
      · exact ⟨h1, w, h2, h3⟩

theorem linter_asc (a b : List K) (sa : Asc cmp a) (sb : Asc cmp b) : Asc cmp (linter cmp a b) := by
  fun_induction linter cmp a b with
  | case1 r => exact sa
  | case2 x l => exact sb
  | case3 x l y r e ih =>
    obtain ⟨s1, s2⟩ := asc_cons.mp sa
    obtain ⟨t1, t2⟩ := asc_cons.mp sb
    exact asc_cons.mpr ⟨fun q hq => s1 q ((linter_mem h _ _ s2 t2 q).1 hq).1, ih s2 t2⟩
  | case4 x l y r e ih => exact ih (asc_cons.mp sa).2 sb
  | case5 x l y r e ih => exact ih sa (asc_cons.mp sb).2

theorem ldiff_mem (a b : List K) (sa : Asc cmp a) (sb : Asc cmp b) (z : K) :
    z ∈ ldiff cmp a b ↔ z ∈ a ∧ ∀ y ∈ b, cmp y z ≠ .eq := by
  fun_induction ldiff cmp a b with
  | case1 r => simp
  | case2 x l => simp
  | case3 x l y r e ih =>
    obtain ⟨s1, s2⟩ := asc_cons.mp sa
    obtain ⟨t1, t2⟩ := asc_cons.mp sb
    rw [ih s2 t2]
    simp only [List.mem_cons]
    constructor
    · rintro ⟨h1, h2⟩
      refine ⟨.inr h1, ?_⟩
      rintro w (rfl | hw)
      · simp [h.lt_of_eq_of_lt (h.eq_symm e) (s1 z h1)]
      · exact h2 w hw
    · rintro ⟨rfl | h1, h2⟩
      · exact absurd (h.eq_symm e) (h2 y (.inl rfl))
      · exact ⟨h1, fun w hw => h2 w (.inr hw)⟩
  | case4 x l y r e ih =>
    obtain ⟨s1, s2⟩ := asc_cons.mp sa
    obtain ⟨t1, t2⟩ := asc_cons.mp sb
    rw [List.mem_cons, ih s2 sb]
    simp only [List.mem_cons]
    constructor
    · rintro (rfl | ⟨h1, h2⟩)
      · refine ⟨.inl rfl, ?_⟩
        rintro w (rfl | hw) e1
        · rw [h.eq_symm e1] at e; cases e
        · have := h.lt_trans e (t1 w hw)
          rw [h.eq_symm e1] at this; cases this
      · exact ⟨.inr h1, h2⟩
    · rintro ⟨rfl | h1, h2⟩
      · exact .inl rfl
      · exact .inr ⟨h1, h2⟩
  | case5 x l y r e ih =>
    obtain ⟨s1, s2⟩ := asc_cons.mp sa
    obtain ⟨t1, t2⟩ := asc_cons.mp sb
    have e' := (h.gt_iff _ _).1 e
    rw [ih sa t2]
    simp only [List.mem_cons]
    constructor
    · rintro ⟨h1, h2⟩
      refine ⟨h1, ?_⟩
      rintro w (rfl | hw)
      · rcases h1 with rfl | h1
        · simp [e']
        · simp [h.lt_trans e' (s1 z h1)]
      · exact h2 w hw
    · rintro ⟨h1, h2⟩
      exact ⟨h1, fun w hw => h2 w (.inr hw)⟩

theorem ldiff_asc (a b : List K) (sa : Asc cmp a) (sb : Asc cmp b) : Asc cmp (ldiff cmp a b) := by
  fun_induction ldiff cmp a b with
  | case1 r => exact sa
  | case2 x l => exact sa
  | case3 x l y r e ih => exact ih (asc_cons.mp sa).2 (asc_cons.mp sb).2
  | case4 x l y r e ih =>
    obtain ⟨s1, s2⟩ := asc_cons.mp sa
    exact asc_cons.mpr ⟨fun q hq => s1 q ((ldiff_mem h _ _ s2 sb q).1 hq).1, ih s2 sb⟩
  | case5 x l y r e ih => exact ih sa (asc_cons.mp sb).2

theorem lsub_iff (a b : List K) (sa : Asc cmp a) (sb : Asc cmp b) : lsub cmp a b = true ↔ ∀ x ∈ a, ∃ y ∈ b, cmp y x = .eq := by
  fun_induction lsub cmp a b with
  | case1 r => simp
  | case2 x l => simp only [Bool.false_eq_true, false_iff]; intro k; obtain ⟨_, h1, _⟩ := k x (by simp); cases h1
  | case3 x l y r e ih =>
    obtain ⟨s1, s2⟩ := asc_cons.mp sa
    obtain ⟨t1, t2⟩ := asc_cons.mp sb
    rw [ih s2 t2]
    simp only [List.mem_cons]
    constructor
    · rintro h1 z (rfl | hz)
      · exact ⟨y, .inl rfl, h.eq_symm e⟩
      · obtain ⟨w, hw, h2⟩ := h1 z hz
        exact ⟨w, .inr hw, h2⟩
    · intro h1 z hz
      obtain ⟨w, rfl | hw, h2⟩ := h1 z (.inr hz)
      · have := h.lt_of_eq_of_lt (h.eq_symm e) (s1 z hz)
        rw [h2] at this; cases this
      · exact ⟨w, hw, h2⟩
  | case4 x l y r e =>
    obtain ⟨t1, t2⟩ := asc_cons.mp sb
    simp only [Bool.false_eq_true, false_iff]
    intro h1
    obtain ⟨w, hw, h2⟩ := h1 x (by simp)
    rcases List.mem_cons.mp hw with rfl | hw
    · rw [h.eq_symm h2] at e; cases e
    · have := h.lt_trans e (t1 w hw)
      rw [h.eq_symm h2] at this; cases this
  | case5 x l y r e ih =>
    obtain ⟨s1, s2⟩ := asc_cons.mp sa
    obtain ⟨t1, t2⟩ := asc_cons.mp sb
    have e' := (h.gt_iff _ _).1 e
    rw [ih sa t2]
    constructor
    · intro h1 z hz
      obtain ⟨w, hw, h2⟩ := h1 z hz
      exact ⟨w, by simp [hw], h2⟩
    · intro h1 z hz
      obtain ⟨w, hw, h2⟩ := h1 z hz
      rcases List.mem_cons.mp hw with rfl | hw
      · exfalso
        rcases List.mem_cons.mp hz with rfl | hz
        · rw [h2] at e'; cases e'
        · have := h.lt_trans e' (s1 z hz)
          rw [h2] at this; cases this
      · exact ⟨w, hw, h2⟩

/-- comparing EQUAL is having the same elements -/
theorem llex_eq (a b : List K) (sa : Asc cmp a) (sb : Asc cmp b) :
    llex cmp a b = .eq ↔ (∀ x ∈ a, ∃ y ∈ b, cmp y x = .eq) ∧ ∀ y ∈ b, ∃ x ∈ a, cmp x y = .eq := by
  fun_induction llex cmp a b with
  | case1 => simp
  | case2 y r => simp only [reduceCtorEq, false_iff]; rintro ⟨_, k⟩; obtain ⟨_, h1, _⟩ := k y (by simp); cases h1
  | case3 x l => simp only [reduceCtorEq, false_iff]; rintro ⟨k, _⟩; obtain ⟨_, h1, _⟩ := k x (by simp); cases h1
  | case4 x l y r e ih =>
    obtain ⟨s1, s2⟩ := asc_cons.mp sa
    obtain ⟨t1, t2⟩ := asc_cons.mp sb
    rw [ih s2 t2]
    simp only [List.mem_cons]
    constructor
    · rintro ⟨h1, h2⟩
      refine ⟨?_, ?_⟩
      · rintro z (rfl | hz)
        · exact ⟨y, .inl rfl, h.eq_symm e⟩
        · obtain ⟨w, hw, h3⟩ := h1 z hz
          exact ⟨w, .inr hw, h3⟩
      · rintro z (rfl | hz)
        · exact ⟨x, .inl rfl, e⟩
        · obtain ⟨w, hw, h3⟩ := h2 z hz
          exact ⟨w, .inr hw, h3⟩
    · rintro ⟨h1, h2⟩
      refine ⟨?_, ?_⟩
      · intro z hz
        obtain ⟨w, rfl | hw, h3⟩ := h1 z (.inr hz)
        · have := h.lt_of_eq_of_lt (h.eq_symm e) (s1 z hz)
          rw [h3] at this; cases this
        · exact ⟨w, hw, h3⟩
      · intro z hz
        obtain ⟨w, rfl | hw, h3⟩ := h2 z (.inr hz)
        · have := h.lt_of_eq_of_lt e (t1 z hz)
          rw [h3] at this; cases this
        · exact ⟨w, hw, h3⟩
  | case5 x l y r e =>
    obtain ⟨s1, s2⟩ := asc_cons.mp sa
    obtain ⟨t1, t2⟩ := asc_cons.mp sb
    constructor
    · intro h1; exact absurd h1 e
    · rintro ⟨h1, h2⟩
      exfalso
      obtain ⟨w, hw, h3⟩ := h1 x (by simp)
      obtain ⟨v, hv, h4⟩ := h2 y (by simp)
      rcases List.mem_cons.mp hw with rfl | hw
      · exact e (h.eq_symm h3)
      · rcases List.mem_cons.mp hv with rfl | hv
        · exact e h4
        · have k1 := h.lt_of_lt_of_eq (t1 w hw) h3
          have k2 := h.lt_of_lt_of_eq (s1 v hv) h4
          have := h.lt_trans k1 k2
          rw [h.refl] at this; cases this

end Mosml.Sets
