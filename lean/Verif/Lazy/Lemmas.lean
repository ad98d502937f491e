import Verif.Lazy.Spec

/-!
# Lemmas on suspensions
-/

namespace Mosml.Lazy

variable {S V X P : Type}

/-- The same evaluation as a relation, for induction. -/
inductive Eval : Comp S V X → List (Cell S V X) → S →
    List (Cell S V X) → S → Out V X → List (Event V X) → Prop
  | ret {v H s} : Eval (.ret v) H s H s (.ok v) []
  | raise {x H s} : Eval (.raise x) H s H s (.exn x) []
  | bind_exn {c k H s H1 s1 x t} : Eval c H s H1 s1 (.exn x) t →
      Eval (.bind c k) H s H1 s1 (.exn x) t
  | bind_ok {c k H s H1 s1 v t H2 s2 o t2} : Eval c H s H1 s1 (.ok v) t →
      Eval (k v) H1 s1 H2 s2 o t2 → Eval (.bind c k) H s H2 s2 o (t ++ t2)
  | handle_ok {c h H s H1 s1 v t} : Eval c H s H1 s1 (.ok v) t →
      Eval (.handle c h) H s H1 s1 (.ok v) t
  | handle_exn {c h H s H1 s1 x t H2 s2 o t2} : Eval c H s H1 s1 (.exn x) t →
      Eval (h x) H1 s1 H2 s2 o t2 → Eval (.handle c h) H s H2 s2 o (t ++ t2)
  | act {f k H s H2 s2 o t} : Eval (k s) H (f s) H2 s2 o t → Eval (.act f k) H s H2 s2 o t
  | delay {c k H s H2 s2 o t} : Eval (k H.length) (H ++ [.thunk c]) s H2 s2 o t →
      Eval (.delay c k) H s H2 s2 o t
  | force_val {i v H s} : H[i]? = some (.val v) →
      Eval (.force i) H s H s (.ok v) [.call i, .forced i v]
  | force_exn {i c H s H1 s1 x t} : H[i]? = some (.thunk c) → Eval c H s H1 s1 (.exn x) t →
      Eval (.force i) H s H1 s1 (.exn x) ([.call i, .start i] ++ t ++ [.failed i x])
  | force_ok {i c H s H1 s1 v t} : H[i]? = some (.thunk c) → Eval c H s H1 s1 (.ok v) t →
      Eval (.force i) H s (H1.set i (.val v)) s1 (.ok v)
        ([.call i, .start i] ++ t ++ [.done i v, .forced i v])

theorem run_eval (n : Nat) : ∀ (c : Comp S V X) (H : List (Cell S V X)) (s : S) (r : Run S V X),
    run n c H s = some r → Eval c H s r.heap r.state r.out r.trace := by
  induction n with
  | zero => intro c H s r h; simp [run] at h
  | succ n ih =>
    intro c H s r h
    cases c with
    | ret v => simp only [run, Option.some.injEq] at h; subst h; exact .ret
    | raise x => simp only [run, Option.some.injEq] at h; subst h; exact .raise
    | bind c k =>
      simp only [run] at h
      split at h
      · simp at h
      · rename_i h1
        simp only [Option.some.injEq] at h; subst h
        exact .bind_exn (ih _ _ _ _ h1)
      · rename_i h1
        split at h
        · simp at h
        · rename_i h2
          simp only [Option.some.injEq] at h; subst h
          exact .bind_ok (ih _ _ _ _ h1) (ih _ _ _ _ h2)
    | handle c k =>
      simp only [run] at h
      split at h
      · simp at h
      · rename_i h1
        simp only [Option.some.injEq] at h; subst h
        exact .handle_ok (ih _ _ _ _ h1)
      · rename_i h1
        split at h
        · simp at h
        · rename_i h2
          simp only [Option.some.injEq] at h; subst h
          exact .handle_exn (ih _ _ _ _ h1) (ih _ _ _ _ h2)
    | act f k => simp only [run] at h; exact .act (ih _ _ _ _ h)
    | delay c k => simp only [run] at h; exact .delay (ih _ _ _ _ h)
    | force i =>
      simp only [run] at h
      split at h
      · simp at h
      · rename_i h1
        simp only [Option.some.injEq] at h; subst h
        exact .force_val h1
      · rename_i h1
        split at h
        · simp at h
        · rename_i h2
          simp only [Option.some.injEq] at h; subst h
          exact .force_exn h1 (ih _ _ _ _ h2)
        · rename_i h2
          simp only [Option.some.injEq] at h; subst h
          exact .force_ok h1 (ih _ _ _ _ h2)

/-- A suspension that has its value: it is never evaluated again. -/
theorem eval_val {c : Comp S V X} {H s H' s' o t} (h : Eval c H s H' s' o t) (i : Nat) (v : V)
    (hi : H[i]? = some (.val v)) :
    H'[i]? = some (.val v) ∧ .start i ∉ t ∧ (∀ w, .done i w ∉ t) ∧ (∀ x, .failed i x ∉ t) ∧
      ∀ w, .forced i w ∈ t → w = v := by
  induction h with
  | ret => simp [hi]
  | raise => simp [hi]
  | bind_exn _ ih => exact ih hi
  | handle_ok _ ih => exact ih hi
  | bind_ok _ _ ih1 ih2 =>
    obtain ⟨a1, a2, a3, a4, a5⟩ := ih1 hi
    obtain ⟨b1, b2, b3, b4, b5⟩ := ih2 a1
    refine ⟨b1, by simp [a2, b2], fun w => by simp [a3, b3], fun x => by simp [a4, b4], fun w hw => ?_⟩
    rcases List.mem_append.mp hw with hw | hw
    · exact a5 w hw
    · exact b5 w hw
  | handle_exn _ _ ih1 ih2 =>
    obtain ⟨a1, a2, a3, a4, a5⟩ := ih1 hi
    obtain ⟨b1, b2, b3, b4, b5⟩ := ih2 a1
    refine ⟨b1, by simp [a2, b2], fun w => by simp [a3, b3], fun x => by simp [a4, b4], fun w hw => ?_⟩
    rcases List.mem_append.mp hw with hw | hw
    · exact a5 w hw
    · exact b5 w hw
  | act _ ih => exact ih hi
  | @delay c k H s _ _ _ _ _ ih =>
    refine ih ?_
    have : i < H.length := by
      rcases Nat.lt_or_ge i H.length with h | h
      · exact h
      · rw [List.getElem?_eq_none h] at hi; simp at hi
    rw [List.getElem?_append_left this]; exact hi
  | @force_val j w H s hj =>
    refine ⟨hi, by simp, by simp, by simp, fun u hu => ?_⟩
    simp only [List.mem_cons, reduceCtorEq, Event.forced.injEq, List.not_mem_nil, or_false,
      false_or] at hu
    obtain ⟨rfl, rfl⟩ := hu
    rw [hj] at hi
    simpa using hi
  | @force_exn j c H s _ _ _ _ hj _ ih =>
    have hne : i ≠ j := by rintro rfl; rw [hj] at hi; simp at hi
    obtain ⟨a1, a2, a3, a4, a5⟩ := ih hi
    refine ⟨a1, by simp [a2, hne], by simp [a3], by simp [a4, hne], ?_⟩
    intro w hw
    simp at hw
    exact a5 w hw
  | @force_ok j c H s _ _ _ _ hj _ ih =>
    have hne : i ≠ j := by rintro rfl; rw [hj] at hi; simp at hi
    obtain ⟨a1, a2, a3, a4, a5⟩ := ih hi
    refine ⟨?_, by simp [a2, hne], by simp [a3, hne], by simp [a4], ?_⟩
    · rw [List.getElem?_set_ne (Ne.symm hne)]; exact a1
    · intro w hw
      simp [hne] at hw
      exact a5 w hw

/-- References are not freed. -/
theorem eval_length {c : Comp S V X} {H s H' s' o t} (h : Eval c H s H' s' o t) :
    H.length ≤ H'.length := by
  induction h with
  | ret => exact Nat.le_refl _
  | raise => exact Nat.le_refl _
  | bind_exn _ ih => exact ih
  | handle_ok _ ih => exact ih
  | bind_ok _ _ ih1 ih2 => exact ih1.trans ih2
  | handle_exn _ _ ih1 ih2 => exact ih1.trans ih2
  | act _ ih => exact ih
  | delay _ ih => simp at ih; omega
  | force_val => exact Nat.le_refl _
  | force_exn _ _ ih => exact ih
  | force_ok _ _ ih => simpa using ih

/-- A suspension whose evaluation has ended with a value has a value. -/
theorem eval_done {c : Comp S V X} {H s H' s' o t} (h : Eval c H s H' s' o t) (i : Nat) (v : V)
    (hi : .done i v ∈ t) : ∃ w, H'[i]? = some (.val w) := by
  induction h with
  | ret => simp at hi
  | raise => simp at hi
  | bind_exn _ ih => exact ih hi
  | handle_ok _ ih => exact ih hi
  | bind_ok _ h2 ih1 ih2 =>
    rcases List.mem_append.mp hi with hi | hi
    · obtain ⟨w, hw⟩ := ih1 hi
      exact ⟨w, (eval_val h2 i w hw).1⟩
    · exact ih2 hi
  | handle_exn _ h2 ih1 ih2 =>
    rcases List.mem_append.mp hi with hi | hi
    · obtain ⟨w, hw⟩ := ih1 hi
      exact ⟨w, (eval_val h2 i w hw).1⟩
    · exact ih2 hi
  | act _ ih => exact ih hi
  | delay _ ih => exact ih hi
  | force_val => simp at hi
  | force_exn _ _ ih => simp at hi; exact ih hi
  | @force_ok j c H s H1 s1 w t hj h1 ih =>
    by_cases hij : i = j
    · subst hij
      have : i < H.length := by
        rcases Nat.lt_or_ge i H.length with h | h
        · exact h
        · rw [List.getElem?_eq_none h] at hj; simp at hj
      have := eval_length h1
      exact ⟨w, List.getElem?_set_self (by omega)⟩
    · rw [List.getElem?_set_ne (Ne.symm hij)]
      simp [hij] at hi
      exact ih hi

theorem split_append {α : Type} {a b p q : List α} {e : α} (h : a ++ b = p ++ e :: q) :
    (∃ r, a = p ++ e :: r ∧ q = r ++ b) ∨ (∃ r, p = a ++ r ∧ b = r ++ e :: q) := by
  rcases List.append_eq_append_iff.mp h with ⟨r, h1, h2⟩ | ⟨r, h1, h2⟩
  · exact .inr ⟨r, h1, h2⟩
  · cases r with
    | nil => exact .inr ⟨[], by simpa using h1.symm, by simpa using h2.symm⟩
    | cons x r =>
      simp only [List.cons_append, List.cons.injEq] at h2
      obtain ⟨rfl, h2⟩ := h2
      exact .inl ⟨r, h1, h2⟩

/-- No evaluation of `i` begins after one has ended with a value. -/
theorem eval_again {c : Comp S V X} {H s H' s' o t} (h : Eval c H s H' s' o t) (i : Nat) (v : V) :
    ∀ t1 t2, t = t1 ++ .done i v :: t2 → .start i ∉ t2 := by
  have seq : ∀ {ta tb : List (Event V X)} {c2 : Comp S V X} {c1 : Comp S V X} {H s H1 s1 o1 H2 s2 o2},
      Eval c1 H s H1 s1 o1 ta → Eval c2 H1 s1 H2 s2 o2 tb →
      (∀ t1 t2, ta = t1 ++ .done i v :: t2 → .start i ∉ t2) →
      (∀ t1 t2, tb = t1 ++ .done i v :: t2 → .start i ∉ t2) →
      ∀ t1 t2, ta ++ tb = t1 ++ .done i v :: t2 → .start i ∉ t2 := by
    intro ta tb c2 c1 H s H1 s1 o1 H2 s2 o2 h1 h2 ih1 ih2 t1 t2 h
    rcases split_append h with ⟨r, h3, h4⟩ | ⟨r, h3, h4⟩
    · obtain ⟨w, hw⟩ := eval_done h1 i v (by rw [h3]; simp)
      have := (eval_val h2 i w hw).2.1
      rw [h4]
      simp [this, ih1 _ _ h3]
    · exact ih2 _ _ h4
  induction h with
  | ret => intro t1 t2 h; simp at h
  | raise => intro t1 t2 h; simp at h
  | bind_exn _ ih => exact ih
  | handle_ok _ ih => exact ih
  | bind_ok h1 h2 ih1 ih2 => exact seq h1 h2 ih1 ih2
  | handle_exn h1 h2 ih1 ih2 => exact seq h1 h2 ih1 ih2
  | act _ ih => exact ih
  | delay _ ih => exact ih
  | force_val =>
    intro t1 t2 h
    rcases t1 with _ | ⟨_, _ | ⟨_, t1⟩⟩ <;> simp at h
  | @force_exn j c H s H1 s1 x t hj h1 ih =>
    intro t1 t2 h
    rcases t1 with _ | ⟨_, _ | ⟨_, t1⟩⟩ <;> simp at h
    obtain ⟨-, -, h⟩ := h
    rcases split_append h with ⟨r, h3, h4⟩ | ⟨r, h3, h4⟩
    · rw [h4]; simp [ih _ _ h3]
    · rcases r with _ | ⟨_, r⟩ <;> simp at h4
  | @force_ok j c H s H1 s1 w t hj h1 ih =>
    intro t1 t2 h
    rcases t1 with _ | ⟨_, _ | ⟨_, t1⟩⟩ <;> simp at h
    obtain ⟨-, -, h⟩ := h
    rcases split_append h with ⟨r, h3, h4⟩ | ⟨r, h3, h4⟩
    · rw [h4]; simp [ih _ _ h3]
    · rcases r with _ | ⟨_, _ | ⟨_, r⟩⟩ <;> simp at h4
      rw [← h4.2]; simp

/-- Evaluations end only after they have begun, and begin only when `force` is
called. -/
theorem eval_begun {c : Comp S V X} {H s H' s' o t} (h : Eval c H s H' s' o t) (i : Nat) :
    (∀ e, (∃ v, e = .done i v) ∨ (∃ x, e = .failed i x) → ∀ t1 t2, t = t1 ++ e :: t2 →
      .start i ∈ t1) ∧ ∀ t1 t2, t = t1 ++ .start i :: t2 → .call i ∈ t1 := by
  have seq : ∀ {ta tb : List (Event V X)} (e g : Event V X),
      (∀ t1 t2, ta = t1 ++ e :: t2 → g ∈ t1) →
      (∀ t1 t2, tb = t1 ++ e :: t2 → g ∈ t1) →
      ∀ t1 t2, ta ++ tb = t1 ++ e :: t2 → g ∈ t1 := by
    intro ta tb e g ih1 ih2 t1 t2 h
    rcases split_append h with ⟨r, h3, h4⟩ | ⟨r, h3, h4⟩
    · exact ih1 _ _ h3
    · rw [h3]; simp [ih2 _ _ h4]
  induction h with
  | ret => constructor <;> intros <;> simp_all
  | raise => constructor <;> intros <;> simp_all
  | bind_exn _ ih => exact ih
  | handle_ok _ ih => exact ih
  | bind_ok _ _ ih1 ih2 =>
    exact ⟨fun e he => seq _ _ (ih1.1 e he) (ih2.1 e he), seq _ _ ih1.2 ih2.2⟩
  | handle_exn _ _ ih1 ih2 =>
    exact ⟨fun e he => seq _ _ (ih1.1 e he) (ih2.1 e he), seq _ _ ih1.2 ih2.2⟩
  | act _ ih => exact ih
  | delay _ ih => exact ih
  | force_val =>
    constructor
    · rintro e (⟨v, rfl⟩ | ⟨x, rfl⟩) t1 t2 h <;>
        rcases t1 with _ | ⟨_, _ | ⟨_, t1⟩⟩ <;> simp at h
    · intro t1 t2 h
      rcases t1 with _ | ⟨_, _ | ⟨_, t1⟩⟩ <;> simp at h
  | @force_exn j c H s H1 s1 x t hj h1 ih =>
    constructor
    · intro e he t1 t2 h
      rcases t1 with _ | ⟨a, _ | ⟨b, t1⟩⟩
      · rcases he with ⟨v, rfl⟩ | ⟨x, rfl⟩ <;> simp at h
      · rcases he with ⟨v, rfl⟩ | ⟨x, rfl⟩ <;> simp at h
      · simp only [List.cons_append, List.nil_append, List.cons.injEq] at h
        obtain ⟨rfl, rfl, h⟩ := h
        rcases split_append h with ⟨r, h3, h4⟩ | ⟨r, h3, h4⟩
        · simp [ih.1 e he _ _ h3]
        · rcases r with _ | ⟨_, r⟩ <;> simp at h4
          obtain ⟨rfl, -⟩ := h4
          rcases he with ⟨v, he⟩ | ⟨x, he⟩ <;> simp at he
          simp [he.1]
    · intro t1 t2 h
      rcases t1 with _ | ⟨a, _ | ⟨b, t1⟩⟩
      · simp at h
      · simp at h; simp [← h.1, h.2.1]
      · simp only [List.cons_append, List.nil_append, List.cons.injEq] at h
        obtain ⟨rfl, rfl, h⟩ := h
        rcases split_append h with ⟨r, h3, h4⟩ | ⟨r, h3, h4⟩
        · simp [ih.2 _ _ h3]
        · rcases r with _ | ⟨_, r⟩ <;> simp at h4
  | @force_ok j c H s H1 s1 w t hj h1 ih =>
    constructor
    · intro e he t1 t2 h
      rcases t1 with _ | ⟨a, _ | ⟨b, t1⟩⟩
      · rcases he with ⟨v, rfl⟩ | ⟨x, rfl⟩ <;> simp at h
      · rcases he with ⟨v, rfl⟩ | ⟨x, rfl⟩ <;> simp at h
      · simp only [List.cons_append, List.nil_append, List.cons.injEq] at h
        obtain ⟨rfl, rfl, h⟩ := h
        rcases split_append h with ⟨r, h3, h4⟩ | ⟨r, h3, h4⟩
        · simp [ih.1 e he _ _ h3]
        · rcases r with _ | ⟨_, _ | ⟨_, r⟩⟩ <;> simp at h4
          · obtain ⟨rfl, -⟩ := h4
            rcases he with ⟨v, he⟩ | ⟨x, he⟩ <;> simp at he
            simp [he.1]
          · obtain ⟨-, rfl, -⟩ := h4
            rcases he with ⟨v, he⟩ | ⟨x, he⟩ <;> simp at he
    · intro t1 t2 h
      rcases t1 with _ | ⟨a, _ | ⟨b, t1⟩⟩
      · simp at h
      · simp at h; simp [← h.1, h.2.1]
      · simp only [List.cons_append, List.nil_append, List.cons.injEq] at h
        obtain ⟨rfl, rfl, h⟩ := h
        rcases split_append h with ⟨r, h3, h4⟩ | ⟨r, h3, h4⟩
        · simp [ih.2 _ _ h3]
        · rcases r with _ | ⟨_, _ | ⟨_, r⟩⟩ <;> simp at h4

theorem reentrant_part {i : Nat} {t : List (Event V X)} (a b : List (Event V X))
    (h : ¬ Reentrant i (a ++ t ++ b)) : ¬ Reentrant i t := by
  rintro ⟨t1, t2, t3, rfl, h1, h2⟩
  exact h ⟨a ++ t1, t2, t3 ++ b, by simp, h1, h2⟩

/-- A suspension that does not force itself: not evaluated to a value, or evaluated
once, and that is what all calls return. -/
theorem eval_once {c : Comp S V X} {H s H' s' o t} (h : Eval c H s H' s' o t) (i : Nat)
    (hr : ¬ Reentrant i t) (hi : ∀ v, H[i]? ≠ some (.val v)) :
    ((∀ v, H'[i]? ≠ some (.val v)) ∧ (∀ v, .done i v ∉ t) ∧ ∀ v, .forced i v ∉ t) ∨
    ∃ v t1 t2, H'[i]? = some (.val v) ∧ t = t1 ++ .done i v :: t2 ∧
      (∀ w, .done i w ∉ t1 ++ t2) ∧ (∀ w, .forced i w ∉ t1) ∧ ∀ w, .forced i w ∈ t2 → w = v := by
  have seq : ∀ {ta tb : List (Event V X)} {c2 : Comp S V X} {H1 : List (Cell S V X)}
      {s1 : S} {H2 s2 o2},
      Eval c2 H1 s1 H2 s2 o2 tb →
      (((∀ v, H1[i]? ≠ some (.val v)) ∧ (∀ v, .done i v ∉ ta) ∧ ∀ v, .forced i v ∉ ta) ∨
        ∃ v t1 t2, H1[i]? = some (.val v) ∧ ta = t1 ++ .done i v :: t2 ∧
        (∀ w, .done i w ∉ t1 ++ t2) ∧ (∀ w, .forced i w ∉ t1) ∧ ∀ w, .forced i w ∈ t2 → w = v) →
      ((∀ v, H1[i]? ≠ some (.val v)) →
        ((∀ v, H2[i]? ≠ some (.val v)) ∧ (∀ v, .done i v ∉ tb) ∧ ∀ v, .forced i v ∉ tb) ∨
        ∃ v t1 t2, H2[i]? = some (.val v) ∧ tb = t1 ++ .done i v :: t2 ∧
        (∀ w, .done i w ∉ t1 ++ t2) ∧ (∀ w, .forced i w ∉ t1) ∧ ∀ w, .forced i w ∈ t2 → w = v) →
      ((∀ v, H2[i]? ≠ some (.val v)) ∧ (∀ v, .done i v ∉ ta ++ tb) ∧ ∀ v, .forced i v ∉ ta ++ tb) ∨
        ∃ v t1 t2, H2[i]? = some (.val v) ∧ ta ++ tb = t1 ++ .done i v :: t2 ∧
        (∀ w, .done i w ∉ t1 ++ t2) ∧ (∀ w, .forced i w ∉ t1) ∧
          ∀ w, .forced i w ∈ t2 → w = v := by
    intro ta tb c2 H1 s1 H2 s2 o2 h2 ih1 ih2
    rcases ih1 with ⟨a1, a2, a3⟩ | ⟨v, t1, t2, a1, rfl, a3, a4, a5⟩
    · rcases ih2 a1 with ⟨b1, b2, b3⟩ | ⟨v, t1, t2, b1, rfl, b3, b4, b5⟩
      · exact .inl ⟨b1, fun v => by simp [a2, b2], fun v => by simp [a3, b3]⟩
      · refine .inr ⟨v, ta ++ t1, t2, b1, by simp, fun w => ?_, fun w => by simp [a3, b4], b5⟩
        have := b3 w
        simp only [List.mem_append, not_or] at this ⊢
        exact ⟨⟨a2 w, this.1⟩, this.2⟩
    · obtain ⟨b1, b2, b3, b4, b5⟩ := eval_val h2 i v a1
      refine .inr ⟨v, t1, t2 ++ tb, b1, by simp, fun w => ?_, a4, fun w hw => ?_⟩
      · have := a3 w
        simp only [List.mem_append, not_or] at this ⊢
        exact ⟨this.1, this.2, b3 w⟩
      · rcases List.mem_append.mp hw with hw | hw
        · exact a5 w hw
        · exact b5 w hw
  -- within the evaluation of `i`, nothing happens to `i`
  have inner : ∀ {c : Comp S V X} {H s H1 s1 o t} (e : List (Event V X)), Eval c H s H1 s1 o t →
      ¬ Reentrant i ([.call i, .start i] ++ t ++ e) →
      (((∀ v, H1[i]? ≠ some (.val v)) ∧ (∀ v, .done i v ∉ t) ∧ ∀ v, .forced i v ∉ t) ∨
        ∃ v t1 t2, H1[i]? = some (.val v) ∧ t = t1 ++ .done i v :: t2 ∧
        (∀ w, .done i w ∉ t1 ++ t2) ∧ (∀ w, .forced i w ∉ t1) ∧ ∀ w, .forced i w ∈ t2 → w = v) →
      (∀ v, H1[i]? ≠ some (.val v)) ∧ (∀ v, .done i v ∉ t) ∧ ∀ v, .forced i v ∉ t := by
    intro c H s H1 s1 o t e h hr ih
    rcases ih with ih | ⟨v, t1, t2, a1, a2, -⟩
    · exact ih
    · exfalso
      have hs : Event.start i ∈ t1 := (eval_begun h i).1 _ (.inl ⟨v, rfl⟩) _ _ a2
      -- the first start
      have first : ∀ l : List (Event V X), .start i ∈ l →
          ∃ p q, l = p ++ .start i :: q ∧ .start i ∉ p := by
        intro l
        induction l with
        | nil => intro hl; simp at hl
        | cons a l ihl =>
          intro hl
          by_cases ha : a = .start i
          · exact ⟨[], l, by simp [ha], by simp⟩
          · rcases List.mem_cons.mp hl with hl | hl
            · exact absurd hl.symm ha
            · obtain ⟨p, q, h1, h2⟩ := ihl hl
              exact ⟨a :: p, q, by simp [h1], by simp [h2, Ne.symm ha]⟩
      obtain ⟨p, q, hp, hn⟩ := first t (by rw [a2]; simp [hs])
      refine hr ⟨[.call i], p, q ++ e, by simp [hp], fun w hw => ?_, fun x hx => ?_⟩
      · obtain ⟨p1, p2, rfl⟩ := List.append_of_mem hw
        have := (eval_begun h i).1 _ (.inl ⟨w, rfl⟩) p1 (p2 ++ .start i :: q) (by simp [hp])
        simp [this] at hn
      · obtain ⟨p1, p2, rfl⟩ := List.append_of_mem hx
        have := (eval_begun h i).1 _ (.inr ⟨x, rfl⟩) p1 (p2 ++ .start i :: q) (by simp [hp])
        simp [this] at hn
  induction h with
  | ret => exact .inl ⟨hi, by simp, by simp⟩
  | raise => exact .inl ⟨hi, by simp, by simp⟩
  | bind_exn _ ih => exact ih hr hi
  | handle_ok _ ih => exact ih hr hi
  | @bind_ok _ _ _ _ _ _ _ t _ _ _ t2 h1 h2 ih1 ih2 =>
    exact seq h2 (ih1 (reentrant_part [] t2 (by simpa using hr)) hi)
      (ih2 (reentrant_part t [] (by simpa using hr)))
  | @handle_exn _ _ _ _ _ _ _ t _ _ _ t2 h1 h2 ih1 ih2 =>
    exact seq h2 (ih1 (reentrant_part [] t2 (by simpa using hr)) hi)
      (ih2 (reentrant_part t [] (by simpa using hr)))
  | act _ ih => exact ih hr hi
  | @delay c k H s _ _ _ _ _ ih =>
    refine ih hr fun v hv => ?_
    rcases Nat.lt_or_ge i H.length with h | h
    · rw [List.getElem?_append_left h] at hv; exact hi v hv
    · rw [List.getElem?_append_right h] at hv
      rcases hk : i - H.length with _ | k <;> rw [hk] at hv <;> simp at hv
  | @force_val j w H s hj =>
    have hne : i ≠ j := by rintro rfl; exact hi w hj
    exact .inl ⟨hi, by simp, by simp [hne]⟩
  | @force_exn j c H s H1 s1 x t hj h1 ih =>
    have ih := ih (reentrant_part _ _ hr) hi
    by_cases hij : i = j
    · subst hij
      obtain ⟨a1, a2, a3⟩ := inner _ h1 hr ih
      exact .inl ⟨a1, by simp [a2], by simp [a3]⟩
    · rcases ih with ⟨a1, a2, a3⟩ | ⟨v, t1, t2, a1, rfl, a3, a4, a5⟩
      · exact .inl ⟨a1, by simp [a2], by simp [a3]⟩
      · refine .inr ⟨v, [.call j, .start j] ++ t1, t2 ++ [.failed j x], a1, by simp, ?_, ?_, ?_⟩
        · intro w; have := a3 w; simp at this ⊢; exact this
        · intro w; simp [a4]
        · intro w hw; simp at hw; exact a5 w hw
  | @force_ok j c H s H1 s1 w t hj h1 ih =>
    have ih := ih (reentrant_part _ _ hr) hi
    by_cases hij : i = j
    · subst hij
      obtain ⟨a1, a2, a3⟩ := inner _ h1 hr ih
      refine .inr ⟨w, [.call i, .start i] ++ t, [.forced i w], ?_, by simp, by simp [a2],
        by simp [a3], by simp⟩
      obtain ⟨u, hu⟩ := eval_done (.force_ok hj h1) i w (by simp)
      by_cases hl : i < H1.length
      · exact List.getElem?_set_self hl
      · rw [List.getElem?_eq_none (by simpa using hl)] at hu; simp at hu
    · rcases ih with ⟨a1, a2, a3⟩ | ⟨v, t1, t2, a1, rfl, a3, a4, a5⟩
      · refine .inl ⟨?_, by simp [a2, hij], by simp [a3, hij]⟩
        rw [List.getElem?_set_ne (Ne.symm hij)]; exact a1
      · refine .inr ⟨v, [.call j, .start j] ++ t1, t2 ++ [.done j w, .forced j w], ?_, by simp,
          ?_, ?_, ?_⟩
        · rw [List.getElem?_set_ne (Ne.symm hij)]; exact a1
        · intro u; have := a3 u; simp [hij] at this ⊢; exact this
        · intro u; simp [a4]
        · intro u hu; simp [hij] at hu; exact a5 u hu

end Mosml.Lazy
