import Verif.Link.Safe

namespace Mosml.Safe

def height : Exp → Nat
  | .tuple es => 1 + (es.attach.map fun e => height e.1).sum
  | .vec es => 1 + (es.attach.map fun e => height e.1).sum
  | .par e => 1 + height e
  | .typed e => 1 + height e
  | .andalso a b => 1 + height a + height b
  | .orelse a b => 1 + height a + height b
  | .ite c a b => 1 + height c + height a + height b
  | .seq a b => 1 + height a + height b
  | _ => 1
termination_by e => e
decreasing_by
  all_goals simp_wf
  all_goals try omega
  all_goals (have := List.sizeOf_lt_of_mem e.2; omega)

theorem isSafe_tuple (es : List Exp) : isSafe (.tuple es) = true ↔ ∀ e ∈ es, isSafe e = true := by
  rw [isSafe]; simp
theorem isSafe_vec (es : List Exp) : isSafe (.vec es) = true ↔ ∀ e ∈ es, isSafe e = true := by
  rw [isSafe]; simp
theorem noWhile_tuple (es : List Exp) : noWhile (.tuple es) = true ↔ ∀ e ∈ es, noWhile e = true := by
  rw [noWhile]; simp
theorem noWhile_vec (es : List Exp) : noWhile (.vec es) = true ↔ ∀ e ∈ es, noWhile e = true := by
  rw [noWhile]; simp

theorem le_sum_of_mem {n : Nat} : ∀ {l : List Nat}, n ∈ l → n ≤ l.sum := by
  intro l
  induction l with
  | nil => intro h; simp at h
  | cons x l ih =>
      intro h
      rw [List.mem_cons] at h
      rw [List.sum_cons]
      rcases h with rfl | h
      · omega
      · have := ih h; omega

theorem height_mem {es : List Exp} {e : Exp} (h : e ∈ es) :
    height e ≤ (es.attach.map fun e => height e.1).sum := by
  have : (es.attach.map fun e => height e.1) = es.map height := by simp
  rw [this]
  exact le_sum_of_mem (List.mem_map_of_mem h)

/-- A computation that, if it ends, ends with a value and the same state. -/
def Quiet {S : Type} (σ : S) (r : Option (Res × S)) : Prop :=
  ∀ x σ', r = some (x, σ') → (∃ v, x = .val v) ∧ σ' = σ

theorem Quiet.andThen {S : Type} {σ : S} {r : Option (Res × S)} {k : Val → S → Option (Res × S)}
    (h : Quiet σ r) (hk : ∀ v, Quiet σ (k v σ)) : Quiet σ (andThen r k) := by
  intro x σ' e
  cases r with
  | none => simp [Mosml.Safe.andThen] at e
  | some y =>
      obtain ⟨y, s⟩ := y
      obtain ⟨⟨v, rfl⟩, rfl⟩ := h y s rfl
      exact hk v x σ' e

theorem Quiet.val {S : Type} (σ : S) (v : Val) : Quiet σ (some (.val v, σ)) := by
  intro x σ' e
  cases e
  exact ⟨⟨v, rfl⟩, rfl⟩

theorem evalList_quiet {S : Type} {ev : Exp → S → Option (Res × S)} {σ : S} :
    ∀ (es : List Exp), (∀ e ∈ es, Quiet σ (ev e σ)) →
    ∀ x σ', evalList ev es σ = some (x, σ') → (∃ vs, x = .inr vs) ∧ σ' = σ := by
  intro es
  induction es with
  | nil => intro _ x σ' e; cases e; exact ⟨⟨[], rfl⟩, rfl⟩
  | cons e es ih =>
      intro h x σ' he
      have hq := h e (List.mem_cons_self ..)
      simp only [evalList] at he
      cases h1 : ev e σ with
      | none => rw [h1] at he; cases he
      | some y =>
          obtain ⟨y, s⟩ := y
          obtain ⟨⟨v, rfl⟩, rfl⟩ := hq y s h1
          rw [h1] at he
          simp only at he
          cases h2 : evalList ev es s with
          | none => rw [h2] at he; cases he
          | some z =>
              obtain ⟨z, s'⟩ := z
              obtain ⟨⟨vs, rfl⟩, rfl⟩ := ih (fun e h' => h e (List.mem_cons_of_mem _ h')) z s' h2
              rw [h2] at he
              cases he
              exact ⟨⟨_, rfl⟩, rfl⟩

theorem safe_quiet {S : Type} (U : Exp → Env → S → Option (Res × S)) : ∀ (f : Nat) (e : Exp) (ρ : Env)
    (σ : S), isSafe e = true → Quiet σ (eval U f e ρ σ) := by
  intro f
  induction f with
  | zero => intro e ρ σ _ x σ' h; simp [eval] at h
  | succ f ih =>
      intro e ρ σ hs
      cases e with
      | scon n => exact Quiet.val _ _
      | con b => exact Quiet.val _ _
      | var x => exact Quiet.val _ _
      | fn r => exact Quiet.val _ _
      | app a b => rw [isSafe] at hs; cases hs
      | «let» p a b => rw [isSafe] at hs; cases hs
      | handle a r => rw [isSafe] at hs; cases hs
      | raise a => rw [isSafe] at hs; cases hs
      | tuple es =>
          have hs := (isSafe_tuple es).1 hs
          intro x σ' h
          simp only [eval, Option.map_eq_some_iff] at h
          obtain ⟨⟨y, s⟩, h1, h2⟩ := h
          obtain ⟨⟨vs, rfl⟩, rfl⟩ := evalList_quiet es (fun e he => ih e ρ σ (hs e he)) y s h1
          cases h2
          exact ⟨⟨_, rfl⟩, rfl⟩
      | vec es =>
          have hs := (isSafe_vec es).1 hs
          intro x σ' h
          simp only [eval, Option.map_eq_some_iff] at h
          obtain ⟨⟨y, s⟩, h1, h2⟩ := h
          obtain ⟨⟨vs, rfl⟩, rfl⟩ := evalList_quiet es (fun e he => ih e ρ σ (hs e he)) y s h1
          cases h2
          exact ⟨⟨_, rfl⟩, rfl⟩
      | par e => rw [isSafe] at hs; exact ih e ρ σ hs
      | typed e => rw [isSafe] at hs; exact ih e ρ σ hs
      | andalso a b =>
          rw [isSafe, Bool.and_eq_true] at hs
          refine (ih a ρ σ hs.1).andThen fun v => ?_
          split
          · exact ih b ρ σ hs.2
          · exact Quiet.val _ _
      | orelse a b =>
          rw [isSafe, Bool.and_eq_true] at hs
          refine (ih a ρ σ hs.1).andThen fun v => ?_
          split
          · exact Quiet.val _ _
          · exact ih b ρ σ hs.2
      | ite c a b =>
          rw [isSafe, Bool.and_eq_true, Bool.and_eq_true] at hs
          refine (ih c ρ σ hs.1.1).andThen fun v => ?_
          split
          · exact ih a ρ σ hs.1.2
          · exact ih b ρ σ hs.2
      | «while» c a =>
          have hs' := hs
          rw [isSafe, Bool.and_eq_true] at hs'
          refine (ih c ρ σ hs'.1).andThen fun v => ?_
          split
          · exact (ih a ρ σ hs'.2).andThen fun v => ih (.while c a) ρ σ hs
          · exact Quiet.val _ _
      | seq a b =>
          rw [isSafe, Bool.and_eq_true] at hs
          exact (ih a ρ σ hs.1).andThen fun v => ih b ρ σ hs.2

theorem evalList_total {S : Type} {ev : Exp → S → Option (Res × S)} {σ : S} :
    ∀ (es : List Exp), (∀ e ∈ es, ∃ v, ev e σ = some (.val v, σ)) →
    ∃ vs, evalList ev es σ = some (.inr vs, σ) := by
  intro es
  induction es with
  | nil => intro _; exact ⟨[], rfl⟩
  | cons e es ih =>
      intro h
      obtain ⟨v, h1⟩ := h e (List.mem_cons_self ..)
      obtain ⟨vs, h2⟩ := ih fun e h' => h e (List.mem_cons_of_mem _ h')
      exact ⟨v :: vs, by simp only [evalList, h1, h2]⟩

theorem safe_total {S : Type} (U : Exp → Env → S → Option (Res × S)) : ∀ (f : Nat) (e : Exp) (ρ : Env)
    (σ : S), height e ≤ f → isSafe e = true → noWhile e = true →
    ∃ v, eval U f e ρ σ = some (.val v, σ) := by
  intro f
  induction f with
  | zero =>
      intro e ρ σ hh
      exfalso
      cases e <;> rw [height] at hh <;> first | omega | (intro; simp)
  | succ f ih =>
      intro e ρ σ hh hs hw
      cases e with
      | scon n => exact ⟨_, rfl⟩
      | con b => exact ⟨_, rfl⟩
      | var x => exact ⟨_, rfl⟩
      | fn r => exact ⟨_, rfl⟩
      | app a b => rw [isSafe] at hs; cases hs
      | «let» p a b => rw [isSafe] at hs; cases hs
      | handle a r => rw [isSafe] at hs; cases hs
      | raise a => rw [isSafe] at hs; cases hs
      | «while» c a => rw [noWhile] at hw; cases hw
      | tuple es =>
          have hs := (isSafe_tuple es).1 hs
          have hw := (noWhile_tuple es).1 hw
          rw [height] at hh
          obtain ⟨vs, h⟩ := evalList_total (ev := fun e s => eval U f e ρ s) (σ := σ) es
            (fun e he => ih e ρ σ (by have := height_mem he; omega) (hs e he) (hw e he))
          exact ⟨.tup vs, by simp only [eval, h, Option.map_some]⟩
      | vec es =>
          have hs := (isSafe_vec es).1 hs
          have hw := (noWhile_vec es).1 hw
          rw [height] at hh
          obtain ⟨vs, h⟩ := evalList_total (ev := fun e s => eval U f e ρ s) (σ := σ) es
            (fun e he => ih e ρ σ (by have := height_mem he; omega) (hs e he) (hw e he))
          exact ⟨.vec vs, by simp only [eval, h, Option.map_some]⟩
      | par e =>
          rw [isSafe] at hs; rw [noWhile] at hw; rw [height] at hh
          exact ih e ρ σ (by omega) hs hw
      | typed e =>
          rw [isSafe] at hs; rw [noWhile] at hw; rw [height] at hh
          exact ih e ρ σ (by omega) hs hw
      | andalso a b =>
          rw [isSafe, Bool.and_eq_true] at hs
          rw [noWhile, Bool.and_eq_true] at hw
          rw [height] at hh
          obtain ⟨v, h1⟩ := ih a ρ σ (by omega) hs.1 hw.1
          obtain ⟨v2, h2⟩ := ih b ρ σ (by omega) hs.2 hw.2
          simp only [eval, h1, h2, andThen]
          split <;> exact ⟨_, rfl⟩
      | orelse a b =>
          rw [isSafe, Bool.and_eq_true] at hs
          rw [noWhile, Bool.and_eq_true] at hw
          rw [height] at hh
          obtain ⟨v, h1⟩ := ih a ρ σ (by omega) hs.1 hw.1
          obtain ⟨v2, h2⟩ := ih b ρ σ (by omega) hs.2 hw.2
          simp only [eval, h1, h2, andThen]
          split <;> exact ⟨_, rfl⟩
      | ite c a b =>
          rw [isSafe, Bool.and_eq_true, Bool.and_eq_true] at hs
          rw [noWhile, Bool.and_eq_true, Bool.and_eq_true] at hw
          rw [height] at hh
          obtain ⟨v, h1⟩ := ih c ρ σ (by omega) hs.1.1 hw.1.1
          obtain ⟨v2, h2⟩ := ih a ρ σ (by omega) hs.1.2 hw.1.2
          obtain ⟨v3, h3⟩ := ih b ρ σ (by omega) hs.2 hw.2
          simp only [eval, h1, h2, h3, andThen]
          split <;> exact ⟨_, rfl⟩
      | seq a b =>
          rw [isSafe, Bool.and_eq_true] at hs
          rw [noWhile, Bool.and_eq_true] at hw
          rw [height] at hh
          obtain ⟨v, h1⟩ := ih a ρ σ (by omega) hs.1 hw.1
          obtain ⟨v2, h2⟩ := ih b ρ σ (by omega) hs.2 hw.2
          exact ⟨v2, by simp only [eval, h1, h2, andThen]⟩

/-- `while true do ()` is not executed to an end. -/
theorem loop_none {S : Type} (U : Exp → Env → S → Option (Res × S)) (ρ : Env) : ∀ (f : Nat) (σ : S),
    eval U f (.while (.con true) (.tuple [])) ρ σ = none := by
  intro f
  induction f with
  | zero => intro σ; rfl
  | succ f ih =>
      intro σ
      cases f with
      | zero => rfl
      | succ f =>
          have := ih σ
          simp only [eval, andThen, isTrue, if_true, evalList, Option.map_some] at this ⊢
          exact this

end Mosml.Safe
