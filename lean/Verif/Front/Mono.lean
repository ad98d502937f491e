import Verif.Front.Args

/-! More steps do not change a result. -/

namespace Mosml.Front

abbrev Ev := List (Name × SVal) → Exp → St SVal → Option (Res SVal × St SVal)

theorem evalLR_mono {E V S : Type} {f g : E → S → Option (Res V × S)} {es : List E}
    (h : ∀ e ∈ es, ∀ st x, f e st = some x → g e st = some x) {st x}
    (he : evalLR f es st = some x) : evalLR g es st = some x := by
  induction es generalizing st x with
  | nil => exact he
  | cons e es ih =>
    obtain ⟨rs, st'⟩ := x
    have ih' := fun st x => @ih (fun e he => h e (by simp [he])) st x
    rcases evalLR_cons he with ⟨x, h1, rfl⟩ | ⟨v, st1, rs', h1, h2, h3⟩
    · rw [evalLR, h e (by simp) _ _ h1]
    · rw [evalLR, h e (by simp) _ _ h1]
      simp only [ih' _ _ h2]
      rcases h3 with ⟨vs, rfl, rfl⟩ | ⟨x, rfl, rfl⟩ <;> rfl

theorem sapply_mono {f g : Ev} (h : ∀ ρ e st x, f ρ e st = some x → g ρ e st = some x) {v w st x}
    (ha : sapply f v w st = some x) : sapply g v w st = some x := by
  cases v with
  | clos ρ y xs b =>
    cases xs with
    | nil => exact h _ _ _ _ ha
    | cons => exact ha
  | _ => exact ha

theorem thenDo_mono {a b : Option (Res SVal × St SVal)}
    {f g : SVal → St SVal → Option (Res SVal × St SVal)} {x}
    (h : thenDo a f = some x)
    (hab : ∀ y, a = some y → b = some y) (hfg : ∀ v st y, f v st = some y → g v st = some y) :
    thenDo b g = some x := by
  rcases a with _ | ⟨r, st⟩
  · simp at h
  · rw [hab _ rfl]
    cases r with
    | val v => exact hfg _ _ _ h
    | exn v => exact h

theorem thenAll_mono {a b : Option (Ress SVal × St SVal)}
    {f g : List SVal → St SVal → Option (Res SVal × St SVal)} {x}
    (h : thenAll a f = some x)
    (hab : ∀ y, a = some y → b = some y) (hfg : ∀ v st y, f v st = some y → g v st = some y) :
    thenAll b g = some x := by
  rcases a with _ | ⟨r, st⟩
  · simp at h
  · rw [hab _ rfl]
    cases r with
    | vals v => exact hfg _ _ _ h
    | stop v => exact h

theorem thenDo_some {V S : Type} {a : Option (Res V × S)} {f : V → S → Option (Res V × S)} {r st'}
    (h : thenDo a f = some (r, st')) :
    (∃ v st1, a = some (.val v, st1) ∧ f v st1 = some (r, st')) ∨
    ∃ x, a = some (.exn x, st') ∧ r = .exn x := by
  rcases a with _ | ⟨r1, st1⟩
  · simp at h
  · cases r1 with
    | val v => exact .inl ⟨v, st1, rfl, h⟩
    | exn v => simp at h; exact .inr ⟨v, by rw [h.2], h.1.symm⟩

theorem thenAll_some {V S : Type} {a : Option (Ress V × S)} {f : List V → S → Option (Res V × S)}
    {r st'} (h : thenAll a f = some (r, st')) :
    (∃ v st1, a = some (.vals v, st1) ∧ f v st1 = some (r, st')) ∨
    ∃ x, a = some (.stop x, st') ∧ r = .exn x := by
  rcases a with _ | ⟨r1, st1⟩
  · simp at h
  · cases r1 with
    | vals v => exact .inl ⟨v, st1, rfl, h⟩
    | stop v => simp at h; exact .inr ⟨v, by rw [h.2], h.1.symm⟩

theorem sapplyAll_mono {f g : SVal → SVal → St SVal → Option (Res SVal × St SVal)}
    (h : ∀ v w st x, f v w st = some x → g v w st = some x) {v ws st x}
    (ha : sapplyAll f v ws st = some x) : sapplyAll g v ws st = some x := by
  induction ws generalizing v st x with
  | nil => exact ha
  | cons w ws ih => exact thenDo_mono ha (h _ _ _) (fun _ _ _ => ih)

theorem ite_mono {c : Bool} {a b a' b' : Option (Res SVal × St SVal)} {x}
    (ha : ∀ y, a = some y → a' = some y) (hb : ∀ y, b = some y → b' = some y)
    (h : (if c then a else b) = some x) : (if c then a' else b') = some x := by
  cases c
  · exact hb _ h
  · exact ha _ h

theorem sev_step (o : Order) (n : Nat) :
    ∀ ρ e st x, sev o n ρ e st = some x → sev o (n + 1) ρ e st = some x := by
  induction n with
  | zero => intro ρ e st x h; simp [sev] at h
  | succ n ih =>
    intro ρ e st x h
    cases e with
    | const | prim1 | prim2 | con | fn => exact h
    | var y => exact h
    | app f a =>
      rw [sev] at h ⊢
      split_ifs at h ⊢
      · exact thenDo_mono h (ih _ _ _) fun v st y hy =>
          thenDo_mono hy (ih _ _ _) fun v st y hy => sapply_mono ih hy
      · exact thenDo_mono h (ih _ _ _) fun v st y hy =>
          thenAll_mono hy (fun _ => evalLR_mono (fun e _ => ih ρ e)) fun v st y hy =>
            sapplyAll_mono (fun _ _ _ _ => sapply_mono ih) hy
    | tuple es =>
      rw [sev] at h ⊢
      exact thenAll_mono h (fun _ => evalLR_mono (fun e _ => ih ρ e)) fun _ _ _ => id
    | record labs es =>
      rw [sev] at h ⊢
      exact thenAll_mono h (fun _ => evalLR_mono (fun e _ => ih ρ e)) fun _ _ _ => id
    | par e => exact ih _ _ _ _ h
    | lett y e b =>
      rw [sev] at h ⊢
      exact thenDo_mono h (ih _ _ _) (fun v st y hy => ih _ _ _ _ hy)
    | andalso a b =>
      rw [sev] at h ⊢
      exact thenDo_mono h (ih _ _ _) fun v st y hy => ite_mono (ih _ _ _) (fun _ => id) hy
    | orelse a b =>
      rw [sev] at h ⊢
      exact thenDo_mono h (ih _ _ _) fun v st y hy => ite_mono (fun _ => id) (ih _ _ _) hy
    | cond c a b =>
      rw [sev] at h ⊢
      exact thenDo_mono h (ih _ _ _) fun v st y hy => ite_mono (ih _ _ _) (ih _ _ _) hy
    | seq a b =>
      rw [sev] at h ⊢
      exact thenDo_mono h (ih _ _ _) (fun v st y hy => ih _ _ _ _ hy)
    | whil c a =>
      rw [sev] at h ⊢
      exact thenDo_mono h (ih _ _ _) fun v st y hy => ite_mono (fun z hz =>
        thenDo_mono hz (ih _ _ _) (fun v st y hy => ih _ _ _ _ hy)) (fun _ => id) hy
    | raise e =>
      rw [sev] at h ⊢
      exact thenDo_mono h (ih _ _ _) (fun v st y hy => hy)
    | handle e y b =>
      rw [sev] at h ⊢
      rcases hl : sev o n ρ e st with _ | ⟨r, st'⟩
      · rw [hl] at h; simp at h
      · rw [hl] at h
        rw [ih _ _ _ _ hl]
        cases r with
        | val v => exact h
        | exn v => exact ih _ _ _ _ h

theorem sev_mono {o n m ρ e st x} (h : n ≤ m) (hs : sev o n ρ e st = some x) :
    sev o m ρ e st = some x := by
  induction h with
  | refl => exact hs
  | step _ ih => exact sev_step o _ _ _ _ _ ih

end Mosml.Front
