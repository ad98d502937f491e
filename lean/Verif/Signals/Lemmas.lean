import Verif.Signals.Spec

/-! # Invariants of executions -/

namespace Mosml.Signals

theorem run_append (s : St) (p q : List Act) :
    run s (p ++ q) = (run s p).bind (fun s' => run s' q) := by
  induction p generalizing s with
  | nil => rfl
  | cons a p ih =>
    simp only [List.cons_append, run]
    cases step s a with
    | none => rfl
    | some s' => exact ih s'

/-- An invariant that every permitted action preserves holds at the end. -/
theorem run_inv (I : St → Nat → Prop) (ok : St → Prop)
    (hstep : ∀ s n a s', I s n → (a = .sig → ok s) → step s a = some s' →
      I s' (n + if a = .sig then 1 else 0)) :
    ∀ as s0 n0 s, I s0 n0 →
      (∀ p q s, as = p ++ Act.sig :: q → run s0 p = some s → ok s) →
      run s0 as = some s → I s (n0 + signals as) := by
  intro as
  induction as with
  | nil =>
    intro s0 n0 s h0 _ h
    simp only [run, Option.some.injEq] at h; subst h; simpa [signals] using h0
  | cons a as ih =>
    intro s0 n0 s h0 hok h
    simp only [run] at h
    cases h2 : step s0 a with
    | none => simp [h2] at h
    | some s1 =>
      simp only [h2] at h
      have h3 := hstep s0 n0 a s1 h0 (fun ha => hok [] as s0 (by simp [ha]) rfl) h2
      have h4 := ih s1 _ s h3
        (fun p q s hp hr => hok (a :: p) q s (by simp [hp]) (by simp [run, h2, hr])) h
      have h5 : signals (a :: as) = (if a = .sig then 1 else 0) + signals as := by
        unfold signals
        rw [List.count_cons]
        by_cases ha : a = .sig <;> simp [ha, Nat.add_comm]
      rw [h5, ← Nat.add_assoc]
      exact h4

/-- Interrupts raised, on their way and pending are covered by signals. -/
def Count (s : St) (n : Nat) : Prop :=
  match s.pc with
  | .ml | .enter | .force =>
      s.raised + s.pending.toNat ≤ n ∧ (s.pending = true → s.todo = true)
  | .entered =>
      s.blocking = true ∧ s.raised + s.pending.toNat ≤ n ∧ (s.pending = true → s.todo = true)
  | .wait | .done _ => s.blocking = true ∧ s.raised ≤ n ∧ s.pending = false
  | .call => s.blocking = true ∧ s.raised + 1 ≤ n ∧ (s.pending = true → s.todo = true)
  | .proc true (.test _) => s.blocking = true ∧ s.raised + 1 ≤ n ∧ s.pending = false
  | .proc true _ => s.blocking = true ∧ s.raised + 1 ≤ n
  | .handler true => s.blocking = true ∧ s.raised + 1 ≤ n ∧ s.pending = false
  | .proc false (.write k) => s.raised + k.toNat ≤ n
  | .proc false (.test k) =>
      s.raised + k.toNat + s.pending.toNat ≤ n ∧ (s.pending = true → s.todo = true)
  | .proc false _ => s.raised + s.pending.toNat ≤ n
  | .handler false => s.raised + 1 + s.pending.toNat ≤ n ∧ (s.pending = true → s.todo = true)

theorem count_sig (s : St) (n : Nat) (hI : Count s n)
    (hok : s.blocking = true → s.pc.waiting = true) : Count (sigStep s) (n + 1) := by
  obtain ⟨pc, pending, todo, minor, blocking, r, c, t, g⟩ := s
  have hb : pending.toNat ≤ 1 := Bool.toNat_le pending
  cases blocking with
  | false =>
    simp only [sigStep, Bool.false_eq_true, if_false]
    rcases pc with _|_|_|_|_|_|_|⟨_|_, _|_|_|_|k|k⟩|⟨_|_⟩ <;>
      simp only [Count, Bool.toNat_true, Bool.false_eq_true, false_and] at hI ⊢ <;>
      first | omega | exact ⟨by omega, fun _ => trivial⟩
  | true =>
    have hw := hok rfl
    simp only [sigStep, if_true]
    rcases pc with _|_|_|_|_|_|_|⟨_|_, _|_|_|_|k|k⟩|⟨_|_⟩ <;>
      simp only [PC.waiting, Bool.false_eq_true] at hw <;>
      simp only [Count, true_and] at hI ⊢
    · exact ⟨by omega, hI.2⟩
    · exact ⟨by omega, fun h => by simp [hI.2] at h⟩
    · exact ⟨by omega, fun h => by simp [hI.2] at h⟩

theorem count_proc (s : St) (n : Nat) (b : Bool) (p : PS) (hpc : s.pc = .proc b p)
    (hI : Count s n) : Count (procStep s b p) n := by
  obtain ⟨pc, pending, todo, minor, blocking, r, c, t, g⟩ := s
  simp only at hpc
  subst hpc
  cases b <;> rcases p with _|_|_|_|k|k <;> simp only [Count, procStep] at hI ⊢
  · exact hI
  · cases minor <;> exact hI
  · exact hI
  · exact hI
  · exact ⟨by simpa using hI, by simp⟩
  · cases k
    · exact ⟨by simpa using hI.1, hI.2⟩
    · exact ⟨by simpa using hI.1, hI.2⟩
  · exact hI
  · cases minor <;> exact hI
  · exact hI
  · exact hI
  · exact ⟨hI.1, hI.2, trivial⟩
  · cases k <;> exact hI

theorem count_tick (s : St) (n k : Nat) (s' : St) (hI : Count s n)
    (h : tickStep s k = some s') : Count s' n := by
  rcases hpc : s.pc with _|_|_|_|_|_|_|⟨b, p⟩|b
  case proc =>
    simp only [tickStep, hpc, Option.some.injEq] at h
    subst h; exact count_proc s n b p hpc hI
  all_goals
    obtain ⟨pc, pending, todo, minor, blocking, r, c, t, g⟩ := s
    simp only at hpc
    subst hpc
    simp only [tickStep, Option.some.injEq, reduceCtorEq] at h
  · subst h; exact ⟨hI.1, fun _ => rfl⟩
  · subst h; exact ⟨rfl, hI⟩
  · cases pending
    · simp only [Bool.false_eq_true, if_false, Option.some.injEq] at h
      subst h; exact ⟨hI.1, by simpa using hI.2.1, rfl⟩
    · simp only [if_true, Option.some.injEq] at h
      subst h; exact ⟨hI.1, by simpa using hI.2.1, hI.2.2⟩
  · subst h; exact hI
  · subst h
    obtain ⟨_, h1, h2⟩ := hI
    simp only at h2; subst h2
    exact ⟨by simpa using h1, by simp⟩
  · cases todo
    · simp only [Bool.false_eq_true, if_false, Option.some.injEq] at h
      subst h
      obtain ⟨h0, h1, h2⟩ := hI
      exact ⟨h0, h1, by simpa using h2⟩
    · simp only [if_true, Option.some.injEq] at h
      subst h; exact ⟨hI.1, hI.2.1⟩
  · subst h
    cases b
    · exact hI
    · obtain ⟨_, h1, h2⟩ := hI
      simp only at h2; subst h2
      exact ⟨by simpa using h1, by simp⟩

theorem count_step (s : St) (n : Nat) (a : Act) (s' : St) (hI : Count s n)
    (hok : a = .sig → s.blocking = true → s.pc.waiting = true) (h : step s a = some s') :
    Count s' (n + if a = .sig then 1 else 0) := by
  cases a with
  | sig =>
    simp only [step, Option.some.injEq] at h
    subst h
    exact count_sig s n hI (hok rfl)
  | tick k => exact count_tick s n k s' hI h
  | poll =>
    obtain ⟨pc, pending, todo, minor, blocking, r, c, t, g⟩ := s
    simp only [step] at h
    split at h <;> rename_i hp
    · subst hp
      cases todo
      · simp only [Bool.false_eq_true, if_false, Option.some.injEq] at h
        subst h; exact hI
      · simp only [if_true, Option.some.injEq] at h
        subst h; exact hI.1
    · simp at h
  | force =>
    obtain ⟨pc, pending, todo, minor, blocking, r, c, t, g⟩ := s
    simp only [step] at h
    split at h <;> rename_i hp
    · subst hp
      simp only [Option.some.injEq] at h
      subst h; exact hI
    · simp at h
  | enter =>
    obtain ⟨pc, pending, todo, minor, blocking, r, c, t, g⟩ := s
    simp only [step] at h
    split at h <;> rename_i hp
    · subst hp
      simp only [Option.some.injEq] at h
      subst h; exact hI
    · simp at h
  | fail =>
    obtain ⟨pc, pending, todo, minor, blocking, r, c, t, g⟩ := s
    simp only [step] at h
    split at h <;> rename_i hp
    · subst hp
      simp only [Option.some.injEq] at h
      subst h; exact hI
    · simp at h

/-- A check of concrete executions. -/
def allSig (ok : St → Bool) : St → List Act → Bool
  | _, [] => true
  | s, a :: as => (a ≠ .sig || ok s) && match step s a with
    | some s' => allSig ok s' as
    | none => true

theorem allSig_spec (ok : St → Bool) (as : List Act) (s : St) (h : allSig ok s as = true) :
    ∀ p q t, as = p ++ Act.sig :: q → run s p = some t → ok t = true := by
  induction as generalizing s with
  | nil => intro p q t h1 _; simp at h1
  | cons a as ih =>
    intro p q t h1 h2
    simp only [allSig, Bool.and_eq_true] at h
    cases p with
    | nil =>
      simp only [List.nil_append, List.cons.injEq] at h1
      simp only [run, Option.some.injEq] at h2
      subst h2
      simpa [h1.1] using h.1
    | cons b p =>
      simp only [List.cons_append, List.cons.injEq] at h1
      obtain ⟨rfl, h1⟩ := h1
      simp only [run] at h2
      cases h3 : step s a with
      | none => simp [h3] at h2
      | some s1 =>
        simp only [h3] at h2 h
        exact ih s1 h.2 p q t h1 h2

/-- The points of a blocking section, with the callbacks from it. -/
def PC.inside : PC → Bool
  | .entered | .wait | .done _ | .call | .proc true _ | .handler true => true
  | _ => false

/-- An invariant that does not count signals. -/
theorem run_inv' (I : St → Prop) (ok : St → Prop)
    (hstep : ∀ s a s', I s → (a = .sig → ok s) → step s a = some s' → I s')
    (as : List Act) (s0 s : St) (h0 : I s0)
    (hok : ∀ p q s, as = p ++ Act.sig :: q → run s0 p = some s → ok s)
    (h : run s0 as = some s) : I s :=
  run_inv (fun s _ => I s) ok (fun s _ a s' hI ho hs => hstep s a s' hI ho hs) as s0 0 s h0 hok h

/-- Cases of `step`. -/
theorem step_cases (P : St → Prop) (s : St) (a : Act) (s' : St) (h : step s a = some s')
    (hsig : a = .sig → P (sigStep s))
    (hpoll : s.pc = .ml → s.todo = true → P { s with pc := .proc false .clear })
    (hpoll' : s.pc = .ml → s.todo = false → a = .poll → P s)
    (hforce : s.pc = .ml → P { s with pc := .force, minor := true })
    (henter : s.pc = .ml → a = .enter → P { s with pc := .enter })
    (hfail : s.pc = .ml → a = .fail → P { s with blocking := false })
    (htick : ∀ k, tickStep s k = some s' → P s') : P s' := by
  cases a with
  | sig => simp only [step, Option.some.injEq] at h; subst h; exact hsig rfl
  | tick k => exact htick k h
  | poll =>
    simp only [step] at h
    split at h <;> rename_i hp
    · split at h <;> rename_i ht
      · simp only [Option.some.injEq] at h; subst h; exact hpoll hp ht
      · simp only [Option.some.injEq] at h; subst h
        exact hpoll' hp (by simpa using ht) rfl
    · simp at h
  | force =>
    simp only [step] at h
    split at h <;> rename_i hp
    · simp only [Option.some.injEq] at h; subst h; exact hforce hp
    · simp at h
  | enter =>
    simp only [step] at h
    split at h <;> rename_i hp
    · simp only [Option.some.injEq] at h; subst h; exact henter hp rfl
    · simp at h
  | fail =>
    simp only [step] at h
    split at h <;> rename_i hp
    · simp only [Option.some.injEq] at h; subst h; exact hfail hp rfl
    · simp at h

/-- Cases of `tickStep`. -/
theorem tick_cases (P : St → Prop) (s : St) (k : Nat) (s' : St) (h : tickStep s k = some s')
    (h1 : s.pc = .force → P { s with pc := .ml, todo := true })
    (h2 : s.pc = .enter → P { s with pc := .entered, blocking := true })
    (h3 : s.pc = .entered → s.pending = true → P { s with pc := .call })
    (h4 : s.pc = .entered → s.pending = false → P { s with pc := .wait })
    (h5 : s.pc = .wait → P { s with pc := .done k, taken := s.taken + k })
    (h6 : ∀ j, s.pc = .done j → P { s with pc := .ml, blocking := false, given := s.given + j })
    (h7 : s.pc = .call → s.todo = true → P { s with pc := .proc true .clear })
    (h8 : s.pc = .call → s.todo = false → P { s with pc := .handler true })
    (h9 : ∀ b, s.pc = .proc b .clear → P { s with pc := .proc b .minor, todo := false })
    (h10 : ∀ b, s.pc = .proc b .minor → s.minor = true →
      P { s with pc := .proc b .gc, minor := false })
    (h11 : ∀ b, s.pc = .proc b .minor → s.minor = false → P { s with pc := .proc b .read })
    (h12 : ∀ b, s.pc = .proc b .gc →
      P { s with pc := .proc b .read, collections := s.collections + 1 })
    (h13 : ∀ b, s.pc = .proc b .read → P { s with pc := .proc b (.write s.pending) })
    (h14 : ∀ b n, s.pc = .proc b (.write n) →
      P { s with pc := .proc b (.test n), pending := false })
    (h15 : ∀ b n, s.pc = .proc b (.test n) → n = true ∨ b = true →
      P { s with pc := .handler b })
    (h16 : s.pc = .proc false (.test false) → P { s with pc := .ml })
    (h17 : ∀ b, s.pc = .handler b → P { s with pc := .ml, raised := s.raised + 1 }) : P s' := by
  rcases hpc : s.pc with _|_|_|_|_|_|_|⟨b, p⟩|b <;> simp only [tickStep, hpc] at h
  · simp at h
  · simp only [Option.some.injEq] at h; subst h; exact h1 hpc
  · simp only [Option.some.injEq] at h; subst h; exact h2 hpc
  · split at h <;> rename_i hp <;> simp only [Option.some.injEq] at h <;> subst h
    · exact h3 hpc hp
    · exact h4 hpc (by simpa using hp)
  · simp only [Option.some.injEq] at h; subst h; exact h5 hpc
  · simp only [Option.some.injEq] at h; subst h; exact h6 _ hpc
  · split at h <;> rename_i hp <;> simp only [Option.some.injEq] at h <;> subst h
    · exact h7 hpc hp
    · exact h8 hpc (by simpa using hp)
  · simp only [Option.some.injEq] at h
    subst h
    rcases p with _|_|_|_|n|n <;> simp only [procStep]
    · exact h9 b hpc
    · split <;> rename_i hm
      · exact h10 b hpc hm
      · exact h11 b hpc (by simpa using hm)
    · exact h12 b hpc
    · exact h13 b hpc
    · exact h14 b n hpc
    · split <;> rename_i hn
      · exact h15 b n hpc (Or.inl hn)
      · split <;> rename_i hb
        · exact h15 b n hpc (Or.inr hb)
        · simp only [Bool.not_eq_true] at hn hb
          subst hn; subst hb; exact h16 hpc
  · simp only [Option.some.injEq] at h; subst h; exact h17 b hpc

/-- Inside a blocking section the flag is set. -/
def Flag (s : St) : Prop := s.pc.inside = true → s.blocking = true

theorem flag_step (s : St) (a : Act) (s' : St) (hI : Flag s) (h : step s a = some s') :
    Flag s' := by
  refine step_cases Flag s a s' h ?_ ?_ ?_ ?_ ?_ ?_ ?_
  · intro _
    unfold sigStep
    split <;> rename_i hb
    · exact fun _ => hb
    · intro hi; exact absurd (hI hi) hb
  · intro _ _ hi; simp [PC.inside] at hi
  · intro _ _ _; exact hI
  · intro _ hi; simp [PC.inside] at hi
  · intro _ _ hi; simp [PC.inside] at hi
  · intro hp _ hi; simp [PC.inside, hp] at hi
  · intro k hk
    apply tick_cases Flag s k s' hk
    all_goals (try (rintro (_ | _)))
    all_goals (intros; simp_all [Flag, PC.inside])

/-- As long as no Interrupt has been raised, the flag is set only inside. -/
def Fresh (s : St) : Prop := 0 < s.raised ∨ (s.blocking = true → s.pc.inside = true)

theorem fresh_step (s : St) (a : Act) (s' : St) (hI : Fresh s) (h : step s a = some s') :
    Fresh s' := by
  rcases hI with hI | hI
  · left
    refine step_cases (fun s => 0 < s.raised) s a s' h ?_ ?_ ?_ ?_ ?_ ?_ ?_
    · intro _; unfold sigStep; split <;> exact hI
    · intros; exact hI
    · intros; exact hI
    · intros; exact hI
    · intros; exact hI
    · intros; exact hI
    · intro k hk
      apply tick_cases (fun s => 0 < s.raised) s k s' hk <;> intros <;> simp only <;> omega
  · refine step_cases Fresh s a s' h ?_ ?_ ?_ ?_ ?_ ?_ ?_
    · intro _
      unfold sigStep
      split <;> rename_i hb
      · exact Or.inr fun _ => rfl
      · exact Or.inr hI
    · intro hp _; exact Or.inr fun hb => by have := hI hb; simp [hp, PC.inside] at this
    · intros; exact Or.inr hI
    · intro hp; exact Or.inr fun hb => by have := hI hb; simp [hp, PC.inside] at this
    · intro hp _; exact Or.inr fun hb => by have := hI hb; simp [hp, PC.inside] at this
    · intros; exact Or.inr fun hb => by simp at hb
    · intro k hk
      apply tick_cases Fresh s k s' hk
      all_goals (try (rintro (_ | _)))
      all_goals (intros; simp_all [Fresh, PC.inside])

/-- A signal has arrived and Interrupt is still to be raised. -/
def Due (s : St) : Prop :=
  match s.pc with
  | .ml | .force | .enter => s.pending = true ∧ s.todo = true
  | .entered => s.pending = true
  | .wait | .done _ => False
  | .call | .proc true _ | .handler _ => True
  | .proc false (.write n) => n = true
  | .proc false (.test n) => n = true ∨ (s.pending = true ∧ s.todo = true)
  | .proc false _ => s.pending = true

theorem due_sig (s : St) (hf : Flag s)
    (hg : s.blocking = false → s.pc ≠ .proc false (.write false)) : Due (sigStep s) := by
  unfold sigStep
  split <;> rename_i hb
  · trivial
  · simp only [Bool.not_eq_true] at hb
    have hg := hg hb
    unfold Flag at hf
    rcases hpc : s.pc with _|_|_|_|_|_|_|⟨_|_, _|_|_|_|n|n⟩|b <;>
      simp_all [Due, PC.inside]

theorem due_step (s : St) (a : Act) (s' : St) (hI : Due s) (h : step s a = some s') :
    s.raised < s'.raised ∨ (Due s' ∧ s'.raised = s.raised) := by
  refine step_cases (fun t => s.raised < t.raised ∨ (Due t ∧ t.raised = s.raised)) s a s' h
    ?_ ?_ ?_ ?_ ?_ ?_ ?_
  · intro _
    right
    unfold sigStep
    split
    · exact ⟨trivial, rfl⟩
    · refine ⟨?_, rfl⟩
      rcases hpc : s.pc with _|_|_|_|_|_|_|⟨_|_, _|_|_|_|n|n⟩|b <;> simp_all [Due]
  · intro hp _; right; simp_all [Due]
  · intros; right; exact ⟨hI, rfl⟩
  · intro hp; right; simp_all [Due]
  · intro hp _; right; simp_all [Due]
  · intro hp _; right; simp_all [Due]
  · intro k hk
    apply tick_cases (fun t => s.raised < t.raised ∨ (Due t ∧ t.raised = s.raised)) s k s' hk
    case h17 => intros; left; simp
    all_goals (try (rintro (_ | _)))
    all_goals (intros; right; simp_all [Due])

/-- Interrupt is to be raised before ML code or a system call goes on. -/
def Now (s : St) : Prop :=
  match s.pc with
  | .ml | .force | .wait | .done _ => False
  | .enter | .entered => s.pending = true
  | .call | .proc true _ | .handler _ => True
  | .proc false (.write n) | .proc false (.test n) => n = true
  | .proc false _ => s.pending = true

theorem now_step (s : St) (a : Act) (s' : St) (hI : Now s) (h : step s a = some s') :
    s.raised < s'.raised ∨ (Now s' ∧ s'.raised = s.raised) := by
  refine step_cases (fun t => s.raised < t.raised ∨ (Now t ∧ t.raised = s.raised)) s a s' h
    ?_ ?_ ?_ ?_ ?_ ?_ ?_
  · intro _
    right
    unfold sigStep
    split
    · exact ⟨trivial, rfl⟩
    · refine ⟨?_, rfl⟩
      rcases hpc : s.pc with _|_|_|_|_|_|_|⟨_|_, _|_|_|_|n|n⟩|b <;> simp_all [Now]
  · intro hp _; simp_all [Now]
  · intros; right; exact ⟨hI, rfl⟩
  · intro hp; simp_all [Now]
  · intro hp _; simp_all [Now]
  · intro hp _; simp_all [Now]
  · intro k hk
    apply tick_cases (fun t => s.raised < t.raised ∨ (Now t ∧ t.raised = s.raised)) s k s' hk
    case h17 => intros; left; simp
    all_goals (try (rintro (_ | _)))
    all_goals (intros; right; simp_all [Now])

theorem raised_step (s : St) (a : Act) (s' : St) (h : step s a = some s') :
    s.raised ≤ s'.raised := by
  refine step_cases (fun t => s.raised ≤ t.raised) s a s' h ?_ ?_ ?_ ?_ ?_ ?_ ?_
  · intro _; unfold sigStep; split <;> exact Nat.le_refl _
  · intros; exact Nat.le_refl _
  · intros; exact Nat.le_refl _
  · intros; exact Nat.le_refl _
  · intros; exact Nat.le_refl _
  · intros; exact Nat.le_refl _
  · intro k hk
    apply tick_cases (fun t => s.raised ≤ t.raised) s k s' hk <;> intros <;> simp

/-- A request for a collection is not forgotten. -/
def Asked (s : St) : Prop :=
  match s.pc with
  | .force | .proc _ .minor => True
  | _ => s.minor = true → s.todo = true

theorem asked_step (s : St) (a : Act) (s' : St) (hI : Asked s)
    (hok : a = .sig → s.blocking = true → s.pc.waiting = true) (h : step s a = some s') :
    Asked s' := by
  refine step_cases Asked s a s' h ?_ ?_ ?_ ?_ ?_ ?_ ?_
  · intro ha
    have hok := hok ha
    unfold sigStep
    split <;> rename_i hb
    · have := hok hb
      rcases hpc : s.pc with _|_|_|_|_|_|_|⟨b, _|_|_|_|n|n⟩|b <;>
        simp_all [Asked, PC.waiting]
    · rcases hpc : s.pc with _|_|_|_|_|_|_|⟨b, _|_|_|_|n|n⟩|b <;> simp_all [Asked]
  · intro hp ht; simp_all [Asked]
  · intros; exact hI
  · intro hp; simp_all [Asked]
  · intro hp _; simp_all [Asked]
  · intro hp _; simp_all [Asked]
  · intro k hk
    apply tick_cases Asked s k s' hk <;> intros <;> simp_all [Asked]

/-- A collection is to be done before ML code goes on. -/
def Collect (s : St) : Prop :=
  match s.pc with
  | .proc _ .clear | .proc _ .minor => s.minor = true
  | .proc _ .gc => True
  | _ => False

theorem collections_step (s : St) (a : Act) (s' : St) (h : step s a = some s') :
    s.collections ≤ s'.collections := by
  refine step_cases (fun t => s.collections ≤ t.collections) s a s' h ?_ ?_ ?_ ?_ ?_ ?_ ?_
  · intro _; unfold sigStep; split <;> exact Nat.le_refl _
  · intros; exact Nat.le_refl _
  · intros; exact Nat.le_refl _
  · intros; exact Nat.le_refl _
  · intros; exact Nat.le_refl _
  · intros; exact Nat.le_refl _
  · intro k hk
    apply tick_cases (fun t => s.collections ≤ t.collections) s k s' hk <;> intros <;> simp

theorem collect_step (s : St) (a : Act) (s' : St) (hI : Collect s)
    (hok : a = .sig → s.blocking = true → s.pc.waiting = true) (h : step s a = some s') :
    s.collections < s'.collections ∨ (Collect s' ∧ s'.collections = s.collections) := by
  refine step_cases
    (fun t => s.collections < t.collections ∨ (Collect t ∧ t.collections = s.collections)) s a s' h
    ?_ ?_ ?_ ?_ ?_ ?_ ?_
  · intro ha
    have hok := hok ha
    right
    unfold sigStep
    split <;> rename_i hb
    · have := hok hb
      rcases hpc : s.pc with _|_|_|_|_|_|_|⟨b, _|_|_|_|n|n⟩|b <;>
        simp_all [Collect, PC.waiting]
    · exact ⟨hI, rfl⟩
  · intro hp _; simp_all [Collect]
  · intros; right; exact ⟨hI, rfl⟩
  · intro hp; simp_all [Collect]
  · intro hp _; simp_all [Collect]
  · intro hp _; simp_all [Collect]
  · intro k hk
    apply tick_cases
      (fun t => s.collections < t.collections ∨ (Collect t ∧ t.collections = s.collections)) s k s' hk
    case h12 => intros; left; simp
    all_goals (intros; right; simp_all [Collect])

/-- Bytes read and not yet given to the program. -/
def PC.bytes : PC → Nat
  | .done k => k
  | _ => 0

theorem bytes_step (s : St) (a : Act) (s' : St) (hI : s.taken = s.given + s.pc.bytes)
    (hok : a = .sig → ∀ k, s.pc ≠ .done k) (h : step s a = some s') :
    s'.taken = s'.given + s'.pc.bytes := by
  refine step_cases (fun t => t.taken = t.given + t.pc.bytes) s a s' h ?_ ?_ ?_ ?_ ?_ ?_ ?_
  · intro ha
    have hok := hok ha
    unfold sigStep
    split
    · rcases hpc : s.pc with _|_|_|_|_|_|_|⟨b, p⟩|b <;> simp_all [PC.bytes]
    · exact hI
  · intro hp _; simp_all [PC.bytes]
  · intros; exact hI
  · intro hp; simp_all [PC.bytes]
  · intro hp _; simp_all [PC.bytes]
  · intro hp _; simp_all [PC.bytes]
  · intro k hk
    apply tick_cases (fun t => t.taken = t.given + t.pc.bytes) s k s' hk <;> intros <;>
      simp_all [PC.bytes]

end Mosml.Signals
