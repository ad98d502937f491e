import Verif.Signals.Lemmas

/-!
# C84: interrupts are delivered, once, and forced collections are done

Every theorem is about all executions: all lists of actions, hence all
interleavings of the program with any number of signals.
-/

namespace Mosml.Signals

/-! ## Not more Interrupts than signals -/

/-- The program never sees more Interrupt exceptions than signals arrived.
Partial: executions in which signals find `in_blocking_section` set only in
blocking sections; see `C84_spurious_violation`. -/
theorem C84_no_spurious_partial (as : List Act) (s : St) (ho : Orderly init as)
    (h : run init as = some s) : s.raised ≤ signals as := by
  have h1 := run_inv Count (fun s => s.blocking = true → s.pc.waiting = true)
    (fun s n a s' hI hok hs => count_step s n a s' hI hok hs) as init 0 s
    (by simp [Count, init]) ho h
  rw [Nat.zero_add] at h1
  rcases hpc : s.pc with _|_|_|_|_|_|_|⟨_|_, _|_|_|_|n|n⟩|⟨_|_⟩ <;>
    simp only [Count, hpc] at h1 <;> omega

/-- A signal in the system call, one in ML code: two Interrupts. -/
def twoSignals : List Act :=
  [.enter, .tick 0, .tick 0, .sig, .tick 0, .tick 0, .fail, .sig, .poll, .tick 0, .tick 0,
   .tick 0, .tick 0, .tick 0, .tick 0]

example : (run init twoSignals).map (fun s => (s.pc, s.raised)) = some (.ml, 2) := by
  decide +kernel

example : Orderly init twoSignals := fun p q s h1 h2 hb => by
  have := allSig_spec (fun s => !s.blocking || s.pc.waiting) twoSignals init (by decide) p q s h1 h2
  simpa [hb] using this

/-- Two signals can raise any number of Interrupts: when the second arrives while
the nested interpreter processes the first (between interp.c:1100 and 1110), every
later call that blocks raises Interrupt. -/
theorem C84_spurious_violation (m : Nat) :
    ∃ as s, run init as = some s ∧ signals as = 2 ∧ m ≤ s.raised := by
  have key : ∀ m, ∃ as, signals as = 2 ∧
      run init as = some ⟨.ml, true, false, false, true, m + 1, 0, 0, 0⟩ := by
    intro m
    induction m with
    | zero =>
      exact ⟨[.sig, .enter, .tick 0, .tick 0, .tick 0, .tick 0, .sig, .tick 0, .tick 0],
        by decide, by decide⟩
    | succ m ih =>
      obtain ⟨as, h1, h2⟩ := ih
      refine ⟨as ++ [.enter, .tick 0, .tick 0, .tick 0, .tick 0], ?_, ?_⟩
      · unfold signals at *
        rw [List.count_append, h1]; rfl
      · rw [run_append, h2]; rfl
  obtain ⟨as, h1, h2⟩ := key m
  exact ⟨as, _, h2, h1, Nat.le_succ m⟩

/-! ## Every signal is delivered at the next poll or blocking call -/

/-- Due until raised. -/
theorem due_run (r : Nat) (q : List Act) (s s' : St) (hd : r < s.raised ∨ Due s)
    (hr : r ≤ s.raised) (h : run s q = some s') : r < s'.raised ∨ Due s' := by
  have := run_inv' (fun s => r ≤ s.raised ∧ (r < s.raised ∨ Due s)) (fun _ => True)
    (fun s a s' hI _ hs => by
      have h1 := raised_step s a s' hs
      refine ⟨by omega, ?_⟩
      rcases hI.2 with h | h
      · left; omega
      · rcases due_step s a s' h hs with h2 | h2
        · left; omega
        · right; exact h2.1) q s s' ⟨hr, hd⟩ (fun _ _ _ _ _ => trivial) h
  exact this.2

theorem now_run (r : Nat) (q : List Act) (s s' : St) (hd : r < s.raised ∨ Now s)
    (hr : r ≤ s.raised) (h : run s q = some s') : r < s'.raised ∨ Now s' := by
  have := run_inv' (fun s => r ≤ s.raised ∧ (r < s.raised ∨ Now s)) (fun _ => True)
    (fun s a s' hI _ hs => by
      have h1 := raised_step s a s' hs
      refine ⟨by omega, ?_⟩
      rcases hI.2 with h | h
      · left; omega
      · rcases now_step s a s' h hs with h2 | h2
        · left; omega
        · right; exact h2.1) q s s' ⟨hr, hd⟩ (fun _ _ _ _ _ => trivial) h
  exact this.2

theorem run_raised (q : List Act) (s s' : St) (h : run s q = some s') : s.raised ≤ s'.raised :=
  run_inv' (fun t => s.raised ≤ t.raised) (fun _ => True)
    (fun t a t' hI _ hs => Nat.le_trans hI (raised_step t a t' hs)) q s s' (Nat.le_refl _)
    (fun _ _ _ _ _ => trivial) h

theorem run_flag (p : List Act) (s : St) (h : run init p = some s) : Flag s :=
  run_inv' Flag (fun _ => True) (fun s a s' hI _ hs => flag_step s a s' hI hs) p init s
    (by simp [Flag, init, PC.inside]) (fun _ _ _ _ _ => trivial) h

/-- After a signal, wherever it arrives, and whatever else happens: when the
program has polled, or begun a call that blocks, and has got on with ML code or
waits in the system call, Interrupt has been raised.  Partial: the signal must
not arrive between the instructions of interp.c:1109-1110; see
`C84_lost_violation`. -/
theorem C84_delivered_partial (p q r : List Act) (a : Act) (s s' : St)
    (hp : run init p = some s)
    (hgap : s.blocking = false → s.pc ≠ .proc false (.write false))
    (ha : a = .poll ∨ a = .enter)
    (hr : run s (.sig :: q ++ a :: r) = some s')
    (hpc : s'.pc = .ml ∨ s'.pc = .wait) : s.raised < s'.raised := by
  have hf := run_flag p s hp
  rw [List.cons_append] at hr
  simp only [run, step] at hr
  rw [run_append] at hr
  have hsr : s.raised = (sigStep s).raised := by unfold sigStep; split <;> rfl
  cases h1 : run (sigStep s) q with
  | none => simp [h1] at hr
  | some s1 =>
    simp only [h1, Option.bind_some, run] at hr
    have hd := due_run s.raised q _ s1 (Or.inr (due_sig s hf hgap)) (Nat.le_of_eq hsr) h1
    have hr1 := run_raised q _ s1 h1
    rw [← hsr] at hr1
    cases h2 : step s1 a with
    | none => simp [h2] at hr
    | some s2 =>
      simp only [h2] at hr
      have hr2 := raised_step s1 a s2 h2
      have hn : s.raised < s2.raised ∨ Now s2 := by
        rcases hd with hd | hd
        · left; omega
        · right
          rcases ha with ha | ha
          · subst ha
            simp only [step] at h2
            split at h2 <;> rename_i hm
            · simp only [Due, hm] at hd
              rw [if_pos hd.2] at h2
              simp only [Option.some.injEq] at h2
              subst h2; exact hd.1
            · simp at h2
          · subst ha
            simp only [step] at h2
            split at h2 <;> rename_i hm
            · simp only [Due, hm] at hd
              simp only [Option.some.injEq] at h2
              subst h2; exact hd.1
            · simp at h2
      rcases now_run s.raised r s2 s' hn (by omega) hr with h | h
      · exact h
      · rcases hpc with hpc | hpc <;> simp [Now, hpc] at h

example : (run init [.enter, .tick 0, .sig, .tick 0, .tick 0, .enter, .tick 0, .tick 0]).map
    (fun s => (s.pc, s.raised)) = some (.wait, 1) := by decide

/-- A program never waits in a system call with a signal undelivered. -/
theorem C84_never_waits_partial (p q : List Act) (s s' : St) (hp : run init p = some s)
    (hgap : s.blocking = false → s.pc ≠ .proc false (.write false))
    (hr : run s (.sig :: q) = some s') (hpc : s'.pc = .wait) : s.raised < s'.raised := by
  have hf := run_flag p s hp
  simp only [run, step] at hr
  have hsr : s.raised = (sigStep s).raised := by unfold sigStep; split <;> rfl
  have hd := due_run s.raised q _ s' (Or.inr (due_sig s hf hgap)) (Nat.le_of_eq hsr) hr
  rcases hd with h | h
  · exact h
  · simp [Due, hpc] at h

/-- A poll after a signal raises Interrupt within eight operations of the runtime
system. -/
theorem C84_poll_raises_partial (p : List Act) (q : List Act) (s s1 : St)
    (hp : run init p = some s)
    (hgap : s.blocking = false → s.pc ≠ .proc false (.write false))
    (hr : run s (.sig :: q) = some s1) (hpc : s1.pc = .ml) (hno : s1.raised = s.raised) :
    ∃ n s2, n ≤ 8 ∧ run s1 (.poll :: List.replicate n (.tick 0)) = some s2 ∧
      s2.pc = .ml ∧ s2.raised = s1.raised + 1 := by
  have hf := run_flag p s hp
  simp only [run, step] at hr
  have hsr : s.raised = (sigStep s).raised := by unfold sigStep; split <;> rfl
  have hd := due_run s.raised q _ s1 (Or.inr (due_sig s hf hgap)) (Nat.le_of_eq hsr) hr
  rcases hd with hd | hd
  · omega
  · obtain ⟨pc, pending, todo, minor, blocking, r, c, t, g⟩ := s1
    simp only at hpc; subst hpc
    simp only [Due] at hd
    obtain ⟨h1, h2⟩ := hd
    subst h1; subst h2
    cases minor
    · exact ⟨6, _, by omega, rfl, rfl, rfl⟩
    · exact ⟨7, _, by omega, rfl, rfl, rfl⟩

example : ∃ s1, run init [.force, .tick 0, .sig] = some s1 ∧ s1.pc = .ml ∧ s1.raised = 0 :=
  ⟨_, rfl, rfl, rfl⟩

/-- A signal in the gap is lost: from then on, without a further signal, no
Interrupt is raised, whatever the program does. -/
theorem C84_lost_violation :
    ∃ p s, run init p = some s ∧ signals p = 1 ∧ s.pc = .ml ∧
      ∀ q s', signals q = 0 → run s q = some s' → s'.raised = 0 := by
  refine ⟨[.force, .tick 0, .poll, .tick 0, .tick 0, .tick 0, .tick 0, .sig, .tick 0, .tick 0],
    ⟨.ml, false, true, false, false, 0, 1, 0, 0⟩, by decide, by decide, rfl, ?_⟩
  intro q s' hq hr
  let I : St → Prop := fun s => s.raised = 0 ∧ s.pending = false ∧ s.pc ≠ .call ∧
    (∀ b, s.pc ≠ .handler b) ∧ (∀ b, s.pc ≠ .proc b (.write true)) ∧
    (∀ b, s.pc ≠ .proc b (.test true)) ∧ (∀ x, s.pc ≠ .proc true x)
  have hI : I s' := by
    refine run_inv' I (fun _ => False) ?_ q _ s' ?_ ?_ hr
    · intro s a s' hI hok hs
      obtain ⟨i1, i2, i3, i4, i5, i6, i7⟩ := hI
      refine step_cases I s a s' hs ?_ ?_ ?_ ?_ ?_ ?_ ?_
      · intro ha; exact (hok ha).elim
      · intro _ _; simp [I, i1, i2]
      · intro _ _ _; exact ⟨i1, i2, i3, i4, i5, i6, i7⟩
      · intro _; simp [I, i1, i2]
      · intro _ _; simp [I, i1, i2]
      · intro hm _; simp [I, i1, i2, hm]
      · intro k hk
        apply tick_cases I s k s' hk
        all_goals (try (rintro (_ | _)))
        all_goals (intros; simp_all [I])
    · simp [I]
    · intro p q' _ hpq _
      rw [hpq] at hq
      simp [signals] at hq
  exact hI.1

/-! ## Where a handler may run -/

/-- Until the first Interrupt is raised, a signal calls back into the interpreter
only where the program is inside a blocking section (or already in the callback
from one).  Partial: see `C84_flag_violation`. -/
theorem C84_callback_partial (p : List Act) (s : St) (h : run init p = some s)
    (h0 : s.raised = 0) (hc : (sigStep s).pc = .call) :
    s.pc = .entered ∨ s.pc = .wait ∨ (∃ k, s.pc = .done k) ∨ s.pc = .call ∨
      (∃ x, s.pc = .proc true x) ∨ s.pc = .handler true := by
  have hf : Fresh s := run_inv' Fresh (fun _ => True)
    (fun s a s' hI _ hs => fresh_step s a s' hI hs) p init s
    (Or.inr (by simp [init])) (fun _ _ _ _ _ => trivial) h
  have hi : s.pc.inside = true := by
    rcases hf with hf | hf
    · omega
    · unfold sigStep at hc
      split at hc <;> rename_i hb
      · exact hf hb
      · simp only at hc; simp [hc, PC.inside]
  rcases hpc : s.pc with _|_|_|_|_|_|_|⟨_|_, x⟩|⟨_|_⟩ <;> simp_all [PC.inside]

example : ∃ s, run init [.enter, .tick 0, .tick 0] = some s ∧ s.raised = 0 ∧
    (sigStep s).pc = .call := ⟨_, rfl, rfl, rfl⟩

/-- The exception that ends a callback from a blocking section leaves
`in_blocking_section` set: RAISE (interp.c:1085-1091) does not clear it, only
`mlraise` and `leave_blocking_section` do.  After one interrupted read, as long as
the program does not read again and no C primitive raises an exception, every
signal calls back into the interpreter wherever the program is. -/
theorem C84_flag_violation :
    ∃ p s, run init p = some s ∧ signals p = 1 ∧ s.pc = .ml ∧ s.raised = 1 ∧
      ∀ q s', Act.enter ∉ q → Act.fail ∉ q → run s q = some s' →
        (sigStep s').pc = .call := by
  refine ⟨[.enter, .tick 0, .tick 0, .sig, .tick 0, .tick 0],
    ⟨.ml, false, false, false, true, 1, 0, 0, 0⟩, by decide, by decide, rfl, rfl, ?_⟩
  intro q
  let I : St → Prop := fun s => s.blocking = true ∧ ∀ k, s.pc ≠ .done k ∧ s.pc ≠ .wait ∧
    s.pc ≠ .entered ∧ s.pc ≠ .enter
  have key : ∀ q s s', Act.enter ∉ q → Act.fail ∉ q → I s → run s q = some s' → I s' := by
    intro q
    induction q with
    | nil =>
      intro s s' _ _ hI h
      simp only [run, Option.some.injEq] at h; subst h; exact hI
    | cons a q ih =>
      intro s s' he hf hI h
      simp only [List.mem_cons, not_or] at he hf
      simp only [run] at h
      cases h2 : step s a with
      | none => simp [h2] at h
      | some s1 =>
        simp only [h2] at h
        refine ih s1 s' he.2 hf.2 ?_ h
        obtain ⟨i1, i2⟩ := hI
        refine step_cases I s a s1 h2 ?_ ?_ ?_ ?_ ?_ ?_ ?_
        · intro _; simp [sigStep, i1, I]
        · intro _ _; simp [I, i1]
        · intro _ _ _; exact ⟨i1, i2⟩
        · intro _; simp [I, i1]
        · intro _ ha; exact absurd ha.symm he.1
        · intro _ ha; exact absurd ha.symm hf.1
        · intro k hk
          apply tick_cases I s k s1 hk <;> intros <;> simp_all [I]
  intro s' he hf h
  have := key q _ s' he hf (by simp [I]) h
  simp [sigStep, this.1]

/-! ## Forced minor collections -/

/-- A minor collection that was requested is done by the next poll, whatever
signals arrive.  Partial: orderly executions; see `C84_collection_violation`. -/
theorem C84_collection_partial (p r : List Act) (s s' : St)
    (ho : Orderly init (p ++ .poll :: r)) (hp : run init p = some s)
    (hm : s.minor = true) (hr : run s (.poll :: r) = some s') (hpc : s'.pc = .ml) :
    s.collections < s'.collections := by
  have hop : ∀ p' q' t, p = p' ++ Act.sig :: q' → run init p' = some t →
      t.blocking = true → t.pc.waiting = true := fun p' q' t h1 h2 =>
    ho p' (q' ++ .poll :: r) t (by simp [h1]) h2
  have hA : Asked s := run_inv' Asked (fun s => s.blocking = true → s.pc.waiting = true)
    (fun s a s' hI hok hs => asked_step s a s' hI hok hs) p init s (by simp [Asked, init]) hop hp
  simp only [run] at hr
  cases h2 : step s .poll with
  | none => simp [h2] at hr
  | some s2 =>
    simp only [h2] at hr
    have hor : ∀ p' q' t, r = p' ++ Act.sig :: q' → run s2 p' = some t →
        t.blocking = true → t.pc.waiting = true := fun p' q' t h1 h3 =>
      ho (p ++ .poll :: p') q' t (by simp [h1]) (by
        rw [run_append, hp]; simp only [Option.bind_some, run, h2]; exact h3)
    simp only [step] at h2
    split at h2 <;> rename_i hml
    · simp only [Asked, hml] at hA
      rw [if_pos (hA hm)] at h2
      simp only [Option.some.injEq] at h2
      subst h2
      have := run_inv' (fun t => s.collections ≤ t.collections ∧
          (s.collections < t.collections ∨ Collect t))
        (fun s => s.blocking = true → s.pc.waiting = true)
        (fun t a t' hI hok hs => by
          have h1 := collections_step t a t' hs
          refine ⟨by omega, ?_⟩
          rcases hI.2 with h | h
          · left; omega
          · rcases collect_step t a t' h hok hs with h3 | h3
            · left; omega
            · right; exact h3.1) r { s with pc := .proc false .clear } s'
        ⟨Nat.le_refl _, Or.inr hm⟩ hor hr
      rcases this.2 with h | h
      · exact h
      · simp [Collect, hpc] at h
    · simp at h2

example : (run init [.force, .tick 0, .sig, .poll, .tick 0, .sig, .tick 0, .tick 0, .tick 0,
    .tick 0, .tick 0, .tick 0]).map (fun s => (s.pc, s.collections, s.raised)) =
    some (.ml, 1, 1) := by decide

example : Orderly init ([.force, .tick 0, .sig] ++ .poll :: [.tick 0, .sig, .tick 0, .tick 0]) :=
  fun p q s h1 h2 hb => by
    have := allSig_spec (fun s => !s.blocking || s.pc.waiting) _ init (by decide) p q s h1 h2
    simpa [hb] using this

/-- With the flag left set, a second signal can come between the test of
`force_minor_flag` and the collection: the collection is not done, and the
request is forgotten. -/
theorem C84_collection_violation :
    ∃ p s, run init p = some s ∧ signals p = 2 ∧ s.pc = .ml ∧ s.minor = false ∧
      s.collections = 0 ∧ Act.force ∈ p :=
  ⟨[.enter, .tick 0, .tick 0, .sig, .tick 0, .tick 0,
    .force, .tick 0, .poll, .tick 0, .tick 0, .sig, .tick 0, .tick 0], _, rfl, by decide, rfl,
    rfl, rfl, by decide⟩

/-! ## Input -/

/-- In ML code, every byte taken from a descriptor has been given to the program.
Partial: no signal arrives between the return of the system call and
`leave_blocking_section`; see `C84_input_violation`. -/
theorem C84_input_partial (as : List Act) (s : St) (hn : NoneAtReturn init as)
    (h : run init as = some s) (hpc : s.pc = .ml) : s.taken = s.given := by
  have := run_inv' (fun s => s.taken = s.given + s.pc.bytes) (fun s => ∀ k, s.pc ≠ .done k)
    (fun s a s' hI hok hs => bytes_step s a s' hI hok hs) as init s (by simp [init, PC.bytes])
    (fun p q s h1 h2 k => hn p q s k h1 h2) h
  simpa [hpc, PC.bytes] using this

example : (run init [.enter, .tick 0, .tick 0, .tick 5, .tick 0, .enter, .tick 0, .tick 0, .sig,
    .tick 0, .tick 0]).map (fun s => (s.pc, s.taken, s.given, s.raised)) = some (.ml, 5, 5, 1) := by
  decide

example : NoneAtReturn init [.enter, .tick 0, .tick 0, .tick 5, .tick 0, .enter, .tick 0, .tick 0,
    .sig, .tick 0, .tick 0] := fun p q s k h1 h2 => by
  have := allSig_spec (fun s => 
    match s.pc with | .done _ => false | _ => true) _ init (by decide) p q s h1 h2
  rintro hk
  simp [hk] at this

/-- A signal between the return of `read` and `leave_blocking_section` raises
Interrupt; the bytes read are lost. -/
theorem C84_input_violation :
    ∃ p s, run init p = some s ∧ signals p = 1 ∧ s.pc = .ml ∧ s.taken = 5 ∧ s.given = 0 :=
  ⟨[.enter, .tick 0, .tick 0, .tick 5, .sig, .tick 0, .tick 0], _, rfl, by decide, rfl, rfl, rfl⟩

end Mosml.Signals
