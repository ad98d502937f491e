import Verif.Lazy.Lemmas
import Verif.Lazy.Registry

/-!
# C86: suspensions; C87: the registry of ML values
-/

namespace Mosml.Lazy

variable {S V X P : Type}

/-! ## C86 -/

/-- `delay` evaluates nothing, and a suspension is evaluated only when `force` is
called on it: `force` is called before every evaluation. -/
theorem C86_lazy (n : Nat) (c : Comp S V X) (H : List (Cell S V X)) (s : S) (r : Run S V X)
    (h : run n c H s = some r) (i : Nat) (t1 t2 : List (Event V X))
    (ht : r.trace = t1 ++ .start i :: t2) : .call i ∈ t1 :=
  (eval_begun (run_eval n c H s r h) i).2 t1 t2 ht

/-- A program that uses its suspension twice: `delay (fn () => (s := !s + 1; 7))`. -/
def twice : Comp Nat Nat Nat :=
  .delay (.act (· + 1) fun _ => .ret 7) fun i => .bind (.force i) fun _ => .force i

example : (run 10 twice [] 0).map (fun r => (r.state, r.out, r.trace)) =
    some (1, .ok 7, [.call 0, .start 0, .done 0 7, .forced 0 7, .call 0, .forced 0 7]) := by
  decide +kernel

/-- Once the expression of a suspension has been evaluated to a value it is never
evaluated again, in any program, with any effects, exceptions and handlers, and also
if the expression forces other suspensions or itself. -/
theorem C86_never_again (n : Nat) (c : Comp S V X) (H : List (Cell S V X)) (s : S) (r : Run S V X)
    (h : run n c H s = some r) (i : Nat) (v : V) (t1 t2 : List (Event V X))
    (ht : r.trace = t1 ++ .done i v :: t2) : .start i ∉ t2 :=
  eval_again (run_eval n c H s r h) i v t1 t2 ht

example : ∃ r, run 10 twice [] 0 = some r ∧
    r.trace = [.call 0, .start 0] ++ .done 0 7 :: [.forced 0 7, .call 0, .forced 0 7] :=
  ⟨⟨[.val 7], 1, .ok 7, _⟩, rfl, rfl⟩

/-- Unless the expression forces its own suspension, it is evaluated to a value at
most once, and all calls of `force` that return, in the whole program, return that
value, and do so after that evaluation.  (All programs start without suspensions.)
What is missing: expressions that force their own suspension, and expressions that
raise exceptions may be evaluated more than once (see the violations). -/
theorem C86_once_partial (n : Nat) (c : Comp S V X) (s : S) (r : Run S V X)
    (h : run n c [] s = some r) (i : Nat) (hr : ¬ Reentrant i r.trace) :
    ((∀ v, .done i v ∉ r.trace) ∧ ∀ v, .forced i v ∉ r.trace) ∨
    ∃ v t1 t2, r.trace = t1 ++ .done i v :: t2 ∧ (∀ w, .done i w ∉ t1 ++ t2) ∧
      (∀ w, .forced i w ∉ t1) ∧ (∀ w, .forced i w ∈ t2 → w = v) ∧ .start i ∉ t2 := by
  have he := run_eval n c [] s r h
  rcases eval_once he i hr (by simp) with ⟨-, h2, h3⟩ | ⟨v, t1, t2, -, h2, h3, h4, h5⟩
  · exact .inl ⟨h2, h3⟩
  · exact .inr ⟨v, t1, t2, h2, h3, h4, h5, eval_again he i v t1 t2 h2⟩

example : ∃ r, run 10 twice [] 0 = some r ∧ ¬ Reentrant 0 r.trace := by
  refine ⟨⟨[.val 7], 1, .ok 7, _⟩, rfl, ?_⟩
  rintro ⟨t1, t2, t3, h, -, -⟩
  have := congrArg (List.count (Event.start 0)) h
  simp only [List.count_append, List.count_cons] at this
  simp at this
  omega

/-- The first `force` evaluates the expression, in the state at that time, and has its
outcome; a later one has the same value and no effect. -/
theorem C86_force (n : Nat) (c : Comp S V X) (H : List (Cell S V X)) (s : S) (i : Nat)
    (hi : H[i]? = some (.thunk c)) (r : Run S V X) (hc : run n c H s = some r) :
    ∃ r1, run (n + 1) (.force i) H s = some r1 ∧ r1.out = r.out ∧ r1.state = r.state ∧
      ∀ v, r.out = .ok v → ∀ m s2, ∃ r2,
        run (m + 1) (.force i) r1.heap s2 = some r2 ∧ r2.out = .ok v ∧ r2.state = s2 ∧
          r2.heap = r1.heap := by
  have hl := eval_length (run_eval n c H s r hc)
  have hlt : i < r.heap.length := by
    rcases Nat.lt_or_ge i H.length with h | h
    · omega
    · rw [List.getElem?_eq_none h] at hi; simp at hi
  obtain ⟨H1, s1, o, t⟩ := r
  simp only [run, hi, hc]
  cases o with
  | exn x => exact ⟨_, rfl, rfl, rfl, by simp⟩
  | ok v =>
    refine ⟨_, rfl, rfl, rfl, ?_⟩
    intro w hw m s2
    simp only [Out.ok.injEq] at hw
    subst hw
    simp only [List.getElem?_set_self hlt]
    exact ⟨_, rfl, rfl, rfl, rfl⟩

example : ∃ r, run 2 (.act (· + 1) fun _ => .ret 7 : Comp Nat Nat Nat)
    [.thunk (.act (· + 1) fun _ => .ret 7)] 0 = some r ∧ r.out = .ok 7 :=
  ⟨_, rfl, rfl⟩

/-- Susp.sig: "e is evaluated at most once", "all subsequent forcing of the suspension
will just return this result".  An expression that forces its own suspension when it
is evaluated for the first time is evaluated twice, and `force` returns 10, and
afterwards 11. -/
theorem C86_reentrant_violation :
    let e : Comp Bool Nat Nat := .act (fun _ => true) fun s =>
      if s then .ret 10 else .bind (.force 0) fun v => .ret (v + 1)
    ∃ r, run 10 (.delay e fun i => .bind (.force i) fun _ => .force i) [] false = some r ∧
      r.trace = [.call 0, .start 0, .call 0, .start 0, .done 0 10, .forced 0 10, .done 0 11,
        .forced 0 11, .call 0, .forced 0 11] :=
  ⟨⟨[.val 11], true, .ok 11, _⟩, rfl, rfl⟩

/-- An expression that raises an exception is evaluated again by the next `force`. -/
theorem C86_exception_violation :
    let e : Comp Nat Nat Nat := .act (· + 1) fun s => .raise s
    ∃ r, run 10 (.delay e fun i => .handle (.force i) fun _ => .force i) [] 0 = some r ∧
      r.state = 2 ∧ r.out = .exn 1 ∧
      r.trace = [.call 0, .start 0, .failed 0 0, .call 0, .start 0, .failed 0 1] :=
  ⟨⟨_, 2, .exn 1, _⟩, rfl, rfl, rfl, rfl⟩

/-! ## C87 -/

theorem inv_of (ops : List (Op V P)) : Inv (after Registry.empty ops) ops.reverse := by
  simpa using inv_after ops _ [] inv_empty

theorem agrees_getD {σ : Registry V P} {nam : Name} {st : Status V} (h : Agrees σ nam st) :
    (∀ v, st = .registered v → ∃ r, σ.table nam = some r ∧ σ.refs.getD r none = some v) ∧
    (st = .unregistered → ∃ r, σ.table nam = some r ∧ σ.refs.getD r none = none) ∧
    (st = .never → σ.table nam = none) := by
  refine ⟨fun v hv => ?_, fun hv => ?_, fun hv => ?_⟩ <;> subst hv <;> simp only [Agrees] at h
  · obtain ⟨r, h1, h2, h3⟩ := h
    exact ⟨r, h1, by rw [List.getD_eq_getElem?_getD, h3]; rfl⟩
  · obtain ⟨r, h1, h2, h3⟩ := h
    exact ⟨r, h1, by rw [List.getD_eq_getElem?_getD, h3]; rfl⟩
  · exact h

/-- After any operations, from ML and from C: `register` raises Fail exactly if the
name is registered, `unregister` exactly if it never was, `isRegistered` decides
whether it is, and `get_valueptr` returns NULL exactly if it is not. -/
theorem C87_registry (ops : List (Op V P)) (nam : Name) (v : V) :
    let σ := after Registry.empty ops
    match statusOf nam ops.reverse with
    | .never => (register σ nam v).2 = .unit ∧ (unregister σ nam).2 = .fail ∧
        isRegistered σ nam = false ∧ getValueptr σ nam = none
    | .unregistered => (register σ nam v).2 = .unit ∧ (unregister σ nam).2 = .unit ∧
        isRegistered σ nam = false ∧ getValueptr σ nam = none
    | .registered _ => (register σ nam v).2 = .fail ∧ (unregister σ nam).2 = .unit ∧
        isRegistered σ nam = true ∧ getValueptr σ nam ≠ none := by
  intro σ
  have hi : Inv σ ops.reverse := inv_of ops
  have h1 := (inv_register hi nam v).2
  have h2 := (inv_unregister hi nam).2
  obtain ⟨g1, g2, g3⟩ := agrees_getD (hi.agrees nam)
  cases hs : statusOf nam ops.reverse with
  | never =>
    rw [hs] at h1 h2
    have := g3 hs
    exact ⟨h1, h2, by simp [isRegistered, this], by simp [getValueptr, this]⟩
  | unregistered =>
    rw [hs] at h1 h2
    obtain ⟨r, h3, h4⟩ := g2 hs
    exact ⟨h1, h2, by simp [isRegistered, h3, h4, -List.getD_eq_getElem?_getD],
      by simp [getValueptr, h3, h4, -List.getD_eq_getElem?_getD]⟩
  | registered w =>
    rw [hs] at h1 h2
    obtain ⟨r, h3, h4⟩ := g1 w hs
    exact ⟨h1, h2, by simp [isRegistered, h3, h4, -List.getD_eq_getElem?_getD],
      by simp [getValueptr, h3, h4, -List.getD_eq_getElem?_getD]⟩

example : statusOf [65] ([.register [65] 1, .unregister [65], .register [65] 2] :
    List (Op Nat Nat)).reverse = .registered 2 := rfl

/-- A value pointer that C code has obtained for a name is good for ever: at any later
time it gives the value registered under that name at that time, also after the name
has been unregistered and registered again, and NULL while it is unregistered; a name
keeps its pointer, and different names have different ones. -/
theorem C87_pointer (ops ops2 : List (Op V P)) (nam : Name) (r : Nat)
    (h : getValueptr (after Registry.empty ops) nam = some r) :
    getValue (after Registry.empty (ops ++ ops2)) (some r) =
      .val (match statusOf nam (ops ++ ops2).reverse with
        | .registered v => some v
        | _ => none) ∧
    (∀ p, getValueptr (after Registry.empty (ops ++ ops2)) nam = some p → p = r) ∧
    ∀ n, getValueptr (after Registry.empty (ops ++ ops2)) n = some r → n = nam := by
  have valueptr : ∀ (σ : Registry V P) n p, getValueptr σ n = some p → σ.table n = some p := by
    intro σ n p hp
    unfold getValueptr at hp
    split at hp
    · split at hp
      · simp only [Option.some.injEq] at hp; subst hp; assumption
      · simp at hp
    · simp at hp
  have ht : (after Registry.empty (ops ++ ops2) : Registry V P).table nam = some r := by
    have := table_after ops2 nam r _ (valueptr _ _ _ h)
    simpa [after] using this
  have hi : Inv (after Registry.empty (ops ++ ops2) : Registry V P) _ := inv_of (ops ++ ops2)
  obtain ⟨g1, g2, g3⟩ := agrees_getD (hi.agrees nam)
  refine ⟨?_, fun p hp => ?_, fun n hn => hi.inj n nam r (valueptr _ _ _ hn) ht⟩
  · unfold getValue
    cases hs : statusOf nam (ops ++ ops2).reverse with
    | never => rw [g3 hs] at ht; simp at ht
    | unregistered =>
      obtain ⟨q, h3, h4⟩ := g2 hs
      rw [h3] at ht; simp only [Option.some.injEq] at ht; subst ht
      simp only [h4]
    | registered w =>
      obtain ⟨q, h3, h4⟩ := g1 w hs
      rw [h3] at ht; simp only [Option.some.injEq] at ht; subst ht
      simp only [h4]
  · have := valueptr _ _ _ hp
    rw [ht] at this
    simpa using this.symm

example : getValueptr (after Registry.empty [.register [65] 1, .register [66] 2] :
    Registry Nat Nat) [66] = some 1 := by decide +kernel

/-- `get_value` of the null pointer raises Fail. -/
theorem C87_null (σ : Registry V P) : getValue σ none = .fail := rfl

/-- A C pointer is found under the name under which it was registered first, and
registering another one under that name raises Fail. -/
theorem C87_cptr (ops : List (Op V P)) (nam : Name) (p : P) :
    let σ := after Registry.empty ops
    match firstCptr nam ops with
    | none => getcptr σ nam = .fail ∧ (registercptr σ nam p).2 = .unit
    | some q => getcptr σ nam = .cptr q ∧ (registercptr σ nam p).2 = .fail := by
  intro σ
  have hi : Inv σ ops.reverse := inv_of ops
  have h1 := (inv_registercptr hi nam p).2
  have h2 := hi.cptr nam
  rw [List.reverse_reverse] at h1 h2
  cases hs : firstCptr nam ops with
  | none => rw [hs] at h1 h2; exact ⟨by simp [getcptr, h2], h1⟩
  | some q => rw [hs] at h1 h2; exact ⟨by simp [getcptr, h2], h1⟩

example : firstCptr [65] ([.registercptr [65] 1, .registercptr [65] 2] : List (Op Nat Nat)) =
    some 1 := rfl

/-- The C function `registervalue` does what `register` does as long as
"Callback.register" (`name`) itself is registered: `reg` was obtained for it by
`sml_init_register`. -/
theorem C87_registervalue_partial (ops ops2 : List (Op V P)) (name nam : Name) (reg : Nat) (v w : V)
    (h : getValueptr (after Registry.empty ops) name = some reg)
    (hs : statusOf name (ops ++ ops2).reverse = .registered w) :
    registervalue (some reg) (after Registry.empty (ops ++ ops2)) nam v =
      register (after Registry.empty (ops ++ ops2) : Registry V P) nam v := by
  have := (C87_pointer ops ops2 name reg h).1
  rw [hs] at this
  simp only [registervalue, this]

example : statusOf [65] ([.register [65] 1, .register [66] 2] : List (Op Nat Nat)).reverse =
    .registered 1 := rfl

/-- "Callback.register" can be unregistered from ML like any other name; then
`registervalue` calls the interpreter with the null pointer as closure, where
`callbackptr` and its relatives raise Fail. -/
theorem C87_registervalue_violation (name nam : Name) (f v : V) :
    registervalue (some 0) (after Registry.empty [.register name f, .unregister name] : Registry V P)
      nam v = (after Registry.empty [.register name f, .unregister name], .crash) := by
  simp [registervalue, after, step, register, unregister, peekInsert, Registry.empty, getValue]

end Mosml.Lazy
