import Verif.Front.Static

/-!
# C61: the translation into the intermediate language keeps the meaning of expressions
-/

namespace Mosml.Front

/-- Nothing printed, no references. -/
def St.init {V : Type} : St V := ⟨[], []⟩

theorem StRel.init : StRel .init .init := ⟨.nil, rfl⟩

theorem EnvRel.nil : EnvRel [] [] [] := ⟨fun y pos h => by simp [look] at h, fun y pos v w h => by
  simp [look] at h⟩

/-- A closed expression. -/
abbrev Closed (e : Exp) : Prop := Good (fun _ => False) e

theorem Closed.scope {e} (h : Closed e) : Good (Scope []) e := h.mono fun _ h => h.elim

/-! ## The order of the translation -/

/-- Whatever an expression evaluates to, when the function and the arguments of each
application are evaluated, from left to right, before the function is called, its
translation evaluates to: the same value or the same exception, the same output, and the
same references with the same contents. -/
theorem C61_translation_computes_grouped_order {e : Exp} (hg : Closed e) {r st'}
    (h : Means .grouped [] e .init r st') :
    ∃ r' lst', Conv [] (trExp [] 0 e) .init r' lst' ∧ RRel r r' ∧ StRel st' lst' := by
  obtain ⟨n, h⟩ := h
  exact sim n _ _ _ _ _ h [] [] .init (esize e) .nil .init hg.scope (le_refl _)

/-- The same for an expression with free variables, in environments that agree, from
states that agree. -/
theorem C61_translation_in_context {ρ rho env st lst} (he : EnvRel ρ rho env) (hs : StRel st lst)
    {e : Exp} (hg : Good (Scope rho) e) {r st'} (h : Means .grouped ρ e st r st') :
    ∃ r' lst', Conv env (trExp rho env.length e) lst r' lst' ∧ RRel r r' ∧ StRel st' lst' := by
  obtain ⟨n, h⟩ := h
  exact sim n _ _ _ _ _ h rho env lst (esize e) he hs hg (le_refl _)

/-- The translation has no other result. -/
theorem C61_translation_has_no_other_result {e : Exp} (hg : Closed e) {r st'}
    (h : Means .grouped [] e .init r st') {r' lst'}
    (hc : Conv [] (trExp [] 0 e) .init r' lst') : RRel r r' ∧ st'.out = lst'.out := by
  obtain ⟨r2, lst2, c, rr, sr⟩ := C61_translation_computes_grouped_order hg h
  obtain ⟨rfl, rfl⟩ := hc.det c
  exact ⟨rr, sr.out⟩

mutual
/-- Data without functions, as the translation represents them. -/
def SVal.data : SVal → Option LVal
  | .int z => some (.int z)
  | .str s => some (.str s)
  | .loc l => some (.loc l)
  | .block t vs => (SVal.datas vs).map (.block t)
  | _ => none
def SVal.datas : List SVal → Option (List LVal)
  | [] => some []
  | v :: vs =>
    match v.data, SVal.datas vs with
    | some w, some ws => some (w :: ws)
    | _, _ => none
end

/-- For data, values that agree are equal. -/
theorem C61_related_data_are_equal (v : SVal) : ∀ w w', VRel v w → v.data = some w' → w = w' := by
  apply SVal.rec
    (motive_1 := fun v => ∀ w w', VRel v w → v.data = some w' → w = w')
    (motive_2 := fun vs => ∀ ws ws', List.Forall₂ VRel vs ws → SVal.datas vs = some ws' → ws = ws')
    (motive_3 := fun _ => True) (motive_4 := fun _ => True)
  case int => intro z w w' h e; cases h; rw [SVal.data] at e; cases e; rfl
  case str => intro z w w' h e; cases h; rw [SVal.data] at e; cases e; rfl
  case loc => intro z w w' h e; cases h; rw [SVal.data] at e; cases e; rfl
  case block =>
    intro t vs ih w w' h e
    cases h with
    | block hf =>
      simp only [SVal.data, Option.map_eq_some_iff] at e
      obtain ⟨ws', e1, rfl⟩ := e
      rw [ih _ _ hf e1]
  case clos => intro ρ x xs b _ w w' _ e; simp [SVal.data] at e
  case prim1 => intro k w w' _ e; simp [SVal.data] at e
  case prim2 => intro k w w' _ e; simp [SVal.data] at e
  case con => intro k w w' _ e; simp [SVal.data] at e
  case nil => intro ws ws' h e; cases h; rw [SVal.datas] at e; cases e; rfl
  case cons =>
    intro v vs ihv ihvs ws ws' h e
    cases h with
    | cons h1 h2 =>
      simp only [SVal.datas] at e
      split at e
      · rename_i a b ha hb
        cases e
        rw [ihv _ _ h1 ha, ihvs _ _ h2 hb]
      · simp at e
  all_goals intros; trivial

/-! ## The order of the language -/

/-- What is missing: programs in which a function is run by an application to which further
arguments are given that may have an effect (see the violation below), and programs in
which an argument without calls contains a loop.  For all others the translation has the
result that the Definition of Standard ML prescribes. -/
theorem C61_translation_computes_sml_order_partial {e : Exp} (hg : Closed e) {n r st'}
    (h : chk false n [] e .init = some (r, st')) :
    Means .sml [] e .init r st' ∧
    ∃ r' lst', Conv [] (trExp [] 0 e) .init r' lst' ∧ RRel r r' ∧ StRel st' lst' := by
  refine ⟨⟨n, chk_sml n _ _ _ _ _ h⟩, ?_⟩
  obtain ⟨m, h1⟩ := agree n n (le_refl _) false [] e .init _ h
  exact C61_translation_computes_grouped_order hg ⟨m, h1 m (le_refl _)⟩

/-- A program in which only the first argument of each application calls functions (in
particular one in which all functions take one argument, or a tuple) has the result that
the Definition prescribes. -/
theorem C61_mild_programs_keep_sml_order {e : Exp} (hg : Closed e) (hm : mild e = true) {r st'}
    (h : Means .sml [] e .init r st') :
    ∃ r' lst', Conv [] (trExp [] 0 e) .init r' lst' ∧ RRel r r' ∧ StRel st' lst' := by
  obtain ⟨n, h⟩ := h
  obtain ⟨c, _, _⟩ := succ_all n [] e .init r st' h hm (hg.mono fun _ h => h.elim)
    (fun y v h => by simp [look] at h) (fun v h => by simp [St.init] at h)
  exact (C61_translation_computes_sml_order_partial hg c).2

/-! ## A violation: curried functions with effects -/

/-- `let val f = fn x => (print "a"; fn y => y) in f 1 (print "b"; 2) end` -/
def curried : Exp :=
  .lett 0 (.fn 1 [] (.seq (.app (.prim1 .print) (.const (.str [97]))) (.fn 2 [] (.var 2))))
    (.app (.app (.var 0) (.const (.int 1)))
      (.seq (.app (.prim1 .print) (.const (.str [98]))) (.const (.int 2))))

theorem curried_closed : Closed curried := by
  refine .lett (.fn (.seq (.app .prim1 .const ?_ ?_ ?_) (.fn (.var (.inl rfl)))))
    (.app (.app (.var (.inl rfl)) .const ?_ ?_ ?_) (.seq (.app .prim1 .const ?_ ?_ ?_) .const)
      ?_ ?_ ?_) <;>
    first
      | (intro _; rfl)
      | (intro k h; simp [normApp] at h)

/-- A curried function that prints, applied to two arguments: the Definition prescribes
that "a" is printed before "b", but the translation prints "b" before "a". -/
theorem C61_curried_calls_run_late_violation :
    Closed curried ∧
    Means .sml [] curried .init (.val (.int 2)) ⟨[], [[97], [98]]⟩ ∧
    ∃ r' lst', Conv [] (trExp [] 0 curried) .init r' lst' ∧ lst'.out = [[98], [97]] := by
  refine ⟨curried_closed, ⟨9, rfl⟩, ?_⟩
  obtain ⟨r', lst', c, _, sr⟩ := C61_translation_computes_grouped_order curried_closed
    (r := .val (.int 2)) (st' := ⟨[], [[98], [97]]⟩) ⟨9, rfl⟩
  exact ⟨r', lst', c, sr.out.symm⟩

/-- Both orders differ in the result, too: `f 1 (raise 2)` where `f` raises `3`. -/
def curriedRaise : Exp :=
  .lett 0 (.fn 1 [] (.raise (.const (.int 3))))
    (.app (.app (.var 0) (.const (.int 1))) (.raise (.const (.int 2))))

theorem C61_curried_calls_raise_late_violation :
    Closed curriedRaise ∧
    Means .sml [] curriedRaise .init (.exn (.int 3)) .init ∧
    ∃ lst', Conv [] (trExp [] 0 curriedRaise) .init (.exn (.int 2)) lst' := by
  have hc : Closed curriedRaise := by
    refine .lett (.fn (.raise .const)) (.app (.app (.var (.inl rfl)) .const ?_ ?_ ?_)
      (.raise .const) ?_ ?_ ?_) <;>
    first
      | (intro _; rfl)
      | (intro k h; simp [normApp] at h)
      | (intro h; simp [isSafe] at h)
  refine ⟨hc, ⟨9, rfl⟩, ?_⟩
  obtain ⟨r', lst', c, rr, sr⟩ := C61_translation_computes_grouped_order hc
    (r := .exn (.int 2)) (st' := .init) ⟨9, rfl⟩
  cases rr with
  | exn hx => cases hx; exact ⟨lst', c⟩

/-! ## A violation: loops count as safe -/

/-- `(fn x => fn y => x) (raise 1) (while true do ())` -/
def raiseThenLoop : Exp :=
  .app (.app (.fn 0 [] (.fn 1 [] (.var 0))) (.raise (.const (.int 1))))
    (.whil (.const (.block 1 [])) (.const (.block 0 [])))

theorem loop_none (k : Nat) : ∀ env st,
    lev k env (.whil (.const (.block 1 [])) (.const (.block 0 []))) st = none := by
  induction k with
  | zero => intro env st; rfl
  | succ k ih =>
    intro env st
    rw [lev]
    cases k with
    | zero => rfl
    | succ k =>
      simp only [lev, thenDo_val, Const.toL, Const.toLs, ltruth, if_true]
      have := ih env st
      simpa [lev, Const.toL, Const.toLs, ltruth] using this

/-- The first argument raises an exception, so the program ends in both orders (and in
that of the Definition), but its translation evaluates the loop first and never ends. -/
theorem C61_loops_are_moved_violation :
    Means .sml [] raiseThenLoop .init (.exn (.int 1)) .init ∧
    Means .grouped [] raiseThenLoop .init (.exn (.int 1)) .init ∧
    ∀ k, lev k [] (trExp [] 0 raiseThenLoop) .init = none := by
  refine ⟨⟨9, rfl⟩, ⟨9, rfl⟩, fun k => ?_⟩
  have ht : trExp [] 0 raiseThenLoop =
      .apply (.fn (.fn (.var 1))) [.prim .raise [.const (.int 1)],
        .whil (.const (.block 1 [])) (.const (.block 0 []))] := rfl
  rw [ht]
  cases k with
  | zero => rfl
  | succ k => simp [lev, evalRL, loop_none]

/-! ## Examples: the hypotheses hold -/

/-- `(print "a"; 1) + (print "b"; 2)`, as `op + (e1, e2)`. -/
def exSum : Exp :=
  .app (.prim2 .add) (.tuple [
    .seq (.app (.prim1 .print) (.const (.str [97]))) (.const (.int 1)),
    .seq (.app (.prim1 .print) (.const (.str [98]))) (.const (.int 2))])

example : Closed exSum ∧
    chk false 9 [] exSum .init = some (.val (.int 3), ⟨[], [[97], [98]]⟩) := by
  refine ⟨.app .prim2 (.tuple ?_ ?_) ?_ ?_ ?_, rfl⟩
  · intro e he
    simp only [List.mem_cons, List.not_mem_nil, or_false] at he
    rcases he with rfl | rfl
    all_goals
      refine .seq (.app .prim1 .const ?_ ?_ ?_) .const <;>
      first
        | (intro _; rfl)
        | (intro k h; simp [normApp] at h)
  · intro e he
    simp only [List.mem_cons, List.not_mem_nil, or_false] at he
    rcases he with rfl | rfl <;> intro h <;> simp [isSafe] at h
  · intro _; rfl
  · intro h; simp [isSafe, isSafes] at h
  · intro k h; simp [normApp] at h

/-- A curried function of two arguments with effects in the arguments: `chk` accepts it. -/
def exTwo : Exp :=
  .app (.app (.fn 0 [1] (.app (.prim2 .add) (.tuple [.var 0, .var 1])))
    (.seq (.app (.prim1 .print) (.const (.str [97]))) (.const (.int 1))))
    (.seq (.app (.prim1 .print) (.const (.str [98]))) (.const (.int 2)))

example : chk false 9 [] exTwo .init = some (.val (.int 3), ⟨[], [[97], [98]]⟩) := rfl
example : chk false 9 [] curried .init = none := rfl
example : mild exSum = true ∧ mild exTwo = false ∧ mild curried = false := ⟨rfl, rfl, rfl⟩

end Mosml.Front
