import Verif.Zam.World

/-!
# Continuations
-/

namespace Mosml.Zam

/-- The operand of the `RETURN` at the start of the code. -/
def retOf : Code → Option Nat
  | .ret n :: _ => some n
  | .label _ :: .ret n :: _ => some n
  | _ => none

theorem isReturn_iff (C : Code) : isReturn C = (retOf C).isSome := by
  unfold isReturn retOf
  split <;> simp_all

/-- What the code generator makes before it calls itself: `POP` is not followed
by code that it could be joined with, and after a conditional branch the
accumulator is not looked at. -/
structure COk (L : Nat → Option Code) (C : Code) : Prop where
  pop : ∀ m C1, C = .pop m :: C1 →
    retOf C1 = none ∧ (∀ m' C2, C1 ≠ .pop m' :: C2) ∧ (∀ C2, C1 ≠ .raise :: C2)
  brif : ∀ l C1, C = .branchif l :: C1 → LabIrr L l ∧ AccIrr L C1
  brifnot : ∀ l C1, C = .branchifnot l :: C1 → LabIrr L l ∧ AccIrr L C1
  branch : ∀ l C1, C = .branch l :: C1 → ∃ c, L l = some c

theorem cok_of {L i C} (h1 : ∀ m, i ≠ .pop m) (h2 : ∀ l, i ≠ .branchif l)
    (h3 : ∀ l, i ≠ .branchifnot l) (h4 : ∀ l, i ≠ .branch l) : COk L (i :: C) := by
  constructor
  · intro m C1 h; cases h; exact absurd rfl (h1 m)
  · intro l C1 h; cases h; exact absurd rfl (h2 l)
  · intro l C1 h; cases h; exact absurd rfl (h3 l)
  · intro l C1 h; cases h; exact absurd rfl (h4 l)

theorem cok_irr {L C} (h : AccIrr L C) : COk L C := by
  cases h with
  | pop h =>
    refine ⟨?_, by simp, by simp, by simp⟩
    intro m C1 heq
    cases heq
    exact ⟨rfl, by simp, by simp⟩
  | branch h1 h2 =>
    refine ⟨by simp, by simp, by simp, ?_⟩
    intro l C1 heq
    cases heq
    exact ⟨_, h1⟩
  | _ => exact cok_of (by simp) (by simp) (by simp) (by simp)

theorem irr_retOf {L C} (h : AccIrr L C) : retOf C = none := by
  cases h with
  | label h => cases h <;> rfl
  | _ => rfl

/-- Where a value goes: to the code `C` with the stack as it was, or to the
caller, after pending arguments have been met. -/
inductive Mode (C : Code) (F : Fr) (W : List Val) :
    List Val → (MVal → List Obj → State) → Prop
  | ord : retOf C = none → Mode C F W [] (fun w h => F.st C w h)
  | ret {xs ms S0} : retOf C = some F.sz → F.S.drop F.sz = ms.map .v ++ S0 → VRels W xs ms →
      F.extra = xs.length → F.trap ≤ S0.length →
      Mode C F W xs (fun w h => ⟨[.ret 0], w, munit, S0, 0, F.trap, h⟩)

theorem Mode.mono {C F W W' xs tgt} (hW : W <+: W') (h : Mode C F W xs tgt) : Mode C F W' xs tgt := by
  cases h with
  | ord h1 => exact .ord h1
  | ret h1 h2 h3 h4 h5 => exact .ret h1 h2 (h3.mono hW) h4 h5

/-- An exception is raised. -/
abbrev raised (F : Fr) (x : MVal) (h : List Obj) : State := F.st [.raise] x h

/-- How an evaluation ends. -/
def Post (L : Nat → Option Code) (W : List Val) (h : List Obj) (F : Fr)
    (tgt : MVal → List Obj → State) (start : State) : Res → Prop
  | .val w => ∃ w', VRel W w w' ∧ ∀ fin, Halts L (tgt w' h) fin → Halts L start fin
  | .exn x => ∃ x', VRel W x x' ∧ ∀ fin, Halts L (raised F x' h) fin → Halts L start fin
  | .fail => F.sfb = true ∧ ∃ l tsz c acc, F.sf = some (l, tsz) ∧ L l = some c ∧
      ∀ fin, Halts L ⟨c, acc, F.env, F.S.drop (F.sz - tsz), F.extra, F.trap, h⟩ fin → Halts L start fin

def Concl (L : Nat → Option Code) (T : List Func) (W : List Val) (h : List Obj) (F : Fr)
    (tgt : MVal → List Obj → State) (start : State) (r : Res) : Prop :=
  ∃ W' h', W <+: W' ∧ h <+: h' ∧ HOk L T W' h' ∧ Post L W' h' F tgt start r

/-- Static failure goes to a label with less on the stack. -/
structure SfOk (L : Nat → Option Code) (F : Fr) : Prop where
  lab : ∀ l tsz, F.sf = some (l, tsz) → tsz ≤ F.sz ∧ LabIrr L l
  some : F.sfb = true → ∃ l tsz, F.sf = some (l, tsz)

theorem SfOk.irr {L F} (h : SfOk L F) : SfIrr L F.sf := fun l tsz hl => (h.lab l tsz hl).2

theorem SfOk.push {L F} (h : SfOk L F) (X) : SfOk L (F.push X) := by
  refine ⟨?_, h.some⟩
  intro l tsz hl
  have := h.lab l tsz hl
  exact ⟨by simp only [Fr.push]; omega, this.2⟩

structure FOk (L : Nat → Option Code) (W : List Val) (h : List Obj) (ce : CEnv) (d : Nat)
    (ρ : List Val) (F : Fr) : Prop where
  env : EnvRel W h ce d ρ F
  sf : SfOk L F
  trap : F.trap ≤ F.S.length

theorem FOk.push {L W h ce d ρ F} (hF : FOk L W h ce d ρ F) (X) : FOk L W h ce d ρ (F.push X) :=
  ⟨hF.env.push X, hF.sf.push X, by have := hF.trap; simp only [Fr.push, List.length_append]; omega⟩

theorem FOk.mono {L W W' h h' ce d ρ F} (hW : W <+: W') (hh : h <+: h')
    (hF : FOk L W h ce d ρ F) : FOk L W' h' ce d ρ F :=
  ⟨hF.env.mono hW hh, hF.sf, hF.trap⟩

theorem FOk.bind {L W h ce d ρ F v x} (hF : FOk L W h ce d ρ F) (hv : VRel W v x) :
    FOk L W h (bind ce d (F.sz + 1)) (d + 1) (v :: ρ) (F.push [.v x]) :=
  ⟨hF.env.bind hv, hF.sf.push _, (hF.push [.v x]).trap⟩

theorem drop_app {α} (X S : List α) (n : Nat) : (X ++ S).drop (X.length + n) = S.drop n := by
  rw [← List.drop_drop, List.drop_left]

/-! ## Steps -/

/-- What is above the trap does not matter to an exception. -/
theorem doRaise_deeper {x} {s t : State} {X : List Slot} (h1 : s.stack = X ++ t.stack)
    (h2 : s.trap = t.trap) (h3 : s.heap = t.heap) (h4 : t.trap ≤ t.stack.length) :
    doRaise x s = doRaise x t := by
  simp only [doRaise, h1, h2, h3, List.length_append]
  rw [show X.length + t.stack.length - t.trap = X.length + (t.stack.length - t.trap) by omega]
  rw [drop_app]

theorem raise_deeper {L C C' x env env' extra extra' trap h S fin} (X : List Slot)
    (ht : trap ≤ S.length) (hh : Halts L ⟨.raise :: C, x, env, S, extra, trap, h⟩ fin) :
    Halts L ⟨.raise :: C', x, env', X ++ S, extra', trap, h⟩ fin := by
  refine halts_congr ?_ hh
  simp only [step]
  exact doRaise_deeper rfl rfl rfl ht

theorem halts_label {L l C acc env S extra trap h fin}
    (hh : Halts L ⟨.label l :: C, acc, env, S, extra, trap, h⟩ fin) :
    Halts L ⟨C, acc, env, S, extra, trap, h⟩ fin := by
  cases hh with
  | halt h1 => cases h1
  | uncaught h1 => cases h1
  | next h1 h2 => cases h1; exact h2

theorem halts_branch {L l c C acc env S extra trap h fin} (hl : L l = some c)
    (hh : Halts L ⟨.branch l :: C, acc, env, S, extra, trap, h⟩ fin) :
    Halts L ⟨c, acc, env, S, extra, trap, h⟩ fin := by
  cases hh with
  | halt h1 => simp only [step, jump, hl] at h1; cases h1
  | uncaught h1 => simp only [step, jump, hl] at h1; cases h1
  | next h1 h2 => simp only [step, jump, hl] at h1; cases h1; exact h2

theorem halts_branch_some {L l C acc env S extra trap h fin}
    (hh : Halts L ⟨.branch l :: C, acc, env, S, extra, trap, h⟩ fin) : ∃ c, L l = some c := by
  cases hl : L l with
  | some c => exact ⟨c, rfl⟩
  | none =>
    cases hh with
    | halt h1 => simp only [step, jump, hl] at h1; cases h1
    | uncaught h1 => simp only [step, jump, hl] at h1; cases h1
    | next h1 h2 => simp only [step, jump, hl] at h1; cases h1

theorem jump_halts {L l c C acc env S extra trap h fin} (hl : L l = some c)
    (hh : Halts L ⟨c, acc, env, S, extra, trap, h⟩ fin) :
    Halts L ⟨.branch l :: C, acc, env, S, extra, trap, h⟩ fin := by
  refine .next ?_ hh
  simp only [step, jump, hl]

/-! ## Ends of evaluations -/

theorem Concl.base {L T W W1 h h1 F tgt start r} (hW : W <+: W1) (hh : h <+: h1)
    (hc : Concl L T W1 h1 F tgt start r) : Concl L T W h F tgt start r := by
  obtain ⟨W', h', a, b, c⟩ := hc
  exact ⟨W', h', hW.trans a, hh.trans b, c⟩

theorem Concl.start {L T W h F tgt start start1 r} (hc : Concl L T W h F tgt start1 r)
    (hs : ∀ fin, Halts L start1 fin → Halts L start fin) : Concl L T W h F tgt start r := by
  obtain ⟨W', h', a, b, c, d⟩ := hc
  refine ⟨W', h', a, b, c, ?_⟩
  cases r with
  | val w => obtain ⟨w', h1, h2⟩ := d; exact ⟨w', h1, fun fin hf => hs _ (h2 fin hf)⟩
  | exn w => obtain ⟨w', h1, h2⟩ := d; exact ⟨w', h1, fun fin hf => hs _ (h2 fin hf)⟩
  | fail =>
    obtain ⟨h1, l, tsz, cc, acc, h2, h3, h4⟩ := d
    exact ⟨h1, l, tsz, cc, acc, h2, h3, fun fin hf => hs _ (h4 fin hf)⟩

theorem Concl.tgt {L T W h F tgt tgt1 start r} (hc : Concl L T W h F tgt1 start r)
    (ht : ∀ w h fin, Halts L (tgt w h) fin → Halts L (tgt1 w h) fin) :
    Concl L T W h F tgt start r := by
  obtain ⟨W', h', a, b, c, d⟩ := hc
  refine ⟨W', h', a, b, c, ?_⟩
  cases r with
  | val w => obtain ⟨w', h1, h2⟩ := d; exact ⟨w', h1, fun fin hf => h2 fin (ht _ _ _ hf)⟩
  | exn w => exact d
  | fail => exact d

/-- Without a value, it does not matter where a value would go. -/
theorem Concl.any {L T W h F tgt tgt1 start r} (hc : Concl L T W h F tgt1 start r)
    (hr : ∀ v, r ≠ .val v) : Concl L T W h F tgt start r := by
  obtain ⟨W', h', a, b, c, d⟩ := hc
  refine ⟨W', h', a, b, c, ?_⟩
  cases r with
  | val w => exact absurd rfl (hr w)
  | exn w => exact d
  | fail => exact d

/-- An evaluation with more on the stack that ends without a value. -/
theorem Concl.stop {L T W h F X tgt tgt1 start r} (hc : Concl L T W h (F.push X) tgt1 start r)
    (hr : ∀ v, r ≠ .val v) (hsf : SfOk L F) (ht : F.trap ≤ F.S.length) :
    Concl L T W h F tgt start r := by
  obtain ⟨W', h', a, b, c, d⟩ := hc
  refine ⟨W', h', a, b, c, ?_⟩
  cases r with
  | val w => exact absurd rfl (hr w)
  | exn w =>
    obtain ⟨w', h1, h2⟩ := d
    exact ⟨w', h1, fun fin hf => h2 fin (raise_deeper X ht hf)⟩
  | fail =>
    obtain ⟨h1, l, tsz, cc, acc, h2, h3, h4⟩ := d
    refine ⟨h1, l, tsz, cc, acc, h2, h3, fun fin hf => h4 fin ?_⟩
    have := (hsf.lab l tsz h2).1
    simp only [Fr.push]
    rw [show F.sz + X.length - tsz = X.length + (F.sz - tsz) by omega, drop_app]
    exact hf

/-- The same for a call: its frame is below. -/
theorem Concl.call {L T W h F S0 tgt start r}
    (hc : Concl L T W h ⟨false, none, 0, munit, S0, 0, F.trap⟩ tgt start r)
    (X : List Slot) (hS : F.S = X ++ S0) (ht : F.trap ≤ S0.length) :
    Concl L T W h F tgt start r := by
  obtain ⟨W', h', a, b, c, d⟩ := hc
  refine ⟨W', h', a, b, c, ?_⟩
  cases r with
  | val w => exact d
  | exn w =>
    obtain ⟨w', h1, h2⟩ := d
    refine ⟨w', h1, fun fin hf => h2 fin ?_⟩
    unfold raised at hf ⊢
    refine halts_congr ?_ hf
    simp only [step]
    exact (doRaise_deeper (X := X) (s := raised F w' h')
      (t := ⟨[.raise], w', munit, S0, 0, F.trap, h'⟩) hS rfl rfl ht).symm
  | fail => exact absurd d.1 (by simp)

theorem Concl.call' {L T W h F X tgt start r}
    (hc : Concl L T W h ⟨false, none, 0, munit, X ++ F.S, 0, F.trap⟩ tgt start r)
    (ht : F.trap ≤ F.S.length) :
    Concl L T W h F tgt start r := by
  obtain ⟨W', h', a, b, c, d⟩ := hc
  refine ⟨W', h', a, b, c, ?_⟩
  cases r with
  | val w => exact d
  | exn w =>
    obtain ⟨w', h1, h2⟩ := d
    refine ⟨w', h1, fun fin hf => h2 fin ?_⟩
    exact raise_deeper X ht hf
  | fail => exact absurd d.1 (by simp)

/-! ## The helpers of the code generator -/

theorem retOf_label {l C} (h : ∀ l' C', C ≠ .label l' :: C') : retOf (.label l :: C) = retOf C := by
  match C with
  | [] => rfl
  | .label l' :: C' => exact absurd rfl (h l' C')
  | .ret n :: C' => rfl
  | .quote _ :: _ | .access _ :: _ | .envacc _ :: _ | .getfield _ :: _ | .push :: _ | .pop _ :: _
  | .restart :: _ | .grab _ :: _ | .apply _ :: _ | .appterm _ _ :: _ | .pushRetaddr _ :: _
  | .closure _ _ :: _ | .closurerec _ _ :: _ | .raise :: _ | .makeblock _ _ :: _
  | .prim _ :: _ | .pushtrap _ :: _ | .poptrap :: _ | .branch _ :: _ | .branchif _ :: _
  | .branchifnot _ :: _ | .strictbranchif _ :: _ | .strictbranchifnot _ :: _ | .test _ _ :: _
  | .fatal :: _ => rfl

theorem mode_label {C F W xs tgt l} (h : ∀ l' C', C ≠ .label l' :: C') (hm : Mode C F W xs tgt) :
    ∃ tgt', Mode (.label l :: C) F W xs tgt' ∧
      ∀ L w h fin, Halts L (tgt w h) fin → Halts L (tgt' w h) fin := by
  have hr := retOf_label (l := l) h
  cases hm with
  | ord h1 =>
    refine ⟨_, .ord (hr.trans h1), ?_⟩
    intro L w h fin hf
    exact .next rfl hf
  | ret h1 h2 h3 h4 h5 => exact ⟨_, .ret (hr.trans h1) h2 h3 h4 h5, fun _ _ _ _ h => h⟩

theorem retOf_cons_none {i : Instr} {C : Code} (h1 : ∀ n, i ≠ .ret n) (h2 : isLabel i = false) :
    retOf (i :: C) = none := by
  unfold retOf
  split
  · rename_i heq; cases heq; exact absurd rfl (h1 _)
  · rename_i heq; cases heq; cases h2
  · rfl

theorem makeBranch_mode {L C F W xs tgt k} (D : Code) (hl : LOk L (makeBranch C k).2.1)
    (hm : Mode C F W xs tgt) :
    (∃ tgt', Mode (makeBranch C k).2.1 F W xs tgt' ∧
      ∀ w h fin, Halts L (tgt w h) fin → Halts L (tgt' w h) fin) ∧
    (∃ tgt', Mode ((makeBranch C k).1 :: D) F W xs tgt' ∧
      ∀ w h fin, Halts L (tgt w h) fin → Halts L (tgt' w h) fin) := by
  revert hl
  unfold makeBranch
  split <;> intro hl
  · refine ⟨⟨_, hm, fun _ _ _ h => h⟩, ?_⟩
    cases hm with
    | ord h1 => cases h1
    | ret h1 h2 h3 h4 h5 => exact ⟨_, .ret (by rw [← h1]; rfl) h2 h3 h4 h5, fun _ _ _ h => h⟩
  · refine ⟨⟨_, hm, fun _ _ _ h => h⟩, ?_⟩
    cases hm with
    | ord h1 =>
      refine ⟨_, .ord rfl, ?_⟩
      intro w h fin hf
      exact halts_congr (by simp only [step]; rfl) hf
    | ret h1 h2 h3 h4 h5 => cases h1
  · refine ⟨⟨_, hm, fun _ _ _ h => h⟩, ?_⟩
    cases hm with
    | ord h1 =>
      refine ⟨_, .ord rfl, ?_⟩
      intro w h fin hf
      exact halts_congr (by simp only [step]; rfl) hf
    | ret h1 h2 h3 h4 h5 => cases h1
  · refine ⟨⟨_, hm, fun _ _ _ h => h⟩, ?_⟩
    cases hm with
    | ord h1 => cases h1
    | ret h1 h2 h3 h4 h5 => exact ⟨_, .ret (by rw [← h1]; rfl) h2 h3 h4 h5, fun _ _ _ h => h⟩
  · rename_i l C' hne
    refine ⟨⟨_, hm, fun _ _ _ h => h⟩, ?_⟩
    cases hm with
    | ord h1 =>
      refine ⟨_, .ord rfl, ?_⟩
      intro w h fin hf
      exact jump_halts hl.label (halts_label hf)
    | ret h1 h2 h3 h4 h5 =>
      exfalso
      unfold retOf at h1
      split at h1
      · rename_i heq; cases heq
      · rename_i heq; cases heq; exact hne _ _ rfl
      · cases h1
  · rename_i hn1 hn2 hn3 hn4 hn5
    refine ⟨?_, ?_⟩
    · obtain ⟨tgt', h1, h2⟩ := mode_label (l := k + 1) (fun l' C' => hn5 l' C') hm
      exact ⟨tgt', h1, h2 L⟩
    · cases hm with
      | ord h1 =>
        refine ⟨_, .ord rfl, ?_⟩
        intro w h fin hf
        exact jump_halts hl.label hf
      | ret h1 h2 h3 h4 h5 =>
        exfalso
        unfold retOf at h1
        split at h1
        · exact hn1 _ _ rfl
        · exact hn5 _ _ rfl
        · cases h1

theorem makeBranch_cok {L C k} (D : Code) (hl : LOk L (makeBranch C k).2.1) (h : COk L C) :
    COk L (makeBranch C k).2.1 ∧ COk L ((makeBranch C k).1 :: D) := by
  have br : ∀ {l c}, L l = some c → COk L (.branch l :: D) := by
    intro l c hc
    refine ⟨by simp, by simp, by simp, ?_⟩
    intro l' C1 heq
    cases heq
    exact ⟨c, hc⟩
  revert hl
  unfold makeBranch
  split <;> intro hl
  · exact ⟨h, cok_of (by simp) (by simp) (by simp) (by simp)⟩
  · obtain ⟨c, hc⟩ := h.branch _ _ rfl
    exact ⟨h, br hc⟩
  · exact ⟨h, cok_of (by simp) (by simp) (by simp) (by simp)⟩
  · exact ⟨h, cok_of (by simp) (by simp) (by simp) (by simp)⟩
  · exact ⟨h, br hl.label⟩
  · exact ⟨cok_of (by simp) (by simp) (by simp) (by simp), br hl.label⟩

theorem addPop_zero (C : Code) : addPop 0 C = C := by
  unfold addPop
  split <;> simp

/-- `addPop`, for code that starts with nothing it could be joined with. -/
theorem addPop_plain {n C} (h0 : n ≠ 0) (h1 : retOf C = none) (h2 : ∀ m' C2, C ≠ .pop m' :: C2)
    (h3 : ∀ C2, C ≠ .raise :: C2) : addPop n C = .pop n :: C := by
  rw [addPop.eq_def]
  split
  · exact absurd rfl (h2 _ _)
  · cases h1
  · cases h1
  · exact absurd rfl (h3 _)
  · rw [if_neg h0]

theorem addPop_mode {L C F W xs tgt} (X : List Slot) (hc : COk L C) (ht : F.trap ≤ F.S.length)
    (hm : Mode C F W xs tgt) :
    COk L (addPop X.length C) ∧
    ∃ tgt', Mode (addPop X.length C) (F.push X) W xs tgt' ∧
      ∀ w h fin, Halts L (tgt w h) fin → Halts L (tgt' w h) fin := by
  rcases Nat.eq_zero_or_pos X.length with h0 | h0
  · have : X = [] := by simpa using h0
    subst this
    rw [List.length_nil, addPop_zero]
    exact ⟨hc, _, hm, fun _ _ _ h => h⟩
  · cases hm with
    | ord h1 =>
      by_cases hp : ∃ m C1, C = .pop m :: C1
      · obtain ⟨m, C1, rfl⟩ := hp
        obtain ⟨a1, a2, a3⟩ := hc.pop m C1 rfl
        have e : addPop X.length (.pop m :: C1) = .pop (X.length + m) :: C1 := by
          rw [addPop.eq_def]
          dsimp only
          rw [if_neg (by omega), addPop_plain (by omega) a1 a2 a3]
        rw [e]
        refine ⟨⟨?_, by simp, by simp, by simp⟩, _, .ord rfl, ?_⟩
        · intro m' C' heq; cases heq; exact ⟨a1, a2, a3⟩
        · intro w h fin hf
          cases hf with
          | halt h1 => cases h1
          | uncaught h1 => cases h1
          | next h1 h2 =>
            cases h1
            refine .next ?_ h2
            simp only [step, Fr.push]
            rw [drop_app]
      · by_cases hr : ∃ C1, C = .raise :: C1
        · obtain ⟨C1, rfl⟩ := hr
          have e : addPop X.length (.raise :: C1) = .raise :: C1 := by
            rw [addPop.eq_def]
          rw [e]
          refine ⟨hc, _, .ord rfl, ?_⟩
          intro w h fin hf
          exact raise_deeper X ht hf
        · have a2 : ∀ m' C2, C ≠ .pop m' :: C2 := fun m' C2 heq => hp ⟨m', C2, heq⟩
          have a3 : ∀ C2, C ≠ .raise :: C2 := fun C2 heq => hr ⟨C2, heq⟩
          rw [addPop_plain (by omega) h1 a2 a3]
          refine ⟨⟨?_, by simp, by simp, by simp⟩, _, .ord rfl, ?_⟩
          · intro m' C' heq; cases heq; exact ⟨h1, a2, a3⟩
          · intro w h fin hf
            refine .next ?_ hf
            simp only [step, Fr.push, List.drop_left]
    | @ret xs ms S0 h1 h2 h3 h4 h5 =>
      have e : ∃ C', addPop X.length C = .ret (X.length + F.sz) :: C' := by
        unfold retOf at h1
        split at h1
        · cases h1
          rw [addPop.eq_def]
          dsimp only
          rw [if_neg (by omega)]
          exact ⟨_, rfl⟩
        · cases h1
          rw [addPop.eq_def]
          dsimp only
          rw [if_neg (by omega)]
          exact ⟨_, rfl⟩
        · cases h1
      obtain ⟨C', e⟩ := e
      rw [e]
      refine ⟨cok_of (by simp) (by simp) (by simp) (by simp), ?_⟩
      refine ⟨_, Mode.ret (ms := ms) (S0 := S0) ?_ ?_ h3 h4 h5, fun _ _ _ h => h⟩
      · simp only [retOf, Fr.push]; rw [Nat.add_comm]
      · simp only [Fr.push]
        rw [Nat.add_comm, drop_app]
        exact h2

end Mosml.Zam
