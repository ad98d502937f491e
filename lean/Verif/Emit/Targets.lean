import Verif.Emit.Merge

/-!
# The labels that the emitted code refers to
-/

namespace Mosml.Emit

/-- The label a step refers to. -/
def Call.labels : Call → List Nat
  | .label _ l => [l]
  | _ => []

/-- The origin of a reference lies in the code written so far. -/
def BackOk : Nat → List Call → Prop
  | _, [] => True
  | n, c :: cs => (match c with | .label back _ => back ≤ n | _ => True) ∧ BackOk (n + c.size) cs

theorem BackOk.mono {n m : Nat} {cs : List Call} (h : BackOk n cs) (hm : n ≤ m) :
    BackOk m cs := by
  induction cs generalizing n m with
  | nil => trivial
  | cons c cs ih =>
      refine ⟨?_, ih h.2 (by omega)⟩
      have h1 := h.1
      cases c with
      | label back l => simp only at h1 ⊢; omega
      | _ => trivial

theorem BackOk.append {n : Nat} {a b : List Call} (ha : BackOk n a) (hb : BackOk 0 b) :
    BackOk n (a ++ b) := by
  induction a generalizing n with
  | nil => exact hb.mono (by omega)
  | cons c a ih => exact ⟨ha.1, ih ha.2⟩

/-- What a slot number stands for. -/
def Call.glob : Call → List Glob
  | .slotLit c => [.lit c]
  | .slotGet u => [.get u]
  | .slotSet u => [.set u]
  | .slotPrim f => [.cprim f]
  | _ => []

/-- The references made by `cs` are those of the actions. -/
def Lab (cs : List Call) (ops : List (Op Nat Glob)) : Prop :=
  BackOk 0 cs ∧ cs.flatMap Call.labels = ops.flatMap Op.labels ∧
    cs.flatMap Call.glob = ops.flatMap Op.globs

theorem Lab.append {a b : List Call} {x y : List (Op Nat Glob)} (ha : Lab a x)
    (hb : Lab b y) : Lab (a ++ b) (x ++ y) :=
  ⟨ha.1.append hb.1, by simp only [List.flatMap_append, ha.2.1, hb.2.1],
    by simp only [List.flatMap_append, ha.2.2, hb.2.2]⟩

theorem lab_intConst (i : Int) : Lab (outIntConst i) [loadInt i] := by
  by_cases hf : fits31 i
  · have hf' := hf
    unfold fits31 at hf'
    simp only [outIntConst, loadInt, if_pos hf]
    repeat' split
    all_goals exact ⟨by simp [BackOk], rfl, rfl⟩
  · have hf' := hf
    unfold fits31 at hf'
    simp only [outIntConst, loadInt, if_neg hf]
    repeat' split
    all_goals first | (exfalso; omega) | exact ⟨by simp [BackOk], rfl, rfl⟩

theorem lab_pushIntConst (i : Int) : Lab (outPushIntConst i) [{ kind := .push }, loadInt i] := by
  by_cases hf : fits31 i
  · have hf' := hf
    unfold fits31 at hf'
    simp only [outPushIntConst, loadInt, if_pos hf]
    repeat' split
    all_goals exact ⟨by simp [BackOk], rfl, rfl⟩
  · have hf' := hf
    unfold fits31 at hf'
    simp only [outPushIntConst, loadInt, if_neg hf]
    repeat' split
    all_goals first | (exfalso; omega) | exact ⟨by simp [BackOk], rfl, rfl⟩

theorem lab_quote (c : SC) : Lab (outQuote c) [loadConst c] := by
  match c with
  | .int i => exact lab_intConst i
  | .word w => exact lab_intConst w
  | .char c => exact lab_intConst c
  | .block t _ [] =>
      simp only [outQuote, loadConst]
      split <;> exact ⟨by simp [BackOk], rfl, rfl⟩
  | .real b => exact ⟨by simp [outQuote, BackOk], rfl, rfl⟩
  | .str s => exact ⟨by simp [outQuote, BackOk], rfl, rfl⟩
  | .block _ _ (_ :: _) => exact ⟨by simp [outQuote, BackOk], rfl, rfl⟩

theorem lab_pushQuote (c : SC) : Lab (outPushQuote c) [{ kind := .push }, loadConst c] := by
  match c with
  | .int i => exact lab_pushIntConst i
  | .word w => exact lab_pushIntConst w
  | .char c => exact lab_pushIntConst c
  | .block t _ [] =>
      simp only [outPushQuote, loadConst]
      split <;> exact ⟨by simp [BackOk], rfl, rfl⟩
  | .real b => exact ⟨by simp [outPushQuote, BackOk], rfl, rfl⟩
  | .str s => exact ⟨by simp [outPushQuote, BackOk], rfl, rfl⟩
  | .block _ _ (_ :: _) => exact ⟨by simp [outPushQuote, BackOk], rfl, rfl⟩

theorem lab_push : Lab [o Opc.PUSH] [{ kind := .push }] := ⟨by simp [BackOk], rfl, rfl⟩

theorem lab_test (l : Nat) (t : Test) : Lab (outTest l t) (t.branch l) := by
  cases t with
  | intNoteqImm i =>
      exact lab_push.append ((lab_pushIntConst i).append
        (b := [o Opc.EQ, o Opc.POPBRANCHIFNOT, .label 0 l])
        (y := [{ kind := .cmp .int .eq }, { kind := .popbranchifnot, labels := [l] }])
        ⟨by simp [BackOk], rfl, rfl⟩)
  | wordNoteqImm i =>
      exact lab_push.append ((lab_pushIntConst i).append
        (b := [o Opc.EQUNSIGN, o Opc.POPBRANCHIFNOT, .label 0 l])
        (y := [{ kind := .cmp .word .eq }, { kind := .popbranchifnot, labels := [l] }])
        ⟨by simp [BackOk], rfl, rfl⟩)
  | _ => exact ⟨by simp [BackOk, outTest], rfl, rfl⟩

theorem backOk_table (n k : Nat) (ls : List Nat) (h : 4 * k ≤ n) :
    BackOk n (switchTable k ls) := by
  induction ls generalizing n k with
  | nil => trivial
  | cons l ls ih =>
      refine ⟨h, ih _ _ ?_⟩
      simp only [Call.size]; omega

theorem labels_table (k : Nat) (ls : List Nat) :
    (switchTable k ls).flatMap Call.labels = ls := by
  induction ls generalizing k with
  | nil => rfl
  | cons l ls ih => simp only [switchTable, List.flatMap_cons, Call.labels, ih]; rfl

theorem globs_table (k : Nat) (ls : List Nat) :
    (switchTable k ls).flatMap Call.glob = [] := by
  induction ls generalizing k with
  | nil => rfl
  | cons l ls ih => simp only [switchTable, List.flatMap_cons, Call.glob, ih]; rfl

theorem lab_zam {z : Zam} {cs : List Call} (h : emitZam z = some cs) : Lab cs z.ops := by
  cases z with
  | quote c => cases h; exact lab_quote c
  | getfield n =>
      obtain ⟨hn, rfl⟩ := guard16_some h
      simp only [Zam.ops]
      split <;> exact ⟨by simp [BackOk], rfl, rfl⟩
  | setfield n =>
      obtain ⟨hn, rfl⟩ := guard16_some h
      simp only [Zam.ops]
      split <;> exact ⟨by simp [BackOk], rfl, rfl⟩
  | access n =>
      obtain ⟨hn, rfl⟩ := guard16_some h
      simp only [Zam.ops]
      split <;> exact ⟨by simp [BackOk], rfl, rfl⟩
  | envacc m =>
      obtain ⟨hn, rfl⟩ := guard16_some h
      simp only [Zam.ops]
      split <;> exact ⟨by simp [BackOk], rfl, rfl⟩
  | assign n => obtain ⟨hn, rfl⟩ := guard16_some h; exact ⟨by simp [BackOk], rfl, rfl⟩
  | pop n => obtain ⟨hn, rfl⟩ := guard16_some h; exact ⟨by simp [BackOk], rfl, rfl⟩
  | grab n => obtain ⟨hn, rfl⟩ := guard8_some h; exact ⟨by simp [BackOk], rfl, rfl⟩
  | apply n =>
      obtain ⟨hn, rfl⟩ := guard8_some h
      simp only [Zam.ops]
      split <;> exact ⟨by simp [BackOk], rfl, rfl⟩
  | appterm n z =>
      simp only [emitZam, Option.bind_eq_some_iff] at h
      obtain ⟨cs1, h1, h2⟩ := h
      obtain ⟨hn, rfl⟩ := guard8_some h1
      obtain ⟨hz, rfl⟩ := guard16_some h2
      split <;> exact ⟨by simp [BackOk], rfl, rfl⟩
  | ret n =>
      obtain ⟨hn, rfl⟩ := guard16_some h
      simp only [Zam.ops]
      split <;> exact ⟨by simp [BackOk], rfl, rfl⟩
  | makeblock t n =>
      simp only [emitZam] at h
      split at h
      · cases h
      · split at h <;> cases h <;> exact ⟨by simp [BackOk, outHeader], rfl, rfl⟩
  | prim p =>
      cases p with
      | dummy n => obtain ⟨hn, rfl⟩ := guard16_some h; exact ⟨by simp [BackOk], rfl, rfl⟩
      | test t => cases t <;> cases h <;> exact ⟨by simp [BackOk], rfl, rfl⟩
      | atom t =>
          simp only [emitZam, Option.some.injEq] at h
          subst h
          split <;> exact ⟨by simp [BackOk], rfl, rfl⟩
      | ccall f n =>
          simp only [emitZam, Option.some.injEq] at h
          subst h
          split <;> exact ⟨by simp [BackOk], rfl, rfl⟩
      | identity => cases h; exact ⟨by simp [BackOk], rfl, rfl⟩
      | simple p => cases h; exact ⟨by simp [BackOk], rfl, rfl⟩
  | test t l => cases h; exact lab_test l t
  | branchinterval low high l1 l2 =>
      simp only [emitZam, Option.some.injEq] at h
      subst h
      have hlast : Lab [o Opc.BRANCHINTERVAL, .label 0 l1, .label 0 l2]
          [{ kind := .branchinterval, labels := [l1, l2] }] := ⟨by simp [BackOk], rfl, rfl⟩
      simp only [Zam.ops]
      by_cases hlh : low = high
      · rw [if_neg (by simpa using hlh), if_pos hlh]
        exact ((lab_pushIntConst low).append lab_push).append hlast
      · rw [if_pos hlh, if_neg hlh]
        exact ((lab_pushIntConst low).append (lab_pushIntConst high)).append hlast
  | switch ls =>
      obtain ⟨hn, rfl⟩ := guard8_some h
      refine ⟨⟨trivial, trivial, backOk_table _ _ _ (by omega)⟩, ?_, ?_⟩
      · simp only [List.flatMap_cons, labels_table, Zam.ops]
        simp [Call.labels]
      · simp only [List.flatMap_cons, globs_table, Zam.ops]
        simp [Call.glob]
  | _ => cases h; exact ⟨by simp [BackOk], rfl, rfl⟩

theorem lab_head {zs : List Zam} {cs : List Call} {C : List Zam}
    (h : emitHead zs = some (cs, C)) :
    ∃ pre, zs = pre ++ C ∧ Lab cs (pre.flatMap Zam.ops) := by
  have he : ∀ {n : Nat}, (Zam.ops (.apply n)).flatMap Op.labels = [] := by
    intro n; simp only [Zam.ops]; split <;> rfl
  have hg : ∀ {n : Nat}, (Zam.ops (.apply n)).flatMap Op.globs = [] := by
    intro n; simp only [Zam.ops]; split <;> rfl
  rw [emitHead.eq_def] at h
  split at h
  case h_1 => cases h
  case h_2 c C' =>
    cases h
    exact ⟨[.push, .quote c], rfl, lab_pushQuote c⟩
  case h_3 n C' =>
    rw [Option.map_eq_some_iff] at h
    obtain ⟨x, h, h'⟩ := h
    cases h'
    obtain ⟨hn, rfl⟩ := guard16_some h
    refine ⟨[.push, .access n], rfl, ?_⟩
    split <;> exact ⟨by simp [BackOk], rfl, rfl⟩
  case h_4 n C' =>
    rw [Option.map_eq_some_iff] at h
    obtain ⟨x, h, h'⟩ := h
    cases h'
    obtain ⟨hn, rfl⟩ := guard8_some h
    refine ⟨[.push, .envacc 0, .apply n], rfl, ?_, ?_, ?_⟩
    · split <;> simp [BackOk]
    · simp only [List.flatMap_cons, List.flatMap_append, he]
      split <;> rfl
    · simp only [List.flatMap_cons, List.flatMap_append, hg]
      split <;> rfl
  case h_5 n z C' =>
    rw [Option.map_eq_some_iff] at h
    obtain ⟨x, h, h'⟩ := h
    cases h'
    rw [Option.bind_eq_some_iff] at h
    obtain ⟨cs1, h1, h2⟩ := h
    obtain ⟨hz, rfl⟩ := guard16_some h2
    refine ⟨[.push, .envacc 0, .appterm n z], rfl, ?_⟩
    split at h1
    next h' => cases h1; exact ⟨by simp [BackOk], rfl, rfl⟩
    next =>
      obtain ⟨hn, rfl⟩ := guard8_some h1
      exact ⟨by simp [BackOk], rfl, rfl⟩
  case h_6 m C' _ _ =>
    rw [Option.map_eq_some_iff] at h
    obtain ⟨x, h, h'⟩ := h
    cases h'
    obtain ⟨hn, rfl⟩ := guard16_some h
    refine ⟨[.push, .envacc m], rfl, ?_⟩
    split <;> exact ⟨by simp [BackOk], rfl, rfl⟩
  case h_7 u n C' =>
    rw [Option.map_eq_some_iff] at h
    obtain ⟨x, h, h'⟩ := h
    cases h'
    refine ⟨[.push, .getGlobal u, .apply n], rfl, ?_⟩
    split at h
    next h' =>
      cases h
      refine ⟨by simp [BackOk], ?_, ?_⟩
      · simp only [List.flatMap_cons, List.flatMap_append, he]
        rfl
      · simp only [List.flatMap_cons, List.flatMap_append, hg]
        rfl
    next h' =>
      obtain ⟨hn, rfl⟩ := guard8_some h
      refine ⟨by simp [BackOk], ?_, ?_⟩
      · simp only [List.flatMap_cons, List.flatMap_append, he]
        rfl
      · simp only [List.flatMap_cons, List.flatMap_append, hg]
        rfl
  case h_8 u n z C' =>
    rw [Option.map_eq_some_iff] at h
    obtain ⟨x, h, h'⟩ := h
    cases h'
    refine ⟨[.push, .getGlobal u, .appterm n z], rfl, ?_⟩
    split at h
    next h' =>
      obtain ⟨hz, rfl⟩ := guard16_some h
      exact ⟨by simp [BackOk], rfl, rfl⟩
    next =>
      rw [Option.bind_eq_some_iff] at h
      obtain ⟨cs1, h1, h2⟩ := h
      obtain ⟨hz, rfl⟩ := guard16_some h2
      obtain ⟨hn, rfl⟩ := guard8_some h1
      exact ⟨by simp [BackOk], rfl, rfl⟩
  case h_9 u C' _ _ => cases h; exact ⟨[.push, .getGlobal u], rfl, by simp [BackOk], rfl, rfl⟩
  case h_10 C' => cases h; exact ⟨[.getfield 0, .getfield 0], rfl, by simp [BackOk], rfl, rfl⟩
  case h_11 C' => cases h; exact ⟨[.getfield 0, .getfield 1], rfl, by simp [BackOk], rfl, rfl⟩
  case h_12 C' => cases h; exact ⟨[.getfield 1, .getfield 0], rfl, by simp [BackOk], rfl, rfl⟩
  case h_13 C' => cases h; exact ⟨[.getfield 1, .getfield 1], rfl, by simp [BackOk], rfl, rfl⟩
  case h_14 z C' _ _ _ _ _ _ _ _ _ _ _ _ =>
    rw [Option.map_eq_some_iff] at h
    obtain ⟨x, h, h'⟩ := h
    cases h'
    refine ⟨[z], rfl, ?_⟩
    simp only [List.flatMap_cons, List.flatMap_nil, List.append_nil]
    exact lab_zam h

theorem lab_emit (zs : List Zam) {cs : List Call} (h : emit zs = some cs) :
    Lab cs (zs.flatMap Zam.ops) := by
  match zs with
  | [] => simp only [emit, Option.some.injEq] at h; subst h; exact ⟨trivial, rfl, rfl⟩
  | z :: zs' =>
      rw [emit] at h
      split at h
      · cases h
      next cs1 C hh =>
        rw [Option.map_eq_some_iff] at h
        obtain ⟨cs2, h2, rfl⟩ := h
        obtain ⟨pre, he, hc⟩ := lab_head hh
        have hlt := emitHead_lt hh
        have h3 := lab_emit C h2
        rw [he, List.flatMap_append]
        exact hc.append h3
  termination_by zs.length

end Mosml.Emit
