import Verif.Zam.Args

/-!
# Primitives and branches
-/

namespace Mosml.Zam

theorem brif_inv {L l C w t env S extra trap h fin} (ht : tagOf w = some t)
    (hh : Halts L ⟨.branchif l :: C, w, env, S, extra, trap, h⟩ fin) :
    (t = 0 → Halts L ⟨C, w, env, S, extra, trap, h⟩ fin) ∧
    (t ≠ 0 → ∀ c, L l = some c → Halts L ⟨c, w, env, S, extra, trap, h⟩ fin) := by
  by_cases h0 : t = 0
  · refine ⟨fun _ => ?_, fun h => absurd h0 h⟩
    subst h0
    cases hh with
    | halt h1 => simp [step, ht] at h1
    | uncaught h1 => simp [step, ht] at h1
    | next h1 h2 => simp only [step, ht, if_true] at h1; cases h1; exact h2
  · refine ⟨fun h => absurd h h0, fun _ c hc => ?_⟩
    cases hh with
    | halt h1 => simp [step, ht, h0, jump, hc] at h1
    | uncaught h1 => simp [step, ht, h0, jump, hc] at h1
    | next h1 h2 => simp only [step, ht, h0, if_false, jump, hc] at h1; cases h1; exact h2

theorem brifnot_inv {L l C w t env S extra trap h fin} (ht : tagOf w = some t)
    (hh : Halts L ⟨.branchifnot l :: C, w, env, S, extra, trap, h⟩ fin) :
    (t ≠ 0 → Halts L ⟨C, w, env, S, extra, trap, h⟩ fin) ∧
    (t = 0 → ∀ c, L l = some c → Halts L ⟨c, w, env, S, extra, trap, h⟩ fin) := by
  by_cases h0 : t = 0
  · refine ⟨fun h => absurd h0 h, fun _ c hc => ?_⟩
    subst h0
    cases hh with
    | halt h1 => simp [step, ht, jump, hc] at h1
    | uncaught h1 => simp [step, ht, jump, hc] at h1
    | next h1 h2 => simp only [step, ht, if_true, jump, hc] at h1; cases h1; exact h2
  · refine ⟨fun _ => ?_, fun h => absurd h h0⟩
    cases hh with
    | halt h1 => simp [step, ht, h0] at h1
    | uncaught h1 => simp [step, ht, h0] at h1
    | next h1 h2 => simp only [step, ht, h0, if_false] at h1; cases h1; exact h2

theorem brif_zero {L l C w env S extra trap h fin} (ht : tagOf w = some 0)
    (hh : Halts L ⟨C, w, env, S, extra, trap, h⟩ fin) :
    Halts L ⟨.branchif l :: C, w, env, S, extra, trap, h⟩ fin :=
  .next (by simp [step, ht]) hh

theorem brif_pos {L l C c w t env S extra trap h fin} (ht : tagOf w = some t) (h0 : t ≠ 0)
    (hc : L l = some c) (hh : Halts L ⟨c, w, env, S, extra, trap, h⟩ fin) :
    Halts L ⟨.branchif l :: C, w, env, S, extra, trap, h⟩ fin :=
  .next (by simp [step, ht, h0, jump, hc]) hh

theorem brifnot_zero {L l C c w env S extra trap h fin} (ht : tagOf w = some 0)
    (hc : L l = some c) (hh : Halts L ⟨c, w, env, S, extra, trap, h⟩ fin) :
    Halts L ⟨.branchifnot l :: C, w, env, S, extra, trap, h⟩ fin :=
  .next (by simp [step, ht, jump, hc]) hh

theorem brifnot_pos {L l C w t env S extra trap h fin} (ht : tagOf w = some t) (h0 : t ≠ 0)
    (hh : Halts L ⟨C, w, env, S, extra, trap, h⟩ fin) :
    Halts L ⟨.branchifnot l :: C, w, env, S, extra, trap, h⟩ fin :=
  .next (by simp [step, ht, h0]) hh

theorem strict_eq {L l C w env S extra trap h} :
    step L ⟨.strictbranchif l :: C, w, env, S, extra, trap, h⟩ =
      step L ⟨.branchif l :: C, w, env, S, extra, trap, h⟩ := rfl

theorem strictnot_eq {L l C w env S extra trap h} :
    step L ⟨.strictbranchifnot l :: C, w, env, S, extra, trap, h⟩ =
      step L ⟨.branchifnot l :: C, w, env, S, extra, trap, h⟩ := rfl

theorem cmpI_invert (t a b) : cmpI (invert t) a b = !cmpI t a b := by
  cases t <;> simp only [invert, cmpI, decide_not, Bool.not_not] <;>
    (rw [← decide_not]; congr 1; apply propext; omega)

theorem tagOf_mbool (b) : tagOf (mbool b) = some (if b then 1 else 0) := rfl

/-- A value reaches a `BRANCHIF`. -/
theorem to_brif {L l C b env S extra trap h fin} (w' : MVal) (hlab : LabIrr L l) (hirr : AccIrr L C)
    (hh : Halts L ⟨.branchif l :: C, mbool b, env, S, extra, trap, h⟩ fin) :
    (b = true → ∃ c, L l = some c ∧ Halts L ⟨c, w', env, S, extra, trap, h⟩ fin) ∧
    (b = false → Halts L ⟨C, w', env, S, extra, trap, h⟩ fin) := by
  obtain ⟨c, hc, hci⟩ := hlab
  obtain ⟨h1, h2⟩ := brif_inv (tagOf_mbool b) hh
  refine ⟨?_, ?_⟩
  · rintro rfl
    exact ⟨c, hc, accIrr_halts hci _ (h2 (by simp) c hc)⟩
  · rintro rfl
    exact accIrr_halts hirr _ (h1 (by simp))

theorem to_brifnot {L l C b env S extra trap h fin} (w' : MVal) (hlab : LabIrr L l)
    (hirr : AccIrr L C)
    (hh : Halts L ⟨.branchifnot l :: C, mbool b, env, S, extra, trap, h⟩ fin) :
    (b = false → ∃ c, L l = some c ∧ Halts L ⟨c, w', env, S, extra, trap, h⟩ fin) ∧
    (b = true → Halts L ⟨C, w', env, S, extra, trap, h⟩ fin) := by
  obtain ⟨c, hc, hci⟩ := hlab
  obtain ⟨h1, h2⟩ := brifnot_inv (tagOf_mbool b) hh
  refine ⟨?_, ?_⟩
  · rintro rfl
    exact ⟨c, hc, accIrr_halts hci _ (h2 (by simp) c hc)⟩
  · rintro rfl
    exact accIrr_halts hirr _ (h1 (by simp))

/-- Integer arithmetic. -/
theorem concl_smlint {L T n} (hE : EnterAt L T n) {W h C F xs tgt r z s C0 acc}
    (hO : HOk L T W h) (hm : Mode C F W xs tgt)
    (hr : resL (evalS n) (if inRange z then some (.val (.int z)) else some (.exn voverflow)) xs = some r)
    (hs : step L s = smlint z C F.S (F.st C0 acc h)) :
    Concl L T W h F tgt s r := by
  unfold smlint at hs
  by_cases hz : inRange z = true
  · rw [if_pos hz] at hs hr
    exact (leaf hE .int hO hm hr).start (fun fin hf => .next hs hf)
  · rw [if_neg hz] at hs hr
    cases hr
    refine ⟨W, h, List.prefix_refl _, List.prefix_refl _, hO, moverflow, vrel_overflow W, ?_⟩
    intro fin hf
    refine halts_congr ?_ hf
    rw [hs]
    simp only [step, doRaise]

theorem lifts_const {T m fv d sf e c} (h : Lifts T m fv d sf e (.const c)) : e = .const c := by
  cases h
  rfl

theorem list1 {v0 : Val} {vs0 : List Val} (h : (vs0 ++ [v0]).length = 1) : vs0 = [] := by
  cases vs0 with
  | nil => rfl
  | cons a b => simp at h

theorem list2 {v0 : Val} {vs0 : List Val} (h : (vs0 ++ [v0]).length = 2) : ∃ v1, vs0 = [v1] := by
  match vs0, h with
  | [v1], _ => exact ⟨v1, rfl⟩
  | [], h => simp at h
  | _ :: _ :: _, h => simp at h

theorem evalLR_len {f : Lam → Option Res} : ∀ {es vs}, evalLR f es = some (.vals vs) →
    vs.length = es.length := by
  intro es
  induction es with
  | nil => intro vs h; cases h; rfl
  | cons e es ih =>
    intro vs h
    simp only [evalLR] at h
    cases h2 : f e with
    | none => rw [h2] at h; cases h
    | some r =>
      rw [h2] at h
      cases r with
      | exn v => cases h
      | fail => cases h
      | val v =>
        simp only at h
        cases h1 : evalLR f es with
        | none => rw [h1] at h; cases h
        | some u =>
          rw [h1] at h
          cases u with
          | stop r => cases h
          | vals us => cases h; simp [ih h1]

/-- What happens after the arguments of a primitive. -/
def PrimRes (n : Nat) (p : Prim) (xs : List Val) (r : Res) : Ress → Prop
  | .vals vs => resL (evalS n) (primSem p vs) xs = some r
  | .stop r0 => r = r0

/-- The common part: arguments from left to right and one instruction. -/
theorem prim_args {L T n} (hS : SimAt L T n) {m fv d ρ} {ce : CEnv} {F : Fr} (hfv : ce.fv = fv)
    (hρ : ρ.length = m + d) {p args args' xs r q W h acc Ci k tgt} (hne : args ≠ [])
    (hlen : args'.length = args.length)
    (hL : ∀ (i : Nat) e e', args[i]? = some e → args'[i]? = some e' → Lifts T m fv d F.sfb e e')
    (hq : evalLR (fun e => evalS n ρ e []) args = some q) (hr : PrimRes n p xs r q)
    (hF : FOk L W h ce d ρ F) (hO : HOk L T W h) (hC : COk L Ci) (hret : retOf Ci = none)
    (hl : LOk L (compLR ce F.sf F.sz d args' Ci k).1)
    (hfin : ∀ W' h' v0 vs0 m0 ms, W <+: W' → h <+: h' → HOk L T W' h' → VRel W' v0 m0 →
      VRels W' vs0 ms → (vs0 ++ [v0]).length = args.length →
      resL (evalS n) (primSem p (vs0 ++ [v0])) xs = some r →
      Concl L T W' h' F tgt ((F.push (ms.reverse.map .v)).st Ci m0 h') r) :
    Concl L T W h F tgt (F.st (compLR ce F.sf F.sz d args' Ci k).1 acc h) r := by
  have hp := simLR hS hfv hρ args args' hne hlen F hL q hq W h acc Ci k hF hO hC hret hl
  cases q with
  | stop r0 => cases hr; exact hp tgt
  | vals vs =>
    have hlv := evalLR_len hq
    obtain ⟨W', h', v0, vs0, m0, ms, rfl, p1, p2, p3, p4, p5, p6⟩ := hp
    exact ((hfin W' h' v0 vs0 m0 ms p1 p2 p3 p4 p5 hlv hr).start p6).base p1 p2

theorem simPrim {L T n} (hS : SimAt L T n) (hE : EnterAt L T n) {m fv d ρ} {ce : CEnv} {F : Fr}
    (hfv : ce.fv = fv) (hρ : ρ.length = m + d) {p args args' xs r q W h acc C k tgt}
    (hok : primOk p args.length = true) (hid : p ≠ .identity) (hlen : args'.length = args.length)
    (hL : ∀ (i : Nat) e e', args[i]? = some e → args'[i]? = some e' → Lifts T m fv d F.sfb e e')
    (hq : evalLR (fun e => evalS n ρ e []) args = some q) (hr : PrimRes n p xs r q)
    (hF : FOk L W h ce d ρ F) (hO : HOk L T W h) (hC : COk L C)
    (hl : LOk L (compexp ce F.sf F.sz d (.prim p args') C k).1)
    (hm : Mode C F W xs tgt) :
    Concl L T W h F tgt (F.st (compexp ce F.sf F.sz d (.prim p args') C k).1 acc h) r := by
  have hne : args ≠ [] := by
    intro hh; subst hh; have := primOk_pos hok; simp at this
  generalize hG : compexp ce F.sf F.sz d (.prim p args') C k = G at hl ⊢
  rw [compexp.eq_def] at hG
  dsimp only at hG
  split at hG
  · -- `+ 1`
    rename_i e'
    subst hG
    match args, hlen with
    | [e, e2], _ =>
    have h2 := hL 1 e2 _ rfl rfl
    have h1 := hL 0 e e' rfl rfl
    obtain rfl := lifts_const h2
    simp only [evalLR] at hq
    cases hv : evalS n ρ e [] with
    | none => rw [hv] at hq; cases hq
    | some u =>
      have hc := fun tgt => hS m fv d e e' ρ [] u F h1 hv hρ ce (.prim .succ :: C) k W h acc tgt hfv hF hO
        (cok_of (by simp) (by simp) (by simp) (by simp)) hl
      rw [hv] at hq
      cases u with
      | exn v => cases hq; cases hr; exact (hc _ (.ord rfl)).any (by simp)
      | fail => cases hq; cases hr; exact (hc _ (.ord rfl)).any (by simp)
      | val v =>
        have hq' : q = .vals [v, .int 1] := by
          cases n with
          | zero => cases hv
          | succ n => simpa [evalS, idOf, evalB, retL, Const.toV, evalLR] using hq.symm
        subst hq'
        obtain ⟨W1, h1, p1, p2, p3, w', p4, p5⟩ := hc _ (.ord rfl)
        simp only [PrimRes] at hr
        cases v with
        | int a =>
          cases p4
          simp only [primSem, arithI] at hr
          exact ((concl_smlint hE p3 (hm.mono p1) hr (by simp only [step]; rfl)).start p5).base p1 p2
        | _ => simp [primSem, resL] at hr
  · -- `- 1`
    rename_i e'
    subst hG
    match args, hlen with
    | [e, e2], _ =>
    have h2 := hL 1 e2 _ rfl rfl
    have h1 := hL 0 e e' rfl rfl
    obtain rfl := lifts_const h2
    simp only [evalLR] at hq
    cases hv : evalS n ρ e [] with
    | none => rw [hv] at hq; cases hq
    | some u =>
      have hc := fun tgt => hS m fv d e e' ρ [] u F h1 hv hρ ce (.prim .pred :: C) k W h acc tgt hfv hF hO
        (cok_of (by simp) (by simp) (by simp) (by simp)) hl
      rw [hv] at hq
      cases u with
      | exn v => cases hq; cases hr; exact (hc _ (.ord rfl)).any (by simp)
      | fail => cases hq; cases hr; exact (hc _ (.ord rfl)).any (by simp)
      | val v =>
        have hq' : q = .vals [v, .int 1] := by
          cases n with
          | zero => cases hv
          | succ n => simpa [evalS, idOf, evalB, retL, Const.toV, evalLR] using hq.symm
        subst hq'
        obtain ⟨W1, h1, p1, p2, p3, w', p4, p5⟩ := hc _ (.ord rfl)
        simp only [PrimRes] at hr
        cases v with
        | int a =>
          cases p4
          simp only [primSem, arithI] at hr
          exact ((concl_smlint hE p3 (hm.mono p1) hr (by simp only [step]; rfl)).start p5).base p1 p2
        | _ => simp [primSem, resL] at hr
  · -- `Pfield`
    rename_i i
    subst hG
    refine prim_args hS hfv hρ hne hlen hL hq hr hF hO (cok_of (by simp) (by simp) (by simp) (by simp)) rfl hl ?_
    intro W' h' v0 vs0 m0 ms q1 q2 q3 q4 q5 q6 q7
    simp only [primOk, beq_iff_eq] at hok
    obtain rfl := list1 (q6.trans hok)
    cases q5
    simp only [List.nil_append] at q7
    cases v0 with
    | block t l =>
      simp only [primSem] at q7
      cases hi : l[i]? with
      | none => rw [hi] at q7; cases q7
      | some v =>
        rw [hi] at q7
        cases q4 with
        | @block _ _ ms' g1 g2 =>
        have hlt : i < l.length := by
          by_contra hh; rw [List.getElem?_eq_none (by omega)] at hi; cases hi
        have hlt' : i < ms'.length := by omega
        have hv := g2 i v ms'[i] hi (by simp [hlt'])
        refine (leaf hE hv q3 (hm.mono q1) q7).start (fun fin hf => .next ?_ hf)
        simp [step, hlt', Fr.push]
    | _ => cases q7
  · -- `Pmakeblock`
    rename_i tag span
    subst hG
    refine prim_args hS hfv hρ hne hlen hL hq hr hF hO (cok_of (by simp) (by simp) (by simp) (by simp)) rfl hl ?_
    intro W' h' v0 vs0 m0 ms q1 q2 q3 q4 q5 q6 q7
    simp only [primSem, resL] at q7
    have hvb : VRel W' (.block tag (vs0 ++ [v0])) (.block tag (ms ++ [m0])) :=
      vrel_block (List.rel_append q5 (.cons q4 .nil))
    refine (leaf hE hvb q3 (hm.mono q1) q7).start (fun fin hf => .next ?_ hf)
    have hl1 : args'.length - 1 = ms.reverse.length := by
      have := q5.length_eq
      simp only [List.length_append, List.length_singleton, List.length_reverse] at q6 ⊢
      omega
    simp only [step, hl1, Fr.push]
    rw [takeVals_append]
    simp only [List.reverse_reverse]
    rw [show ms.reverse.length = (ms.reverse.map Slot.v).length by simp, List.drop_left]
  · -- `Pnot`
    rename_i e'
    match args, hlen with
    | [e], _ =>
    have h1 := hL 0 e e' rfl rfl
    have hnot : ∀ Ci, COk L Ci → retOf Ci = none →
        LOk L (compexp ce F.sf F.sz d e' Ci k).1 →
        (∀ W' h' v0 m0, W <+: W' → h <+: h' → HOk L T W' h' → VRel W' v0 m0 →
          resL (evalS n) (primSem .not [v0]) xs = some r →
          Concl L T W' h' F tgt (F.st Ci m0 h') r) →
        Concl L T W h F tgt (F.st (compexp ce F.sf F.sz d e' Ci k).1 acc h) r := by
      intro Ci a1 a2 a3 a4
      have := prim_args (args' := [e']) hS hfv hρ hne rfl hL hq hr hF hO a1 a2 (k := k) (tgt := tgt) (acc := acc)
        (by simpa only [compLR] using a3)
        (by
          intro W' h' v0 vs0 m0 ms q1 q2 q3 q4 q5 q6 q7
          obtain rfl := list1 q6
          cases q5
          exact a4 W' h' v0 m0 q1 q2 q3 q4 q7)
      simpa only [compLR] using this
    split at hG
    · -- `BRANCHIF`
      rename_i l C'
      subst hG
      obtain ⟨hlab, hirr⟩ := hC.brif _ _ rfl
      refine hnot _ ⟨by simp, by simp, ?_, by simp⟩ rfl hl ?_
      · intro l1 C1 heq; cases heq; exact ⟨hlab, hirr⟩
      · intro W' h' v0 m0 q1 q2 q3 q4 q7
        simp only [primSem] at q7
        cases ht : truth v0 with
        | none => rw [ht] at q7; cases q7
        | some b =>
          rw [ht] at q7
          cases hm with
          | ret h1 => cases h1
          | ord _ =>
            cases q7
            obtain ⟨t, ht1, ht2⟩ := vrel_truth q4 ht
            refine ⟨W', h', List.prefix_refl _, List.prefix_refl _, q3, mbool (!b), vrel_bool _ _, ?_⟩
            intro fin hf
            obtain ⟨g1, g2⟩ := to_brif m0 hlab hirr hf
            by_cases h0 : t = 0
            · have : b = false := by rw [← ht2, h0]; rfl
              obtain ⟨c, hc, hh⟩ := g1 (by simp [this])
              exact brifnot_zero (h0 ▸ ht1) hc hh
            · have : b = true := by rw [← ht2]; simpa using h0
              exact brifnot_pos ht1 h0 (g2 (by simp [this]))
    · -- `BRANCHIFNOT`
      rename_i l C'
      subst hG
      obtain ⟨hlab, hirr⟩ := hC.brifnot _ _ rfl
      refine hnot _ ⟨by simp, ?_, by simp, by simp⟩ rfl hl ?_
      · intro l1 C1 heq; cases heq; exact ⟨hlab, hirr⟩
      · intro W' h' v0 m0 q1 q2 q3 q4 q7
        simp only [primSem] at q7
        cases ht : truth v0 with
        | none => rw [ht] at q7; cases q7
        | some b =>
          rw [ht] at q7
          cases hm with
          | ret h1 => cases h1
          | ord _ =>
            cases q7
            obtain ⟨t, ht1, ht2⟩ := vrel_truth q4 ht
            refine ⟨W', h', List.prefix_refl _, List.prefix_refl _, q3, mbool (!b), vrel_bool _ _, ?_⟩
            intro fin hf
            obtain ⟨g1, g2⟩ := to_brifnot m0 hlab hirr hf
            by_cases h0 : t = 0
            · have : b = false := by rw [← ht2, h0]; rfl
              exact brif_zero (h0 ▸ ht1) (g2 (by simp [this]))
            · have : b = true := by rw [← ht2]; simpa using h0
              obtain ⟨c, hc, hh⟩ := g1 (by simp [this])
              exact brif_pos ht1 h0 hc hh
    · subst hG
      refine hnot _ (cok_of (by simp) (by simp) (by simp) (by simp)) rfl hl ?_
      intro W' h' v0 m0 q1 q2 q3 q4 q7
      simp only [primSem] at q7
      cases ht : truth v0 with
      | none => rw [ht] at q7; cases q7
      | some b =>
        rw [ht] at q7
        obtain ⟨t, ht1, ht2⟩ := vrel_truth q4 ht
        refine (leaf hE (vrel_bool W' (!b)) q3 (hm.mono q1) q7).start (fun fin hf => .next ?_ hf)
        have : (t == 0) = !b := by rw [← ht2]; simp [bne]
        simp only [step, ht1, this]
  · -- `Ptest`
    rename_i t
    simp only [primOk, beq_iff_eq] at hok
    have htest : ∀ Ci, COk L Ci → retOf Ci = none →
        LOk L (compLR ce F.sf F.sz d args' Ci k).1 →
        (∀ W' h' a b, W <+: W' → h <+: h' → HOk L T W' h' →
          resL (evalS n) (some (.val (vbool (cmpI t a b)))) xs = some r →
          Concl L T W' h' F tgt ((F.push [.v (.int a)]).st Ci (.int b) h') r) →
        Concl L T W h F tgt (F.st (compLR ce F.sf F.sz d args' Ci k).1 acc h) r := by
      intro Ci a1 a2 a3 a4
      refine prim_args hS hfv hρ hne hlen hL hq hr hF hO a1 a2 a3 ?_
      intro W' h' v0 vs0 m0 ms q1 q2 q3 q4 q5 q6 q7
      obtain ⟨v1, rfl⟩ := list2 (q6.trans hok)
      cases q5 with
      | cons g1 g2 =>
      cases g2
      simp only [List.cons_append, List.nil_append] at q7
      cases v1 with
      | int a =>
        cases v0 with
        | int b =>
          cases g1
          cases q4
          exact a4 W' h' a b q1 q2 q3 q7
        | _ => cases q7
      | _ => cases q7
    split at hG
    · rename_i l C'
      subst hG
      obtain ⟨hlab, hirr⟩ := hC.brif _ _ rfl
      refine htest _ (cok_of (by simp) (by simp) (by simp) (by simp)) rfl hl ?_
      intro W' h' a b q1 q2 q3 q7
      cases hm with
      | ret h1 => cases h1
      | ord _ =>
        cases q7
        refine ⟨W', h', List.prefix_refl _, List.prefix_refl _, q3, mbool _, vrel_bool _ _, ?_⟩
        intro fin hf
        obtain ⟨g1, g2⟩ := to_brif (.int b) hlab hirr hf
        cases hcmp : cmpI t a b with
        | true =>
          obtain ⟨c, hc, hh⟩ := g1 hcmp
          refine .next ?_ hh
          simp [step, Fr.push, hcmp, jump, hc]
        | false =>
          refine .next ?_ (g2 hcmp)
          simp [step, Fr.push, hcmp]
    · rename_i l C'
      subst hG
      obtain ⟨hlab, hirr⟩ := hC.brifnot _ _ rfl
      refine htest _ (cok_of (by simp) (by simp) (by simp) (by simp)) rfl hl ?_
      intro W' h' a b q1 q2 q3 q7
      cases hm with
      | ret h1 => cases h1
      | ord _ =>
        cases q7
        refine ⟨W', h', List.prefix_refl _, List.prefix_refl _, q3, mbool _, vrel_bool _ _, ?_⟩
        intro fin hf
        obtain ⟨g1, g2⟩ := to_brifnot (.int b) hlab hirr hf
        cases hcmp : cmpI t a b with
        | true =>
          refine .next ?_ (g2 hcmp)
          simp [step, Fr.push, cmpI_invert, hcmp]
        | false =>
          obtain ⟨c, hc, hh⟩ := g1 hcmp
          refine .next ?_ hh
          simp [step, Fr.push, cmpI_invert, hcmp, jump, hc]
    · subst hG
      refine htest _ (cok_of (by simp) (by simp) (by simp) (by simp)) rfl hl ?_
      intro W' h' a b q1 q2 q3 q7
      refine (leaf hE (vrel_bool W' _) q3 (hm.mono q1) q7).start (fun fin hf => .next ?_ hf)
      simp [step, Fr.push]
  · -- `Praise`
    subst hG
    refine prim_args hS hfv hρ hne hlen hL hq hr hF hO (cok_of (by simp) (by simp) (by simp) (by simp)) rfl hl ?_
    intro W' h' v0 vs0 m0 ms q1 q2 q3 q4 q5 q6 q7
    simp only [primOk, beq_iff_eq] at hok
    obtain rfl := list1 (q6.trans hok)
    cases q5
    cases q7
    refine ⟨W', h', List.prefix_refl _, List.prefix_refl _, q3, m0, q4, ?_⟩
    intro fin hf
    exact raise_deeper [] hF.trap hf
  · simp [primOk] at hok
  · exact absurd rfl hid
  · -- the others
    subst hG
    rename_i hn1 hn2 hn3 hn4 hn5 hn6 hn7 hn8 hn9
    cases p with
    | arith op =>
      refine prim_args hS hfv hρ hne hlen hL hq hr hF hO (cok_of (by simp) (by simp) (by simp) (by simp)) rfl hl ?_
      intro W' h' v0 vs0 m0 ms q1 q2 q3 q4 q5 q6 q7
      simp only [primOk, beq_iff_eq] at hok
      obtain ⟨v1, rfl⟩ := list2 (q6.trans hok)
      cases q5 with
      | cons g1 g2 =>
      cases g2
      simp only [List.cons_append, List.nil_append] at q7
      cases v1 with
      | int a =>
        cases v0 with
        | int b =>
          cases g1
          cases q4
          exact concl_smlint hE q3 (hm.mono q1) q7 (by simp only [step, Fr.push]; rfl)
        | _ => cases q7
      | _ => cases q7
    | not =>
      simp only [primOk, beq_iff_eq] at hok
      match args', hlen.trans hok with
      | [e'], _ => exact (hn9 e' rfl rfl).elim
    | makeblock t s => exact absurd rfl (hn2 t s)
    | field i => exact absurd rfl (hn1 i)
    | raise => exact absurd rfl hn4
    | test t => exact absurd rfl (hn3 t)
    | identity => exact absurd rfl hid
    | succ => simp [primOk] at hok
    | pred => simp [primOk] at hok
    | closure => simp [primOk] at hok
    | dummy => simp [primOk] at hok
    | update => simp [primOk] at hok

end Mosml.Zam
