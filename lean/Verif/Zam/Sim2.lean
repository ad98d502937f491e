import Verif.Zam.Sim

/-!
# The code does what the term means: binding, handlers, application
-/

namespace Mosml.Zam

/-- A frame with another place for static failure. -/
theorem Mode.sf {C F W xs tgt} (h : Mode C F W xs tgt) (b : Bool) (s : Sf) :
    Mode C { F with sfb := b, sf := s } W xs tgt := by
  cases h with
  | ord h1 => exact .ord h1
  | ret h1 h2 h3 h4 h5 => exact .ret h1 h2 h3 h4 h5

theorem Mode.retnone {C F W xs tgt} (h : Mode C F W xs tgt) (hr : isReturn C = false) :
    xs = [] ∧ retOf C = none ∧ tgt = fun w h => F.st C w h := by
  cases h with
  | ord h1 => exact ⟨rfl, h1, rfl⟩
  | ret h1 _ _ _ _ => rw [isReturn_iff, h1] at hr; cases hr

section
variable {L : Nat → Option Code} {T : List Func} {n : Nat} (hS : SimAt L T n) (hE : EnterAt L T n)
  (hP : Prog L T)
  {m : Nat} {fv : List Int} {d : Nat} {ρ : List Val} {ce : CEnv} {F : Fr}
  (hfv : ce.fv = fv) (hρ : ρ.length = m + d)
  {W : List Val} {h : List Obj} (hF : FOk L W h ce d ρ F) (hO : HOk L T W h)

include hS hfv hρ hF hO

theorem simLett {args args' : List Lam} {b b' : Lam} {C k acc xs r tgt}
    (hlen : args'.length = args.length)
    (ha : ∀ (i : Nat) e e', args[i]? = some e → args'[i]? = some e' → Lifts T m fv (d + i) F.sfb e e')
    (hb : Lifts T m fv (d + args.length) F.sfb b b')
    (hr : evalB (evalS n) ρ (.lett args b) xs = some r)
    (hC : COk L C) (hl : LOk L (compexp ce F.sf F.sz d (.lett args' b') C k).1) (hm : Mode C F W xs tgt) :
    Concl L T W h F tgt (F.st (compexp ce F.sf F.sz d (.lett args' b') C k).1 acc h) r := by
  simp only [compexp] at hl ⊢
  simp only [evalB] at hr
  cases hq : evalLets (fun env e => evalS n env e []) ρ args with
  | none => rw [hq] at hr; cases hr
  | some q =>
    rw [hq] at hr
    have hp := simLets hS args args' hlen d ρ ce F hfv hρ ha q hq W h acc _ _ hF hO hl
    cases q with
    | stop r0 => cases hr; exact hp tgt
    | vals ρ' =>
      obtain ⟨W', h', X, acc', p1, p2, p3, p4, p5, p6, p7⟩ := hp
      have hlb := hl.of_ext (ext_compLets _ _ _ _ _ _ _)
      obtain ⟨c1, tgt1, m1, t1⟩ := addPop_mode X hC hF.trap (hm.mono p1)
      rw [hlen] at hlb p7 ⊢
      rw [p4] at c1 m1
      have hc := hS m fv (d + args.length) b b' ρ' xs r (F.push X) hb hr (by omega)
        (bindMany ce d F.sz args.length) (addPop args.length C) k W' h' acc' tgt1
        ((bindMany_fv _ _ _ _).trans hfv) p6 p3 c1 (by simpa only [Fr.push, p4] using hlb) m1
      refine (((hc.unpush t1 hF.sf hF.trap).start ?_).base p1 p2)
      intro fin hf
      refine p7 fin ?_
      simpa only [Fr.push, p4] using hf

theorem simStatichandle {a a' b b' : Lam} {C k acc xs r tgt} (ha : Lifts T m fv d true a a')
    (hb : Lifts T m fv d F.sfb b b') (hr : evalB (evalS n) ρ (.statichandle a b) xs = some r)
    (hC : COk L C) (hl : LOk L (compexp ce F.sf F.sz d (.statichandle a' b') C k).1)
    (hm : Mode C F W xs tgt) :
    Concl L T W h F tgt (F.st (compexp ce F.sf F.sz d (.statichandle a' b') C k).1 acc h) r := by
  simp only [compexp] at hl ⊢
  simp only [evalB] at hr
  cases hu : evalS n ρ a xs with
  | none => rw [hu] at hr; cases hr
  | some u =>
    rw [hu] at hr
    split at hl
    · rename_i hsf
      rw [if_pos hsf]
      have hb2 : b = .staticfail ∧ F.sfb = true := by
        generalize F.sfb = sfb at hb ⊢
        cases hb <;> first | exact ⟨rfl, rfl⟩ | cases hsf
      obtain ⟨rfl, hsb⟩ := hb2
      have hru : r = u := by
        cases u with
        | val v => cases hr; rfl
        | exn v => cases hr; rfl
        | fail =>
          cases n with
          | zero => cases hr
          | succ n => simp only [evalS, idOf, evalB] at hr; cases hr; rfl
      subst hru
      exact hS m fv d a a' ρ xs r F (by rw [hsb]; exact ha) hu hρ ce C k W h acc tgt hfv hF hO hC hl hm
    · rename_i hsf
      rw [if_neg hsf]
      generalize hD : discard (labelCode (compexp ce F.sf F.sz d b' (makeBranch C k).2.1
        (makeBranch C k).2.2).1 (compexp ce F.sf F.sz d b' (makeBranch C k).2.1
        (makeBranch C k).2.2).2).2.1 = D at hl ⊢
      have hlc : LOk L (labelCode (compexp ce F.sf F.sz d b' (makeBranch C k).2.1 (makeBranch C k).2.2).1
          (compexp ce F.sf F.sz d b' (makeBranch C k).2.1 (makeBranch C k).2.2).2).2.1 := by
        have := (hl.of_ext (ext_comp _ _ _ _ _ _ _)).tail
        rw [← hD] at this
        exact this.of_ext (ext_discard _ 0)
      have hlb := hlc.of_ext (ext_labelCode _ _)
      have hlm := hlb.of_ext (ext_comp _ _ _ _ _ _ _)
      have hib := irr_of hF hb hlb
      obtain ⟨cc, hcc, hcb⟩ := labelCode_get (cok_irr hib) hlc
      obtain ⟨⟨tb, mb1, mb2⟩, ⟨ta, ma1, ma2⟩⟩ := makeBranch_mode (k := k) D hlm hm
      obtain ⟨cb, ca⟩ := makeBranch_cok (k := k) D hlm hC
      have hlab := labelCode_irr hlc hib
      generalize hlc1 : (labelCode (compexp ce F.sf F.sz d b' (makeBranch C k).2.1
        (makeBranch C k).2.2).1 (compexp ce F.sf F.sz d b' (makeBranch C k).2.1
        (makeBranch C k).2.2).2).1 = l at *
      have hF' : FOk L W h ce d ρ { F with sfb := true, sf := some (l, F.sz) } := by
        refine ⟨⟨hF.env.loc, hF.env.cap⟩, ⟨?_, fun _ => ⟨_, _, rfl⟩⟩, hF.trap⟩
        intro l1 tsz heq
        cases heq
        exact ⟨Nat.le_refl _, hlab⟩
      have hc := hS m fv d a a' ρ xs u { F with sfb := true, sf := some (l, F.sz) } ha hu hρ ce _ _ W h acc
        ta hfv hF' hO ca hl (ma1.sf _ _)
      obtain ⟨W', h', p1, p2, p3, p4⟩ := hc
      cases u with
      | val v =>
        cases hr
        obtain ⟨v', q1, q2⟩ := p4
        exact ⟨W', h', p1, p2, p3, v', q1, fun fin hf => q2 fin (ma2 _ _ _ hf)⟩
      | exn v =>
        cases hr
        exact ⟨W', h', p1, p2, p3, p4⟩
      | fail =>
        obtain ⟨_, l1, tsz, c1, acc1, q1, q2, q3⟩ := p4
        cases q1
        rw [hcc] at q2
        cases q2
        refine (((hS m fv d b b' ρ xs r F hb hr hρ ce _ _ W' h' acc1 tb hfv (hF.mono p1 p2) p3 cb hlb
          (mb1.mono p1)).tgt mb2).start ?_).base p1 p2
        intro fin hf
        refine q3 fin ?_
        simp only [Nat.sub_self, List.drop_zero]
        exact hcb _ _ _ _ _ _ _ hf

include hE

theorem simHandle {a a' b b' : Lam} {C k acc xs r tgt} (ha : Lifts T m fv d false a a')
    (hb : Lifts T m fv (d + 1) F.sfb b b') (hr : evalB (evalS n) ρ (.handle a b) xs = some r)
    (hC : COk L C) (hl : LOk L (compexp ce F.sf F.sz d (.handle a' b') C k).1)
    (hm : Mode C F W xs tgt) :
    Concl L T W h F tgt (F.st (compexp ce F.sf F.sz d (.handle a' b') C k).1 acc h) r := by
  simp only [compexp] at hl ⊢
  simp only [evalB] at hr
  cases hu : evalS n ρ a [] with
  | none => rw [hu] at hr; cases hr
  | some u =>
    rw [hu] at hr
    have hlq := hl.tail.of_ext (ext_comp _ _ _ _ _ _ _)
    have hll := hlq.tail.tail.label
    have hlr := hlq.tail.tail.tail.tail
    have hlm : LOk L (makeBranch C k).2.1 :=
      (hlr.of_ext (ext_comp _ _ _ _ _ _ _)).of_ext (ext_addPop _ _ 0)
    obtain ⟨⟨tb, mb1, mb2⟩, ⟨ta, ma1, ma2⟩⟩ := makeBranch_mode (k := k)
      (.label ((makeBranch C k).2.2 + 1) :: .push ::
        (compexp (bind ce d (F.sz + 1)) F.sf (F.sz + 1) (d + 1) b' (addPop 1 (makeBranch C k).2.1)
          ((makeBranch C k).2.2 + 1)).1) hlm hm
    obtain ⟨cb, _⟩ := makeBranch_cok (k := k) [] hlm hC
    generalize hR : (compexp (bind ce d (F.sz + 1)) F.sf (F.sz + 1) (d + 1) b'
      (addPop 1 (makeBranch C k).2.1) ((makeBranch C k).2.2 + 1)) = R at *
    let X : List Slot := [.pc (.push :: R.1), .link F.trap, .v F.env, .n F.extra]
    let F' : Fr := { F.push X with sfb := false, trap := F.S.length + 4 }
    have hF' : FOk L W h ce d ρ F' := by
      have h1 := hF.push X
      exact ⟨⟨h1.env.loc, h1.env.cap⟩, ⟨h1.sf.lab, by simp [F']⟩, by simp [F', Fr.push, X]⟩
    have hc := hS m fv d a a' ρ [] u F' ha hu hρ ce _ _ W h acc _ hfv hF' hO
      (cok_of (by simp) (by simp) (by simp) (by simp)) hl.tail (.ord rfl)
    have hstart : ∀ fin, Halts L (F'.st (compexp ce F'.sf F'.sz d a' (.poptrap :: (makeBranch C k).1 ::
        .label ((makeBranch C k).2.2 + 1) :: .push :: R.1) R.2).1 acc h) fin →
        Halts L (F.st (.pushtrap ((makeBranch C k).2.2 + 1) :: (compexp ce F.sf (F.sz + 4) d a'
          (.poptrap :: (makeBranch C k).1 ::
            .label ((makeBranch C k).2.2 + 1) :: .push :: R.1) R.2).1) acc h) fin := by
      intro fin hf
      refine .next ?_ hf
      simp only [step, hll, F', Fr.push, X, List.cons_append, List.nil_append, List.length_cons,
        List.length_nil]
    obtain ⟨W', h', p1, p2, p3, p4⟩ := hc
    cases u with
    | val v =>
      obtain ⟨v', q1, q2⟩ := p4
      refine (((leaf hE q1 p3 (ma1.mono p1) hr).tgt ma2).start ?_).base p1 p2
      intro fin hf
      exact hstart fin (q2 fin (.next rfl hf))
    | exn x =>
      obtain ⟨x', q1, q2⟩ := p4
      simp only at hr
      obtain ⟨c1, tgt1, m1, t1⟩ := addPop_mode [.v x'] cb hF.trap (mb1.mono p1)
      have hlr' : LOk L (compexp (bind ce d (F.sz + 1)) F.sf (F.sz + 1) (d + 1) b'
        (addPop 1 (makeBranch C k).2.1) ((makeBranch C k).2.2 + 1)).1 := by rw [hR]; exact hlr
      have hc := hS m fv (d + 1) b b' (x :: ρ) xs r (F.push [.v x']) hb hr
        (by simp only [List.length_cons]; omega)
        (bind ce d (F.sz + 1)) _ ((makeBranch C k).2.2 + 1) W' h' x' tgt1 hfv
        ((hF.mono p1 p2).bind q1) p3 c1 hlr' m1
      refine (((hc.unpush t1 hF.sf hF.trap).tgt mb2).start ?_).base p1 p2
      intro fin hf
      refine hstart fin (q2 fin ?_)
      refine .next (t := F.st (.push :: R.1) x' h') ?_ (.next rfl ?_)
      · simp only [step, doRaise, F', Fr.push, X, List.cons_append, List.nil_append, List.length_cons]
        rw [if_neg (by omega),
          show F.S.length + 1 + 1 + 1 + 1 - (F.S.length + 4) = 0 by omega]
        simp only [List.drop_zero]
      · rw [← hR]
        exact hf
    | fail => exact absurd p4.1 (by simp [F'])

theorem simApply {f f' : Lam} {args args' : List Lam} {C k acc xs r tgt} (hne : args ≠ [])
    (hf : Lifts T m fv d F.sfb f f') (hlen : args'.length = args.length)
    (ha : ∀ (i : Nat) e e', args[i]? = some e → args'[i]? = some e' → Lifts T m fv d F.sfb e e')
    (hr : evalB (evalS n) ρ (.apply f args) xs = some r)
    (hC : COk L C) (hl : LOk L (compexp ce F.sf F.sz d (.apply f' args') C k).1)
    (hm : Mode C F W xs tgt) :
    Concl L T W h F tgt (F.st (compexp ce F.sf F.sz d (.apply f' args') C k).1 acc h) r := by
  simp only [compexp] at hl ⊢
  simp only [evalB] at hr
  rw [hlen] at hl ⊢
  cases hq : evalRL (fun e => evalS n ρ e []) args with
  | none => rw [hq] at hr; cases hr
  | some q =>
    rw [hq] at hr
    -- arguments, then the function, then `Ca`
    have core : ∀ (F0 : Fr) (X0 : List Slot) (Ca : Code) (kc : Nat) (acc : MVal), F0 = F.push X0 →
        COk L Ca → retOf Ca = none →
        LOk L (compRL ce F0.sf (F0.sz + args.length - 1) d args' (.push ::
          (compexp ce F0.sf (F0.sz + args.length) d f' Ca kc).1)
          (compexp ce F0.sf (F0.sz + args.length) d f' Ca kc).2).1 →
        (∀ W' h' v0 vs0 m0 ms g a, W <+: W' → h <+: h' → HOk L T W' h' → VRel W' g (.addr a) →
          VRels W' (v0 :: vs0) (m0 :: ms) → (v0 :: vs0).length = args.length →
          retL (evalS n) g ((v0 :: vs0) ++ xs) = some r →
          Concl L T W' h' F tgt ((F0.push ((m0 :: ms).map .v)).st Ca (.addr a) h') r) →
        Concl L T W h F tgt (F0.st (compRL ce F0.sf (F0.sz + args.length - 1) d args' (.push ::
          (compexp ce F0.sf (F0.sz + args.length) d f' Ca kc).1)
          (compexp ce F0.sf (F0.sz + args.length) d f' Ca kc).2).1 acc h) r := by
      intro F0 X0 Ca kc acc hF0 hCa hra hla hend
      subst hF0
      have hp := simRL hS (F := F.push X0) hfv hρ args args' hne hlen ha q hq W h acc _ _ _
        (hF.push X0) hO
        (cok_of (by simp) (by simp) (by simp) (by simp)) rfl rfl hla
      cases q with
      | stop r0 =>
        cases hr
        refine (hp tgt).stop (X := X0) ?_ hF.sf hF.trap
        intro v hv
        subst hv
        exact absurd rfl (evalRL_stop hq v)
      | vals vs =>
        simp only at hr
        have hlv := simRL.evalRL_len hq
        obtain ⟨W', h', v0, vs0, m0, ms, rfl, p1, p2, p3, p4, p5, p6⟩ := hp
        have hml : ((m0 :: ms).map Slot.v).length = args.length := by
          have := p5.length_eq
          simp only [List.length_map, List.length_cons] at hlv ⊢
          omega
        have hlf := (hla.of_ext (ext_compRL _ _ _ _ _ _ _)).tail
        refine Concl.base p1 p2 (Concl.start (start1 := ((F.push X0).push ((m0 :: ms).map .v)).st
          (compexp ce (F.push X0).sf ((F.push X0).sz + args.length) d f' Ca kc).1 m0 h') ?_ ?_)
        · cases hu : evalS n ρ f [] with
          | none => rw [hu] at hr; cases hr
          | some u =>
            rw [hu] at hr
            have hsz : ((F.push X0).push ((m0 :: ms).map Slot.v)).sz = (F.push X0).sz + args.length := by
              simp only [Fr.push, hml]
            have hc := hS m fv d f f' ρ [] u ((F.push X0).push ((m0 :: ms).map .v)) hf hu hρ ce Ca kc W' h'
              m0 _ hfv (((hF.push X0).push _).mono p1 p2) p3 hCa (by rw [hsz]; exact hlf) (.ord hra)
            rw [hsz] at hc
            cases u with
            | val g =>
              obtain ⟨W2, h2, q1, q2, q3, g', q4, q5⟩ := hc
              have hcl : ∃ p, asClos g = some p := by
                simp only [List.cons_append, retL] at hr
                cases hg : asClos g with
                | some p => exact ⟨p, rfl⟩
                | none => rw [hg] at hr; cases hr
              obtain ⟨p, hg⟩ := hcl
              obtain ⟨a, rfl, _⟩ := vrel_closure q4 hg
              exact ((hend W2 h2 v0 vs0 m0 ms g a (p1.trans q1) (p2.trans q2) q3 q4
                ((VRels.mono q1 (.cons p4 p5))) hlv hr).start q5).base q1 q2
            | exn x =>
              cases hr
              exact (hc.stop (tgt := tgt) (by simp) (hF.push X0).sf (hF.push X0).trap).stop (by simp)
                hF.sf hF.trap
            | fail =>
              cases hr
              exact (hc.stop (tgt := tgt) (by simp) (hF.push X0).sf (hF.push X0).trap).stop (by simp)
                hF.sf hF.trap
        · intro fin hf
          refine p6 fin (.next rfl ?_)
          exact hf
    split at hl
    · -- a tail call
      rename_i hret
      rw [if_pos hret]
      cases hm with
      | ord h1 => rw [isReturn_iff, h1] at hret; cases hret
      | @ret _ ms0 S0 h1 h2 h3 h4 h5 =>
        refine core F [] _ _ acc rfl (cok_of (by simp) (by simp) (by simp) (by simp)) rfl hl ?_
        intro W' h' v0 vs0 m0 ms g a p1 p2 p3 p4 p5 p6 p7
        have hml : (m0 :: ms).length = args.length := by rw [← p5.length_eq]; exact p6
        obtain ⟨o, ho, hc⟩ := hE W' h' g a v0 (vs0 ++ xs) ((m0 :: ms) ++ ms0) r S0 F.trap (.addr a) p4 p3
          p7 (List.rel_append p5 (h3.mono p1)) h5
        have hS' : F.S = (F.S.take F.sz ++ ms0.map .v) ++ S0 := by
          rw [List.append_assoc, ← h2, List.take_append_drop]
        refine (hc.call _ hS' h5).start ?_
        intro fin hfin
        refine .next ?_ hfin
        have e1 : (List.map Slot.v (m0 :: ms) ++ F.S).take args.length = List.map Slot.v (m0 :: ms) := by
          rw [← hml, show (m0 :: ms).length = (List.map Slot.v (m0 :: ms)).length by simp, List.take_left]
        have e2 : (List.map Slot.v (m0 :: ms) ++ F.S).drop (F.sz + args.length) = F.S.drop F.sz := by
          rw [← hml, show F.sz + (m0 :: ms).length = (List.map Slot.v (m0 :: ms)).length + F.sz by
            simp; omega, drop_app]
        simp only [step, Fr.push, e1, e2, enter, ho, h2, h4, Out.next.injEq, State.mk.injEq, true_and,
          and_true]
        refine ⟨by rw [List.map_append, List.append_assoc], ?_⟩
        simp only [List.length_cons] at p6
        simp only [List.length_append]
        omega
    · rename_i hret
      rw [if_neg hret]
      obtain ⟨rfl, hr1, rfl⟩ := hm.retnone (by simpa using hret)
      split at hl
      · rename_i h5
        rw [if_pos h5]
        refine core F [] _ _ acc rfl (cok_of (by simp) (by simp) (by simp) (by simp)) rfl hl ?_
        intro W' h' v0 vs0 m0 ms g a p1 p2 p3 p4 p5 p6 p7
        have hml : (m0 :: ms).length = args.length := by rw [← p5.length_eq]; exact p6
        rw [List.append_nil] at p7
        obtain ⟨o, ho, hc⟩ := hE W' h' g a v0 vs0 (m0 :: ms) r
          ([.pc C, .v F.env, .n F.extra] ++ F.S) F.trap (.addr a) p4 p3
          p7 p5 (by have := hF.trap; simp only [List.length_append]; omega)
        refine ((hc.call' hF.trap).start ?_).tgt ?_
        · intro fin hfin
          refine .next ?_ hfin
          have e1 : (List.map Slot.v (m0 :: ms) ++ F.S).take args.length = List.map Slot.v (m0 :: ms) := by
            rw [← hml, show (m0 :: ms).length = (List.map Slot.v (m0 :: ms)).length by simp, List.take_left]
          have e2 : (List.map Slot.v (m0 :: ms) ++ F.S).drop args.length = F.S := by
            rw [← hml, show (m0 :: ms).length = (List.map Slot.v (m0 :: ms)).length by simp, List.drop_left]
          simp only [step, if_pos h5, Fr.push, e1, e2, enter, ho, Out.next.injEq, State.mk.injEq, true_and,
            and_true]
          simp only [List.length_cons] at p6
          refine ⟨rfl, ?_⟩
          omega
        · intro w h fin hfin
          refine .next ?_ hfin
          simp only [step, Nat.lt_irrefl, if_false, gt_iff_lt, List.drop_zero, popFrame,
            List.cons_append, List.nil_append]
      · rename_i h5
        rw [if_neg h5]
        have hlc : LOk L (labelCode C k).2.1 :=
          ((hl.tail.of_ext (ext_compRL _ _ _ _ _ _ _)).tail.of_ext (ext_comp _ _ _ _ _ _ _)).tail
        obtain ⟨c, hc1, hc2⟩ := labelCode_get hC hlc
        refine (core (F.push [.pc c, .v F.env, .n F.extra]) [.pc c, .v F.env, .n F.extra] _ _ acc rfl
          (cok_of (by simp) (by simp) (by simp) (by simp)) rfl hl.tail ?_).start ?_
        · intro W' h' v0 vs0 m0 ms g a p1 p2 p3 p4 p5 p6 p7
          rw [List.append_nil] at p7
          obtain ⟨o, ho, hc⟩ := hE W' h' g a v0 vs0 (m0 :: ms) r
            ([.pc c, .v F.env, .n F.extra] ++ F.S) F.trap (.addr a) p4 p3
            p7 p5 (by have := hF.trap; simp only [List.length_append]; omega)
          refine ((hc.call' hF.trap).start ?_).tgt ?_
          · intro fin hfin
            refine .next ?_ hfin
            simp only [step, if_neg h5, Fr.push, enter, ho, Out.next.injEq, State.mk.injEq, true_and,
              and_true]
            simp only [List.length_cons] at p6
            omega
          · intro w h fin hfin
            refine .next ?_ (hc2 _ _ _ _ _ _ _ hfin)
            simp only [step, Nat.lt_irrefl, if_false, gt_iff_lt, List.drop_zero, popFrame,
              List.cons_append, List.nil_append]
        · intro fin hfin
          refine .next ?_ hfin
          simp only [step, hc1]
          rfl

end

end Mosml.Zam
