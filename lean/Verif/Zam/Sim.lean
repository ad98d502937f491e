import Verif.Zam.Clos

/-!
# The code does what the term means
-/

namespace Mosml.Zam

theorem Concl.unpush {L T W h F X tgt tgt1 start r} (hc : Concl L T W h (F.push X) tgt1 start r)
    (ht : ∀ w h fin, Halts L (tgt w h) fin → Halts L (tgt1 w h) fin)
    (hsf : SfOk L F) (htr : F.trap ≤ F.S.length) : Concl L T W h F tgt start r := by
  cases r with
  | val w =>
    obtain ⟨W', h', a, b, c, w', h1, h2⟩ := hc
    exact ⟨W', h', a, b, c, w', h1, fun fin hf => h2 fin (ht _ _ _ hf)⟩
  | exn w => exact hc.stop (by simp) hsf htr
  | fail => exact hc.stop (by simp) hsf htr

/-- The label of a piece of code. -/
theorem labelCode_get {L C k} (hC : COk L C) (hl : LOk L (labelCode C k).2.1) :
    ∃ c, L (labelCode C k).1 = some c ∧ ∀ acc env S extra trap h fin,
      Halts L ⟨C, acc, env, S, extra, trap, h⟩ fin → Halts L ⟨c, acc, env, S, extra, trap, h⟩ fin := by
  revert hl
  unfold labelCode
  split <;> intro hl
  · obtain ⟨c, hc⟩ := hC.branch _ _ rfl
    exact ⟨c, hc, fun _ _ _ _ _ _ _ hf => halts_branch hc hf⟩
  · exact ⟨_, hl.label, fun _ _ _ _ _ _ _ hf => halts_label hf⟩
  · exact ⟨_, hl.label, fun _ _ _ _ _ _ _ hf => hf⟩

theorem labelCode_halts {L C k acc env S extra trap h fin}
    (hh : Halts L ⟨C, acc, env, S, extra, trap, h⟩ fin) :
    Halts L ⟨(labelCode C k).2.1, acc, env, S, extra, trap, h⟩ fin := by
  unfold labelCode
  split
  · exact hh
  · exact hh
  · exact .next rfl hh

section
variable {L : Nat → Option Code} {T : List Func} {n : Nat} (hS : SimAt L T n) (hE : EnterAt L T n)
  (hP : Prog L T)
  {m : Nat} {fv : List Int} {d : Nat} {ρ : List Val} {ce : CEnv} {F : Fr}
  (hfv : ce.fv = fv) (hρ : ρ.length = m + d)
  {W : List Val} {h : List Obj} (hF : FOk L W h ce d ρ F) (hO : HOk L T W h)

include hS hfv hρ hF hO

/-- First `c`, then what follows. -/
theorem simThen {c c' : Lam} {C0 k0 acc u r tgt} (hL : Lifts T m fv d F.sfb c c')
    (hu : evalS n ρ c [] = some u) (hC : COk L C0) (hret : retOf C0 = none)
    (hl : LOk L (compexp ce F.sf F.sz d c' C0 k0).1)
    (hval : ∀ v W' h' v', u = .val v → W <+: W' → h <+: h' → HOk L T W' h' → VRel W' v v' →
      Concl L T W' h' F tgt (F.st C0 v' h') r)
    (hstop : (∀ v, u ≠ .val v) → r = u) :
    Concl L T W h F tgt (F.st (compexp ce F.sf F.sz d c' C0 k0).1 acc h) r := by
  have hc := hS m fv d c c' ρ [] u F hL hu hρ ce C0 k0 W h acc _ hfv hF hO hC hl (.ord hret)
  cases u with
  | val v =>
    obtain ⟨W', h', p1, p2, p3, v', p4, p5⟩ := hc
    exact ((hval v W' h' v' rfl p1 p2 p3 p4).start p5).base p1 p2
  | exn x => rw [hstop (by simp)]; exact hc.any (by simp)
  | fail => rw [hstop (by simp)]; exact hc.any (by simp)

omit hS hfv hρ hO in
theorem irr_of {e e' : Lam} {C k sfb} (hL : Lifts T m fv d sfb e e')
    (hl : LOk L (compexp ce F.sf F.sz d e' C k).1) : AccIrr L (compexp ce F.sf F.sz d e' C k).1 :=
  irr_comp _ m fv d sfb e e' (Nat.lt_succ_self _) hL _ _ _ _ _ _ hF.sf.irr hl

theorem simSeq {a a' b b' : Lam} {C k acc xs r tgt} (ha : Lifts T m fv d F.sfb a a')
    (hb : Lifts T m fv d F.sfb b b') (hr : evalB (evalS n) ρ (.seq a b) xs = some r)
    (hC : COk L C) (hl : LOk L (compexp ce F.sf F.sz d (.seq a' b') C k).1) (hm : Mode C F W xs tgt) :
    Concl L T W h F tgt (F.st (compexp ce F.sf F.sz d (.seq a' b') C k).1 acc h) r := by
  simp only [compexp] at hl ⊢
  have hlb := hl.of_ext (ext_comp _ _ _ _ _ _ _)
  have hib := irr_of hF hb hlb
  simp only [evalB] at hr
  cases hu : evalS n ρ a [] with
  | none => rw [hu] at hr; cases hr
  | some u =>
    rw [hu] at hr
    refine simThen hS hfv hρ hF hO ha hu (cok_irr hib) (irr_retOf hib) hl ?_ ?_
    · intro v W' h' v' hv p1 p2 p3 p4
      subst hv
      exact hS m fv d b b' ρ xs r F hb hr hρ ce C k W' h' v' tgt hfv (hF.mono p1 p2) p3 hC hlb (hm.mono p1)
    · intro hv
      cases u with
      | val v => exact absurd rfl (hv v)
      | exn x => cases hr; rfl
      | fail => cases hr; rfl

theorem simCond {c c' a a' b b' : Lam} {C k acc xs r tgt} (hc : Lifts T m fv d F.sfb c c')
    (ha : Lifts T m fv d F.sfb a a')
    (hb : Lifts T m fv d F.sfb b b') (hr : evalB (evalS n) ρ (.cond c a b) xs = some r)
    (hC : COk L C) (hl : LOk L (compexp ce F.sf F.sz d (.cond c' a' b') C k).1)
    (hm : Mode C F W xs tgt) :
    Concl L T W h F tgt (F.st (compexp ce F.sf F.sz d (.cond c' a' b') C k).1 acc h) r := by
  have hsf : ∀ {e e' : Lam} {l}, Lifts T m fv d F.sfb e e' → sfHere e' F.sf F.sz = some l →
      e = .staticfail ∧ F.sfb = true ∧ F.sf = some (l, F.sz) ∧ LabIrr L l := by
    intro e e' l hL hh
    unfold sfHere at hh
    split at hh
    · rename_i h1
      split at hh
      · rename_i l1 tsz h2
        split at hh
        · rename_i h3
          cases hh
          subst h3
          have := (hF.sf.lab _ _ h2).2
          generalize F.sfb = sfb at hL ⊢
          cases hL <;> first | exact ⟨rfl, rfl, h2, this⟩ | cases h1
        · cases hh
      · cases hh
    · cases hh
  have failed : ∀ {l v' W' h' start}, F.sfb = true → F.sf = some (l, F.sz) → LabIrr L l →
      HOk L T W' h' → (∀ c, L l = some c → ∀ fin, Halts L (F.st c v' h') fin → Halts L start fin) →
      Concl L T W' h' F tgt start .fail := by
    intro l v' W' h' start q1 q2 q3 q4 q5
    obtain ⟨cc, hcc, _⟩ := q3
    refine ⟨W', h', List.prefix_refl _, List.prefix_refl _, q4, q1, l, F.sz, cc, v', q2, hcc, ?_⟩
    intro fin hf
    rw [Nat.sub_self, List.drop_zero] at hf
    exact q5 cc hcc fin hf
  have isfail : ∀ {r}, evalS n ρ .staticfail xs = some r → r = .fail := by
    intro r hh
    cases n with
    | zero => cases hh
    | succ n => simp only [evalS, idOf, evalB] at hh; cases hh; rfl
  simp only [compexp] at hl ⊢
  simp only [evalB] at hr
  cases hu : evalS n ρ c [] with
  | none => rw [hu] at hr; cases hr
  | some u =>
    rw [hu] at hr
    have hstop : (∀ v, u ≠ .val v) → r = u := by
      intro hv
      cases u with
      | val v => exact absurd rfl (hv v)
      | exn x => cases hr; rfl
      | fail => cases hr; rfl
    -- what the value says
    have htr : ∀ v W' v', u = .val v → VRel W' v v' →
        (∃ t, tagOf v' = some t ∧ t ≠ 0 ∧ evalS n ρ a xs = some r) ∨
        (tagOf v' = some 0 ∧ evalS n ρ b xs = some r) := by
      intro v W' v' hv hrel
      subst hv
      simp only at hr
      cases ht : truth v with
      | none => rw [ht] at hr; cases hr
      | some bb =>
        obtain ⟨t, h1, h2⟩ := vrel_truth hrel ht
        rw [ht] at hr
        cases bb with
        | true => exact .inl ⟨t, h1, by simpa using h2, hr⟩
        | false =>
          have : t = 0 := by simpa using h2
          subst this
          exact .inr ⟨h1, hr⟩
    split at hl
    · rename_i l hsl
      obtain ⟨rfl, g1, g2, g3⟩ := hsf ha hsl
      have hlb := (hl.of_ext (ext_comp _ _ _ _ _ _ _)).tail
      have hib := irr_of hF hb hlb
      refine simThen hS hfv hρ hF hO hc hu ⟨by simp, ?_, by simp, by simp⟩ rfl hl ?_ hstop
      · intro l1 C1 heq; cases heq; exact ⟨g3, hib⟩
      · intro v W' h' v' hv p1 p2 p3 p4
        rcases htr v W' v' hv p4 with ⟨t, t1, t2, t3⟩ | ⟨t1, t3⟩
        · rw [isfail t3]
          exact failed g1 g2 g3 p3 (fun cc hcc fin hf => brif_pos t1 t2 hcc hf)
        · exact (hS m fv d b b' ρ xs r F hb t3 hρ ce C k W' h' v' tgt hfv (hF.mono p1 p2) p3 hC hlb
            (hm.mono p1)).start (fun fin hf => brif_zero t1 hf)
    · rename_i hsl
      split at hl
      · rename_i l hsl2
        obtain ⟨rfl, g1, g2, g3⟩ := hsf hb hsl2
        have hla := (hl.of_ext (ext_comp _ _ _ _ _ _ _)).tail
        have hia := irr_of hF ha hla
        refine simThen hS hfv hρ hF hO hc hu ⟨by simp, by simp, ?_, by simp⟩ rfl hl ?_ hstop
        · intro l1 C1 heq; cases heq; exact ⟨g3, hia⟩
        · intro v W' h' v' hv p1 p2 p3 p4
          rcases htr v W' v' hv p4 with ⟨t, t1, t2, t3⟩ | ⟨t1, t3⟩
          · exact (hS m fv d a a' ρ xs r F ha t3 hρ ce C k W' h' v' tgt hfv (hF.mono p1 p2) p3 hC hla
              (hm.mono p1)).start (fun fin hf => brifnot_pos t1 t2 hf)
          · rw [isfail t3]
            exact failed g1 g2 g3 p3 (fun cc hcc fin hf => brifnot_zero t1 hcc hf)
      · rename_i hsl2
        have hlq := (hl.of_ext (ext_comp _ _ _ _ _ _ _)).tail
        have hlc : LOk L (labelCode (compexp ce F.sf F.sz d b' (makeBranch C k).2.1 (makeBranch C k).2.2).1
            (compexp ce F.sf F.sz d b' (makeBranch C k).2.1 (makeBranch C k).2.2).2).2.1 :=
          (hlq.of_ext (ext_comp _ _ _ _ _ _ _)).tail.of_ext (ext_discard _ 0)
        have hlb := hlc.of_ext (ext_labelCode _ _)
        have hlm := hlb.of_ext (ext_comp _ _ _ _ _ _ _)
        have hib := irr_of hF hb hlb
        have hia := irr_of hF ha hlq
        obtain ⟨cc, hcc, hcb⟩ := labelCode_get (cok_irr hib) hlc
        obtain ⟨⟨tb, mb1, mb2⟩, ⟨ta, ma1, ma2⟩⟩ := makeBranch_mode (k := k)
          (discard (labelCode (compexp ce F.sf F.sz d b' (makeBranch C k).2.1 (makeBranch C k).2.2).1
            (compexp ce F.sf F.sz d b' (makeBranch C k).2.1 (makeBranch C k).2.2).2).2.1) hlm hm
        obtain ⟨cb, ca⟩ := makeBranch_cok (k := k)
          (discard (labelCode (compexp ce F.sf F.sz d b' (makeBranch C k).2.1 (makeBranch C k).2.2).1
            (compexp ce F.sf F.sz d b' (makeBranch C k).2.1 (makeBranch C k).2.2).2).2.1) hlm hC
        refine simThen hS hfv hρ hF hO hc hu ⟨by simp, by simp, ?_, by simp⟩ rfl hl ?_ hstop
        · intro l1 C1 heq; cases heq; exact ⟨labelCode_irr hlc hib, hia⟩
        · intro v W' h' v' hv p1 p2 p3 p4
          rcases htr v W' v' hv p4 with ⟨t, t1, t2, t3⟩ | ⟨t1, t3⟩
          · exact ((hS m fv d a a' ρ xs r F ha t3 hρ ce _ _ W' h' v' ta hfv (hF.mono p1 p2) p3 ca hlq
              (ma1.mono p1)).start (fun fin hf => brifnot_pos t1 t2 hf)).tgt ma2
          · exact ((hS m fv d b b' ρ xs r F hb t3 hρ ce _ _ W' h' v' tb hfv (hF.mono p1 p2) p3 cb hlb
              (mb1.mono p1)).start
                (fun fin hf => brifnot_zero t1 hcc (hcb _ _ _ _ _ _ _ hf))).tgt mb2

omit hfv hρ hF hO hS in
/-- A value that decides, or not. -/
theorem decides {v : Val} {W' : List Val} {v' : MVal} {X Y : Option Res} {r : Res}
    (hr : (match truth v with | some true => X | some false => Y | none => none) = some r)
    (hrel : VRel W' v v') :
    (∃ t, tagOf v' = some t ∧ t ≠ 0 ∧ X = some r) ∨ (tagOf v' = some 0 ∧ Y = some r) := by
  cases ht : truth v with
  | none => rw [ht] at hr; cases hr
  | some bb =>
    obtain ⟨t, h1, h2⟩ := vrel_truth hrel ht
    rw [ht] at hr
    cases bb with
    | true => exact .inl ⟨t, h1, by simpa using h2, hr⟩
    | false =>
      have : t = 0 := by simpa using h2
      subst this
      exact .inr ⟨h1, hr⟩

include hE

/-- `andalso`, for each of the shapes of the code: `Ci` is the jump after `a`,
`Cb` what follows `b`. -/
theorem and_core {a a' b b' : Lam} {C Cb kb acc xs r tgt tgt1 i k0}
    (ha : Lifts T m fv d F.sfb a a') (hb : Lifts T m fv d F.sfb b b')
    (hr : evalB (evalS n) ρ (.andalso a b) xs = some r)
    (hCi : COk L (i :: (compexp ce F.sf F.sz d b' Cb kb).1))
    (hret : retOf (i :: (compexp ce F.sf F.sz d b' Cb kb).1) = none)
    (hl : LOk L (compexp ce F.sf F.sz d a' (i :: (compexp ce F.sf F.sz d b' Cb kb).1) k0).1)
    (hm : Mode C F W xs tgt) (hCb : COk L Cb) (hmb : Mode Cb F W xs tgt1)
    (htgt : ∀ w h fin, Halts L (tgt w h) fin → Halts L (tgt1 w h) fin)
    (hgo : ∀ D t w h fin, tagOf w = some t → t ≠ 0 → Halts L (F.st D w h) fin →
      Halts L (F.st (i :: D) w h) fin)
    (hjump : ∀ D w h fin, tagOf w = some 0 → Halts L (F.st C w h) fin →
      Halts L (F.st (i :: D) w h) fin) :
    Concl L T W h F tgt
      (F.st (compexp ce F.sf F.sz d a' (i :: (compexp ce F.sf F.sz d b' Cb kb).1) k0).1 acc h) r := by
  have hlb := (hl.of_ext (ext_comp _ _ _ _ _ _ _)).tail
  simp only [evalB] at hr
  cases hu : evalS n ρ a [] with
  | none => rw [hu] at hr; cases hr
  | some u =>
    rw [hu] at hr
    refine simThen hS hfv hρ hF hO ha hu hCi hret hl ?_ ?_
    · intro v W' h' v' hv p1 p2 p3 p4
      subst hv
      rcases decides hr p4 with ⟨t, t1, t2, t3⟩ | ⟨t1, t3⟩
      · exact ((hS m fv d b b' ρ xs r F hb t3 hρ ce _ _ W' h' v' tgt1 hfv (hF.mono p1 p2) p3 hCb hlb
          (hmb.mono p1)).start (fun fin hf => hgo _ t _ _ _ t1 t2 hf)).tgt htgt
      · exact (leaf hE p4 p3 (hm.mono p1) t3).start (fun fin hf => hjump _ _ _ _ t1 hf)
    · intro hv
      cases u with
      | val v => exact absurd rfl (hv v)
      | exn x => cases hr; rfl
      | fail => cases hr; rfl

theorem or_core {a a' b b' : Lam} {C Cb kb acc xs r tgt tgt1 i k0}
    (ha : Lifts T m fv d F.sfb a a') (hb : Lifts T m fv d F.sfb b b')
    (hr : evalB (evalS n) ρ (.orelse a b) xs = some r)
    (hCi : COk L (i :: (compexp ce F.sf F.sz d b' Cb kb).1))
    (hret : retOf (i :: (compexp ce F.sf F.sz d b' Cb kb).1) = none)
    (hl : LOk L (compexp ce F.sf F.sz d a' (i :: (compexp ce F.sf F.sz d b' Cb kb).1) k0).1)
    (hm : Mode C F W xs tgt) (hCb : COk L Cb) (hmb : Mode Cb F W xs tgt1)
    (htgt : ∀ w h fin, Halts L (tgt w h) fin → Halts L (tgt1 w h) fin)
    (hgo : ∀ D w h fin, tagOf w = some 0 → Halts L (F.st D w h) fin →
      Halts L (F.st (i :: D) w h) fin)
    (hjump : ∀ D t w h fin, tagOf w = some t → t ≠ 0 → Halts L (F.st C w h) fin →
      Halts L (F.st (i :: D) w h) fin) :
    Concl L T W h F tgt
      (F.st (compexp ce F.sf F.sz d a' (i :: (compexp ce F.sf F.sz d b' Cb kb).1) k0).1 acc h) r := by
  have hlb := (hl.of_ext (ext_comp _ _ _ _ _ _ _)).tail
  simp only [evalB] at hr
  cases hu : evalS n ρ a [] with
  | none => rw [hu] at hr; cases hr
  | some u =>
    rw [hu] at hr
    refine simThen hS hfv hρ hF hO ha hu hCi hret hl ?_ ?_
    · intro v W' h' v' hv p1 p2 p3 p4
      subst hv
      rcases decides hr p4 with ⟨t, t1, t2, t3⟩ | ⟨t1, t3⟩
      · exact (leaf hE p4 p3 (hm.mono p1) t3).start (fun fin hf => hjump _ t _ _ _ t1 t2 hf)
      · exact ((hS m fv d b b' ρ xs r F hb t3 hρ ce _ _ W' h' v' tgt1 hfv (hF.mono p1 p2) p3 hCb hlb
          (hmb.mono p1)).start (fun fin hf => hgo _ _ _ _ t1 hf)).tgt htgt
    · intro hv
      cases u with
      | val v => exact absurd rfl (hv v)
      | exn x => cases hr; rfl
      | fail => cases hr; rfl

theorem simAnd {a a' b b' : Lam} {C k acc xs r tgt} (ha : Lifts T m fv d F.sfb a a')
    (hb : Lifts T m fv d F.sfb b b') (hr : evalB (evalS n) ρ (.andalso a b) xs = some r)
    (hC : COk L C) (hl : LOk L (compexp ce F.sf F.sz d (.andalso a' b') C k).1) (hm : Mode C F W xs tgt) :
    Concl L T W h F tgt (F.st (compexp ce F.sf F.sz d (.andalso a' b') C k).1 acc h) r := by
  generalize hG : compexp ce F.sf F.sz d (.andalso a' b') C k = G at hl ⊢
  rw [compexp.eq_def] at hG
  dsimp only at hG
  split at hG
  · rename_i l C'
    subst hG
    obtain ⟨cc, hcc⟩ := hC.branch _ _ rfl
    refine and_core hS hE hfv hρ hF hO ha hb hr (cok_of (by simp) (by simp) (by simp) (by simp)) rfl hl hm
      hC hm (fun _ _ _ hf => hf) ?_ ?_
    · exact fun D t w h fin t1 t2 hf => halts_congr strictnot_eq (brifnot_pos t1 t2 hf)
    · exact fun D w h fin t1 hf => halts_congr strictnot_eq (brifnot_zero t1 hcc (halts_branch hcc hf))
  · rename_i l C'
    subst hG
    obtain ⟨hlab, hirr⟩ := hC.brifnot _ _ rfl
    obtain ⟨cc, hcc, _⟩ := id hlab
    have hlb := (hl.of_ext (ext_comp _ _ _ _ _ _ _)).tail
    have hib := irr_of hF hb hlb
    refine and_core hS hE hfv hρ hF hO ha hb hr ⟨by simp, by simp, ?_, by simp⟩ rfl hl hm
      hC hm (fun _ _ _ hf => hf) ?_ ?_
    · intro l1 C1 heq; cases heq; exact ⟨hlab, hib⟩
    · exact fun D t w h fin t1 t2 hf => brifnot_pos t1 t2 hf
    · exact fun D w h fin t1 hf => brifnot_zero t1 hcc ((brifnot_inv t1 hf).2 rfl _ hcc)
  · rename_i l C'
    subst hG
    obtain ⟨hlab, hirr⟩ := hC.brif _ _ rfl
    have hlb := (hl.of_ext (ext_comp _ _ _ _ _ _ _)).tail
    have hib := irr_of hF hb hlb
    have hlc := (hlb.of_ext (ext_comp _ _ _ _ _ _ _)).tail
    obtain ⟨cc, hcc, hcb⟩ := labelCode_get (cok_irr hirr) hlc
    have hm' : xs = [] ∧ tgt = fun w h => F.st (.branchif l :: C') w h := by
      cases hm with
      | ord h1 => exact ⟨rfl, rfl⟩
      | ret h1 _ _ _ _ => cases h1
    obtain ⟨rfl, rfl⟩ := hm'
    refine and_core hS hE hfv hρ hF hO ha hb hr ⟨by simp, by simp, ?_, by simp⟩ rfl hl hm
      ⟨by simp, ?_, by simp, by simp⟩ (.ord rfl) ?_ ?_ ?_
    · intro l1 C1 heq; cases heq; exact ⟨labelCode_irr hlc hirr, hib⟩
    · intro l1 C1 heq; cases heq; exact ⟨hlab, labelCode_accIrr hirr⟩
    · intro w h fin hf
      cases hf with
      | halt h1 => simp only [step] at h1; split at h1; split at h1; all_goals (first | cases h1 | (unfold jump at h1; split at h1 <;> cases h1))
      | uncaught h1 => simp only [step] at h1; split at h1; split at h1; all_goals (first | cases h1 | (unfold jump at h1; split at h1 <;> cases h1))
      | @next _ t _ h1 h2 =>
        simp only [step] at h1
        split at h1
        · rename_i t1 ht1
          split at h1
          · rename_i h0
            subst h0
            cases h1
            exact brif_zero ht1 (labelCode_halts h2)
          · rename_i h0
            obtain ⟨c1, hc1, _⟩ := hlab
            simp only [jump, hc1] at h1
            cases h1
            exact brif_pos ht1 h0 hc1 h2
        · cases h1
    · exact fun D t w h fin t1 t2 hf => brifnot_pos t1 t2 hf
    · exact fun D w h fin t1 hf => brifnot_zero t1 hcc (hcb _ _ _ _ _ _ _ ((brif_inv t1 hf).1 rfl))
  · rename_i l C'
    subst hG
    have hlb := (hl.of_ext (ext_comp _ _ _ _ _ _ _)).tail
    have hcc := (hlb.of_ext (ext_comp _ _ _ _ _ _ _)).label
    refine and_core hS hE hfv hρ hF hO ha hb hr (cok_of (by simp) (by simp) (by simp) (by simp)) rfl hl hm
      hC hm (fun _ _ _ hf => hf) ?_ ?_
    · exact fun D t w h fin t1 t2 hf => halts_congr strictnot_eq (brifnot_pos t1 t2 hf)
    · exact fun D w h fin t1 hf => halts_congr strictnot_eq (brifnot_zero t1 hcc (halts_label hf))
  · rename_i hn1 hn2 hn3 hn4
    subst hG
    have hlb := (hl.of_ext (ext_comp _ _ _ _ _ _ _)).tail
    have hcc := (hlb.of_ext (ext_comp _ _ _ _ _ _ _)).label
    obtain ⟨tgt1, hm1, ht1⟩ := mode_label (l := k + 1) (fun l' C' => hn4 l' C') hm
    refine and_core hS hE hfv hρ hF hO ha hb hr (cok_of (by simp) (by simp) (by simp) (by simp)) rfl hl hm
      (cok_of (by simp) (by simp) (by simp) (by simp)) hm1 (ht1 L) ?_ ?_
    · exact fun D t w h fin t1 t2 hf => halts_congr strictnot_eq (brifnot_pos t1 t2 hf)
    · exact fun D w h fin t1 hf => halts_congr strictnot_eq (brifnot_zero t1 hcc hf)

theorem simOr {a a' b b' : Lam} {C k acc xs r tgt} (ha : Lifts T m fv d F.sfb a a')
    (hb : Lifts T m fv d F.sfb b b') (hr : evalB (evalS n) ρ (.orelse a b) xs = some r)
    (hC : COk L C) (hl : LOk L (compexp ce F.sf F.sz d (.orelse a' b') C k).1) (hm : Mode C F W xs tgt) :
    Concl L T W h F tgt (F.st (compexp ce F.sf F.sz d (.orelse a' b') C k).1 acc h) r := by
  generalize hG : compexp ce F.sf F.sz d (.orelse a' b') C k = G at hl ⊢
  rw [compexp.eq_def] at hG
  dsimp only at hG
  split at hG
  · rename_i l C'
    subst hG
    obtain ⟨cc, hcc⟩ := hC.branch _ _ rfl
    refine or_core hS hE hfv hρ hF hO ha hb hr (cok_of (by simp) (by simp) (by simp) (by simp)) rfl hl hm
      hC hm (fun _ _ _ hf => hf) ?_ ?_
    · exact fun D w h fin t1 hf => halts_congr strict_eq (brif_zero t1 hf)
    · exact fun D t w h fin t1 t2 hf => halts_congr strict_eq (brif_pos t1 t2 hcc (halts_branch hcc hf))
  · rename_i l C'
    subst hG
    obtain ⟨hlab, hirr⟩ := hC.brif _ _ rfl
    obtain ⟨cc, hcc, _⟩ := id hlab
    have hlb := (hl.of_ext (ext_comp _ _ _ _ _ _ _)).tail
    have hib := irr_of hF hb hlb
    refine or_core hS hE hfv hρ hF hO ha hb hr ⟨by simp, ?_, by simp, by simp⟩ rfl hl hm
      hC hm (fun _ _ _ hf => hf) ?_ ?_
    · intro l1 C1 heq; cases heq; exact ⟨hlab, hib⟩
    · exact fun D w h fin t1 hf => brif_zero t1 hf
    · exact fun D t w h fin t1 t2 hf => brif_pos t1 t2 hcc ((brif_inv t1 hf).2 t2 _ hcc)
  · rename_i l C'
    subst hG
    obtain ⟨hlab, hirr⟩ := hC.brifnot _ _ rfl
    have hlb := (hl.of_ext (ext_comp _ _ _ _ _ _ _)).tail
    have hib := irr_of hF hb hlb
    have hlc := (hlb.of_ext (ext_comp _ _ _ _ _ _ _)).tail
    obtain ⟨cc, hcc, hcb⟩ := labelCode_get (cok_irr hirr) hlc
    have hm' : xs = [] ∧ tgt = fun w h => F.st (.branchifnot l :: C') w h := by
      cases hm with
      | ord h1 => exact ⟨rfl, rfl⟩
      | ret h1 _ _ _ _ => cases h1
    obtain ⟨rfl, rfl⟩ := hm'
    refine or_core hS hE hfv hρ hF hO ha hb hr ⟨by simp, ?_, by simp, by simp⟩ rfl hl hm
      ⟨by simp, by simp, ?_, by simp⟩ (.ord rfl) ?_ ?_ ?_
    · intro l1 C1 heq; cases heq; exact ⟨labelCode_irr hlc hirr, hib⟩
    · intro l1 C1 heq; cases heq; exact ⟨hlab, labelCode_accIrr hirr⟩
    · intro w h fin hf
      cases hf with
      | halt h1 => simp only [step] at h1; split at h1; split at h1; all_goals (first | cases h1 | (unfold jump at h1; split at h1 <;> cases h1))
      | uncaught h1 => simp only [step] at h1; split at h1; split at h1; all_goals (first | cases h1 | (unfold jump at h1; split at h1 <;> cases h1))
      | @next _ t _ h1 h2 =>
        simp only [step] at h1
        split at h1
        · rename_i t1 ht1
          split at h1
          · rename_i h0
            subst h0
            obtain ⟨c1, hc1, _⟩ := hlab
            simp only [jump, hc1] at h1
            cases h1
            exact brifnot_zero ht1 hc1 h2
          · rename_i h0
            cases h1
            exact brifnot_pos ht1 h0 (labelCode_halts h2)
        · cases h1
    · exact fun D w h fin t1 hf => brif_zero t1 hf
    · exact fun D t w h fin t1 t2 hf => brif_pos t1 t2 hcc (hcb _ _ _ _ _ _ _ ((brifnot_inv t1 hf).1 t2))
  · rename_i l C'
    subst hG
    have hlb := (hl.of_ext (ext_comp _ _ _ _ _ _ _)).tail
    have hcc := (hlb.of_ext (ext_comp _ _ _ _ _ _ _)).label
    refine or_core hS hE hfv hρ hF hO ha hb hr (cok_of (by simp) (by simp) (by simp) (by simp)) rfl hl hm
      hC hm (fun _ _ _ hf => hf) ?_ ?_
    · exact fun D w h fin t1 hf => halts_congr strict_eq (brif_zero t1 hf)
    · exact fun D t w h fin t1 t2 hf => halts_congr strict_eq (brif_pos t1 t2 hcc (halts_label hf))
  · rename_i hn1 hn2 hn3 hn4
    subst hG
    have hlb := (hl.of_ext (ext_comp _ _ _ _ _ _ _)).tail
    have hcc := (hlb.of_ext (ext_comp _ _ _ _ _ _ _)).label
    obtain ⟨tgt1, hm1, ht1⟩ := mode_label (l := k + 1) (fun l' C' => hn4 l' C') hm
    refine or_core hS hE hfv hρ hF hO ha hb hr (cok_of (by simp) (by simp) (by simp) (by simp)) rfl hl hm
      (cok_of (by simp) (by simp) (by simp) (by simp)) hm1 (ht1 L) ?_ ?_
    · exact fun D w h fin t1 hf => halts_congr strict_eq (brif_zero t1 hf)
    · exact fun D t w h fin t1 t2 hf => halts_congr strict_eq (brif_pos t1 t2 hcc hf)

end

end Mosml.Zam
