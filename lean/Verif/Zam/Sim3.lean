import Verif.Zam.Sim2

/-!
# The code does what the term means: the main induction
-/

namespace Mosml.Zam

theorem simRec {L : Nat → Option Code} {T : List Func} {n : Nat} (hS : SimAt L T n)
    (hP : Prog L T)
    {m : Nat} {fv : List Int} {d : Nat} {ρ : List Val} {ce : CEnv} {F : Fr}
    (hfv : ce.fv = fv) (hρ : ρ.length = m + d)
    {W : List Val} {h : List Obj} (hF : FOk L W h ce d ρ F) (hO : HOk L T W h)
    {fs fs' : List Lam} {b b' : Lam} {C k acc xs r tgt}
    (hlen : fs'.length = fs.length) (hfn : ∀ e ∈ fs, isFn e = true)
    (ha : ∀ (i : Nat) e e', fs[i]? = some e → fs'[i]? = some e' →
      Lifts T m fv (d + fs.length) false e e')
    (hb : Lifts T m fv (d + fs.length) F.sfb b b')
    (hr : evalB (evalS n) ρ (.letrec fs b) xs = some r)
    (hC : COk L C) (hl : LOk L (compexp ce F.sf F.sz d (.letrec fs' b') C k).1)
    (hm : Mode C F W xs tgt) :
    Concl L T W h F tgt (F.st (compexp ce F.sf F.sz d (.letrec fs' b') C k).1 acc h) r := by
  have hr' : evalS n (recEnv fs ρ) b xs = some r := by
    simp only [evalB] at hr
    split at hr
    · exact hr
    · cases hr
  have hlρ : (recEnv fs ρ).length = m + (d + fs.length) := by
    simp [recEnv, hρ]; omega
  simp only [compexp] at hl ⊢
  rw [hlen] at hl ⊢
  -- the body
  have body : ∀ W' h' X acc, W <+: W' → h <+: h' → HOk L T W' h' → X.length = fs.length →
      EnvRel W' h' (bindMany ce d F.sz fs.length) (d + fs.length) (recEnv fs ρ) (F.push X) →
      LOk L (compexp (bindMany ce d F.sz fs.length) F.sf (F.sz + fs.length) (d + fs.length) b'
        (addPop fs.length C) k).1 →
      Concl L T W' h' F tgt ((F.push X).st (compexp (bindMany ce d F.sz fs.length) F.sf
        (F.sz + fs.length) (d + fs.length) b' (addPop fs.length C) k).1 acc h') r := by
    intro W' h' X acc p1 p2 p3 p4 p5 hlb
    obtain ⟨c1, tgt1, m1, t1⟩ := addPop_mode X hC hF.trap (hm.mono p1)
    rw [p4] at c1 m1
    have hc := hS m fv (d + fs.length) b b' _ xs r (F.push X) hb hr' hlρ
      (bindMany ce d F.sz fs.length) (addPop fs.length C) k W' h' acc tgt1
      ((bindMany_fv _ _ _ _).trans hfv) ⟨p5, hF.sf.push X, (hF.push X).trap⟩ p3 c1
      (by simpa only [Fr.push, p4] using hlb) m1
    have := hc.unpush t1 hF.sf hF.trap
    simpa only [Fr.push, p4] using this
  split at hl
  · rename_i h1
    rw [if_pos h1]
    match fs, fs', h1, hlen with
    | [e], [e'], _, _ =>
    have hfe := hfn e (by simp)
    cases e with
    | fn bb =>
      obtain ⟨f, rfl, hf⟩ := lifts_fn (ha 0 _ _ rfl rfl)
      have hlb := hl.of_ext (ext_One _ (fun _ _ _ e _ => fun env sf sz dp => ext_comp env sf sz dp e)
        _ _ _ _ _ _)
      obtain ⟨W', h', x, p1, p2, p3, p4, p5⟩ := simOne (k := (compexp (bindMany ce d F.sz 1) F.sf (F.sz + 1)
        (d + 1) b' (addPop 1 C) k).2) hP hfv hρ hf hF hO
      refine ((body W' h' [.v x] x p1 p2 p3 rfl ?_ hlb).start (p5 acc)).base p1 p2
      exact (hF.env.mono p1 p2).bind p4
    | _ => cases hfe
  · rename_i h1
    rw [if_neg h1]
    have hlb := ((hl.of_ext (ext_dummies _ _ 0))).of_ext (ext_compRecs _ _ _ _ _ _ _ _)
    obtain ⟨W', h', X, p1, p2, p3, p4, p5, p6⟩ := simLetrec (k := (compexp (bindMany ce d F.sz fs.length) F.sf
      (F.sz + fs.length) (d + fs.length) b' (addPop fs.length C) k).2) hP hfv hρ hlen hfn ha hF hO
    have irr := irr_comp _ m fv _ _ b b' (Nat.lt_succ_self _) hb _ _ _ _ _ _ hF.sf.irr hlb
    refine ((body W' h' X munit p1 p2 p3 p4 p5 hlb).start ?_).base p1 p2
    intro fin hf
    exact p6 fin (fun acc => accIrr_halts irr acc hf) acc

theorem sim {L : Nat → Option Code} {T : List Func} (hP : Prog L T) : ∀ n, SimAt L T n := by
  intro n
  induction n using Nat.strongRecOn with
  | ind n ih =>
  cases n with
  | zero => intro m fv d e e' ρ xs r F _ h; cases h
  | succ n =>
    have hS : SimAt L T n := ih n (by omega)
    have hE : EnterAt L T n := enterAt hP (fun n' h => ih n' (by omega))
    intro m fv d e e' ρ xs r F hL hev hρ ce C k W h acc tgt hfv hF hO hC hl hm
    simp only [evalS] at hev
    cases hid : idOf e with
    | some a =>
      rw [hid] at hev
      simp only at hev
      -- no code is made for the identity
      have : ∃ a', Lifts T m fv d F.sfb a a' ∧ e' = .prim .identity [a'] := by
        unfold idOf at hid
        split at hid
        · cases hid
          generalize F.sfb = sfb at hL ⊢
          cases hL with
          | @prim _ _ _ _ _ _ args' _ h2 h3 =>
            match args', h2 with
            | [a'], _ => exact ⟨a', h3 0 _ _ rfl rfl, rfl⟩
        · cases hid
          generalize F.sfb = sfb at hL ⊢
          cases hL with
          | lett h1 => simp [idOf] at h1
          | lett1 h1 h2 => exact ⟨_, h2, rfl⟩
        · cases hid
      obtain ⟨a', hLa, rfl⟩ := this
      have e1 : compexp ce F.sf F.sz d (.prim .identity [a']) C k = compexp ce F.sf F.sz d a' C k := by
        rw [compexp.eq_def]
        simp only [compLR]
      rw [e1] at hl ⊢
      exact hS m fv d a a' ρ xs r F hLa hev hρ ce C k W h acc tgt hfv hF hO hC hl hm
    | none =>
      rw [hid] at hev
      simp only at hev
      generalize hsb : F.sfb = sfb at hL
      cases hL with
      | @var _ _ _ _ i h1 h2 =>
        simp only [evalB, lookup] at hev
        rw [if_neg (by omega)] at hev
        have hlt : i < ρ.length := by omega
        simp only [Int.toNat_natCast, List.getElem?_eq_getElem hlt, Option.map_some, resL] at hev
        obtain ⟨x, hx, hrd⟩ := hF.env.reads (id := (d : Int) - i - 1) (v := ρ[i]) (by omega)
          (by rw [show ((d : Int) - 1 - ((d : Int) - i - 1)).toNat = i by omega]; simp [hlt])
          (by intro hneg; rw [hfv]; exact h2 (by omega))
        refine (leaf hE hx hO hm hev).start ?_
        intro fin hf
        simp only [compexp]
        exact .next (hrd L [] C acc) hf
      | @const _ _ _ _ c =>
        simp only [evalB] at hev
        refine (leaf hE (vrel_const W c) hO hm hev).start ?_
        intro fin hf
        simp only [compexp, quoteOr]
        split
        · exact accIrr_halts .quote _ hf
        · exact accIrr_halts .access _ hf
        · exact accIrr_halts .envacc _ hf
        · exact .next rfl hf
      | @fn _ _ _ _ b f h1 h2 h3 h4 h5 h6 =>
        exact simFn hP hE (sf := F.sfb) hfv hρ (.fn h1 h2 h3 h4 h5 h6) (by simpa only [evalB] using hev) hF hO hm
      | apply h1 h2 h3 h4 =>
        subst hsb
        exact simApply hS hE hfv hρ hF hO h1 h2 h3 h4 hev hC hl hm
      | lett h1 h2 h3 h4 =>
        subst hsb
        exact simLett hS hfv hρ hF hO h2 h3 h4 hev hC hl hm
      | @lett1 _ _ _ _ p arg arg' hp harg =>
        subst hsb
        have hnid : p ≠ .identity := by
          rintro rfl
          simp [idOf] at hid
        have hL1 : ∀ (i : Nat) e e', [arg][i]? = some e → [arg'][i]? = some e' →
            Lifts T m fv d F.sfb e e' := by
          intro i e e' he he'
          cases i with
          | zero => cases he; cases he'; exact harg
          | succ i => cases he
        simp only [evalB, evalLets] at hev
        cases hv : evalS n ρ arg [] with
        | none => rw [hv] at hev; cases hev
        | some u =>
          rw [hv] at hev
          have hgo : ∀ q, evalLR (fun e => evalS n ρ e []) [arg] = some q → PrimRes n p xs r q → _ :=
            fun q hq hres => simPrim (acc := acc) (k := k) (args := [arg]) (args' := [arg']) hS hE hfv hρ hp hnid rfl hL1 hq hres hF hO hC hl hm
          cases u with
          | exn x => cases hev; exact hgo (.stop (.exn x)) (by simp only [evalLR, hv]) rfl
          | fail => cases hev; exact hgo (.stop .fail) (by simp only [evalLR, hv]) rfl
          | val v =>
            refine hgo (.vals [v]) (by simp only [evalLR, hv]) ?_
            simp only [PrimRes]
            simp only at hev
            -- the body of the `let`
            cases n with
            | zero => cases hv
            | succ n =>
              have hidp : idOf (.prim p [.var 0]) = none := by
                unfold idOf
                split
                · rename_i heq; cases heq; exact absurd rfl hnid
                · rename_i heq; cases heq
                · rfl
              simp only [evalS, hidp, evalB] at hev
              cases n with
              | zero => simp [evalLR, evalS] at hev
              | succ n =>
                simp only [evalLR, evalS, idOf, evalB, lookup, resL, retL] at hev
                have hle : Le (evalS (n + 1)) (evalS (n + 1 + 1)) := evalS_mono (by omega)
                simp only [Int.lt_irrefl, if_false, Int.toNat_zero, List.getElem?_cons_zero,
                  Option.map_some] at hev
                exact resL_mono hle hev
      | letrec h1 h2 h3 h4 h5 =>
        subst hsb
        exact simRec hS hP hfv hρ hF hO h2 h3 h4 h5 hev hC hl hm
      | @prim _ _ _ _ p args args' h1 h2 h3 =>
        subst hsb
        have hnid : p ≠ .identity := by
          rintro rfl
          match args, h1 with
          | [a], _ => simp [idOf] at hid
        simp only [evalB] at hev
        cases hq : evalLR (fun e => evalS n ρ e []) args with
        | none => rw [hq] at hev; cases hev
        | some q =>
          rw [hq] at hev
          refine simPrim hS hE hfv hρ h1 hnid h2 h3 hq ?_ hF hO hC hl hm
          cases q with
          | vals vs => exact hev
          | stop r0 => cases hev; rfl
      | staticfail =>
        simp only [evalB] at hev
        cases hev
        obtain ⟨l, tsz, hsf⟩ := hF.sf.some hsb
        obtain ⟨hle, c, hc, hci⟩ := hF.sf.lab l tsz hsf
        refine ⟨W, h, List.prefix_refl _, List.prefix_refl _, hO, hsb, l, tsz, c, acc, hsf, hc, ?_⟩
        intro fin hf
        simp only [compexp, hsf, addPop_branch]
        split
        · rename_i h0
          rw [h0, List.drop_zero] at hf
          exact jump_halts hc hf
        · exact .next rfl (jump_halts hc hf)
      | statichandle h1 h2 =>
        subst hsb
        exact simStatichandle hS hfv hρ hF hO h1 h2 hev hC hl hm
      | handle h1 h2 =>
        subst hsb
        exact simHandle hS hE hfv hρ hF hO h1 h2 hev hC hl hm
      | cond h1 h2 h3 =>
        subst hsb
        exact simCond hS hfv hρ hF hO h1 h2 h3 hev hC hl hm
      | seq h1 h2 =>
        subst hsb
        exact simSeq hS hfv hρ hF hO h1 h2 hev hC hl hm
      | andalso h1 h2 =>
        subst hsb
        exact simAnd hS hE hfv hρ hF hO h1 h2 hev hC hl hm
      | orelse h1 h2 =>
        subst hsb
        exact simOr hS hE hfv hρ hF hO h1 h2 hev hC hl hm

end Mosml.Zam
