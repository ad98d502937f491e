import Verif.Front.Main

/-! Applications. -/

namespace Mosml.Front

variable {n m : Nat} {ρ : List (Name × SVal)} {rho : Rho} {env : List LVal}

/-- An `Lapply` whose function is evaluated like the arguments. -/
theorem Conv.apply_rl {l ls st g ws st1 r st2} (h1 : ConvRL env (l :: ls) st (.vals (g :: ws)) st1)
    (h2 : ConvApp g ws st1 r st2) : Conv env (.apply l ls) st r st2 := by
  obtain ⟨m1, h1⟩ := h1
  obtain ⟨m2, h2⟩ := h2
  refine .intro (m1 + m2) fun k hk => ?_
  have a := h1 k (by omega)
  have b := h2 k (by omega)
  rw [evalRL] at a
  rw [lev]
  rcases h : evalRL (lev k env) ls st with _ | ⟨_ | _, st3⟩ <;> rw [h] at a <;>
    simp only [reduceCtorEq, Option.some.injEq, Prod.mk.injEq, false_and] at a ⊢
  rename_i vs
  rcases h' : lev k env l st3 with _ | ⟨_ | _, st4⟩ <;> rw [h'] at a <;>
    simp only [reduceCtorEq, Option.some.injEq, Prod.mk.injEq, false_and, Ress.vals.injEq,
      List.cons.injEq] at a
  obtain ⟨⟨rfl, rfl⟩, rfl⟩ := a
  simpa [h, h'] using b

theorem Conv.apply_rl_stop {l ls st x st1} (h1 : ConvRL env (l :: ls) st (.stop x) st1) :
    Conv env (.apply l ls) st (.exn x) st1 := by
  obtain ⟨m1, h1⟩ := h1
  refine .intro m1 fun k hk => ?_
  have a := h1 k (by omega)
  rw [evalRL] at a
  rw [lev]
  rcases h : evalRL (lev k env) ls st with _ | ⟨_ | _, st3⟩ <;> rw [h] at a <;>
    simp only [reduceCtorEq, Option.some.injEq, Prod.mk.injEq, Ress.stop.injEq] at a ⊢
  · rename_i vs
    rcases h' : lev k env l st3 with _ | ⟨_ | _, st4⟩ <;> rw [h'] at a <;>
      simp only [reduceCtorEq, Option.some.injEq, Prod.mk.injEq, false_and, Ress.stop.injEq] at a
    obtain ⟨rfl, rfl⟩ := a
    simp [h']
  · obtain ⟨rfl, rfl⟩ := a
    simp

/-- What a translated application does. -/
def Does (env : List LVal) (l : Lam) (lst : St LVal) (r : Res SVal) (st' : St SVal) : Prop :=
  ∃ r' lst', Conv env l lst r' lst' ∧ RRel r r' ∧ StRel st' lst'

/-- The case of any other function: it is evaluated first. -/
theorem Sim.other (ih : Sim n) (he : EnvRel ρ rho env) {f : Exp} {args : List Exp} {tr}
    (ok : ∀ e ∈ f :: args, ArgOK (sev .grouped n ρ) ρ rho tr e) {st r st' lst}
    (hs : StRel st lst)
    (h : (thenDo (sev .grouped n ρ f st) fun g st => thenAll (evalLR (sev .grouped n ρ) args st)
      fun vs st => sapplyAll (sapply (sev .grouped n)) g vs st) = some (r, st')) :
    Does env ((trArgs env.length (argsOf tr (f :: args))).wrap
      (.apply ((trArgs env.length (argsOf tr (f :: args))).args.headD .fatal)
        (trArgs env.length (argsOf tr (f :: args))).args.tail)) lst r st' := by
  have hlen := trArgs_length env.length (argsOf tr (f :: args))
  have main : ∀ rs st1, evalLR (sev .grouped n ρ) (f :: args) st = some (rs, st1) →
      ((∃ g vs, rs = .vals (g :: vs) ∧
        sapplyAll (sapply (sev .grouped n)) g vs st1 = some (r, st')) ∨
       ∃ x, rs = .stop x ∧ r = .exn x ∧ st' = st1) →
      Does env ((trArgs env.length (argsOf tr (f :: args))).wrap
      (.apply ((trArgs env.length (argsOf tr (f :: args))).args.headD .fatal)
        (trArgs env.length (argsOf tr (f :: args))).args.tail)) lst r st' := by
    intro rs st1 h1 h2
    rcases args_sim ok he h1 hs with ⟨x, x', lst', rfl, hx, sr, hw⟩ |
      ⟨env2, lst1, rs', lst', _, he2, hrun, hrs, sr, _, hw⟩
    · rcases h2 with ⟨g, vs, e1, _⟩ | ⟨y, e1, rfl, rfl⟩
      · cases e1
      · cases e1
        exact ⟨_, _, hw _, .exn hx, sr⟩
    · obtain ⟨l, ls, hl⟩ : ∃ l ls, (trArgs env.length (argsOf tr (f :: args))).args = l :: ls := by
        rcases ha : (trArgs env.length (argsOf tr (f :: args))).args with _ | ⟨l, ls⟩
        · rw [ha] at hlen; simp [argsOf] at hlen
        · exact ⟨l, ls, rfl⟩
      rw [hl] at hrun ⊢
      simp only [List.headD_cons, List.tail_cons]
      cases hrs with
      | @vals _ ws hf =>
        rcases h2 with ⟨g, vs, e1, h2⟩ | ⟨y, e1, rfl, rfl⟩
        · cases e1
          cases hf with
          | cons hg hf =>
            obtain ⟨r', lst2, c, rr, sr2⟩ := ih.applyAll hf h2 hg sr
            exact ⟨r', lst2, hw _ _ _ (.apply_rl hrun.rl c), rr, sr2⟩
        · cases e1
      | stop hx =>
        rcases h2 with ⟨g, vs, e1, h2⟩ | ⟨y, e1, rfl, rfl⟩
        · cases e1
        · cases e1
          exact ⟨_, _, hw _ _ _ (.apply_rl_stop hrun.rl), .exn hx, sr⟩
  rcases thenDo_some h with ⟨g, st1, e1, e2⟩ | ⟨x, e1, rfl⟩
  · rcases thenAll_some e2 with ⟨vs, st2, e3, e4⟩ | ⟨x, e3, rfl⟩
    · exact main (.vals (g :: vs)) st2 (by rw [evalLR, e1]; simp [e3]) (.inl ⟨g, vs, rfl, e4⟩)
    · exact main (.stop x) st' (by rw [evalLR, e1]; simp [e3]) (.inr ⟨x, rfl, rfl, rfl⟩)
  · exact main (.stop x) st' (by rw [evalLR, e1]) (.inr ⟨x, rfl, rfl, rfl⟩)

/-- One argument for a function applied directly. -/
theorem one_arg {ev : Exp → St SVal → Option (Res SVal × St SVal)} {e st r st' F}
    (h : (thenAll (evalLR ev [e] st) F) = some (r, st')) :
    (∃ v st1, ev e st = some (.val v, st1) ∧ F [v] st1 = some (r, st')) ∨
    ∃ x, ev e st = some (.exn x, st') ∧ r = .exn x := by
  rcases thenAll_some h with ⟨vs, st1, e1, e2⟩ | ⟨x, e1, rfl⟩
  · rcases evalLR_cons e1 with ⟨x, _, e3⟩ | ⟨v, st2, rs', h1, h2, ⟨vs', rfl, e3⟩ | ⟨x, _, e3⟩⟩
    · cases e3
    · cases e3
      obtain ⟨e4, rfl⟩ := evalLR_nil h2
      cases e4
      exact .inl ⟨v, _, h1, e2⟩
    · cases e3
  · rcases evalLR_cons e1 with ⟨x, h1, e3⟩ | ⟨v, st2, rs', h1, h2, ⟨vs', rfl, e3⟩ | ⟨x, rfl, e3⟩⟩
    · cases e3; exact .inr ⟨_, h1, rfl⟩
    · cases e3
    · obtain ⟨e4, rfl⟩ := evalLR_nil h2
      cases e4

theorem applyAll_one {ap : SVal → SVal → St SVal → Option (Res SVal × St SVal)} {g v st} :
    sapplyAll ap g [v] st = ap g v st := by
  rw [sapplyAll]
  rcases ap g v st with _ | ⟨_ | _, _⟩ <;> simp [sapplyAll]

/-- `trPrim1App`. -/
theorem Sim.prim1 (ih : Sim n) (he : EnvRel ρ rho env) {k : Op1} {args : List Exp} {tr}
    (ok : ∀ e ∈ args, ArgOK (sev .grouped n ρ) ρ rho tr e) {st r st' lst} (hs : StRel st lst)
    (h : (thenAll (evalLR (sev .grouped n ρ) args st) fun vs st =>
      sapplyAll (sapply (sev .grouped n)) (.prim1 k) vs st) = some (r, st')) :
    Does env (trPrim1App tr env.length k args) lst r st' := by
  have gen := ih.applyCase he ok (F := fun _ => trPrim1Var k) (g := .prim1 k)
    (fun env2 _ => ⟨_, Quiet.fn, .prim1⟩) hs h
  match args, ok, h, gen with
  | [], _, _, gen => exact gen
  | _ :: _ :: _, _, _, gen => exact gen
  | [e], ok, h, _ =>
    rw [trPrim1App]
    rcases one_arg h with ⟨v, st1, h1, h2⟩ | ⟨x, h1, rfl⟩
    · rw [applyAll_one, sapply] at h2
      obtain ⟨r1, lst1, c, rr, sr⟩ := (ok e (by simp)).sim _ _ _ h1 env lst he hs
      cases rr with
      | @val _ w hv =>
        obtain ⟨r', lst', e1, rr, sr⟩ := sem1_rel h2 hv sr
        exact ⟨r', lst', .prim (vs := [w]) (.cons c .nil) (by simpa [primSem] using e1), rr, sr⟩
    · obtain ⟨r1, lst1, c, rr, sr⟩ := (ok e (by simp)).sim _ _ _ h1 env lst he hs
      cases rr with
      | exn hx => exact ⟨_, _, .prim_stop (.stop c), .exn hx, sr⟩

/-- Two arguments and the rest. -/
theorem Sim.prim2c (ih : Sim n) (he : EnvRel ρ rho env) {k : Op2} {e1 e2 : Exp} {rest : List Exp}
    {tr} (ok : ∀ e ∈ e1 :: e2 :: rest, ArgOK (sev .grouped n ρ) ρ rho tr e) {st r st' lst}
    (hs : StRel st lst) {rs st1}
    (h1 : evalLR (sev .grouped n ρ) (e1 :: e2 :: rest) st = some (rs, st1))
    (h2 : (∃ v1 v2 vs, rs = .vals (v1 :: v2 :: vs) ∧
        sapplyAll (sapply (sev .grouped n)) (.prim2 k) (.block 0 [v1, v2] :: vs) st1 =
          some (r, st')) ∨
       ∃ x, rs = .stop x ∧ r = .exn x ∧ st' = st1) :
    Does env (trPrim2cApp tr env.length k (e1 :: e2 :: rest)) lst r st' := by
  cases rest with
  | nil =>
    rw [trPrim2cApp]
    obtain ⟨rs', lst', c, sr, h3⟩ := lr_sim ok he h1 hs
    rcases h2 with ⟨v1, v2, vs, rfl, h2⟩ | ⟨x, rfl, rfl, rfl⟩
    · rcases h3 with ⟨_, ws, e3, rfl, hf⟩ | ⟨_, _, e3, _⟩
      · cases e3
        have : vs = [] := by have := evalLR_length h1; simpa using this
        subst this
        rw [applyAll_one, sapply] at h2
        cases hf with
        | cons a hf =>
          cases hf with
          | cons b hf =>
            cases hf
            obtain ⟨r', lst2, e4, rr, sr2⟩ := sem2_rel h2 a b sr
            exact ⟨r', lst2, .prim c (by simpa [primSem] using e4), rr, sr2⟩
      · cases e3
    · rcases h3 with ⟨_, ws, e3, _⟩ | ⟨_, _, e3, rfl, hx⟩
      · cases e3
      · cases e3
        exact ⟨_, _, .prim_stop c, .exn hx, sr⟩
  | cons e3 rest =>
    rw [trPrim2cApp]
    case x_1 => simp
    rcases args_sim ok he h1 hs with ⟨x, x', lst', rfl, hx, sr, hw⟩ |
      ⟨env2, lst1, rs', lst', _, he2, hrun, hrs, sr, _, hw⟩
    · rcases h2 with ⟨_, _, _, e1, _⟩ | ⟨y, e1, rfl, rfl⟩
      · cases e1
      · cases e1
        exact ⟨_, _, hw _, .exn hx, sr⟩
    · cases hrs with
      | @vals _ ws hf =>
        rcases h2 with ⟨v1, v2, vs, e1, h2⟩ | ⟨y, e1, rfl, rfl⟩
        · cases e1
          cases hf with
          | @cons _ w1 _ _ a hf =>
            cases hf with
            | @cons _ w2 _ ws b hf =>
              rw [sapplyAll, sapply] at h2
              rcases thenDo_some h2 with ⟨g, st2, e4, e5⟩ | ⟨x, e4, rfl⟩
              · obtain ⟨r1, lst2, e6, rr, sr2⟩ := sem2_rel e4 a b sr
                cases rr with
                | val hg =>
                  obtain ⟨r', lst3, c, rr, sr3⟩ := ih.applyAll hf e5 hg sr2
                  exact ⟨r', lst3, hw _ _ _ (.apply hrun.rl (Quiet.fn _)
                    (prim2c_app e6 (.inl ⟨_, rfl, c⟩))), rr, sr3⟩
              · obtain ⟨r1, lst2, e6, rr, sr2⟩ := sem2_rel e4 a b sr
                cases rr with
                | exn hx =>
                  exact ⟨_, lst2, hw _ _ _ (.apply hrun.rl (Quiet.fn _)
                    (prim2c_app e6 (.inr ⟨_, rfl, rfl, rfl⟩))), .exn hx, sr2⟩
        · cases e1
      | stop hx =>
        rcases h2 with ⟨_, _, _, e1, h2⟩ | ⟨y, e1, rfl, rfl⟩
        · cases e1
        · cases e1
          exact ⟨_, _, hw _ _ _ (.apply_stop hrun.rl), .exn hx, sr⟩

/-- A binary primitive applied to a term for a pair. -/
theorem split_conv {k t a b w lst r lst' l} (h : sem2 lDom k a b lst = some (r, lst'))
    (hq : Quiet env l w) (hw : w = .block t [a, b]) :
    Conv env (.prim (.op2 k) (split l)) lst r lst' := by
  subst hw
  refine .prim (vs := [a, b]) (st1 := lst) (.cons
    (.prim (vs := [.block t [a, b]]) (.cons (hq _) .nil) rfl) (.cons
    (.prim (vs := [.block t [a, b]]) (.cons (hq _) .nil) rfl) .nil)) ?_
  simpa [primSem] using h

theorem prim2_pair {ev : Ev} {k v st r st'}
    (h : sapply ev (.prim2 k) v st = some (r, st')) {w lst} (hv : VRel v w) (hs : StRel st lst) :
    ∃ t a b r' lst', w = .block t [a, b] ∧ sem2 lDom k a b lst = some (r', lst') ∧ RRel r r' ∧
      StRel st' lst' := by
  simp only [sapply] at h
  split at h
  · rename_i t a b
    cases hv with
    | block hf =>
      cases hf with
      | @cons _ a' _ _ ha hf =>
        cases hf with
        | @cons _ b' _ _ hb hf =>
          cases hf
          obtain ⟨r', lst', e1, rr, sr⟩ := sem2_rel h ha hb hs
          exact ⟨_, _, _, r', lst', rfl, e1, rr, sr⟩
  · simp at h

/-- `trPrim2App`. -/
theorem Sim.prim2 (ih : Sim n) (he : EnvRel ρ rho env) {k : Op2} {args : List Exp} {tr}
    (ok : ∀ e ∈ args, ArgOK (sev .grouped n ρ) ρ rho tr e) {st r st' lst} (hs : StRel st lst)
    (h : (thenAll (evalLR (sev .grouped n ρ) args st) fun vs st =>
      sapplyAll (sapply (sev .grouped n)) (.prim2 k) vs st) = some (r, st')) :
    Does env (trPrim2App tr env.length k args) lst r st' := by
  have gen := ih.applyCase he ok (F := fun _ => trPrim2Var k) (g := .prim2 k)
    (fun env2 _ => ⟨_, Quiet.fn, .prim2⟩) hs h
  have hlen := trArgs_length env.length (argsOf tr args)
  rw [trPrim2App]
  match args, ok, h, gen, hlen with
  | [], _, _, gen, hlen =>
    have : (trArgs env.length (argsOf tr [])).args = [] := by simpa [argsOf] using hlen
    simp only [this] at gen ⊢
    exact gen
  | a1 :: a2 :: as, _, _, gen, hlen =>
    split
    · rename_i h1; rw [h1] at hlen; simp [argsOf] at hlen
    · rename_i h1; rw [h1] at hlen; simp [argsOf] at hlen
    · exact gen
  | [e], ok, h, _, hlen =>
    have hlets : (trArgs env.length (argsOf tr [e])).lets = [] := trArgs_one _ _
    obtain ⟨l, hl⟩ : ∃ l, (trArgs env.length (argsOf tr [e])).args = [l] := by
      rw [← List.length_eq_one_iff]; simpa [argsOf] using hlen
    have wr : ∀ b, (trArgs env.length (argsOf tr [e])).wrap b = b := by
      intro b; rw [Args.wrap, hlets]
    have key : (∃ v w st1 lst1, Conv env l lst (.val w) lst1 ∧ VRel v w ∧ StRel st1 lst1 ∧
          sapply (sev .grouped n) (.prim2 k) v st1 = some (r, st')) ∨
        ∃ x x' lst', Conv env l lst (.exn x') lst' ∧ r = .exn x ∧ VRel x x' ∧ StRel st' lst' := by
      rcases thenAll_some h with ⟨vs, st1, e1, e2⟩ | ⟨x, e1, rfl⟩
      · rcases args_sim ok he e1 hs with ⟨x, x', lst', e3, _⟩ |
          ⟨env2, lst1, rs', lst', _, he2, hrun, hrs, sr, hn, hw⟩
        · cases e3
        · obtain ⟨rfl, rfl⟩ := hn hlets
          rw [hl] at hrun
          cases hrs with
          | vals hf =>
            have hl2 := evalLR_length e1
            match vs, hl2 with
            | [v], _ =>
              cases hf with
              | cons hv hf =>
                cases hf
                rw [applyAll_one] at e2
                exact .inl ⟨v, _, st1, lst', hrun.lr.single, hv, sr, e2⟩
      · rcases args_sim ok he e1 hs with ⟨x, x', lst', e3, hx, sr, hw⟩ |
          ⟨env2, lst1, rs', lst', _, he2, hrun, hrs, sr, hn, hw⟩
        · exfalso
          cases e3
          have := hw (.const (.int 0))
          rw [wr] at this
          have := this.det .const
          simp at this
        · obtain ⟨rfl, rfl⟩ := hn hlets
          rw [hl] at hrun
          cases hrs with
          | stop hx => exact .inr ⟨_, _, lst', hrun.lr.single_stop, rfl, hx, sr⟩
    simp only [hl]
    split
    · rename_i i hi
      cases hi
      rw [wr]
      rcases key with ⟨v, w, st1, lst1, c, hv, sr, h2⟩ | ⟨x, x', lst', c, _⟩
      · obtain ⟨u, e1, e2, rfl⟩ := c.var_inv
        cases e2
        obtain ⟨t, a, b, r', lst', rfl, e4, rr, sr2⟩ := prim2_pair h2 hv sr
        exact ⟨r', lst', split_conv e4 (fun st => .var e1) rfl, rr, sr2⟩
      · obtain ⟨u, e1, e2, rfl⟩ := c.var_inv
        cases e2
    · rename_i l' _ hi
      cases hi
      rcases key with ⟨v, w, st1, lst1, c, hv, sr, h2⟩ | ⟨x, x', lst', c, rfl, hx, sr⟩
      · obtain ⟨t, a, b, r', lst', rfl, e4, rr, sr2⟩ := prim2_pair h2 hv sr
        exact ⟨r', lst', .lett (.cons c .nil) (split_conv e4 (fun st => .var rfl) rfl), rr, sr2⟩
      · exact ⟨_, _, .lett_stop (.stop c), .exn hx, sr⟩
    · rename_i h1 h2
      exact absurd rfl (h2 l)

/-- `trPrimApp`. -/
theorem Sim.primApp (ih : Sim n) (he : EnvRel ρ rho env) {k : Op2} {e : Exp} {rest : List Exp}
    {tr} (ok : ∀ a ∈ e :: rest, ArgOK (sev .grouped n ρ) ρ rho tr a)
    (ok2 : ∀ e1 e2, extractPairArg e = some (e1, e2) → ArgOK (sev .grouped n ρ) ρ rho tr e1 ∧
      ArgOK (sev .grouped n ρ) ρ rho tr e2) {D} (hgd : Good D e)
    {st r st' lst} (hs : StRel st lst)
    (h : (thenAll (evalLR (sev .grouped n ρ) (e :: rest) st) fun vs st =>
      sapplyAll (sapply (sev .grouped n)) (.prim2 k) vs st) = some (r, st')) :
    Does env (trPrimApp tr env.length k (e :: rest)) lst r st' := by
  rw [trPrimApp]
  split
  · exact ih.prim2 he ok hs h
  · rename_i e1 e2 hp
    obtain ⟨k1, k2⟩ := ok2 e1 e2 hp
    obtain ⟨_, _, _, hx⟩ := extractPair hp hgd
    have ok' : ∀ a ∈ e1 :: e2 :: rest, ArgOK (sev .grouped n ρ) ρ rho tr a := by
      intro a ha
      simp only [List.mem_cons] at ha
      rcases ha with rfl | rfl | ha
      · exact k1
      · exact k2
      · exact ok a (by simp [ha])
    rcases thenAll_some h with ⟨vs, st1, h1, h2⟩ | ⟨x, h1, rfl⟩
    · rcases evalLR_cons h1 with ⟨x, _, e3⟩ | ⟨v, st2, rs', h3, h4, ⟨vs', rfl, e3⟩ | ⟨x, _, e3⟩⟩
      · cases e3
      · cases e3
        rcases hx _ _ _ _ _ _ h3 with ⟨v1, v2, h5, h6⟩ | ⟨x, h5, h6⟩
        · cases h6
          have := (evalLR_append h5 h4).1 _ rfl
          exact ih.prim2c he ok' hs this (.inl ⟨v1, v2, vs', rfl, h2⟩)
        · cases h6
      · cases e3
    · rcases evalLR_cons h1 with ⟨x, h3, e3⟩ | ⟨v, st2, rs', h3, h4, ⟨vs', _, e3⟩ | ⟨x, rfl, e3⟩⟩
      · cases e3
        rcases hx _ _ _ _ _ _ h3 with ⟨v1, v2, h5, h6⟩ | ⟨x, h5, h6⟩
        · cases h6
        · cases h6
          exact ih.prim2c he ok' hs (evalLR_append_stop (bs := rest) h5) (.inr ⟨_, rfl, rfl, rfl⟩)
      · cases e3
      · cases e3
        rcases hx _ _ _ _ _ _ h3 with ⟨v1, v2, h5, h6⟩ | ⟨x, h5, h6⟩
        · cases h6
          have := (evalLR_append h5 h4).2 _ rfl
          exact ih.prim2c he ok' hs this (.inr ⟨_, rfl, rfl, rfl⟩)
        · cases h6

/-- A constructor applied to any expression. -/
theorem greedy_conv {t k v u} (h : conSem (.greedy t k) v = some u) {l w lst lst' } (hv : VRel v w)
    (hc : Conv env l lst (.val w) lst') :
    ∃ w', Conv env (.lett [l] (.prim (.makeblock t) (extractFields k))) lst (.val w') lst' ∧
      VRel u w' := by
  cases hv with
  | @block t0 vs ws hf =>
    simp only [conSem] at h
    split_ifs at h with hl
    simp at h
    subst h
    refine ⟨_, .lett (.cons hc .nil) (.prim (vs := ws) (st1 := lst') ?_ rfl), .block hf⟩
    rw [← hl, hf.length_eq]
    exact Quiet.lr (extract_quiet t0 ws env) lst'
  | _ => simp [conSem] at h

end Mosml.Front
