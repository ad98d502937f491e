import Verif.Front.Sim

/-! The main induction. -/

namespace Mosml.Front

/-- The claim for evaluations of `n` nested steps. -/
def Sim (n : Nat) : Prop := ∀ ρ e st r st', sev .grouped n ρ e st = some (r, st') →
  ∀ rho env lst m, EnvRel ρ rho env → StRel st lst → Good (Scope rho) e → esize e ≤ m →
    ∃ r' lst', Conv env (trE m rho env.length e) lst r' lst' ∧ RRel r r' ∧ StRel st' lst'

variable {n m : Nat} {ρ : List (Name × SVal)} {rho : Rho} {env : List LVal}

theorem EnvRel.total (he : EnvRel ρ rho env) : ∀ x, Scope rho x → (look ρ x).isSome := by
  intro x hx
  obtain ⟨pos, hp⟩ := Option.isSome_iff_exists.1 hx
  exact (he.dom x pos hp).2

theorem Sim.arg (ih : Sim n) (he : EnvRel ρ rho env) {e} (hg : Good (Scope rho) e) (ho : argOk e)
    (hm : esize e ≤ m) : ArgOK (sev .grouped n ρ) ρ rho (trE m rho) e := by
  refine ⟨fun st r st' h env lst he hs => ih ρ e st r st' h rho env lst m he hs hg hm, fun hs => ?_⟩
  obtain ⟨v, h1, h2⟩ := safe_sim .grouped (esize e) e (le_refl _) hs (ho hs) ρ rho hg he.total
  exact ⟨v, fun st r st' h => h1 n st r st' h, fun env he => h2 env he m hm⟩

/-- Applying a function to one argument. -/
theorem Sim.apply1 (ih : Sim n) {g v st r st' g' w lst}
    (h : sapply (sev .grouped n) g v st = some (r, st')) (hg : VRel g g') (hv : VRel v w)
    (hs : StRel st lst) :
    ∃ env' b r' lst', g' = .clos env' b ∧ Conv (w :: env') b lst r' lst' ∧ RRel r r' ∧
      StRel st' lst' := by
  cases hg with
  | int | str | block | loc => simp [sapply] at h
  | @clos ρ x xs b rho env m hd hval hgood hm =>
    have he : EnvRel ρ rho env := ⟨hd, hval⟩
    cases xs with
    | nil =>
      rw [sapply] at h
      obtain ⟨r', lst', c, rr, sr⟩ := ih _ _ _ _ _ h ((x, env.length) :: rho) (w :: env) lst m
        (he.bind hv) hs (hgood.bindAll (d := env.length)) hm
      exact ⟨_, _, r', lst', rfl, c, rr, sr⟩
    | cons y ys =>
      simp only [sapply, Option.some.injEq, Prod.mk.injEq] at h
      obtain ⟨rfl, rfl⟩ := h
      have he' : EnvRel ((x, v) :: ρ) ((x, env.length) :: rho) (w :: env) := he.bind hv
      refine ⟨_, _, _, lst, rfl, .fn, .val ?_, hs⟩
      have key := VRel.clos (ρ := (x, v) :: ρ) (x := y) (xs := ys) (b := b)
        (rho := (x, env.length) :: rho) (env := w :: env) (m := m) he'.dom he'.val
        (hgood.mono fun z hz => by
          by_cases e : z = x
          · simp [look, e]
          · simpa [look, e, or_assoc] using hz) hm
      have e1 : (w :: env).length + (ys.length + 1) = env.length + ((y :: ys).length + 1) := by
        simp; omega
      rw [e1] at key
      exact key
  | @prim1 k env =>
    rw [sapply] at h
    obtain ⟨r', lst', e1, rr, sr⟩ := sem1_rel h hv hs
    refine ⟨_, _, r', lst', rfl, .prim (vs := [w]) (.cons (.var rfl) .nil) ?_, rr, sr⟩
    simpa [primSem] using e1
  | @prim2 k env =>
    simp only [sapply] at h
    split at h
    · rename_i t a b
      cases hv with
      | block hf =>
        cases hf with
        | @cons _ a' _ _ ha hf =>
          cases hf with
          | @cons _ b' _ _ hb hf =>
            cases hf
            obtain ⟨r', lst', e1, rr, sr⟩ := sem2_rel h ha hb hs
            refine ⟨_, _, r', lst', rfl, .prim (vs := [a', b']) (st1 := lst) (.cons
              (.prim (vs := [.block t [a', b']]) (.cons (.var rfl) .nil) rfl) (.cons
              (.prim (vs := [.block t [a', b']]) (.cons (.var rfl) .nil) rfl) .nil)) ?_, rr, sr⟩
            simpa [primSem] using e1
    · simp at h
  | @greedy t k env =>
    simp only [sapply, Option.map_eq_some_iff, Prod.mk.injEq] at h
    obtain ⟨u, h1, rfl, rfl⟩ := h
    cases hv with
    | @block t0 vs ws hf =>
      simp only [conSem] at h1
      split_ifs at h1 with hl
      simp at h1
      subst h1
      refine ⟨_, _, _, lst, rfl, .prim (vs := ws) (st1 := lst) ?_ rfl, .val (.block hf), hs⟩
      rw [← hl, hf.length_eq]
      exact Quiet.lr (extract_quiet t0 ws env) lst
    | _ => simp [conSem] at h1
  | single =>
    simp only [sapply, conSem, Option.map_some, Option.some.injEq, Prod.mk.injEq] at h
    obtain ⟨rfl, rfl⟩ := h
    exact ⟨_, _, _, lst, rfl, .var rfl, .val hv, hs⟩
  | plain =>
    simp only [sapply, conSem, Option.map_some, Option.some.injEq, Prod.mk.injEq] at h
    obtain ⟨rfl, rfl⟩ := h
    exact ⟨_, _, _, lst, rfl, .prim (vs := [w]) (.cons (.var rfl) .nil) rfl,
      .val (.block (.cons hv .nil)), hs⟩

/-- Applying a function to one argument after the other. -/
theorem Sim.applyAll (ih : Sim n) {vs ws} (hv : List.Forall₂ VRel vs ws) {g st r st' g' lst}
    (h : sapplyAll (sapply (sev .grouped n)) g vs st = some (r, st')) (hg : VRel g g')
    (hs : StRel st lst) :
    ∃ r' lst', ConvApp g' ws lst r' lst' ∧ RRel r r' ∧ StRel st' lst' := by
  induction hv generalizing g g' st lst with
  | nil =>
    simp only [sapplyAll, Option.some.injEq, Prod.mk.injEq] at h
    obtain ⟨rfl, rfl⟩ := h
    exact ⟨_, _, .nil, .val hg, hs⟩
  | cons h1 _ ih2 =>
    rw [sapplyAll] at h
    rcases thenDo_some h with ⟨u, st1, e1, e2⟩ | ⟨x, e1, rfl⟩
    · obtain ⟨env', b, r1, lst1, rfl, c, rr, sr⟩ := ih.apply1 e1 hg h1 hs
      cases rr with
      | val hu =>
        obtain ⟨r', lst', c2, rr2, sr2⟩ := ih2 e2 hu sr
        exact ⟨r', lst', .cons c c2, rr2, sr2⟩
    · obtain ⟨env', b, r1, lst1, rfl, c, rr, sr⟩ := ih.apply1 e1 hg h1 hs
      cases rr with
      | exn hx => exact ⟨_, _, .stop c, .exn hx, sr⟩

/-- An application whose function is a term without effect. -/
theorem Sim.applyCase (ih : Sim n) (he : EnvRel ρ rho env) {args : List Exp} {tr}
    (ok : ∀ e ∈ args, ArgOK (sev .grouped n ρ) ρ rho tr e) {F : Nat → Lam} {g}
    (hF : ∀ env2, EnvRel ρ rho env2 → ∃ g', Quiet env2 (F env2.length) g' ∧ VRel g g')
    {st r st' lst} (hs : StRel st lst)
    (h : (thenAll (evalLR (sev .grouped n ρ) args st) fun vs st =>
      sapplyAll (sapply (sev .grouped n)) g vs st) = some (r, st')) :
    ∃ r' lst', Conv env ((trArgs env.length (argsOf tr args)).wrap
      (.apply (F (trArgs env.length (argsOf tr args)).d)
        (trArgs env.length (argsOf tr args)).args)) lst r' lst' ∧ RRel r r' ∧ StRel st' lst' := by
  have main : ∀ rs st1, evalLR (sev .grouped n ρ) args st = some (rs, st1) →
      ((∃ vs, rs = .vals vs ∧ sapplyAll (sapply (sev .grouped n)) g vs st1 = some (r, st')) ∨
       ∃ x, rs = .stop x ∧ r = .exn x ∧ st' = st1) →
      ∃ r' lst', Conv env ((trArgs env.length (argsOf tr args)).wrap
        (.apply (F (trArgs env.length (argsOf tr args)).d)
          (trArgs env.length (argsOf tr args)).args)) lst r' lst' ∧ RRel r r' ∧
            StRel st' lst' := by
    intro rs st1 h1 h2
    rcases args_sim ok he h1 hs with ⟨x, x', lst', rfl, hx, sr, hw⟩ |
      ⟨env2, lst1, rs', lst', hlen, he2, hrun, hrs, sr, _, hw⟩
    · rcases h2 with ⟨vs, e1, _⟩ | ⟨y, e1, rfl, rfl⟩
      · cases e1
      · cases e1
        exact ⟨_, _, hw _, .exn hx, sr⟩
    · rw [← hlen]
      cases hrs with
      | vals hf =>
        rcases h2 with ⟨vs, e1, h2⟩ | ⟨y, e1, rfl, rfl⟩
        · cases e1
          obtain ⟨g', hq, hg⟩ := hF env2 he2
          obtain ⟨r', lst2, c, rr, sr2⟩ := ih.applyAll hf h2 hg sr
          exact ⟨r', lst2, hw _ _ _ (.apply hrun.rl (hq _) c), rr, sr2⟩
        · cases e1
      | stop hx =>
        rcases h2 with ⟨vs, e1, h2⟩ | ⟨y, e1, rfl, rfl⟩
        · cases e1
        · cases e1
          exact ⟨_, _, hw _ _ _ (.apply_stop hrun.rl), .exn hx, sr⟩
  rcases thenAll_some h with ⟨vs, st1, e1, e2⟩ | ⟨x, e1, rfl⟩
  · exact main _ _ e1 (.inl ⟨vs, rfl, e2⟩)
  · exact main _ _ e1 (.inr ⟨x, rfl, rfl, rfl⟩)

theorem evalLR_length {E V S : Type} {ev : E → S → Option (Res V × S)} {es : List E} {st vs st'}
    (h : evalLR ev es st = some (.vals vs, st')) : vs.length = es.length := by
  induction es generalizing st vs with
  | nil => obtain ⟨e, _⟩ := evalLR_nil h; cases e; rfl
  | cons e es ih =>
    rcases evalLR_cons h with ⟨x, _, e1⟩ | ⟨v, st1, rs', _, h2, ⟨vs', rfl, e1⟩ | ⟨x, _, e1⟩⟩
    · cases e1
    · cases e1; simp [ih h2]
    · cases e1

theorem Run.length {env ls st ws st'} (h : Run env ls st (.vals ws) st') : ls.length = ws.length := by
  rcases h with ⟨ws', h, e1, _⟩ | ⟨S, q, _, rfl, ⟨w, _, e1⟩ | ⟨x, _, e1⟩⟩
  · cases e1; exact h.length_eq
  · cases e1; simp
  · cases e1

theorem trArgs_length (d args) : (trArgs d args).args.length = args.length := by
  have hres : ∀ d p K, (res d p K).length = K.length := by
    intro d p K
    induction K with
    | nil => rfl
    | cons k K ih => cases k <;> simp [res, ih]
  have hresQ : ∀ d q K, (resQ d q K).length = K.length := by
    intro d p K
    induction K with
    | nil => rfl
    | cons k K ih => cases k <;> simp [resQ, ih]
  have hfwd : ∀ d, (fwd d args).2.length = args.length := by
    induction args with
    | nil => intro d; rfl
    | cons a args ih =>
      intro d
      obtain ⟨b, t⟩ := a
      cases b with
      | true => simp [fwd, ih]
      | false =>
        rw [fwd_false]
        rcases isConst (t d) with _ | c <;> simp [ih]
  rcases hf : fwd d args with ⟨U, K⟩
  have := hfwd d
  rw [hf] at this
  rcases List.eq_nil_or_concat U with rfl | ⟨U, q, rfl⟩
  · rw [trArgs_nil hf]; simp [hres]; exact this
  · rw [List.concat_eq_append] at hf
    rw [trArgs_cons hf]; simp [hresQ]; exact this

theorem trArgs_one (d) (a : Arg) : (trArgs d [a]).lets = [] := by
  obtain ⟨b, t⟩ := a
  cases b with
  | true => simp [trArgs, classifyArgs]
  | false =>
    rw [trArgs, classifyArgs_false]
    rcases isConst (t d) with _ | c <;> simp [classifyArgs]

/-! ## Tuples, records, let -/

theorem tuple_sim (he : EnvRel ρ rho env) {es : List Exp} {tr ev}
    (ok : ∀ e ∈ es, ArgOK ev ρ rho tr e) {st rs st' lst} (hs : StRel st lst)
    (h : evalLR ev es st = some (rs, st')) (t : Nat) :
    ∃ lst', StRel st' lst' ∧
      ((∃ vs ws, rs = .vals vs ∧ List.Forall₂ VRel vs ws ∧
        Conv env (trTuple tr env.length t es) lst (.val (.block t ws)) lst') ∨
       ∃ x x', rs = .stop x ∧ VRel x x' ∧
        Conv env (trTuple tr env.length t es) lst (.exn x') lst') := by
  obtain ⟨rs', lst', c, sr, ⟨vs, ws, rfl, rfl, hf⟩ | ⟨x, x', rfl, rfl, hx⟩⟩ := lr_sim ok he h hs
  · exact ⟨lst', sr, .inl ⟨vs, ws, rfl, hf, mkBlock_conv t c⟩⟩
  · exact ⟨lst', sr, .inr ⟨x, x', rfl, hx, mkBlock_stop t c⟩⟩

theorem rec_sim (he : EnvRel ρ rho env) {labs : List Nat} {es : List Exp} {tr ev}
    (ok : ∀ e ∈ es, ArgOK ev ρ rho tr e) {st rs st' lst} (hs : StRel st lst)
    (h : evalLR ev es st = some (rs, st')) (t : Nat) (hl : labs.length = es.length)
    (hn : labs.Nodup) :
    ∃ lst', StRel st' lst' ∧
      ((∃ vs ws, rs = .vals vs ∧ List.Forall₂ VRel (byLabel labs vs) ws ∧
        Conv env (trRec tr env.length t labs es) lst (.val (.block t ws)) lst') ∨
       ∃ x x', rs = .stop x ∧ VRel x x' ∧
        Conv env (trRec tr env.length t labs es) lst (.exn x') lst') := by
  rcases args_sim ok he h hs with ⟨x, x', lst', rfl, hx, sr, hw⟩ |
      ⟨env2, lst1, rs', lst', hlen, he2, hrun, hrs, sr, _, hw⟩
  · exact ⟨lst', sr, .inr ⟨x, x', rfl, hx, hw _⟩⟩
  · have hlen' : labs.length = (trArgs env.length (argsOf tr es)).args.length := by
      rw [trArgs_length]; simpa [argsOf] using hl
    cases hrs with
    | @vals vs ws hf =>
      refine ⟨lst', sr, .inl ⟨vs, _, rfl, ?_, hw _ _ _ (mkBlock_conv t (hrun.sort hlen').lr)⟩⟩
      rw [← sortRow_eq_byLabel (by have := evalLR_length h; omega) hn]
      exact forall₂_sortRow hf
    | stop hx => exact ⟨lst', sr, .inr ⟨_, _, rfl, hx, hw _ _ _ (mkBlock_stop t (hrun.sort hlen').lr)⟩⟩

theorem letArgs_sim {es : List Exp} {tr : Nat → Exp → Lam} {ev}
    (ok : ∀ e ∈ es, ArgOK ev ρ rho tr e)
    (he : EnvRel ρ rho env) {st rs st' lst} (hs : StRel st lst)
    (h : evalLR ev es st = some (rs, st')) :
    ∃ lst', StRel st' lst' ∧
      ((∃ vs ws, rs = .vals vs ∧ List.Forall₂ VRel vs ws ∧
        ConvLets env (trLetArgs tr env.length es) lst (.vals (ws.reverse ++ env)) lst') ∨
       ∃ x x', rs = .stop x ∧ VRel x x' ∧
        ConvLets env (trLetArgs tr env.length es) lst (.stop x') lst') := by
  induction es generalizing env st rs lst with
  | nil =>
    obtain ⟨rfl, rfl⟩ := evalLR_nil h
    exact ⟨lst, hs, .inl ⟨[], [], rfl, .nil, .nil⟩⟩
  | cons e es ih =>
    rw [trLetArgs]
    rcases evalLR_cons h with ⟨x, h1, rfl⟩ | ⟨v, st1, rs', h1, h2, h3⟩
    · obtain ⟨r', lst', c, rr, sr⟩ := (ok e (by simp)).sim _ _ _ h1 env lst he hs
      cases rr with
      | exn hx => exact ⟨_, sr, .inr ⟨_, _, rfl, hx, .stop c⟩⟩
    · obtain ⟨r', lst1, c, rr, sr⟩ := (ok e (by simp)).sim _ _ _ h1 env lst he hs
      cases rr with
      | @val _ w hv =>
        obtain ⟨lst', sr2, h4⟩ := ih (fun e he => ok e (by simp [he])) (he.push w) sr h2
        refine ⟨lst', sr2, ?_⟩
        rcases h3 with ⟨vs, rfl, rfl⟩ | ⟨x, rfl, rfl⟩
        · rcases h4 with ⟨vs', ws, e1, hf, c2⟩ | ⟨x, x', e1, _⟩
          · cases e1
            refine .inl ⟨_, w :: ws, rfl, .cons hv hf, .cons c ?_⟩
            simpa using c2
          · cases e1
        · rcases h4 with ⟨vs', ws, e1, _⟩ | ⟨x, x', e1, hx, c2⟩
          · cases e1
          · cases e1
            exact .inr ⟨_, _, rfl, hx, .cons c c2⟩

theorem sapplyAll_clos {ev : Ev} {x xs b} {vs : List SVal} {ρ st}
    (h : xs.length + 1 = vs.length) :
    sapplyAll (sapply ev) (.clos ρ x xs b) vs st = ev (bindS ρ (x :: xs) vs) b st := by
  induction xs generalizing x ρ vs with
  | nil =>
    match vs, h with
    | [v], _ =>
      simp only [sapplyAll, sapply, bindS]
      rcases ev ((x, v) :: ρ) b st with _ | ⟨r, st'⟩
      · rfl
      · cases r <;> rfl
  | cons y ys ih =>
    match vs, h with
    | v :: vs, h =>
      simp only [sapplyAll, sapply, bindS, thenDo_val]
      exact ih (by simpa using h)

/-! ## Pairs -/

theorem extractPair {e e1 e2} (h : extractPairArg e = some (e1, e2)) {D} (hg : Good D e) :
    esize e1 + esize e2 < esize e ∧ (Good D e1 ∧ argOk e1) ∧ (Good D e2 ∧ argOk e2) ∧
    ∀ o n ρ st r st', sev o n ρ e st = some (r, st') →
      (∃ v1 v2, evalLR (sev o n ρ) [e1, e2] st = some (.vals [v1, v2], st') ∧
        r = .val (.block 0 [v1, v2])) ∨
      ∃ x, evalLR (sev o n ρ) [e1, e2] st = some (.stop x, st') ∧ r = .exn x := by
  fun_induction extractPairArg e with
  | case1 e ih =>
    cases hg with
    | par hg =>
      obtain ⟨a1, a2, a3, a4⟩ := ih h hg
      refine ⟨by rw [esize]; omega, a2, a3, fun o n ρ st r st' hs => ?_⟩
      cases n with
      | zero => exact absurd hs sev_zero
      | succ n =>
        rw [sev] at hs
        rcases a4 o n ρ st r st' hs with ⟨v1, v2, h1, h2⟩ | ⟨x, h1, h2⟩
        · exact .inl ⟨v1, v2, evalLR_mono (fun e _ => sev_step o n ρ e) h1, h2⟩
        · exact .inr ⟨x, evalLR_mono (fun e _ => sev_step o n ρ e) h1, h2⟩
  | case2 e1' e2' =>
    simp only [Option.some.injEq, Prod.mk.injEq] at h
    obtain ⟨rfl, rfl⟩ := h
    cases hg with
    | tuple hg ho =>
      refine ⟨by simp only [esize, esizes]; omega, ⟨hg _ (by simp), ho _ (by simp)⟩,
        ⟨hg _ (by simp), ho _ (by simp)⟩, fun o n ρ st r st' hs => ?_⟩
      cases n with
      | zero => exact absurd hs sev_zero
      | succ n =>
        rw [sev] at hs
        rcases thenAll_some hs with ⟨vs, st1, h1, h2⟩ | ⟨x, h1, h2⟩
        · simp only [Option.some.injEq, Prod.mk.injEq] at h2
          obtain ⟨rfl, rfl⟩ := h2
          have hl := evalLR_length h1
          match vs, hl with
          | [v1, v2], _ =>
            exact .inl ⟨v1, v2, evalLR_mono (fun e _ => sev_step o n ρ e) h1, rfl⟩
        · exact .inr ⟨x, evalLR_mono (fun e _ => sev_step o n ρ e) h1, h2⟩
  | case3 => simp at h

theorem evalLR_append {E V S : Type} {ev : E → S → Option (Res V × S)} {as bs : List E}
    {st vs st1 rs st'} (h1 : evalLR ev as st = some (.vals vs, st1))
    (h2 : evalLR ev bs st1 = some (rs, st')) :
    (∀ ws, rs = .vals ws → evalLR ev (as ++ bs) st = some (.vals (vs ++ ws), st')) ∧
    (∀ x, rs = .stop x → evalLR ev (as ++ bs) st = some (.stop x, st')) := by
  induction as generalizing st vs with
  | nil =>
    obtain ⟨e, rfl⟩ := evalLR_nil h1
    cases e
    exact ⟨fun ws e => by subst e; exact h2, fun x e => by subst e; exact h2⟩
  | cons a as ih =>
    rcases evalLR_cons h1 with ⟨x, _, e1⟩ | ⟨v, st2, rs', h3, h4, ⟨vs', rfl, e1⟩ | ⟨x, _, e1⟩⟩
    · cases e1
    · cases e1
      obtain ⟨i1, i2⟩ := ih h4
      refine ⟨fun ws e => ?_, fun x e => ?_⟩
      · rw [List.cons_append, evalLR, h3]; simp only [i1 ws e]; rfl
      · rw [List.cons_append, evalLR, h3]; simp only [i2 x e]
    · cases e1

theorem evalLR_append_stop {E V S : Type} {ev : E → S → Option (Res V × S)} {as bs : List E}
    {st x st'} (h1 : evalLR ev as st = some (.stop x, st')) :
    evalLR ev (as ++ bs) st = some (.stop x, st') := by
  induction as generalizing st with
  | nil => obtain ⟨e, _⟩ := evalLR_nil h1; cases e
  | cons a as ih =>
    rcases evalLR_cons h1 with ⟨y, h3, e1⟩ | ⟨v, st2, rs', h3, h4, ⟨vs', _, e1⟩ | ⟨y, rfl, e1⟩⟩
    · cases e1; rw [List.cons_append, evalLR, h3]
    · cases e1
    · cases e1; rw [List.cons_append, evalLR, h3]; simp only [ih h4]

/-- The application of `trPrim2cVar` to two arguments and more. -/
theorem prim2c_app {k w1 w2 ws lst r lst1 r' lst' env} (h : sem2 lDom k w1 w2 lst = some (r, lst1))
    (hr : (∃ g, r = .val g ∧ ConvApp g ws lst1 r' lst') ∨
      ∃ x, r = .exn x ∧ r' = .exn x ∧ lst' = lst1) :
    ConvApp (.clos env (.fn (.prim (.op2 k) [.var 1, .var 0]))) (w1 :: w2 :: ws) lst r' lst' := by
  have hp : Conv (w2 :: w1 :: env) (.prim (.op2 k) [.var 1, .var 0]) lst r lst1 := by
    refine .prim (vs := [w1, w2]) (st1 := lst) (.cons (.var rfl) (.cons (.var rfl) .nil)) ?_
    simpa [primSem] using h
  refine .cons .fn ?_
  rcases hr with ⟨g, rfl, hg⟩ | ⟨x, rfl, rfl, rfl⟩
  · exact .cons hp hg
  · exact .stop hp

end Mosml.Front
