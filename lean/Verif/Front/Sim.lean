import Verif.Front.Mono

/-! The translation of an expression does what the expression does. -/

namespace Mosml.Front

/-! ## Blocks -/

theorem constants_conv {l cs} (h : constants l = some cs) (env st) :
    ConvLR env l st (.vals (Const.toLs cs)) st := by
  induction l generalizing cs with
  | nil => simp [constants] at h; subst h; rw [Const.toLs]; exact .nil
  | cons a l ih =>
    cases a <;> simp only [constants, reduceCtorEq, Option.map_eq_some_iff] at h
    obtain ⟨cs', h1, rfl⟩ := h
    rw [Const.toLs]
    exact .cons .const (ih h1)

theorem ConvLR.det {env l st r r' st1 st2} (h1 : ConvLR env l st r st1)
    (h2 : ConvLR env l st r' st2) : r = r' ∧ st1 = st2 := by
  obtain ⟨m1, h1⟩ := h1
  obtain ⟨m2, h2⟩ := h2
  have a := h1 (m1 + m2) (by omega)
  have b := h2 (m1 + m2) (by omega)
  rw [a] at b
  simpa using b

theorem mkBlock_conv {env l st ws st'} (t : Nat) (h : ConvLR env l st (.vals ws) st') :
    Conv env (mkBlock t l) st (.val (.block t ws)) st' := by
  rw [mkBlock]
  split
  · rename_i cs hc
    obtain ⟨e1, rfl⟩ := h.det (constants_conv hc env st)
    cases e1
    have := Conv.const (env := env) (st := st') (c := .block t cs)
    rwa [Const.toL] at this
  · exact .prim h rfl

theorem mkBlock_stop {env l st x st'} (t : Nat) (h : ConvLR env l st (.stop x) st') :
    Conv env (mkBlock t l) st (.exn x) st' := by
  rw [mkBlock]
  split
  · rename_i cs hc
    obtain ⟨e1, rfl⟩ := h.det (constants_conv hc env st)
    cases e1
  · exact .prim_stop h

theorem extract_quiet (t : Nat) (ws env : List LVal) :
    List.Forall₂ (Quiet (.block t ws :: env)) (extractFields ws.length) ws := by
  rw [List.forall₂_iff_get]
  refine ⟨by simp [extractFields], fun i h1 h2 st => ?_⟩
  simp only [extractFields, List.get_eq_getElem, List.getElem_map, List.getElem_range]
  refine .prim (vs := [.block t ws]) (.cons (.var rfl) .nil) ?_
  have : ws[i]? = some ws[i] := List.getElem?_eq_getElem h2
  simp [primSem, this]

theorem ConvLR.single {env l st w st'} (h : ConvLR env [l] st (.vals [w]) st') :
    Conv env l st (.val w) st' := by
  obtain ⟨m, h⟩ := h
  refine ⟨m, fun k hk => ?_⟩
  have := h k hk
  simp only [evalLR] at this
  split at this <;> simp_all

theorem ConvLR.single_stop {env l st w st'} (h : ConvLR env [l] st (.stop w) st') :
    Conv env l st (.exn w) st' := by
  obtain ⟨m, h⟩ := h
  refine ⟨m, fun k hk => ?_⟩
  have := h k hk
  simp only [evalLR] at this
  split at this <;> simp_all

theorem Conv.var_inv {env i st r st'} (h : Conv env (.var i) st r st') :
    ∃ v, env[i]? = some v ∧ r = .val v ∧ st' = st := by
  obtain ⟨m, h⟩ := h
  have := h (m + 1) (by omega)
  simp only [lev, Option.map_eq_some_iff, Prod.mk.injEq] at this
  obtain ⟨v, h1, h2, h3⟩ := this
  exact ⟨v, h1, h2.symm, h3.symm⟩

/-! ## Safe expressions -/

theorem isSafes_mem {es : List Exp} (h : isSafes es = true) : ∀ e ∈ es, isSafe e = true := by
  induction es with
  | nil => simp
  | cons a es ih =>
    simp only [isSafes, Bool.and_eq_true] at h
    intro e he
    rcases List.mem_cons.1 he with rfl | he
    · exact h.1
    · exact ih h.2 e he

theorem noWhiles_mem {es : List Exp} (h : noWhiles es = true) : ∀ e ∈ es, noWhile e = true := by
  induction es with
  | nil => simp
  | cons a es ih =>
    simp only [noWhiles, Bool.and_eq_true] at h
    intro e he
    rcases List.mem_cons.1 he with rfl | he
    · exact h.1
    · exact ih h.2 e he

theorem fwd_safe {tr : Nat → Exp → Lam} {es : List Exp} (h : ∀ e ∈ es, isSafe e = true) (d : Nat) :
    fwd d (argsOf tr es) = ([], es.map fun e => .safe (fun d => tr d e)) ∧
    ∀ d', res d' 0 (es.map fun e => .safe (fun d => tr d e)) = es.map (tr d') := by
  induction es with
  | nil => simp [argsOf, fwd, res]
  | cons e es ih =>
    have := ih fun e he => h e (by simp [he])
    simp only [argsOf] at this ⊢
    simp [fwd, res, h e (by simp), this.1, this.2]

/-- What is shown of a safe expression. -/
def SafeOK (o : Order) (ρ : List (Name × SVal)) (rho : Rho) (e : Exp) : Prop :=
  ∃ v, (∀ n st r st', sev o n ρ e st = some (r, st') → r = .val v ∧ st' = st) ∧
    ∀ env, EnvRel ρ rho env → ∀ m, esize e ≤ m → ∃ w, Quiet env (trE m rho env.length e) w ∧ VRel v w

theorem safes {o ρ rho} {es : List Exp} (h : ∀ e ∈ es, SafeOK o ρ rho e) :
    ∃ vs, vs.length = es.length ∧
      (∀ n st rs st', evalLR (sev o n ρ) es st = some (rs, st') → rs = .vals vs ∧ st' = st) ∧
      ∀ env, EnvRel ρ rho env → ∀ m, esizes es ≤ m →
        ∃ ws, List.Forall₂ (Quiet env) (es.map (trE m rho env.length)) ws ∧
          List.Forall₂ VRel vs ws := by
  induction es with
  | nil =>
    refine ⟨[], rfl, fun n st rs st' h => evalLR_nil h, fun env _ m _ => ⟨[], by simp, .nil⟩⟩
  | cons e es ih =>
    obtain ⟨v, h1, h2⟩ := h e (by simp)
    obtain ⟨vs, hl, h3, h4⟩ := ih fun e he => h e (by simp [he])
    refine ⟨v :: vs, by simp [hl], fun n st rs st' hr => ?_, fun env he m hm => ?_⟩
    · rcases evalLR_cons hr with ⟨x, e1, rfl⟩ | ⟨v', st1, rs', e1, e2, e3⟩
      · have := (h1 _ _ _ _ e1).1
        cases this
      · obtain ⟨q1, rfl⟩ := h1 _ _ _ _ e1
        cases q1
        obtain ⟨rfl, rfl⟩ := h3 _ _ _ _ e2
        rcases e3 with ⟨vs', q, rfl⟩ | ⟨x, q, _⟩
        · cases q; exact ⟨rfl, rfl⟩
        · cases q
    · rw [esizes] at hm
      obtain ⟨w, a1, a2⟩ := h2 env he m (by omega)
      obtain ⟨ws, b1, b2⟩ := h4 env he m (by omega)
      exact ⟨w :: ws, .cons a1 b1, .cons a2 b2⟩

theorem Quiet.block {env l ws} (t : Nat) (h : List.Forall₂ (Quiet env) l ws) :
    Quiet env (mkBlock t l) (.block t ws) := fun st => mkBlock_conv t (Quiet.lr h st)

theorem Quiet.fn {env b} : Quiet env (.fn b) (.clos env b) := fun _ => .fn

theorem succ_of_pos {m e} (h : esize e ≤ m) : ∃ m', m = m' + 1 :=
  ⟨m - 1, by have := esize_pos e; omega⟩

/-- A function whose text is translated. -/
theorem VRel.fn {ρ rho env x xs b m} (he : EnvRel ρ rho env)
    (hg : Good (Scope rho) (.fn x xs b)) (hm : esize (.fn x xs b) ≤ m) :
    ∃ w, Quiet env (trE m rho env.length (.fn x xs b)) w ∧ VRel (.clos ρ x xs b) w := by
  obtain ⟨m, rfl⟩ := succ_of_pos hm
  rw [esize] at hm
  cases hg with
  | fn hg =>
    refine ⟨_, ?_, .clos (m := m) he.dom he.val hg (by omega)⟩
    rw [trE, lams]
    exact Quiet.fn

theorem sev_zero {o ρ e st x} : ¬ sev o 0 ρ e st = some x := by simp [sev]

theorem safe_sim (o : Order) (k : Nat) : ∀ e, esize e ≤ k → isSafe e = true → noWhile e = true →
    ∀ ρ rho, Good (Scope rho) e → (∀ x, Scope rho x → (look ρ x).isSome) → SafeOK o ρ rho e := by
  induction k with
  | zero => intro e h; have := esize_pos e; omega
  | succ k ih =>
    intro e hk hs hw ρ rho hg hd
    cases e with
    | const c =>
      refine ⟨c.toS, fun n st r st' h => ?_, fun env he m hm => ?_⟩
      · cases n with
        | zero => exact absurd h sev_zero
        | succ n => simp [sev] at h; exact ⟨h.1.symm, h.2.symm⟩
      · obtain ⟨m, rfl⟩ := succ_of_pos hm
        exact ⟨c.toL, fun st => .const, c.rel⟩
    | var x =>
      cases hg with
      | var hx =>
        obtain ⟨v, hv⟩ := Option.isSome_iff_exists.1 (hd x hx)
        refine ⟨v, fun n st r st' h => ?_, fun env he m hm => ?_⟩
        · cases n with
          | zero => exact absurd h sev_zero
          | succ n => simp [sev, hv] at h; exact ⟨h.1.symm, h.2.symm⟩
        · obtain ⟨m, rfl⟩ := succ_of_pos hm
          exact he.access hx hv
    | prim1 c =>
      refine ⟨.prim1 c, fun n st r st' h => ?_, fun env he m hm => ?_⟩
      · cases n with
        | zero => exact absurd h sev_zero
        | succ n => simp [sev] at h; exact ⟨h.1.symm, h.2.symm⟩
      · obtain ⟨m, rfl⟩ := succ_of_pos hm
        exact ⟨_, Quiet.fn, .prim1⟩
    | prim2 c =>
      refine ⟨.prim2 c, fun n st r st' h => ?_, fun env he m hm => ?_⟩
      · cases n with
        | zero => exact absurd h sev_zero
        | succ n => simp [sev] at h; exact ⟨h.1.symm, h.2.symm⟩
      · obtain ⟨m, rfl⟩ := succ_of_pos hm
        exact ⟨_, Quiet.fn, .prim2⟩
    | con c =>
      refine ⟨.con c, fun n st r st' h => ?_, fun env he m hm => ?_⟩
      · cases n with
        | zero => exact absurd h sev_zero
        | succ n => simp [sev] at h; exact ⟨h.1.symm, h.2.symm⟩
      · obtain ⟨m, rfl⟩ := succ_of_pos hm
        cases c with
        | greedy t n => exact ⟨_, Quiet.fn, .greedy⟩
        | single => exact ⟨_, Quiet.fn, .single⟩
        | plain t => exact ⟨_, Quiet.fn, .plain⟩
    | fn x xs b =>
      refine ⟨.clos ρ x xs b, fun n st r st' h => ?_, fun env he m hm => VRel.fn he hg hm⟩
      cases n with
      | zero => exact absurd h sev_zero
      | succ n => simp [sev] at h; exact ⟨h.1.symm, h.2.symm⟩
    | app | lett | raise | handle => simp [isSafe] at hs
    | whil => simp [noWhile] at hw
    | tuple es =>
      rw [esize] at hk
      rw [isSafe] at hs
      rw [noWhile] at hw
      cases hg with
      | tuple hg _ =>
        obtain ⟨vs, hl, h1, h2⟩ := safes (o := o) (ρ := ρ) (rho := rho) (es := es) fun e he =>
          ih e (by have := esize_mem he; omega) (isSafes_mem hs e he) (noWhiles_mem hw e he) ρ rho
            (hg e he) hd
        refine ⟨.block 0 vs, fun n st r st' h => ?_, fun env he m hm => ?_⟩
        · cases n with
          | zero => exact absurd h sev_zero
          | succ n =>
            rw [sev] at h
            rcases thenAll_some h with ⟨vs', st1, e1, e2⟩ | ⟨x, e1, _⟩
            · obtain ⟨q, rfl⟩ := h1 _ _ _ _ e1
              cases q
              simp at e2
              exact ⟨e2.1.symm, e2.2.symm⟩
            · obtain ⟨q, _⟩ := h1 _ _ _ _ e1
              cases q
        · obtain ⟨m, rfl⟩ := succ_of_pos hm
          rw [esize] at hm
          obtain ⟨ws, a1, a2⟩ := h2 env he m (by omega)
          exact ⟨_, Quiet.block 0 a1, .block a2⟩
    | record labs es =>
      rw [esize] at hk
      rw [isSafe] at hs
      rw [noWhile] at hw
      cases hg with
      | record hg _ hlen hn =>
        obtain ⟨vs, hl, h1, h2⟩ := safes (o := o) (ρ := ρ) (rho := rho) (es := es) fun e he =>
          ih e (by have := esize_mem he; omega) (isSafes_mem hs e he) (noWhiles_mem hw e he) ρ rho
            (hg e he) hd
        refine ⟨.block 0 (byLabel labs vs), fun n st r st' h => ?_, fun env he m hm => ?_⟩
        · cases n with
          | zero => exact absurd h sev_zero
          | succ n =>
            rw [sev] at h
            rcases thenAll_some h with ⟨vs', st1, e1, e2⟩ | ⟨x, e1, _⟩
            · obtain ⟨q, rfl⟩ := h1 _ _ _ _ e1
              cases q
              simp at e2
              exact ⟨e2.1.symm, e2.2.symm⟩
            · obtain ⟨q, _⟩ := h1 _ _ _ _ e1
              cases q
        · obtain ⟨m, rfl⟩ := succ_of_pos hm
          rw [esize] at hm
          obtain ⟨ws, a1, a2⟩ := h2 env he m (by omega)
          obtain ⟨f1, f2⟩ := fwd_safe (tr := trE m rho) (isSafes_mem hs) env.length
          refine ⟨.block 0 ((sortRow (labs.zip ws)).map (·.2)), ?_, ?_⟩
          · rw [trE, trRec, trArgs_nil f1, f2]
            exact Quiet.block 0 (forall₂_quiet_sort labs a1)
          · rw [← sortRow_eq_byLabel (by omega) hn]
            exact .block (forall₂_sortRow a2)
    | par e =>
      rw [esize] at hk
      rw [isSafe] at hs
      rw [noWhile] at hw
      cases hg with
      | par hg =>
        obtain ⟨v, h1, h2⟩ := ih e (by omega) hs hw ρ rho hg hd
        refine ⟨v, fun n st r st' h => ?_, fun env he m hm => ?_⟩
        · cases n with
          | zero => exact absurd h sev_zero
          | succ n => exact h1 _ _ _ _ h
        · obtain ⟨m, rfl⟩ := succ_of_pos hm
          rw [esize] at hm
          exact h2 env he m (by omega)
    | andalso a b =>
      rw [esize] at hk
      simp only [isSafe, Bool.and_eq_true] at hs
      simp only [noWhile, Bool.and_eq_true] at hw
      cases hg with
      | andalso ga gb =>
        obtain ⟨v, h1, h2⟩ := ih a (by omega) hs.1 hw.1 ρ rho ga hd
        obtain ⟨u, h3, h4⟩ := ih b (by omega) hs.2 hw.2 ρ rho gb hd
        refine ⟨if struth v then u else v, fun n st r st' h => ?_, fun env he m hm => ?_⟩
        · cases n with
          | zero => exact absurd h sev_zero
          | succ n =>
            rw [sev] at h
            rcases thenDo_some h with ⟨v', st1, e1, e2⟩ | ⟨x, e1, _⟩
            · obtain ⟨q, rfl⟩ := h1 _ _ _ _ e1
              cases q
              cases ht : struth v
              · simp [ht] at e2 ⊢; exact ⟨e2.1.symm, e2.2.symm⟩
              · simp [ht] at e2 ⊢; exact h3 _ _ _ _ e2
            · obtain ⟨q, _⟩ := h1 _ _ _ _ e1
              cases q
        · obtain ⟨m, rfl⟩ := succ_of_pos hm
          rw [esize] at hm
          obtain ⟨w, q1, r1⟩ := h2 env he m (by omega)
          obtain ⟨z, q2, r2⟩ := h4 env he m (by omega)
          rw [trE, r1.truth]
          cases ht : ltruth w
          · exact ⟨w, fun st => .andalso_false (q1 st) ht, by simpa using r1⟩
          · exact ⟨z, fun st => .andalso_true (q1 st) ht (q2 st), by simpa using r2⟩
    | orelse a b =>
      rw [esize] at hk
      simp only [isSafe, Bool.and_eq_true] at hs
      simp only [noWhile, Bool.and_eq_true] at hw
      cases hg with
      | orelse ga gb =>
        obtain ⟨v, h1, h2⟩ := ih a (by omega) hs.1 hw.1 ρ rho ga hd
        obtain ⟨u, h3, h4⟩ := ih b (by omega) hs.2 hw.2 ρ rho gb hd
        refine ⟨if struth v then v else u, fun n st r st' h => ?_, fun env he m hm => ?_⟩
        · cases n with
          | zero => exact absurd h sev_zero
          | succ n =>
            rw [sev] at h
            rcases thenDo_some h with ⟨v', st1, e1, e2⟩ | ⟨x, e1, _⟩
            · obtain ⟨q, rfl⟩ := h1 _ _ _ _ e1
              cases q
              cases ht : struth v
              · simp [ht] at e2 ⊢; exact h3 _ _ _ _ e2
              · simp [ht] at e2 ⊢; exact ⟨e2.1.symm, e2.2.symm⟩
            · obtain ⟨q, _⟩ := h1 _ _ _ _ e1
              cases q
        · obtain ⟨m, rfl⟩ := succ_of_pos hm
          rw [esize] at hm
          obtain ⟨w, q1, r1⟩ := h2 env he m (by omega)
          obtain ⟨z, q2, r2⟩ := h4 env he m (by omega)
          rw [trE, r1.truth]
          cases ht : ltruth w
          · exact ⟨z, fun st => .orelse_false (q1 st) ht (q2 st), by simpa using r2⟩
          · exact ⟨w, fun st => .orelse_true (q1 st) ht, by simpa using r1⟩
    | cond c a b =>
      rw [esize] at hk
      simp only [isSafe, Bool.and_eq_true] at hs
      simp only [noWhile, Bool.and_eq_true] at hw
      cases hg with
      | cond gc ga gb =>
        obtain ⟨v, h1, h2⟩ := ih c (by omega) hs.1.1 hw.1.1 ρ rho gc hd
        obtain ⟨u, h3, h4⟩ := ih a (by omega) hs.1.2 hw.1.2 ρ rho ga hd
        obtain ⟨t, h5, h6⟩ := ih b (by omega) hs.2 hw.2 ρ rho gb hd
        refine ⟨if struth v then u else t, fun n st r st' h => ?_, fun env he m hm => ?_⟩
        · cases n with
          | zero => exact absurd h sev_zero
          | succ n =>
            rw [sev] at h
            rcases thenDo_some h with ⟨v', st1, e1, e2⟩ | ⟨x, e1, _⟩
            · obtain ⟨q, rfl⟩ := h1 _ _ _ _ e1
              cases q
              cases ht : struth v
              · simp [ht] at e2 ⊢; exact h5 _ _ _ _ e2
              · simp [ht] at e2 ⊢; exact h3 _ _ _ _ e2
            · obtain ⟨q, _⟩ := h1 _ _ _ _ e1
              cases q
        · obtain ⟨m, rfl⟩ := succ_of_pos hm
          rw [esize] at hm
          obtain ⟨w, q1, r1⟩ := h2 env he m (by omega)
          obtain ⟨y, q2, r2⟩ := h4 env he m (by omega)
          obtain ⟨z, q3, r3⟩ := h6 env he m (by omega)
          rw [trE, r1.truth]
          cases ht : ltruth w
          · exact ⟨z, fun st => .cond (q1 st) (by simpa [ht] using q3 st), by simpa using r3⟩
          · exact ⟨y, fun st => .cond (q1 st) (by simpa [ht] using q2 st), by simpa using r2⟩
    | seq a b =>
      rw [esize] at hk
      simp only [isSafe, Bool.and_eq_true] at hs
      simp only [noWhile, Bool.and_eq_true] at hw
      cases hg with
      | seq ga gb =>
        obtain ⟨v, h1, h2⟩ := ih a (by omega) hs.1 hw.1 ρ rho ga hd
        obtain ⟨u, h3, h4⟩ := ih b (by omega) hs.2 hw.2 ρ rho gb hd
        refine ⟨u, fun n st r st' h => ?_, fun env he m hm => ?_⟩
        · cases n with
          | zero => exact absurd h sev_zero
          | succ n =>
            rw [sev] at h
            rcases thenDo_some h with ⟨v', st1, e1, e2⟩ | ⟨x, e1, _⟩
            · obtain ⟨q, rfl⟩ := h1 _ _ _ _ e1
              exact h3 _ _ _ _ e2
            · obtain ⟨q, _⟩ := h1 _ _ _ _ e1
              cases q
        · obtain ⟨m, rfl⟩ := succ_of_pos hm
          rw [esize] at hm
          obtain ⟨w, q1, r1⟩ := h2 env he m (by omega)
          obtain ⟨z, q2, r2⟩ := h4 env he m (by omega)
          exact ⟨z, fun st => .seq (q1 st) (q2 st), r2⟩

end Mosml.Front
