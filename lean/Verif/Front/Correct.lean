import Verif.Front.App

/-! The translation is correct for the order in which the arguments of an application are
evaluated before the function is called. -/

namespace Mosml.Front

variable {n m : Nat} {ρ : List (Name × SVal)} {rho : Rho} {env : List LVal}

/-- A constructor applied to the value of a term. -/
def conTerm (k : Con) (l : Lam) : Lam :=
  match k with
  | .greedy t a => .lett [l] (.prim (.makeblock t) (extractFields a))
  | .single => l
  | .plain t => mkBlock t [l]

theorem trConApp_greedy {tr d t a e} : trConApp tr d (.greedy t a) [e] = (match e with
    | .record labs es => trRec tr d t labs es
    | .tuple es => trTuple tr d t es
    | _ => .lett [tr d e] (.prim (.makeblock t) (extractFields a))) := by
  cases e <;> rfl

/-- The case of a constructor. -/
theorem Sim.con (ih : Sim n) (he : EnvRel ρ rho env) {k : Con} {e : Exp}
    (hg : Good (Scope rho) e) (hm : esize e ≤ m) {st r st' lst} (hs : StRel st lst)
    (h : (thenAll (evalLR (sev .grouped n ρ) [e] st) fun vs st =>
      sapplyAll (sapply (sev .grouped n)) (.con k) vs st) = some (r, st')) :
    Does env (trConApp (trE m rho) env.length k [e]) lst r st' := by
  have key : (∃ v st1 u, sev .grouped n ρ e st = some (.val v, st1) ∧ conSem k v = some u ∧
      r = .val u ∧ st' = st1) ∨ ∃ x, sev .grouped n ρ e st = some (.exn x, st') ∧ r = .exn x := by
    rcases one_arg h with ⟨v, st1, h1, h2⟩ | ⟨x, h1, h2⟩
    · rw [applyAll_one, sapply] at h2
      simp only [Option.map_eq_some_iff, Prod.mk.injEq] at h2
      obtain ⟨u, h3, rfl, rfl⟩ := h2
      exact .inl ⟨v, _, u, h1, h3, rfl, rfl⟩
    · exact .inr ⟨x, h1, h2⟩
  have okes : ∀ es : List Exp, (∀ e ∈ es, Good (Scope rho) e) → (∀ e ∈ es, argOk e) →
      esizes es ≤ m → ∀ e ∈ es, ArgOK (sev .grouped n ρ) ρ rho (trE m rho) e :=
    fun es hg ho hm e he' => ih.arg he (hg e he') (ho e he')
      (le_trans (esize_mem he') hm)
  -- an argument that is a list of fields, `fs` the values in the block
  have fields : ∀ (t a : Nat) (es : List Exp) (fs : List SVal → List SVal) (l : Lam),
      k = .greedy t a →
      (∀ r1 st1, sev .grouped n ρ e st = some (r1, st1) → ∃ rs,
        evalLR (sev .grouped n ρ) es st = some (rs, st1) ∧
        ((∃ vs, rs = .vals vs ∧ r1 = .val (.block 0 (fs vs))) ∨ ∃ x, rs = .stop x ∧ r1 = .exn x)) →
      (∀ rs st', evalLR (sev .grouped n ρ) es st = some (rs, st') → ∃ lst', StRel st' lst' ∧
        ((∃ vs ws, rs = .vals vs ∧ List.Forall₂ VRel (fs vs) ws ∧
          Conv env l lst (.val (.block t ws)) lst') ∨
         ∃ x x', rs = .stop x ∧ VRel x x' ∧ Conv env l lst (.exn x') lst')) →
      Does env l lst r st' := by
    intro t a es fs l hk h1 h2
    subst hk
    rcases key with ⟨v, st1, u, e1, e2, rfl, rfl⟩ | ⟨x, e1, rfl⟩
    · obtain ⟨rs, e3, e4⟩ := h1 _ _ e1
      obtain ⟨lst', sr, e5⟩ := h2 _ _ e3
      rcases e4 with ⟨vs, rfl, e4⟩ | ⟨x, _, e4⟩
      · cases e4
        rcases e5 with ⟨vs', ws, e6, hf, c⟩ | ⟨_, _, e6, _⟩
        · cases e6
          simp only [conSem] at e2
          split_ifs at e2
          cases e2
          exact ⟨_, lst', c, .val (.block hf), sr⟩
        · cases e6
      · cases e4
    · obtain ⟨rs, e3, e4⟩ := h1 _ _ e1
      obtain ⟨lst', sr, e5⟩ := h2 _ _ e3
      rcases e4 with ⟨vs, _, e4⟩ | ⟨x, rfl, e4⟩
      · cases e4
      · cases e4
        rcases e5 with ⟨vs', ws, e6, hf, c⟩ | ⟨_, _, e6, hx, c⟩
        · cases e6
        · cases e6
          exact ⟨_, lst', c, .exn hx, sr⟩
  have other : (∀ l, ∀ v w u lst', VRel v w → conSem k v = some u → Conv env l lst (.val w) lst' →
      ∃ w', Conv env (conTerm k l) lst (.val w') lst' ∧ VRel u w') := by
    intro l v w u lst' hv hu c
    cases k with
    | greedy t a => exact greedy_conv hu hv c
    | single => cases hu; exact ⟨w, c, hv⟩
    | plain t => cases hu; exact ⟨_, mkBlock_conv t (.cons c .nil), .block (.cons hv .nil)⟩
  have gen : Does env (conTerm k (trE m rho env.length e)) lst r st' := by
    rcases key with ⟨v, st1, u, e1, e2, rfl, rfl⟩ | ⟨x, e1, rfl⟩
    · obtain ⟨r1, lst1, c, rr, sr⟩ := ih _ _ _ _ _ e1 rho env lst m he hs hg hm
      cases rr with
      | val hv =>
        obtain ⟨w', c', hw⟩ := other _ _ _ _ _ hv e2 c
        exact ⟨_, lst1, c', .val hw, sr⟩
    · obtain ⟨r1, lst1, c, rr, sr⟩ := ih _ _ _ _ _ e1 rho env lst m he hs hg hm
      cases rr with
      | exn hx =>
        cases k with
        | greedy t a => exact ⟨_, lst1, .lett_stop (.stop c), .exn hx, sr⟩
        | single => exact ⟨_, lst1, c, .exn hx, sr⟩
        | plain t => exact ⟨_, lst1, mkBlock_stop t (.stop c), .exn hx, sr⟩
  cases k with
  | single => exact gen
  | plain t => exact gen
  | greedy t a =>
    rw [trConApp_greedy]
    split
    · rename_i labs es
      rw [esize] at hm
      cases hg with
      | record hg ho hl hn =>
        refine fields t a es (byLabel labs) _ rfl ?_ ?_
        · intro r1 st1 h1
          cases n with
          | zero => exact absurd h1 sev_zero
          | succ n =>
            rw [sev] at h1
            rcases thenAll_some h1 with ⟨vs, st2, h2, h3⟩ | ⟨x, h2, rfl⟩
            · cases h3
              exact ⟨_, evalLR_mono (fun e _ => sev_step _ n ρ e) h2, .inl ⟨vs, rfl, rfl⟩⟩
            · exact ⟨_, evalLR_mono (fun e _ => sev_step _ n ρ e) h2, .inr ⟨x, rfl, rfl⟩⟩
        · intro rs st' h1
          exact rec_sim he (okes es hg ho (by omega)) hs h1 t hl hn
    · rename_i es
      rw [esize] at hm
      cases hg with
      | tuple hg ho =>
        refine fields t a es id _ rfl ?_ ?_
        · intro r1 st1 h1
          cases n with
          | zero => exact absurd h1 sev_zero
          | succ n =>
            rw [sev] at h1
            rcases thenAll_some h1 with ⟨vs, st2, h2, h3⟩ | ⟨x, h2, rfl⟩
            · cases h3
              exact ⟨_, evalLR_mono (fun e _ => sev_step _ n ρ e) h2, .inl ⟨vs, rfl, rfl⟩⟩
            · exact ⟨_, evalLR_mono (fun e _ => sev_step _ n ρ e) h2, .inr ⟨x, rfl, rfl⟩⟩
        · intro rs st' h1
          exact tuple_sim he (okes es hg ho (by omega)) hs h1 t
    · exact gen

/-- The case of a variable, a function or a primitive: it has a value and no effect. -/
theorem head_val {f : Exp} {v : SVal} {F : SVal → St SVal → Option (Res SVal × St SVal)} {st r st'}
    (hv : ∀ k st r st', sev .grouped k ρ f st = some (r, st') → r = .val v ∧ st' = st)
    (h : thenDo (sev .grouped n ρ f st) F = some (r, st')) : F v st = some (r, st') := by
  rcases thenDo_some h with ⟨g, st1, h1, h2⟩ | ⟨x, h1, _⟩
  · obtain ⟨e1, rfl⟩ := hv _ _ _ _ h1
    cases e1
    exact h2
  · cases (hv _ _ _ _ h1).1

theorem Sim.app (ih : Sim n) (he : EnvRel ρ rho env) {f : Exp} {args : List Exp}
    (hf : Good (Scope rho) f) (of : argOk f) (ha : ∀ e ∈ args, Good (Scope rho) e ∧ argOk e)
    (hmf : esize f ≤ m) (hma : ∀ e ∈ args, esize e ≤ m) (hne : args ≠ [])
    (hk : ∀ k, f = .con k → ∃ a, args = [a]) {st r st' lst} (hs : StRel st lst)
    (h : (thenDo (sev .grouped n ρ f st) fun g st => thenAll (evalLR (sev .grouped n ρ) args st)
      fun vs st => sapplyAll (sapply (sev .grouped n)) g vs st) = some (r, st')) :
    Does env (trApp (trE m) rho env.length f args) lst r st' := by
  have ok : ∀ e ∈ args, ArgOK (sev .grouped n ρ) ρ rho (trE m rho) e :=
    fun e h => ih.arg he (ha e h).1 (ha e h).2 (hma e h)
  have okf : ∀ e ∈ f :: args, ArgOK (sev .grouped n ρ) ρ rho (trE m rho) e := by
    intro e h
    rcases List.mem_cons.1 h with rfl | h
    · exact ih.arg he hf of hmf
    · exact ok e h
  have oth := ih.other he okf hs h
  cases f with
  | fn x xs b =>
    have h := head_val (v := .clos ρ x xs b) (fun k st r st' h => by
      cases k with
      | zero => exact absurd h sev_zero
      | succ k => rw [sev] at h; cases h; exact ⟨rfl, rfl⟩) h
    rw [trApp]
    split
    · rename_i hl
      rw [esize] at hmf
      rcases thenAll_some h with ⟨vs, st1, h1, h2⟩ | ⟨y, h1, rfl⟩
      · obtain ⟨lst1, sr, ⟨_, ws, e1, hv, c⟩ | ⟨_, _, e1, _⟩⟩ := letArgs_sim ok he hs h1
        · cases e1
          have hl2 := evalLR_length h1
          rw [sapplyAll_clos (by omega)] at h2
          cases hf with
          | fn hgb =>
            have he2 := he.bindAll (xs := x :: xs) hv (by simp; omega)
            obtain ⟨r', lst', c2, rr, sr2⟩ := ih _ _ _ _ _ h2 _ _ lst1 m he2 sr
              (hgb.bindAll (d := env.length)) (by omega)
            have hl3 : (ws.reverse ++ env).length = env.length + (xs.length + 1) := by
              have := hv.length_eq; simp; omega
            rw [hl3] at c2
            exact ⟨r', lst', .lett c c2, rr, sr2⟩
        · cases e1
      · obtain ⟨lst1, sr, ⟨_, ws, e1, _⟩ | ⟨_, _, e1, hx, c⟩⟩ := letArgs_sim ok he hs h1
        · cases e1
        · cases e1
          exact ⟨_, _, .lett_stop c, .exn hx, sr⟩
    · exact ih.applyCase he ok (F := fun d => trE m rho d (.fn x xs b)) (g := .clos ρ x xs b)
        (fun env2 he2 => VRel.fn he2 hf hmf) hs h
  | var x =>
    cases hf with
    | var hx =>
      obtain ⟨v, hv⟩ := Option.isSome_iff_exists.1 (he.total x hx)
      have h := head_val (v := v) (fun k st r st' h => by
        cases k with
        | zero => exact absurd h sev_zero
        | succ k => rw [sev, hv] at h; cases h; exact ⟨rfl, rfl⟩) h
      rw [trApp]
      exact ih.applyCase he ok (F := fun d => access rho d x) (g := v)
        (fun env2 he2 => he2.access hx hv) hs h
  | prim1 k =>
    have h := head_val (v := .prim1 k) (fun k st r st' h => by
      cases k with
      | zero => exact absurd h sev_zero
      | succ k => rw [sev] at h; cases h; exact ⟨rfl, rfl⟩) h
    exact ih.prim1 he ok hs h
  | prim2 k =>
    have h := head_val (v := .prim2 k) (fun k st r st' h => by
      cases k with
      | zero => exact absurd h sev_zero
      | succ k => rw [sev] at h; cases h; exact ⟨rfl, rfl⟩) h
    cases args with
    | nil => exact absurd rfl hne
    | cons e rest =>
      refine ih.primApp he ok (fun e1 e2 hp => ?_) (ha e (by simp)).1 hs h
      obtain ⟨h1, h2, h3, _⟩ := extractPair hp (ha e (by simp)).1
      have := hma e (by simp)
      exact ⟨ih.arg he h2.1 h2.2 (by omega), ih.arg he h3.1 h3.2 (by omega)⟩
  | con k =>
    have h := head_val (v := .con k) (fun k st r st' h => by
      cases k with
      | zero => exact absurd h sev_zero
      | succ k => rw [sev] at h; cases h; exact ⟨rfl, rfl⟩) h
    obtain ⟨a, rfl⟩ := hk k rfl
    exact ih.con he (ha a (by simp)).1 (hma a (by simp)) hs h
  | _ => exact oth

theorem normApp_ne (f : Exp) (args : List Exp) (h : args ≠ []) : (normApp f args).2 ≠ [] := by
  fun_induction normApp f args with
  | case1 args e ih => exact ih h
  | case2 args e1 e2 ih => exact ih (by simp)
  | case3 => exact h

theorem sim (n : Nat) : Sim n := by
  induction n with
  | zero => intro ρ e st r st' h; exact absurd h sev_zero
  | succ n ih =>
    intro ρ e st r st' h rho env lst m he hs hg hm
    obtain ⟨m, rfl⟩ := succ_of_pos hm
    cases e with
    | const c =>
      rw [sev] at h; cases h
      exact ⟨_, _, .const, .val c.rel, hs⟩
    | var x =>
      rw [sev] at h
      cases hg with
      | var hx =>
        simp only [Option.map_eq_some_iff, Prod.mk.injEq] at h
        obtain ⟨v, hv, rfl, rfl⟩ := h
        obtain ⟨w, hq, hw⟩ := he.access hx hv
        exact ⟨_, _, hq _, .val hw, hs⟩
    | prim1 k => rw [sev] at h; cases h; exact ⟨_, _, .fn, .val .prim1, hs⟩
    | prim2 k => rw [sev] at h; cases h; exact ⟨_, _, .fn, .val .prim2, hs⟩
    | con k =>
      rw [sev] at h; cases h
      cases k with
      | greedy t a => exact ⟨_, _, .fn, .val .greedy, hs⟩
      | single => exact ⟨_, _, .fn, .val .single, hs⟩
      | plain t => exact ⟨_, _, .fn, .val .plain, hs⟩
    | fn x xs b =>
      rw [sev] at h; cases h
      obtain ⟨w, hq, hw⟩ := VRel.fn he hg hm
      exact ⟨_, _, hq _, .val hw, hs⟩
    | app f a =>
      rw [sev] at h
      simp only [reduceCtorEq, if_false] at h
      rw [esize] at hm
      cases hg with
      | app hf ha of oa hk =>
        obtain ⟨g1, g2, g3⟩ := normApp_good (args := [a]) hf (by simpa using ⟨ha, oa⟩) of
        obtain ⟨s1, s2⟩ := normApp_size f [a]
        refine ih.app he g1 g2 g3 (by omega) (fun e he' => ?_) (normApp_ne f [a] (by simp))
          (fun k hc => ⟨a, hk k hc⟩) hs h
        rcases s2 e he' with h1 | h1
        · simp at h1; subst h1; omega
        · omega
    | tuple es =>
      rw [sev] at h
      rw [esize] at hm
      cases hg with
      | tuple hg ho =>
        have ok : ∀ e ∈ es, ArgOK (sev .grouped n ρ) ρ rho (trE m rho) e :=
          fun e he' => ih.arg he (hg e he') (ho e he') (by have := esize_mem he'; omega)
        rcases thenAll_some h with ⟨vs, st1, h1, h2⟩ | ⟨x, h1, rfl⟩
        · cases h2
          obtain ⟨lst', sr, ⟨_, ws, e1, hf, c⟩ | ⟨_, _, e1, _⟩⟩ := tuple_sim he ok hs h1 0
          · cases e1; exact ⟨_, _, c, .val (.block hf), sr⟩
          · cases e1
        · obtain ⟨lst', sr, ⟨_, ws, e1, _⟩ | ⟨_, _, e1, hx, c⟩⟩ := tuple_sim he ok hs h1 0
          · cases e1
          · cases e1; exact ⟨_, _, c, .exn hx, sr⟩
    | record labs es =>
      rw [sev] at h
      rw [esize] at hm
      cases hg with
      | record hg ho hl hn =>
        have ok : ∀ e ∈ es, ArgOK (sev .grouped n ρ) ρ rho (trE m rho) e :=
          fun e he' => ih.arg he (hg e he') (ho e he') (by have := esize_mem he'; omega)
        rcases thenAll_some h with ⟨vs, st1, h1, h2⟩ | ⟨x, h1, rfl⟩
        · cases h2
          obtain ⟨lst', sr, ⟨_, ws, e1, hf, c⟩ | ⟨_, _, e1, _⟩⟩ := rec_sim he ok hs h1 0 hl hn
          · cases e1; exact ⟨_, _, c, .val (.block hf), sr⟩
          · cases e1
        · obtain ⟨lst', sr, ⟨_, ws, e1, _⟩ | ⟨_, _, e1, hx, c⟩⟩ := rec_sim he ok hs h1 0 hl hn
          · cases e1
          · cases e1; exact ⟨_, _, c, .exn hx, sr⟩
    | par e =>
      rw [sev] at h
      rw [esize] at hm
      cases hg with
      | par hg => exact ih _ _ _ _ _ h rho env lst m he hs hg (by omega)
    | lett x e b =>
      rw [sev] at h
      rw [esize] at hm
      cases hg with
      | lett g1 g2 =>
        rcases thenDo_some h with ⟨v, st1, h1, h2⟩ | ⟨y, h1, rfl⟩
        · obtain ⟨r1, lst1, c, rr, sr⟩ := ih _ _ _ _ _ h1 rho env lst m he hs g1 (by omega)
          cases rr with
          | val hv =>
            obtain ⟨r', lst', c2, rr, sr2⟩ := ih _ _ _ _ _ h2 _ _ lst1 m (he.bind (x := x) hv) sr
              (g2.bind (d := env.length)) (by omega)
            exact ⟨r', lst', .lett (.cons c .nil) c2, rr, sr2⟩
        · obtain ⟨r1, lst1, c, rr, sr⟩ := ih _ _ _ _ _ h1 rho env lst m he hs g1 (by omega)
          cases rr with
          | exn hx => exact ⟨_, _, .lett_stop (.stop c), .exn hx, sr⟩
    | andalso a b =>
      rw [sev] at h
      rw [esize] at hm
      cases hg with
      | andalso g1 g2 =>
        rcases thenDo_some h with ⟨v, st1, h1, h2⟩ | ⟨y, h1, rfl⟩
        · obtain ⟨r1, lst1, c, rr, sr⟩ := ih _ _ _ _ _ h1 rho env lst m he hs g1 (by omega)
          cases rr with
          | val hv =>
            have ht := hv.truth
            split_ifs at h2 with hc
            · obtain ⟨r', lst', c2, rr, sr2⟩ := ih _ _ _ _ _ h2 rho env lst1 m he sr g2 (by omega)
              exact ⟨r', lst', .andalso_true c (by rw [← ht]; exact hc) c2, rr, sr2⟩
            · cases h2
              exact ⟨_, _, .andalso_false c (by rw [← ht]; simpa using hc), .val hv, sr⟩
        · obtain ⟨r1, lst1, c, rr, sr⟩ := ih _ _ _ _ _ h1 rho env lst m he hs g1 (by omega)
          cases rr with
          | exn hx => exact ⟨_, _, .andalso_stop c, .exn hx, sr⟩
    | orelse a b =>
      rw [sev] at h
      rw [esize] at hm
      cases hg with
      | orelse g1 g2 =>
        rcases thenDo_some h with ⟨v, st1, h1, h2⟩ | ⟨y, h1, rfl⟩
        · obtain ⟨r1, lst1, c, rr, sr⟩ := ih _ _ _ _ _ h1 rho env lst m he hs g1 (by omega)
          cases rr with
          | val hv =>
            have ht := hv.truth
            split_ifs at h2 with hc
            · cases h2
              exact ⟨_, _, .orelse_true c (by rw [← ht]; simpa using hc), .val hv, sr⟩
            · obtain ⟨r', lst', c2, rr, sr2⟩ := ih _ _ _ _ _ h2 rho env lst1 m he sr g2 (by omega)
              exact ⟨r', lst', .orelse_false c (by rw [← ht]; simpa using hc) c2, rr, sr2⟩
        · obtain ⟨r1, lst1, c, rr, sr⟩ := ih _ _ _ _ _ h1 rho env lst m he hs g1 (by omega)
          cases rr with
          | exn hx => exact ⟨_, _, .orelse_stop c, .exn hx, sr⟩
    | cond c a b =>
      rw [sev] at h
      rw [esize] at hm
      cases hg with
      | cond g1 g2 g3 =>
        rcases thenDo_some h with ⟨v, st1, h1, h2⟩ | ⟨y, h1, rfl⟩
        · obtain ⟨r1, lst1, cv, rr, sr⟩ := ih _ _ _ _ _ h1 rho env lst m he hs g1 (by omega)
          cases rr with
          | val hv =>
            have ht := hv.truth
            split_ifs at h2 with hc
            · obtain ⟨r', lst', c2, rr, sr2⟩ := ih _ _ _ _ _ h2 rho env lst1 m he sr g2 (by omega)
              exact ⟨r', lst', .cond cv (by rw [← ht, hc]; exact c2), rr, sr2⟩
            · obtain ⟨r', lst', c2, rr, sr2⟩ := ih _ _ _ _ _ h2 rho env lst1 m he sr g3 (by omega)
              exact ⟨r', lst', .cond cv (by rw [← ht, if_neg hc]; exact c2), rr, sr2⟩
        · obtain ⟨r1, lst1, c, rr, sr⟩ := ih _ _ _ _ _ h1 rho env lst m he hs g1 (by omega)
          cases rr with
          | exn hx => exact ⟨_, _, .cond_stop c, .exn hx, sr⟩
    | seq a b =>
      rw [sev] at h
      rw [esize] at hm
      cases hg with
      | seq g1 g2 =>
        rcases thenDo_some h with ⟨v, st1, h1, h2⟩ | ⟨y, h1, rfl⟩
        · obtain ⟨r1, lst1, cv, rr, sr⟩ := ih _ _ _ _ _ h1 rho env lst m he hs g1 (by omega)
          cases rr with
          | val hv =>
            obtain ⟨r', lst', c2, rr, sr2⟩ := ih _ _ _ _ _ h2 rho env lst1 m he sr g2 (by omega)
            exact ⟨r', lst', .seq cv c2, rr, sr2⟩
        · obtain ⟨r1, lst1, c, rr, sr⟩ := ih _ _ _ _ _ h1 rho env lst m he hs g1 (by omega)
          cases rr with
          | exn hx => exact ⟨_, _, .seq_stop c, .exn hx, sr⟩
    | whil c a =>
      have hm' := hm
      have hg' := hg
      rw [sev] at h
      rw [esize] at hm
      cases hg with
      | whil g1 g2 =>
        rcases thenDo_some h with ⟨v, st1, h1, h2⟩ | ⟨y, h1, rfl⟩
        · obtain ⟨r1, lst1, cv, rr, sr⟩ := ih _ _ _ _ _ h1 rho env lst m he hs g1 (by omega)
          cases rr with
          | val hv =>
            have ht := hv.truth
            split_ifs at h2 with hc
            · rcases thenDo_some h2 with ⟨v2, st2, h3, h4⟩ | ⟨y, h3, rfl⟩
              · obtain ⟨r2, lst2, c2, rr, sr2⟩ := ih _ _ _ _ _ h3 rho env lst1 m he sr g2 (by omega)
                cases rr with
                | val hv2 =>
                  obtain ⟨r3, lst3, c3, rr, sr3⟩ :=
                    ih _ _ _ _ _ h4 rho env lst2 (m + 1) he sr2 hg' hm'
                  exact ⟨r3, lst3, .whil_next cv (by rw [← ht]; exact hc) c2 c3, rr, sr3⟩
              · obtain ⟨r2, lst2, c2, rr, sr2⟩ := ih _ _ _ _ _ h3 rho env lst1 m he sr g2 (by omega)
                cases rr with
                | exn hx => exact ⟨_, _, .whil_body cv (by rw [← ht]; exact hc) c2, .exn hx, sr2⟩
            · cases h2
              exact ⟨_, _, .whil_end cv (by rw [← ht]; simpa using hc), .val .unit, sr⟩
        · obtain ⟨r1, lst1, c, rr, sr⟩ := ih _ _ _ _ _ h1 rho env lst m he hs g1 (by omega)
          cases rr with
          | exn hx => exact ⟨_, _, .whil_stop c, .exn hx, sr⟩
    | raise e =>
      rw [sev] at h
      rw [esize] at hm
      cases hg with
      | raise g1 =>
        rcases thenDo_some h with ⟨v, st1, h1, h2⟩ | ⟨y, h1, rfl⟩
        · cases h2
          obtain ⟨r1, lst1, cv, rr, sr⟩ := ih _ _ _ _ _ h1 rho env lst m he hs g1 (by omega)
          cases rr with
          | @val _ w hv =>
            exact ⟨_, _, .prim (vs := [w]) (.cons cv .nil) rfl, .exn hv, sr⟩
        · obtain ⟨r1, lst1, c, rr, sr⟩ := ih _ _ _ _ _ h1 rho env lst m he hs g1 (by omega)
          cases rr with
          | exn hx => exact ⟨_, _, .prim_stop (.stop c), .exn hx, sr⟩
    | handle e x b =>
      rw [sev] at h
      rw [esize] at hm
      cases hg with
      | handle g1 g2 =>
        split at h
        · rename_i v st1 h1
          obtain ⟨r1, lst1, c, rr, sr⟩ := ih _ _ _ _ _ h1 rho env lst m he hs g1 (by omega)
          cases rr with
          | exn hv =>
            obtain ⟨r', lst', c2, rr, sr2⟩ := ih _ _ _ _ _ h _ _ lst1 m (he.bind (x := x) hv) sr
              (g2.bind (d := env.length)) (by omega)
            exact ⟨r', lst', .handle c c2, rr, sr2⟩
        · rename_i hne
          obtain ⟨r1, lst1, c, rr, sr⟩ := ih _ _ _ _ _ h rho env lst m he hs g1 (by omega)
          cases rr with
          | val hv => exact ⟨_, _, .handle_val c, .val hv, sr⟩
          | exn hv => exact absurd h (hne _ _)

end Mosml.Front
