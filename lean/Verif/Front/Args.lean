import Verif.Front.Rel
import Mathlib.Data.List.Induction

/-! The arguments that `trArgs` produces are evaluated in the order of the program. -/

namespace Mosml.Front

/-! ## What trArgs computes -/

/-- `classifyArgs` without accumulators: lifted terms and kinds from left to right. -/
def fwd (d : Nat) : List Arg → List Lam × List AppArg
  | [] => ([], [])
  | (true, t) :: args => ((fwd d args).1, .safe t :: (fwd d args).2)
  | (false, t) :: args =>
    match t d with
    | .const c => ((fwd d args).1, .const c :: (fwd d args).2)
    | lam => (lam :: (fwd (d + 1) args).1, .lifted :: (fwd (d + 1) args).2)

/-- Constants. -/
def isConst : Lam → Option Const
  | .const c => some c
  | _ => none

theorem fwd_false (d t args) : fwd d ((false, t) :: args) =
    match isConst (t d) with
    | some c => ((fwd d args).1, .const c :: (fwd d args).2)
    | none => (t d :: (fwd (d + 1) args).1, .lifted :: (fwd (d + 1) args).2) := by
  rw [fwd]
  cases t d <;> rfl

theorem classifyArgs_false (d U K t args) : classifyArgs d U K ((false, t) :: args) =
    match isConst (t d) with
    | some c => classifyArgs d U (.const c :: K) args
    | none => classifyArgs (d + 1) (t d :: U) (.lifted :: K) args := by
  rw [classifyArgs]
  cases t d <;> rfl

theorem isConst_some {l c} (h : isConst l = some c) : l = .const c := by
  cases l <;> simp [isConst] at h
  rw [h]

theorem classifyArgs_eq (d U K args) : classifyArgs d U K args =
    ((fwd d args).1.reverse ++ U, (fwd d args).2.reverse ++ K) := by
  induction args generalizing d U K with
  | nil => simp [classifyArgs, fwd]
  | cons a args ih =>
    obtain ⟨b, t⟩ := a
    cases b with
    | true => simp [classifyArgs, fwd, ih]
    | false =>
      rw [classifyArgs_false, fwd_false]
      rcases isConst (t d) with _ | c
      · simp [ih]
      · simp [ih]

/-- How many arguments are lifted. -/
def cnt : List AppArg → Nat
  | [] => 0
  | .lifted :: K => cnt K + 1
  | _ :: K => cnt K

theorem cnt_fwd (d args) : cnt (fwd d args).2 = (fwd d args).1.length := by
  induction args generalizing d with
  | nil => rfl
  | cons a args ih =>
    obtain ⟨b, t⟩ := a
    cases b with
    | true => simp [fwd, cnt, ih]
    | false =>
      rw [fwd_false]
      rcases isConst (t d) with _ | c
      · simp [cnt, ih]
      · simp [cnt, ih]

theorem cnt_append (K K') : cnt (K ++ K') = cnt K + cnt K' := by
  induction K with
  | nil => simp [cnt]
  | cons k K ih => cases k <;> simp [cnt, ih]; omega

/-- `adjustHeadArgs` from left to right. -/
def res (d pos : Nat) : List AppArg → List Lam
  | [] => []
  | .safe t :: K => t d :: res d pos K
  | .const c :: K => .const c :: res d pos K
  | .lifted :: K => .var (pos + cnt K) :: res d pos K

/-- `adjustArgs` from left to right. -/
def resQ (d : Nat) (q : Lam) : List AppArg → List Lam
  | [] => []
  | .safe t :: K => t d :: resQ d q K
  | .const c :: K => .const c :: resQ d q K
  | .lifted :: K => (if cnt K = 0 then q else .var (cnt K - 1)) :: resQ d q K

theorem adjustHeadArgs_eq (d pos acc K) :
    adjustHeadArgs d pos acc K.reverse = res d pos K ++ acc := by
  induction K using List.reverseRecOn generalizing pos acc with
  | nil => simp [adjustHeadArgs, res]
  | append_singleton K k ih =>
    rw [List.reverse_append]
    have hs : ∀ (l : Lam) (pos' : Nat), (∀ K', cnt (K' ++ [k]) + pos = cnt K' + pos') →
        res d pos [k] = [l] → res d pos (K ++ [k]) = res d pos' K ++ [l] := by
      intro l pos' h hl
      clear ih
      induction K with
      | nil => simpa [res] using hl
      | cons a K ih =>
        have := h K
        cases a <;> simp only [List.cons_append, res, ih]
        congr 2
        omega
    cases k with
    | safe t =>
      rw [hs (t d) pos (fun K' => by simp [cnt_append, cnt]) rfl]
      simp [adjustHeadArgs, ih]
    | const c =>
      rw [hs (.const c) pos (fun K' => by simp [cnt_append, cnt]) rfl]
      simp [adjustHeadArgs, ih]
    | lifted =>
      rw [hs (.var pos) (pos + 1) (fun K' => by simp [cnt_append, cnt]; omega) rfl]
      simp [adjustHeadArgs, ih]

theorem resQ_lifted (d q K) : resQ d q (K ++ [.lifted]) = res d 0 K ++ [q] := by
  induction K with
  | nil => simp [resQ, res, cnt]
  | cons a K ih => cases a <;> simp [resQ, res, ih, cnt_append, cnt]

theorem resQ_other (d q K k) (h : cnt [k] = 0) :
    resQ d q (K ++ [k]) = resQ d q K ++ resQ d q [k] := by
  induction K with
  | nil => simp [resQ]
  | cons a K ih => cases a <;> simp [resQ, ih, cnt_append, h]

theorem adjustArgs_eq (d q acc K) (h : 0 < cnt K) :
    adjustArgs d q acc K.reverse = resQ d q K ++ acc := by
  induction K using List.reverseRecOn generalizing acc with
  | nil => simp [cnt] at h
  | append_singleton K k ih =>
    rw [List.reverse_append]
    cases k with
    | safe t =>
      rw [resQ_other d q K _ rfl]
      simp only [cnt_append, cnt] at h
      simp [adjustArgs, ih _ (by simpa using h), resQ]
    | const c =>
      rw [resQ_other d q K _ rfl]
      simp only [cnt_append, cnt] at h
      simp [adjustArgs, ih _ (by simpa using h), resQ]
    | lifted =>
      rw [resQ_lifted]
      simp [adjustArgs, adjustHeadArgs_eq]

theorem trArgs_nil {d args K} (h : fwd d args = ([], K)) :
    trArgs d args = ⟨d, res d 0 K, []⟩ := by
  rw [trArgs, classifyArgs_eq, h]
  simp [adjustHeadArgs_eq]

theorem trArgs_cons {d args U q K} (h : fwd d args = (U ++ [q], K)) :
    trArgs d args = ⟨d + U.length, resQ (d + U.length) q K, U⟩ := by
  have hc := cnt_fwd d args
  rw [h] at hc
  rw [trArgs, classifyArgs_eq, h]
  simp only [List.reverse_append, List.reverse_cons, List.reverse_nil, List.nil_append,
    List.cons_append, List.append_nil]
  rw [adjustArgs_eq _ _ _ _ (by simp at hc; omega)]
  simp

/-! ## How the arguments are evaluated -/

/-- What is assumed about an argument: its translation does what it does, and if it is
safe it has one value, in every state. -/
structure ArgOK (ev : Exp → St SVal → Option (Res SVal × St SVal)) (ρ : List (Name × SVal))
    (rho : Rho) (tr : Nat → Exp → Lam) (e : Exp) : Prop where
  sim : ∀ st r st', ev e st = some (r, st') → ∀ env lst, EnvRel ρ rho env → StRel st lst →
    ∃ r' lst', Conv env (tr env.length e) lst r' lst' ∧ RRel r r' ∧ StRel st' lst'
  safe : isSafe e = true → ∃ v, (∀ st r st', ev e st = some (r, st') → r = .val v ∧ st' = st) ∧
    ∀ env, EnvRel ρ rho env → ∃ w, Quiet env (tr env.length e) w ∧ VRel v w

variable {ev : Exp → St SVal → Option (Res SVal × St SVal)} {ρ : List (Name × SVal)}
  {rho : Rho} {tr : Nat → Exp → Lam}

theorem evalLR_cons {E V S : Type} {ev : E → S → Option (Res V × S)} {e es st rs st'}
    (h : evalLR ev (e :: es) st = some (rs, st')) :
    (∃ x, ev e st = some (.exn x, st') ∧ rs = .stop x) ∨
    (∃ v st1 rs', ev e st = some (.val v, st1) ∧ evalLR ev es st1 = some (rs', st') ∧
      ((∃ vs, rs' = .vals vs ∧ rs = .vals (v :: vs)) ∨ ∃ x, rs' = .stop x ∧ rs = .stop x)) := by
  rw [evalLR] at h
  split at h
  · rename_i v st1 he
    right
    rcases hs : evalLR ev es st1 with _ | ⟨rs', st2⟩
    · rw [hs] at h; simp at h
    · rw [hs] at h
      cases rs' with
      | vals vs =>
        simp only [Option.some.injEq, Prod.mk.injEq] at h
        obtain ⟨rfl, rfl⟩ := h
        exact ⟨v, st1, _, he, hs, .inl ⟨vs, rfl, rfl⟩⟩
      | stop x =>
        simp only [Option.some.injEq, Prod.mk.injEq] at h
        obtain ⟨rfl, rfl⟩ := h
        exact ⟨v, st1, _, he, hs, .inr ⟨x, rfl, rfl⟩⟩
  · rename_i x st1 he
    simp only [Option.some.injEq, Prod.mk.injEq] at h
    obtain ⟨rfl, rfl⟩ := h
    exact .inl ⟨x, he, rfl⟩
  · simp at h

theorem evalLR_nil {E V S : Type} {ev : E → S → Option (Res V × S)} {st rs st'}
    (h : evalLR ev [] st = some (rs, st')) : rs = .vals [] ∧ st' = st := by
  simp [evalLR] at h
  exact ⟨h.1.symm, h.2.symm⟩

/-- The translations of tuple components. -/
theorem lr_sim {es : List Exp} (ok : ∀ e ∈ es, ArgOK ev ρ rho tr e) {env} (he : EnvRel ρ rho env)
    {st rs st' lst} (h : evalLR ev es st = some (rs, st')) (hs : StRel st lst) :
    ∃ rs' lst', ConvLR env (es.map (tr env.length)) lst rs' lst' ∧ StRel st' lst' ∧
      ((∃ vs ws, rs = .vals vs ∧ rs' = .vals ws ∧ List.Forall₂ VRel vs ws) ∨
       ∃ x x', rs = .stop x ∧ rs' = .stop x' ∧ VRel x x') := by
  induction es generalizing st rs lst with
  | nil =>
    obtain ⟨rfl, rfl⟩ := evalLR_nil h
    exact ⟨_, _, .nil, hs, .inl ⟨_, _, rfl, rfl, .nil⟩⟩
  | cons e es ih =>
    rcases evalLR_cons h with ⟨x, h1, rfl⟩ | ⟨v, st1, rs', h1, h2, h3⟩
    · obtain ⟨r', lst', c, rr, sr⟩ := (ok e (by simp)).sim _ _ _ h1 env lst he hs
      cases rr with
      | exn hx => exact ⟨_, _, .stop c, sr, .inr ⟨_, _, rfl, rfl, hx⟩⟩
    · obtain ⟨r', lst1, c, rr, sr⟩ := (ok e (by simp)).sim _ _ _ h1 env lst he hs
      cases rr with
      | val hv =>
        obtain ⟨rs2, lst', c2, sr2, h4⟩ := ih (fun e he => ok e (by simp [he])) h2 sr
        rcases h3 with ⟨vs, rfl, rfl⟩ | ⟨x, rfl, rfl⟩
        · rcases h4 with ⟨vs', ws, e1, rfl, hf⟩ | ⟨x, x', e1, _⟩
          · cases e1
            exact ⟨_, _, .cons c c2, sr2, .inl ⟨_, _, rfl, rfl, .cons hv hf⟩⟩
          · cases e1
        · rcases h4 with ⟨vs', ws, e1, rfl, hf⟩ | ⟨x, x', e1, rfl, hx⟩
          · cases e1
          · cases e1
            exact ⟨_, _, .later c c2, sr2, .inr ⟨_, _, rfl, rfl, hx⟩⟩

/-- Arguments none of which is lifted. -/
theorem noLift {es : List Exp} (ok : ∀ e ∈ es, ArgOK ev ρ rho tr e) {env K}
    (he : EnvRel ρ rho env) (hk : fwd env.length (argsOf tr es) = ([], K)) {env2}
    (he2 : EnvRel ρ rho env2) :
    ∃ ws, (∀ q, List.Forall₂ (Quiet env2) (resQ env2.length q K) ws) ∧
      (∀ p, List.Forall₂ (Quiet env2) (res env2.length p K) ws) ∧
      ∀ st lst rs st', evalLR ev es st = some (rs, st') → StRel st lst →
        ∃ vs, rs = .vals vs ∧ List.Forall₂ VRel vs ws ∧ StRel st' lst := by
  induction es generalizing K with
  | nil =>
    simp [argsOf, fwd] at hk
    subst hk
    refine ⟨[], fun q => .nil, fun p => .nil, fun st lst rs st' h hs => ?_⟩
    obtain ⟨rfl, rfl⟩ := evalLR_nil h
    exact ⟨_, rfl, .nil, hs⟩
  | cons e es ih =>
    have ok' : ∀ e ∈ es, ArgOK ev ρ rho tr e := fun e he => ok e (by simp [he])
    have oke := ok e (by simp)
    rcases hsafe : isSafe e with _ | _
    · have hk' : fwd env.length ((false, fun d => tr d e) :: argsOf tr es) = ([], K) := by
        rw [← hk]; simp [argsOf, hsafe]
      rw [fwd_false] at hk'
      rcases hc : isConst (tr env.length e) with _ | c
      · simp [hc] at hk'
      · simp only [hc, Prod.mk.injEq] at hk'
        have hk2 : fwd env.length (argsOf tr es) = ([], (fwd env.length (argsOf tr es)).2) :=
          Prod.ext hk'.1 rfl
        obtain ⟨ws, q1, q2, q3⟩ := ih ok' hk2
        rw [← hk'.2]
        refine ⟨c.toL :: ws, fun q => .cons (fun st => .const) (q1 q),
          fun p => .cons (fun st => .const) (q2 p), fun st lst rs st' h hs => ?_⟩
        have hte := isConst_some hc
        rcases evalLR_cons h with ⟨x, h1, rfl⟩ | ⟨v, st1, rs', h1, h2, h3⟩
        · obtain ⟨r', lst', cv, rr, sr⟩ := oke.sim _ _ _ h1 env lst he hs
          rw [hte] at cv
          obtain ⟨rfl, rfl⟩ := cv.det .const
          cases rr
        · obtain ⟨r', lst1, cv, rr, sr⟩ := oke.sim _ _ _ h1 env lst he hs
          rw [hte] at cv
          obtain ⟨rfl, rfl⟩ := cv.det .const
          cases rr with
          | val hv =>
            obtain ⟨vs, rfl, hf, sr'⟩ := q3 _ _ _ _ h2 sr
            rcases h3 with ⟨vs', e1, rfl⟩ | ⟨x, e1, _⟩
            · cases e1
              exact ⟨_, rfl, .cons hv hf, sr'⟩
            · cases e1
    · have hk' : fwd env.length ((true, fun d => tr d e) :: argsOf tr es) = ([], K) := by
        rw [← hk]; simp [argsOf, hsafe]
      simp only [fwd, Prod.mk.injEq] at hk'
      have hk2 : fwd env.length (argsOf tr es) = ([], (fwd env.length (argsOf tr es)).2) :=
        Prod.ext hk'.1 rfl
      obtain ⟨ws, q1, q2, q3⟩ := ih ok' hk2
      obtain ⟨v, hv, hw⟩ := oke.safe hsafe
      obtain ⟨w, hq, vr⟩ := hw _ he2
      rw [← hk'.2]
      refine ⟨w :: ws, fun q => .cons hq (q1 q), fun p => .cons hq (q2 p),
        fun st lst rs st' h hs => ?_⟩
      rcases evalLR_cons h with ⟨x, h1, rfl⟩ | ⟨v', st1, rs', h1, h2, h3⟩
      · obtain ⟨e1, _⟩ := hv _ _ _ h1
        cases e1
      · obtain ⟨e1, rfl⟩ := hv _ _ _ h1
        cases e1
        obtain ⟨vs, rfl, hf, sr'⟩ := q3 _ _ _ _ h2 hs
        rcases h3 with ⟨vs', e1, rfl⟩ | ⟨x, e1, _⟩
        · cases e1
          exact ⟨_, rfl, .cons vr hf, sr'⟩
        · cases e1

theorem Slots.cons_quiet {env S q l w} (h : Slots env S q) (hq : Quiet env l w) :
    Slots env ((l, some w) :: S) q := by
  refine ⟨?_, ?_, by simpa [List.filter_cons] using h.one⟩
  · intro x hx v hv
    rcases List.mem_cons.1 hx with rfl | hx
    · simp only [Option.some.injEq] at hv; subst hv; exact hq
    · exact h.quiet x hx v hv
  · intro x hx hv
    rcases List.mem_cons.1 hx with rfl | hx
    · simp at hv
    · exact h.act x hx hv

theorem Slots.cons_active {env ls ws q} (h : List.Forall₂ (Quiet env) ls ws) :
    Slots env ((q, none) :: ls.zip (ws.map some)) q ∧
    ((q, (none : Option LVal)) :: ls.zip (ws.map some)).map (·.1) = q :: ls ∧
    ∀ w, ((q, (none : Option LVal)) :: ls.zip (ws.map some)).map (fun x => x.2.getD w) = w :: ws := by
  have key : (∀ x ∈ ls.zip (ws.map some), ∃ v, x.2 = some v ∧ Quiet env x.1 v) ∧
      (ls.zip (ws.map some)).map (·.1) = ls ∧
      ∀ w, (ls.zip (ws.map some)).map (fun x => x.2.getD w) = ws := by
    induction h with
    | nil => simp
    | cons h _ ih =>
      refine ⟨?_, by simpa using ih.2.1, fun w => by simpa using ih.2.2 w⟩
      intro x hx
      simp only [List.map_cons, List.zip_cons_cons, List.mem_cons] at hx
      rcases hx with rfl | hx
      · exact ⟨_, rfl, h⟩
      · exact ih.1 x hx
  refine ⟨⟨?_, ?_, ?_⟩, by simpa using key.2.1, fun w => by simpa using key.2.2 w⟩
  · intro x hx v hv
    rcases List.mem_cons.1 hx with rfl | hx
    · simp at hv
    · obtain ⟨v', e1, hq⟩ := key.1 x hx
      rw [hv] at e1; simp only [Option.some.injEq] at e1; subst e1; exact hq
  · intro x hx hv
    rcases List.mem_cons.1 hx with rfl | hx
    · rfl
    · obtain ⟨v', e1, hq⟩ := key.1 x hx
      rw [hv] at e1; simp at e1
  · rw [List.filter_cons]
    have : (ls.zip (ws.map some)).filter (fun x => x.2.isNone) = [] := by
      rw [List.filter_eq_nil_iff]
      intro x hx
      obtain ⟨v', e1, _⟩ := key.1 x hx
      simp [e1]
    simp [this]

/-- What happens when the lifted terms and then the arguments are evaluated. -/
def Lifts (env : List LVal) (U : List Lam) (q : Lam) (K : List AppArg) (lst : St LVal)
    (rs : Ress SVal) (st' : St SVal) : Prop :=
  (∃ x x' lst', rs = .stop x ∧ ConvLets env U lst (.stop x') lst' ∧ VRel x x' ∧ StRel st' lst') ∨
  (∃ lw lst1 S r' lst', ConvLets env U lst (.vals (lw ++ env)) lst1 ∧ lw.length = U.length ∧
    Slots (lw ++ env) S q ∧ S.map (·.1) = resQ (lw ++ env).length q K ∧
    Conv (lw ++ env) q lst1 r' lst' ∧ StRel st' lst' ∧
    ((∃ vs w, rs = .vals vs ∧ r' = .val w ∧
        List.Forall₂ VRel vs (S.map fun x => x.2.getD w)) ∨
     ∃ x x', rs = .stop x ∧ r' = .exn x' ∧ VRel x x'))

/-- An argument without effect in front. -/
theorem Lifts.step {env U q K K' k lst rs rs' st'} {t : Nat → Lam} {v : SVal}
    (h : Lifts env U q K' lst rs' st') (hK : k :: K' = K)
    (hw : ∀ lw : List LVal, ∃ w, Quiet (lw ++ env) (t (lw ++ env).length) w ∧ VRel v w)
    (hk : ∀ d q, resQ d q (k :: K') = t d :: resQ d q K')
    (h3 : (∃ vs, rs' = .vals vs ∧ rs = .vals (v :: vs)) ∨ ∃ x, rs' = .stop x ∧ rs = .stop x) :
    Lifts env U q K lst rs st' := by
  subst hK
  rcases h with ⟨x, x', lst', rfl, c2, hx, sr2⟩ |
    ⟨lw, lst2, S, r', lst', c2, hl, hsl, hS, hq, sr2, hr⟩
  · rcases h3 with ⟨vs, e1, _⟩ | ⟨y, e1, rfl⟩
    · cases e1
    · cases e1
      exact .inl ⟨_, _, _, rfl, c2, hx, sr2⟩
  · right
    obtain ⟨w, qw, vr⟩ := hw lw
    refine ⟨lw, lst2, (t (lw ++ env).length, some w) :: S, r', lst', c2, hl, hsl.cons_quiet qw, ?_,
      hq, sr2, ?_⟩
    · rw [hk, ← hS]; rfl
    · rcases hr with ⟨vs, u, rfl, rfl, hf⟩ | ⟨x, x', rfl, rfl, hx⟩
      · rcases h3 with ⟨vs', e1, rfl⟩ | ⟨y, e1, _⟩
        · cases e1
          exact .inl ⟨_, u, rfl, rfl, .cons vr hf⟩
        · cases e1
      · rcases h3 with ⟨vs', e1, _⟩ | ⟨y, e1, rfl⟩
        · cases e1
        · cases e1
          exact .inr ⟨_, _, rfl, rfl, hx⟩

theorem lift_sim {es : List Exp} (ok : ∀ e ∈ es, ArgOK ev ρ rho tr e) {env U q K}
    (he : EnvRel ρ rho env) (hk : fwd env.length (argsOf tr es) = (U ++ [q], K))
    {st lst rs st'} (h : evalLR ev es st = some (rs, st')) (hs : StRel st lst) :
    Lifts env U q K lst rs st' := by
  induction es generalizing env U K st lst rs with
  | nil => simp [argsOf, fwd] at hk
  | cons e es ih =>
    have ok' : ∀ e ∈ es, ArgOK ev ρ rho tr e := fun e he => ok e (by simp [he])
    have oke := ok e (by simp)
    rcases hsafe : isSafe e with _ | _
    · have hk' : fwd env.length ((false, fun d => tr d e) :: argsOf tr es) = (U ++ [q], K) := by
        rw [← hk]; simp [argsOf, hsafe]
      rw [fwd_false] at hk'
      rcases hc : isConst (tr env.length e) with _ | c
      · simp only [hc, Prod.mk.injEq] at hk'
        obtain ⟨hU, hK⟩ := hk'
        cases U with
        | nil =>
          -- the last one
          simp only [List.nil_append, List.cons.injEq] at hU
          obtain ⟨rfl, hU⟩ := hU
          have hn : ∀ w, fwd (w :: env).length (argsOf tr es) =
              ([], (fwd (env.length + 1) (argsOf tr es)).2) := fun w => Prod.ext hU rfl
          have hcnt : cnt (fwd (env.length + 1) (argsOf tr es)).2 = 0 := by
            rw [cnt_fwd, hU]; rfl
          have hres : ∀ ws, (∀ q, List.Forall₂ (Quiet env)
              (resQ env.length q (fwd (env.length + 1) (argsOf tr es)).2) ws) →
              Slots env ((tr env.length e, none) :: (resQ env.length (tr env.length e)
                (fwd (env.length + 1) (argsOf tr es)).2).zip (ws.map some)) (tr env.length e) ∧
              ((tr env.length e, (none : Option LVal)) :: (resQ env.length (tr env.length e)
                (fwd (env.length + 1) (argsOf tr es)).2).zip (ws.map some)).map (·.1) =
                resQ env.length (tr env.length e) K ∧
              ∀ w, ((tr env.length e, (none : Option LVal)) :: (resQ env.length (tr env.length e)
                (fwd (env.length + 1) (argsOf tr es)).2).zip (ws.map some)).map
                  (fun x => x.2.getD w) = w :: ws := by
            intro ws hw
            obtain ⟨a1, a2, a3⟩ := Slots.cons_active (q := tr env.length e) (hw (tr env.length e))
            refine ⟨a1, ?_, a3⟩
            rw [a2, ← hK, resQ, if_pos hcnt]
          right
          rcases evalLR_cons h with ⟨x, h1, rfl⟩ | ⟨v, st1, rs', h1, h2, h3⟩
          · obtain ⟨r', lst', c, rr, sr⟩ := oke.sim _ _ _ h1 env lst he hs
            cases rr with
            | @exn _ x' hx =>
              obtain ⟨ws, q1, _, _⟩ := noLift ok' (he.push x') (hn x') he
              obtain ⟨a1, a2, a3⟩ := hres ws q1
              exact ⟨[], lst, _, _, lst', .nil, rfl, a1, a2, c, sr, .inr ⟨_, _, rfl, rfl, hx⟩⟩
          · obtain ⟨r', lst1, c, rr, sr⟩ := oke.sim _ _ _ h1 env lst he hs
            cases rr with
            | @val _ w hv =>
              obtain ⟨ws, q1, _, q3⟩ := noLift ok' (he.push w) (hn w) he
              obtain ⟨a1, a2, a3⟩ := hres ws q1
              obtain ⟨vs, rfl, hf, sr'⟩ := q3 _ _ _ _ h2 sr
              rcases h3 with ⟨vs', e1, rfl⟩ | ⟨y, e1, _⟩
              · cases e1
                refine ⟨[], lst, _, _, lst1, .nil, rfl, a1, a2, c, sr', .inl ⟨_, w, rfl, rfl, ?_⟩⟩
                rw [a3]
                exact .cons hv hf
              · cases e1
        | cons u U =>
          simp only [List.cons_append, List.cons.injEq] at hU
          obtain ⟨rfl, hU⟩ := hU
          have hn : ∀ w, fwd (w :: env).length (argsOf tr es) =
              (U ++ [q], (fwd (env.length + 1) (argsOf tr es)).2) := fun w => Prod.ext hU rfl
          have hcnt : cnt (fwd (env.length + 1) (argsOf tr es)).2 = U.length + 1 := by
            rw [cnt_fwd, hU]; simp
          rcases evalLR_cons h with ⟨x, h1, rfl⟩ | ⟨v, st1, rs', h1, h2, h3⟩
          · obtain ⟨r', lst', c, rr, sr⟩ := oke.sim _ _ _ h1 env lst he hs
            cases rr with
            | exn hx => exact .inl ⟨_, _, _, rfl, .stop c, hx, sr⟩
          · obtain ⟨r', lst1, c, rr, sr⟩ := oke.sim _ _ _ h1 env lst he hs
            cases rr with
            | @val _ w hv =>
              rcases ih ok' (he.push w) (hn w) h2 sr with
                ⟨x, x', lst', rfl, c2, hx, sr2⟩ |
                ⟨lw, lst2, S, r', lst', c2, hl, hsl, hS, hq, sr2, hr⟩
              · rcases h3 with ⟨vs, e1, _⟩ | ⟨y, e1, rfl⟩
                · cases e1
                · cases e1
                  exact .inl ⟨_, _, _, rfl, .cons c c2, hx, sr2⟩
              · right
                have hlook : (lw ++ w :: env)[U.length + 1 - 1]? = some w := by
                  simp [← hl]
                refine ⟨lw ++ [w], lst2,
                  (.var (cnt (fwd (env.length + 1) (argsOf tr es)).2 - 1), some w) :: S, r', lst',
                  ?_, by simp [hl], ?_, ?_, ?_, sr2, ?_⟩
                · simpa using ConvLets.cons c c2
                · have : lw ++ [w] ++ env = lw ++ w :: env := by simp
                  rw [this]
                  refine hsl.cons_quiet fun st => .var ?_
                  rw [hcnt]; exact hlook
                · have : lw ++ [w] ++ env = lw ++ w :: env := by simp
                  rw [this, ← hK, resQ, if_neg (by omega)]
                  simp only [List.map_cons, List.cons.injEq, true_and]
                  exact hS
                · simpa using hq
                · rcases hr with ⟨vs, u, rfl, rfl, hf⟩ | ⟨x, x', rfl, rfl, hx⟩
                  · rcases h3 with ⟨vs', e1, rfl⟩ | ⟨y, e1, _⟩
                    · cases e1
                      exact .inl ⟨_, u, rfl, rfl, .cons hv hf⟩
                    · cases e1
                  · rcases h3 with ⟨vs', e1, _⟩ | ⟨y, e1, rfl⟩
                    · cases e1
                    · cases e1
                      exact .inr ⟨_, _, rfl, rfl, hx⟩
      · simp only [hc, Prod.mk.injEq] at hk'
        obtain ⟨hU, hK⟩ := hk'
        have hte := isConst_some hc
        have hn : fwd env.length (argsOf tr es) =
            (U ++ [q], (fwd env.length (argsOf tr es)).2) := Prod.ext hU rfl
        rcases evalLR_cons h with ⟨x, h1, rfl⟩ | ⟨v, st1, rs', h1, h2, h3⟩
        · obtain ⟨r', lst', cv, rr, sr⟩ := oke.sim _ _ _ h1 env lst he hs
          rw [hte] at cv
          obtain ⟨rfl, rfl⟩ := cv.det .const
          cases rr
        · obtain ⟨r', lst1, cv, rr, sr⟩ := oke.sim _ _ _ h1 env lst he hs
          rw [hte] at cv
          obtain ⟨rfl, rfl⟩ := cv.det .const
          cases rr with
          | val hv =>
            refine (ih ok' he hn h2 sr).step hK (fun lw => ⟨_, fun _ => .const, hv⟩)
              (fun d q => by rw [resQ]) h3
    · have hk' : fwd env.length ((true, fun d => tr d e) :: argsOf tr es) = (U ++ [q], K) := by
        rw [← hk]; simp [argsOf, hsafe]
      simp only [fwd, Prod.mk.injEq] at hk'
      obtain ⟨hU, hK⟩ := hk'
      have hn : fwd env.length (argsOf tr es) =
          (U ++ [q], (fwd env.length (argsOf tr es)).2) := Prod.ext hU rfl
      obtain ⟨v, hv, hw⟩ := oke.safe hsafe
      rcases evalLR_cons h with ⟨x, h1, rfl⟩ | ⟨v', st1, rs', h1, h2, h3⟩
      · obtain ⟨e1, _⟩ := hv _ _ _ h1
        cases e1
      · obtain ⟨e1, rfl⟩ := hv _ _ _ h1
        cases e1
        exact (ih ok' he hn h2 hs).step (t := fun d => tr d e) hK (fun lw => hw _ (he.pushes lw))
          (fun d q => by rw [resQ]) h3

/-! ## Using the arguments -/

/-- The result of evaluating terms of which at most one is not quiet. -/
def Run (env : List LVal) (ls : List Lam) (st : St LVal) (r : Ress LVal) (st' : St LVal) : Prop :=
  (∃ ws, List.Forall₂ (Quiet env) ls ws ∧ r = .vals ws ∧ st' = st) ∨
  (∃ S q, Slots env S q ∧ S.map (·.1) = ls ∧
    ((∃ w, Conv env q st (.val w) st' ∧ r = .vals (S.map fun x => x.2.getD w)) ∨
     ∃ x, Conv env q st (.exn x) st' ∧ r = .stop x))

theorem Run.rl {env ls st r st'} (h : Run env ls st r st') : ConvRL env ls st r st' := by
  rcases h with ⟨ws, h, rfl, rfl⟩ | ⟨S, q, hs, rfl, ⟨w, hc, rfl⟩ | ⟨x, hc, rfl⟩⟩
  · exact Quiet.rl h _
  · exact hs.rl hc
  · exact hs.rl_stop hc

theorem Run.lr {env ls st r st'} (h : Run env ls st r st') : ConvLR env ls st r st' := by
  rcases h with ⟨ws, h, rfl, rfl⟩ | ⟨S, q, hs, rfl, ⟨w, hc, rfl⟩ | ⟨x, hc, rfl⟩⟩
  · exact Quiet.lr h _
  · exact hs.lr hc
  · exact hs.lr_stop hc

/-- The terms in another order. -/
def Ress.sort (labs : List Nat) : Ress LVal → Ress LVal
  | .vals ws => .vals ((sortRow (labs.zip ws)).map (·.2))
  | .stop x => .stop x

theorem forall₂_quiet_sort {env ls ws} (labs : List Nat) (h : List.Forall₂ (Quiet env) ls ws) :
    List.Forall₂ (Quiet env) ((sortRow (labs.zip ls)).map (·.2))
      ((sortRow (labs.zip ws)).map (·.2)) := by
  have hp : ∃ ps : List {p : Lam × LVal // Quiet env p.1 p.2},
      ls = ps.map (·.1.1) ∧ ws = ps.map (·.1.2) := by
    induction h with
    | nil => exact ⟨[], rfl, rfl⟩
    | cons h _ ih =>
      obtain ⟨ps, e1, e2⟩ := ih
      exact ⟨⟨(_, _), h⟩ :: ps, by simp [e1], by simp [e2]⟩
  obtain ⟨ps, rfl, rfl⟩ := hp
  rw [sortRow_zip_map, sortRow_zip_map]
  induction (sortRow (labs.zip ps)).map (·.2) with
  | nil => exact .nil
  | cons p l ih => exact .cons p.2 ih

theorem Run.sort {env ls st r st' labs} (h : Run env ls st r st') (hl : labs.length = ls.length) :
    Run env ((sortRow (labs.zip ls)).map (·.2)) st (r.sort labs) st' := by
  rcases h with ⟨ws, h, rfl, rfl⟩ | ⟨S, q, hs, rfl, hr⟩
  · exact .inl ⟨_, forall₂_quiet_sort labs h, rfl, rfl⟩
  · right
    refine ⟨(sortRow (labs.zip S)).map (·.2), q, hs.perm (sortRow_zip_perm (by simpa using hl)),
      (sortRow_zip_map _ _ _).symm, ?_⟩
    rcases hr with ⟨w, hc, rfl⟩ | ⟨x, hc, rfl⟩
    · refine .inl ⟨w, hc, ?_⟩
      rw [Ress.sort, sortRow_zip_map]
    · exact .inr ⟨x, hc, rfl⟩

/-- Results of several expressions agree. -/
inductive RsRel : Ress SVal → Ress LVal → Prop
  | vals {vs ws} (h : List.Forall₂ VRel vs ws) : RsRel (.vals vs) (.vals ws)
  | stop {v w} (h : VRel v w) : RsRel (.stop v) (.stop w)

/-- The arguments are evaluated as in the program, whatever is done with them. -/
theorem args_sim {es : List Exp} (ok : ∀ e ∈ es, ArgOK ev ρ rho tr e) {env}
    (he : EnvRel ρ rho env) {st lst rs st'} (h : evalLR ev es st = some (rs, st'))
    (hs : StRel st lst) :
    (∃ x x' lst', rs = .stop x ∧ VRel x x' ∧ StRel st' lst' ∧
      ∀ b, Conv env ((trArgs env.length (argsOf tr es)).wrap b) lst (.exn x') lst') ∨
    (∃ env2 lst1 rs' lst', env2.length = (trArgs env.length (argsOf tr es)).d ∧
      EnvRel ρ rho env2 ∧ Run env2 (trArgs env.length (argsOf tr es)).args lst1 rs' lst' ∧
      RsRel rs rs' ∧ StRel st' lst' ∧
      ((trArgs env.length (argsOf tr es)).lets = [] → env2 = env ∧ lst1 = lst) ∧
      ∀ b r lst2, Conv env2 b lst1 r lst2 →
        Conv env ((trArgs env.length (argsOf tr es)).wrap b) lst r lst2) := by
  rcases hf : fwd env.length (argsOf tr es) with ⟨U, K⟩
  rcases List.eq_nil_or_concat U with rfl | ⟨U, q, rfl⟩
  · rw [trArgs_nil hf]
    right
    obtain ⟨ws, _, q2, q3⟩ := noLift ok he hf he
    obtain ⟨vs, rfl, hv, sr⟩ := q3 _ _ _ _ h hs
    exact ⟨env, lst, .vals ws, lst, rfl, he, .inl ⟨ws, q2 0, rfl, rfl⟩, .vals hv, sr,
      fun _ => ⟨rfl, rfl⟩, fun b r lst2 hb => hb⟩
  · rw [List.concat_eq_append] at hf
    rw [trArgs_cons hf]
    rcases lift_sim ok he hf h hs with ⟨x, x', lst', rfl, c2, hx, sr2⟩ |
      ⟨lw, lst2, S, r', lst', c2, hl, hsl, hS, hq, sr2, hr⟩
    · left
      refine ⟨x, x', lst', rfl, hx, sr2, fun b => ?_⟩
      simp only [Args.wrap]
      split
      · obtain ⟨m, hm⟩ := c2
        have := hm m (le_refl _)
        simp [evalLets] at this
      · exact .lett_stop c2
    · right
      have e1 : env.length + U.length = (lw ++ env).length := by simp [hl]; omega
      rw [e1]
      have key : ∀ rs', ((∃ w, Conv (lw ++ env) q lst2 (.val w) lst' ∧
          rs' = .vals (S.map fun x => x.2.getD w)) ∨
          ∃ x, Conv (lw ++ env) q lst2 (.exn x) lst' ∧ rs' = .stop x) → RsRel rs rs' →
          ∃ env2 lst1 rs' lst', env2.length = (lw ++ env).length ∧
            EnvRel ρ rho env2 ∧ Run env2 (resQ (lw ++ env).length q K) lst1 rs' lst' ∧
            RsRel rs rs' ∧ StRel st' lst' ∧ (U = [] → env2 = env ∧ lst1 = lst) ∧
            ∀ b r lst2, Conv env2 b lst1 r lst2 →
              Conv env (Args.wrap ⟨(lw ++ env).length, resQ (lw ++ env).length q K, U⟩ b)
                lst r lst2 := by
        intro rs' h1 h2
        refine ⟨lw ++ env, lst2, rs', lst', rfl, he.pushes lw, .inr ⟨S, q, hsl, hS, h1⟩, h2, sr2,
          ?_, ?_⟩
        · rintro rfl
          simp only [List.length_nil, List.length_eq_zero_iff] at hl
          subst hl
          obtain ⟨m, hm⟩ := c2
          have := hm m (le_refl _)
          simp only [evalLets, Option.some.injEq, Prod.mk.injEq] at this
          exact ⟨rfl, this.2.symm⟩
        · intro b r lst3 hb
          simp only [Args.wrap]
          split
          · simp only [List.length_nil, List.length_eq_zero_iff] at hl
            subst hl
            obtain ⟨m, hm⟩ := c2
            have := hm m (le_refl _)
            simp only [evalLets, Option.some.injEq, Prod.mk.injEq] at this
            rw [this.2]; exact hb
          · exact .lett c2 hb
      rcases hr with ⟨vs, w, rfl, rfl, hv⟩ | ⟨x, x', rfl, rfl, hx⟩
      · exact key _ (.inl ⟨w, hq, rfl⟩) (.vals hv)
      · exact key _ (.inr ⟨x', hq, rfl⟩) (.stop hx)

end Mosml.Front
