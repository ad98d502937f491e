import Verif.Zam.Enter

/-!
# Arguments
-/

namespace Mosml.Zam

/-- After the evaluation of several arguments: all but one of them are on the
stack, the last one computed is in the accumulator. -/
def ArgsPost (L : Nat → Option Code) (T : List Func) (W : List Val) (h : List Obj) (F : Fr)
    (C : Code) (start : State) (order : List MVal → List MVal) (join : Val → List Val → List Val) :
    Ress → Prop
  | .vals vs => ∃ W' h' v0 vs0 m0 ms, vs = join v0 vs0 ∧ W <+: W' ∧ h <+: h' ∧ HOk L T W' h' ∧
      VRel W' v0 m0 ∧ VRels W' vs0 ms ∧
      ∀ fin, Halts L ((F.push ((order ms).map .v)).st C m0 h') fin → Halts L start fin
  | .stop r => ∀ tgt, Concl L T W h F tgt start r

theorem lifts_tail {T m fv d sfb} {e e' : Lam} {es es' : List Lam}
    (h : ∀ (i : Nat) a a', (e :: es)[i]? = some a → (e' :: es')[i]? = some a' →
      Lifts T m fv d sfb a a') :
    ∀ (i : Nat) a a', es[i]? = some a → es'[i]? = some a' → Lifts T m fv d sfb a a' :=
  fun i a a' h1 h2 => h (i + 1) a a' h1 h2

theorem simRL {L T n} (hS : SimAt L T n) {m fv d ρ} {ce : CEnv} {F : Fr} (hfv : ce.fv = fv)
    (hρ : ρ.length = m + d) :
    ∀ (args args' : List Lam), args ≠ [] → args'.length = args.length →
    (∀ (i : Nat) e e', args[i]? = some e → args'[i]? = some e' → Lifts T m fv d F.sfb e e') →
    ∀ q, evalRL (fun e => evalS n ρ e []) args = some q →
    ∀ W h acc C k sz, FOk L W h ce d ρ F → HOk L T W h → COk L C → retOf C = none →
      sz = F.sz + args.length - 1 → LOk L (compRL ce F.sf sz d args' C k).1 →
      ArgsPost L T W h F C (F.st (compRL ce F.sf sz d args' C k).1 acc h) id (fun v vs => v :: vs) q := by
  intro args
  induction args with
  | nil => intro args' h; exact absurd rfl h
  | cons e es ih =>
    intro args' _ hlen hL q hq W h acc C k sz hF hO hC hr hsz hl
    cases args' with
    | nil => cases hlen
    | cons e' es' =>
      have hle := hL 0 e e' rfl rfl
      simp only [List.length_cons, Nat.add_right_cancel_iff] at hlen
      cases es with
      | nil =>
        have : es' = [] := by simpa using hlen
        subst this
        simp only [List.length_singleton, Nat.add_sub_cancel] at hsz
        subst hsz
        simp only [compRL] at hl ⊢
        simp only [evalRL] at hq
        cases hv : evalS n ρ e [] with
        | none => rw [hv] at hq; cases hq
        | some u =>
          have hc := fun tgt => hS m fv d e e' ρ [] u F hle hv hρ ce C k W h acc tgt hfv hF hO hC hl
          rw [hv] at hq
          cases u with
          | val v =>
            cases hq
            obtain ⟨W', h', q1, q2, q3, w', q4, q5⟩ := hc _ (.ord hr)
            exact ⟨W', h', v, [], w', [], rfl, q1, q2, q3, q4, .nil, q5⟩
          | exn v =>
            cases hq
            intro tgt
            exact (hc _ (.ord hr)).any (by simp)
          | fail =>
            cases hq
            intro tgt
            exact (hc _ (.ord hr)).any (by simp)
      | cons e2 es =>
        cases es' with
        | nil => cases hlen
        | cons e2' es' =>
        rw [compRL.eq_3 _ _ _ _ _ _ _ _ (by simp)] at hl ⊢
        have hl2 := (hl.of_ext (ext_compRL _ _ _ _ _ _ _)).tail
        have hih := ih (e2' :: es') (by simp) hlen (lifts_tail hL)
        rw [evalRL] at hq
        cases hv : evalRL (fun e => evalS n ρ e []) (e2 :: es) with
        | none => rw [hv] at hq; cases hq
        | some u =>
          rw [hv] at hq
          have hp := hih u hv W h acc (.push :: (compexp ce F.sf sz d e' C k).1)
            (compexp ce F.sf sz d e' C k).2 (sz - 1) hF hO (cok_of (by simp) (by simp) (by simp) (by simp)) rfl
            (by simp only [List.length_cons] at hsz ⊢; omega) hl
          cases u with
          | stop r => cases hq; exact hp
          | vals vs =>
            obtain ⟨W1, h1, v0, vs0, m0, ms, rfl, p1, p2, p3, p4, p5, p6⟩ := hp
            simp only at hq
            -- the argument itself
            let X : List Slot := (m0 :: ms).map .v
            have hlenms : (v0 :: vs0).length = (e2 :: es).length := by
              have := evalRL_len hv
              exact this
            have hX : sz = F.sz + X.length := by
              have := p5.length_eq
              simp only [X, List.length_map, List.length_cons] at hlenms hsz ⊢
              omega
            have hstep : ∀ fin, Halts L ((F.push X).st (compexp ce F.sf sz d e' C k).1 m0 h1) fin →
                Halts L (F.st (compRL ce F.sf (sz - 1) d (e2' :: es')
                  (.push :: (compexp ce F.sf sz d e' C k).1) (compexp ce F.sf sz d e' C k).2).1 acc h)
                  fin := by
              intro fin hf
              refine p6 fin (.next ?_ hf)
              simp [step, Fr.push, X]
            cases hv2 : evalS n ρ e [] with
            | none => rw [hv2] at hq; cases hq
            | some u =>
              have hc := fun tgt => hS m fv d e e' ρ [] u (F.push X) hle hv2 hρ ce C k W1 h1 m0 tgt hfv
                ((hF.mono p1 p2).push X) p3 hC (by rw [hX] at hl2; exact hl2)
              rw [hv2] at hq
              have hX' : (F.push X).sz = sz := hX.symm
              rw [hX'] at hc
              cases u with
              | val v =>
                cases hq
                obtain ⟨W', h', q1, q2, q3, w', q4, q5⟩ := hc _ (.ord hr)
                exact ⟨W', h', v, v0 :: vs0, w', m0 :: ms, rfl, p1.trans q1, p2.trans q2, q3, q4,
                  .cons (p4.mono q1) (p5.mono q1), fun fin hf => hstep fin (q5 fin hf)⟩
              | exn v =>
                cases hq
                intro tgt
                exact (((hc _ (.ord hr)).stop (by simp) hF.sf hF.trap).start hstep).base p1 p2
              | fail =>
                cases hq
                intro tgt
                exact (((hc _ (.ord hr)).stop (by simp) hF.sf hF.trap).start hstep).base p1 p2
where
  evalRL_len {f : Lam → Option Res} : ∀ {es vs}, evalRL f es = some (.vals vs) → vs.length = es.length := by
    intro es
    induction es with
    | nil => intro vs h; cases h; rfl
    | cons e es ih =>
      intro vs h
      simp only [evalRL] at h
      cases h1 : evalRL f es with
      | none => rw [h1] at h; cases h
      | some u =>
        rw [h1] at h
        cases u with
        | stop r => cases h
        | vals us =>
          simp only at h
          cases h2 : f e with
          | none => rw [h2] at h; cases h
          | some r =>
            rw [h2] at h
            cases r with
            | val v => cases h; simp [ih h1]
            | exn v => cases h
            | fail => cases h

theorem simLR {L T n} (hS : SimAt L T n) {m fv d ρ} {ce : CEnv} (hfv : ce.fv = fv)
    (hρ : ρ.length = m + d) :
    ∀ (args args' : List Lam), args ≠ [] → args'.length = args.length → ∀ F : Fr,
    (∀ (i : Nat) e e', args[i]? = some e → args'[i]? = some e' → Lifts T m fv d F.sfb e e') →
    ∀ q, evalLR (fun e => evalS n ρ e []) args = some q →
    ∀ W h acc C k, FOk L W h ce d ρ F → HOk L T W h → COk L C → retOf C = none →
      LOk L (compLR ce F.sf F.sz d args' C k).1 →
      ArgsPost L T W h F C (F.st (compLR ce F.sf F.sz d args' C k).1 acc h) List.reverse
        (fun v vs => vs ++ [v]) q := by
  intro args
  induction args with
  | nil => intro args' h; exact absurd rfl h
  | cons e es ih =>
    intro args' _ hlen F hL q hq W h acc C k hF hO hC hr hl
    cases args' with
    | nil => cases hlen
    | cons e' es' =>
      have hle := hL 0 e e' rfl rfl
      simp only [List.length_cons, Nat.add_right_cancel_iff] at hlen
      cases es with
      | nil =>
        have : es' = [] := by simpa using hlen
        subst this
        simp only [compLR] at hl ⊢
        simp only [evalLR] at hq
        cases hv : evalS n ρ e [] with
        | none => rw [hv] at hq; cases hq
        | some u =>
          have hc := fun tgt => hS m fv d e e' ρ [] u F hle hv hρ ce C k W h acc tgt hfv hF hO hC hl
          rw [hv] at hq
          cases u with
          | val v =>
            cases hq
            obtain ⟨W', h', q1, q2, q3, w', q4, q5⟩ := hc _ (.ord hr)
            exact ⟨W', h', v, [], w', [], rfl, q1, q2, q3, q4, .nil, q5⟩
          | exn v =>
            cases hq
            intro tgt
            exact (hc _ (.ord hr)).any (by simp)
          | fail =>
            cases hq
            intro tgt
            exact (hc _ (.ord hr)).any (by simp)
      | cons e2 es =>
        cases es' with
        | nil => cases hlen
        | cons e2' es' =>
        rw [compLR.eq_3 _ _ _ _ _ _ _ _ (by simp)] at hl ⊢
        have hl2 := (hl.of_ext (ext_comp _ _ _ _ _ _ _)).tail
        rw [evalLR] at hq
        cases hv : evalS n ρ e [] with
        | none => rw [hv] at hq; cases hq
        | some u =>
          have hc := fun tgt => hS m fv d e e' ρ [] u F hle hv hρ ce
            (.push :: (compLR ce F.sf (F.sz + 1) d (e2' :: es') C k).1) _ W h acc tgt hfv hF hO
            (cok_of (by simp) (by simp) (by simp) (by simp)) hl
          rw [hv] at hq
          cases u with
          | exn v => cases hq; intro tgt; exact (hc _ (.ord rfl)).any (by simp)
          | fail => cases hq; intro tgt; exact (hc _ (.ord rfl)).any (by simp)
          | val v =>
            obtain ⟨W1, h1, p1, p2, p3, w', p4, p5⟩ := hc _ (.ord rfl)
            simp only at hq
            have hstep : ∀ fin, Halts L ((F.push [.v w']).st
                (compLR ce F.sf (F.sz + 1) d (e2' :: es') C k).1 w' h1) fin →
                Halts L (F.st (compexp ce F.sf F.sz d e'
                  (.push :: (compLR ce F.sf (F.sz + 1) d (e2' :: es') C k).1)
                  (compLR ce F.sf (F.sz + 1) d (e2' :: es') C k).2).1 acc h) fin :=
              fun fin hf => p5 fin (.next rfl hf)
            cases hv2 : evalLR (fun e => evalS n ρ e []) (e2 :: es) with
            | none => rw [hv2] at hq; cases hq
            | some u =>
              rw [hv2] at hq
              have hp := ih (e2' :: es') (by simp) hlen (F.push [.v w']) (lifts_tail hL) u hv2 W1 h1 w' C k
                ((hF.mono p1 p2).push _) p3 hC hr hl2
              cases u with
              | stop r =>
                cases hq
                intro tgt
                exact (((hp (fun _ _ => F.st C w' h)).stop (evalLR_stop hv2) hF.sf hF.trap).start hstep).base p1 p2
              | vals vs =>
                cases hq
                obtain ⟨W2, h2, v0, vs0, m0, ms, rfl, q1, q2, q3, q4, q5, q6⟩ := hp
                refine ⟨W2, h2, v0, v :: vs0, m0, w' :: ms, rfl, p1.trans q1, p2.trans q2, q3, q4,
                  .cons (p4.mono q1) q5, ?_⟩
                intro fin hf
                refine hstep fin (q6 fin ?_)
                rw [Fr.push_push]
                simpa using hf

/-- After the arguments of a `let`. -/
def LetsPost (L : Nat → Option Code) (T : List Func) (W : List Val) (h : List Obj) (F : Fr)
    (ce : CEnv) (d n : Nat) (ρ : List Val) (C : Code) (start : State) : Ress → Prop
  | .vals ρ' => ∃ W' h' X acc, W <+: W' ∧ h <+: h' ∧ HOk L T W' h' ∧ X.length = n ∧
      ρ'.length = ρ.length + n ∧
      FOk L W' h' (bindMany ce d F.sz n) (d + n) ρ' (F.push X) ∧
      ∀ fin, Halts L ((F.push X).st C acc h') fin → Halts L start fin
  | .stop r => ∀ tgt, Concl L T W h F tgt start r

theorem simLets {L T n} (hS : SimAt L T n) {m fv} :
    ∀ (args args' : List Lam), args'.length = args.length → ∀ d ρ (ce : CEnv) (F : Fr),
    ce.fv = fv → ρ.length = m + d →
    (∀ (i : Nat) e e', args[i]? = some e → args'[i]? = some e' → Lifts T m fv (d + i) F.sfb e e') →
    ∀ q, evalLets (fun env e => evalS n env e []) ρ args = some q →
    ∀ W h acc C k, FOk L W h ce d ρ F → HOk L T W h →
      LOk L (compLets ce F.sf F.sz d args' C k).1 →
      LetsPost L T W h F ce d args.length ρ C (F.st (compLets ce F.sf F.sz d args' C k).1 acc h) q := by
  intro args
  induction args with
  | nil =>
    intro args' hlen d ρ ce F hfv hρ hL q hq W h acc C k hF hO hl
    have : args' = [] := by simpa using hlen
    subst this
    cases hq
    exact ⟨W, h, [], acc, List.prefix_refl _, List.prefix_refl _, hO, rfl, rfl, hF, fun fin hf => hf⟩
  | cons e es ih =>
    intro args' hlen d ρ ce F hfv hρ hL q hq W h acc C k hF hO hl
    cases args' with
    | nil => cases hlen
    | cons e' es' =>
      have hle := hL 0 e e' rfl rfl
      simp only [List.length_cons, Nat.add_right_cancel_iff] at hlen
      simp only [compLets] at hl ⊢
      have hl2 := (hl.of_ext (ext_comp _ _ _ _ _ _ _)).tail
      rw [evalLets] at hq
      cases hv : evalS n ρ e [] with
      | none => rw [hv] at hq; cases hq
      | some u =>
        have hc := fun tgt => hS m fv d e e' ρ [] u F hle hv hρ ce
          (.push :: (compLets (bind ce d (F.sz + 1)) F.sf (F.sz + 1) (d + 1) es' C k).1) _ W h acc tgt hfv
          hF hO (cok_of (by simp) (by simp) (by simp) (by simp)) hl
        rw [hv] at hq
        cases u with
        | exn v => cases hq; intro tgt; exact (hc _ (.ord rfl)).any (by simp)
        | fail => cases hq; intro tgt; exact (hc _ (.ord rfl)).any (by simp)
        | val v =>
          obtain ⟨W1, h1, p1, p2, p3, w', p4, p5⟩ := hc _ (.ord rfl)
          simp only at hq
          have hF1 := (hF.mono p1 p2).bind p4
          have hp := ih es' hlen (d + 1) (v :: ρ) (bind ce d (F.sz + 1)) (F.push [.v w']) hfv
            (by simp [hρ]; omega) (fun i a a' h1 h2 => by
              have := hL (i + 1) a a' h1 h2
              rwa [show d + (i + 1) = d + 1 + i by omega] at this) q hq W1 h1 w' C k hF1 p3 hl2
          have hstep : ∀ fin, Halts L ((F.push [.v w']).st
              (compLets (bind ce d (F.sz + 1)) F.sf (F.sz + 1) (d + 1) es' C k).1 w' h1) fin →
              Halts L (F.st (compexp ce F.sf F.sz d e'
                (.push :: (compLets (bind ce d (F.sz + 1)) F.sf (F.sz + 1) (d + 1) es' C k).1)
                (compLets (bind ce d (F.sz + 1)) F.sf (F.sz + 1) (d + 1) es' C k).2).1 acc h) fin :=
            fun fin hf => p5 fin (.next rfl hf)
          cases q with
          | stop r =>
            intro tgt
            exact (((hp (fun _ _ => F.st C w' h)).stop (evalLets_stop hq) hF.sf hF.trap).start hstep).base p1 p2
          | vals ρ' =>
            obtain ⟨W2, h2, X, acc', q1, q2, q3, q4, q5, q6, q7⟩ := hp
            rw [Fr.push_push] at q6 q7
            refine ⟨W2, h2, X ++ [.v w'], acc', p1.trans q1, p2.trans q2, q3, ?_, ?_, ?_,
              fun fin hf => hstep fin (q7 fin hf)⟩
            · simp [q4]
            · simp only [List.length_cons] at q5 ⊢; omega
            · simp only [List.length_cons]
              rw [show d + (es.length + 1) = d + 1 + es.length by omega]
              exact q6

end Mosml.Zam
