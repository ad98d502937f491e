import Verif.Unref.Sim
import Mathlib.Data.List.Forall2

/-!
# The simulation
-/

namespace Mosml.Unref

open List (Forall₂)

theorem tagOf_eq {P : Pm} {sp C0} {s s' : St} (hI : Inv P sp C0 s s') {v : Val}
    (hv : v ≠ .addr P.a0) : tagOf s v = tagOf s' v := by
  cases v with
  | int => rfl
  | atom => rfl
  | addr a =>
    have ha : a ≠ P.a0 := fun h => hv (by rw [h])
    simp only [tagOf, hI.heap a ha]

theorem frame_no {P : Pm} {vs fre : List Val} (hv : ∀ v ∈ vs, v ≠ .addr P.a0)
    (hf : ∀ v ∈ fre, v ≠ .addr P.a0) (x : Int) (v : Val) (h : frame vs fre x = some v) :
    v ≠ .addr P.a0 := by
  simp only [frame] at h
  split_ifs at h
  · exact hf v (List.mem_of_getElem? h)
  · exact hv v (List.mem_of_getElem? h)

theorem sim_eval (F : Nat → Option Fn) (P : Pm) :
    ∀ n n' sp C0 (V : Nat → Prop) (N N' : Nat → Lam) (d : Nat) e e', n ≤ n' →
    (∀ j, V j → Tr sp V (N j) (N' j)) → (∀ i, sp = some i → i < d) → Tr sp V e e' →
    Sim P sp C0 (eval F P.al n N d e) (eval F P.al' n' N' d e')
  | 0, n', sp, C0, V, N, N', d, e, e', hn, hN, hd, ht => by
    intro s s' r s1 hI h; cases h
  | n + 1, 0, _, _, _, _, _, _, _, _, hn, _, _, _ => by omega
  | n + 1, n' + 1, sp, C0, V, N, N', d, e, e', hn, hN, hd, ht => by
    have km := km_eval F P.al n
    have ih : ∀ {e e'}, Tr sp V e e' → Sim P sp C0 (eval F P.al n N d e) (eval F P.al' n' N' d e') :=
      fun {e e'} ht => sim_eval F P n n' sp C0 V N N' d e e' (by omega) hN hd ht
    have ihd : ∀ {e e'} d', d ≤ d' → Tr sp V e e' →
        Sim P sp C0 (eval F P.al n N d' e) (eval F P.al' n' N' d' e') :=
      fun {e e'} d' hd' ht => sim_eval F P n n' sp C0 V N N' d' e e' (by omega) hN
        (fun i hi => by have := hd i hi; omega) ht
    have ihc : ∀ (C0 : Option Cell) (fn : Fn), Sim P none C0 (eval F P.al n fn.nodes fn.nargs fn.body)
        (eval F P.al' n' fn.nodes fn.nargs fn.body) :=
      fun C0 fn => sim_eval F P n n' none C0 (fun _ => True) _ _ _ _ _ (by omega)
        (fun j _ => Tr.refl _ (Lam.ok_true _)) (by simp) (Tr.refl _ (Lam.ok_true _))
    intro s s' r s1 hI h hK
    cases ht <;> simp only [eval] at h ⊢
    case var x hx =>
      have h2 := hI.env x hx
      simp only [Option.map_eq_some_iff] at h ⊢
      obtain ⟨v, hv, h⟩ := h
      cases h
      exact ⟨s', ⟨v, h2.1 ▸ hv, rfl⟩, h2.2 v hv, hI⟩
    case assign x a a' hx ha =>
      refine Sim.andThen (ih ha) (fun v => ?_) (fun v hv => ?_) s s' r s1 hI h hK
      · intro s r s1 h; cases h; exact Nat.le_refl _
      · intro s s' r s1 hI h hK
        cases h
        exact ⟨_, rfl, by simp [Res.No], hI.setEnv hx hv⟩
    case const => cases h; exact ⟨_, rfl, by simp [Res.No], hI⟩
    case apply f f' args args' hf hargs =>
      have hkm2 : ∀ (vs : List Val) (g : Val), KM fun s =>
          match g with
          | .addr a =>
            (match s.heap a with
             | some (.clos lbl fre) =>
               (match F lbl with
                | some fn =>
                  if fn.nargs = vs.length then
                    match eval F P.al n fn.nodes fn.nargs fn.body { s with env := frame vs fre } with
                    | some (r, s') => some (r, { s' with env := s.env })
                    | none => none
                  else none
                | none => none)
             | _ => none)
          | _ => none := by
        intro vs g s r s1 h
        dsimp only at h
        split at h
        · split at h
          · split at h
            · split_ifs at h
              split at h
              · rename_i he
                cases h
                have h2 := km _ _ _ _ _ _ he
                exact h2
              · cases h
            · cases h
          · cases h
        · cases h
      refine Sims.andThens (sim_evalRL (km N d) (fun e e' => ih) hargs)
        (fun vs => KM.andThen (km N d f) (hkm2 vs)) (fun vs hvs => ?_) s s' r s1 hI h hK
      refine Sim.andThen (ih hf) (hkm2 vs) (fun g hg => ?_)
      intro s s' r s1 hI h hK
      dsimp only at h ⊢
      split at h
      · rename_i a
        have ha : a ≠ P.a0 := fun h => hg (by rw [h])
        dsimp only
        rw [← hI.heap a ha]
        split at h
        · rename_i lbl fre hc
          have hfre := hI.cells a _ ha hc
          split at h
          · rename_i fn hfn
            simp only [hc, hfn]
            split_ifs at h with hl
            rw [if_pos hl]
            split at h
            · rename_i r2 s2 he
              cases h
              have hfr := frame_no hvs hfre
              obtain ⟨s2', he', hr, hI2⟩ := ihc (s.heap P.a0) fn { s with env := frame vs fre }
                { s' with env := frame vs fre } _ _
                ⟨hI.k, hI.lo, hI.heap, hI.cells, fun x _ => ⟨rfl, hfr x⟩, hI.at0, fun _ => rfl,
                  fun i hi => by cases hi⟩ he hK
              rw [he']
              refine ⟨_, rfl, hr, hI2.k, hI2.lo, hI2.heap, hI2.cells, hI.env, hI2.at0, ?_, ?_⟩
              · intro hs
                exact (hI2.caller rfl).trans (hI.caller hs)
              · intro i hi
                have h3 := hI2.caller rfl
                dsimp only
                rw [h3]
                exact hI.cell i hi
            · cases h
          · cases h
        · cases h
      · cases h
    case lett args args' b b' hargs hb =>
      rw [← hargs.length_eq]
      exact Sims.andThens (sim_evalLets (km N) hd (fun d' e e' hd' ht => ihd d' hd' ht) hargs)
        (fun vs => km _ _ _) (fun vs hvs => ihd _ (by omega) hb) s s' r s1 hI h hK
    case letrec args args' b b' hargs hb =>
      rw [← hargs.length_eq]
      have hkk : (dummies P.al d args s).k ≤ s1.k :=
        KMs.andThens (km_fills (km N (d + args.length)) args d) (fun vs => km _ _ b) _ r s1 h
      exact Sims.andThens (sim_fills (km N _) (fun e e' => ihd _ (by omega)) hd hargs)
        (fun vs => km _ _ _) (fun vs hvs => ihd _ (by omega) hb) _ _ r s1
        (sim_dummies hargs.length_eq hd hI (Nat.le_trans hkk hK)) h hK
    case get i hi =>
      obtain ⟨h1, t, w, h2, h3, h4⟩ := hI.cell i hi
      cases n with
      | zero => simp [eval, evalLR, andThens] at h
      | succ n =>
        simp [eval, evalLR, h1, andThens, primSem, h2, Cell.fields] at h
        obtain ⟨rfl, rfl⟩ := h
        exact ⟨s', by rw [h3]; rfl, h4, hI⟩
    case set i a a' hi ha =>
      obtain ⟨h1, _⟩ := hI.cell i hi
      have hvar : eval F P.al n N d (.var i) s = some (.val (.addr P.a0), s) ∨
          eval F P.al n N d (.var i) s = none := by
        cases n with
        | zero => right; rfl
        | succ n => left; simp [eval, h1]
      rcases hvar with hvar | hvar
      · simp only [evalLR, hvar] at h
        cases hea : eval F P.al n N d a s with
        | none => rw [hea] at h; simp [andThens] at h
        | some p =>
          obtain ⟨r2, s2⟩ := p
          rw [hea] at h
          have hk2 : s2.k ≤ s1.k := by
            cases r2 with
            | val v =>
              dsimp only [andThens] at h
              exact km_primSem _ _ _ _ _ _ h
            | exn v => cases h; exact Nat.le_refl _
            | fail => cases h; exact Nat.le_refl _
          obtain ⟨s2', he', hr, hI2⟩ := ih ha _ _ _ _ hI hea (Nat.le_trans hk2 hK)
          rw [he']
          cases r2 with
          | val v =>
            dsimp only [andThens] at h
            obtain ⟨h5, t, w, h6, h7, h8⟩ := hI2.cell i hi
            simp [primSem, h6, Cell.setField] at h
            obtain ⟨rfl, rfl⟩ := h
            refine ⟨_, rfl, by simp [Res.No], hI2.k, hI2.lo, ?_, ?_, ?_, hI2.at0, ?_, ?_⟩
            · intro b hb
              simp only [St.put, hb, if_false, St.set]
              exact hI2.heap b hb
            · intro b c hb
              simp only [St.put, hb, if_false]
              exact hI2.cells b c hb
            · intro x hx
              have hne : x ≠ i := by rintro rfl; exact hx hi
              simp only [St.put, St.set, hne, if_false]
              exact hI2.env x hx
            · intro hs; rw [hs] at hi; cases hi
            · intro i' hi'
              have : i' = i := by rw [hi] at hi'; cases hi'; rfl
              subst this
              exact ⟨h5, t, v, by simp [St.put], by simp [St.set], hr⟩
          | exn v => cases h; exact ⟨_, rfl, hr, hI2⟩
          | fail => cases h; exact ⟨_, rfl, hr, hI2⟩
      · simp [evalLR, hvar, andThens] at h
    case prim p args args' hargs =>
      exact Sims.andThens (sim_evalLR (km N d) (fun e e' => ih) hargs)
        (fun vs => km_primSem P.al p vs) (fun vs hvs => sim_primSem p vs hvs) s s' r s1 hI h hK
    case statichandle a a' b b' ha hb =>
      split at h
      · rename_i s2 he
        obtain ⟨s2', he', hr, hI2⟩ := ih ha _ _ _ _ hI he (Nat.le_trans (km _ _ _ _ _ _ h) hK)
        rw [he']
        exact ih hb _ _ _ _ hI2 h hK
      · rename_i hm
        obtain ⟨s2', he', hr, hI2⟩ := ih ha _ _ _ _ hI h hK
        rw [he']
        cases r with
        | fail => exact absurd h (hm s1)
        | val v => exact ⟨_, rfl, hr, hI2⟩
        | exn v => exact ⟨_, rfl, hr, hI2⟩
    case staticfail => cases h; exact ⟨_, rfl, by simp [Res.No], hI⟩
    case handle a a' b b' ha hb =>
      split at h
      · rename_i v s2 he
        have hk2 := km _ _ _ _ _ _ h
        obtain ⟨s2', he', hr, hI2⟩ := ih ha _ _ _ _ hI he (Nat.le_trans hk2 hK)
        rw [he']
        have hs : sp ≠ some (d : Int) := fun hs => by have := hd _ hs; omega
        exact ihd _ (by omega) hb _ _ _ _ (hI2.setEnv hs hr) h hK
      · rename_i hm
        obtain ⟨s2', he', hr, hI2⟩ := ih ha _ _ _ _ hI h hK
        rw [he']
        cases r with
        | exn v => exact absurd h (hm v s1)
        | val v => exact ⟨_, rfl, hr, hI2⟩
        | fail => exact ⟨_, rfl, hr, hI2⟩
    case cond c c' a a' b b' hc ha hb =>
      refine Sim.andThen (ih hc) (fun v => ?_) (fun v hv => ?_) s s' r s1 hI h hK
      · intro s r s1 h
        dsimp only at h
        split at h
        · exact km _ _ _ _ _ _ h
        · exact km _ _ _ _ _ _ h
        · cases h
      · intro s s' r s1 hI h hK
        dsimp only at h ⊢
        split at h
        · exact ih ha _ _ _ _ hI h hK
        · exact ih hb _ _ _ _ hI h hK
        · cases h
    case seq a a' b b' ha hb =>
      exact Sim.andThen (ih ha) (fun v => km _ _ _) (fun v hv => ih hb) s s' r s1 hI h hK
    case «while» a a' b b' ha hb =>
      refine Sim.andThen (ih ha) (fun v => ?_) (fun v hv => ?_) s s' r s1 hI h hK
      · intro s r s1 h
        dsimp only at h
        split at h
        · exact KM.andThen (km N d b) (fun v => km N d _) s r s1 h
        · cases h; exact Nat.le_refl _
        · cases h
      · intro s s' r s1 hI h hK
        dsimp only at h ⊢
        split at h
        · exact Sim.andThen (ih hb) (fun v => km _ _ _) (fun v hv => ih (.while ha hb))
            s s' r s1 hI h hK
        · cases h; exact ⟨_, rfl, by simp [Res.No], hI⟩
        · cases h
    case andalso a a' b b' ha hb =>
      refine Sim.andThen (ih ha) (fun v => ?_) (fun v hv => ?_) s s' r s1 hI h hK
      · intro s r s1 h
        dsimp only at h
        split at h
        · exact km _ _ _ _ _ _ h
        · cases h; exact Nat.le_refl _
        · cases h
      · intro s s' r s1 hI h hK
        dsimp only at h ⊢
        split at h
        · exact ih hb _ _ _ _ hI h hK
        · cases h; exact ⟨_, rfl, hv, hI⟩
        · cases h
    case orelse a a' b b' ha hb =>
      refine Sim.andThen (ih ha) (fun v => ?_) (fun v hv => ?_) s s' r s1 hI h hK
      · intro s r s1 h
        dsimp only at h
        split at h
        · cases h; exact Nat.le_refl _
        · exact km _ _ _ _ _ _ h
        · cases h
      · intro s s' r s1 hI h hK
        dsimp only at h ⊢
        split at h
        · cases h; exact ⟨_, rfl, hv, hI⟩
        · exact ih hb _ _ _ _ hI h hK
        · cases h
    case case a a' ks acts acts' ha hacts =>
      refine Sim.andThen (ih ha) (fun v => ?_) (fun v hv => ?_) s s' r s1 hI h hK
      · intro s r s1 h
        dsimp only at h
        split at h
        · exact km_orFail (km N d) _ _ _ _ h
        · cases h
      · intro s s' r s1 hI h hK
        dsimp only at h ⊢
        split at h
        · rename_i z
          rcases sim_pick z ks hacts with ⟨h1, h2⟩ | ⟨e, e', h1, h2, ht⟩
          · rw [h1] at h; rw [h2]
            cases h; exact ⟨_, rfl, by simp [Res.No], hI⟩
          · rw [h1] at h; rw [h2]
            exact ih ht _ _ _ _ hI h hK
        · cases h
    case switch a a' ks acts acts' ha hacts =>
      refine Sim.andThen (ih ha) (fun v => ?_) (fun v hv => ?_) s s' r s1 hI h hK
      · intro s r s1 h
        dsimp only at h
        split at h
        · exact km_orFail (km N d) _ _ _ _ h
        · cases h
      · intro s s' r s1 hI h hK
        dsimp only at h ⊢
        rw [← tagOf_eq hI hv]
        split at h
        · rename_i z hz
          try rw [hz]
          rcases sim_pick z ks hacts with ⟨h1, h2⟩ | ⟨e, e', h1, h2, ht⟩
          · rw [h1] at h; rw [h2]
            cases h; exact ⟨_, rfl, by simp [Res.No], hI⟩
          · rw [h1] at h; rw [h2]
            exact ih ht _ _ _ _ hI h hK
        · cases h
    case unspec => cases h
    case shared j hj => exact ih (hN j hj) _ _ _ _ hI h hK

end Mosml.Unref
