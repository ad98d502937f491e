import Verif.Zam.Ctrl

/-!
# Calls
-/

namespace Mosml.Zam

/-- The functions of the program are where their labels say. -/
def Prog (L : Nat → Option Code) (T : List Func) : Prop :=
  ∀ f ∈ T, ∃ C k,
    L f.lbl = some
      (if f.nargs > 1 then
        .grab (f.nargs - 1) ::
          (compexp (iniEnv f.fv f.nargs) none f.nargs f.nargs f.body (.ret f.nargs :: C) k).1
       else (compexp (iniEnv f.fv f.nargs) none f.nargs f.nargs f.body (.ret f.nargs :: C) k).1) ∧
    LOk L (compexp (iniEnv f.fv f.nargs) none f.nargs f.nargs f.body (.ret f.nargs :: C) k).1

/-- The code of an expression does what the expression means. -/
def SimAt (L : Nat → Option Code) (T : List Func) (n : Nat) : Prop :=
  ∀ m fv d e e' ρ xs r (F : Fr), Lifts T m fv d F.sfb e e' → evalS n ρ e xs = some r →
    ρ.length = m + d →
    ∀ ce C k W h acc tgt, ce.fv = fv → FOk L W h ce d ρ F → HOk L T W h → COk L C →
      LOk L (compexp ce F.sf F.sz d e' C k).1 → Mode C F W xs tgt →
      Concl L T W h F tgt (F.st (compexp ce F.sf F.sz d e' C k).1 acc h) r

def EnterAt (L : Nat → Option Code) (T : List Func) (n : Nat) : Prop :=
  ∀ W h v a x xs ms r S0 trap acc, VRel W v (.addr a) → HOk L T W h →
    retL (evalS n) v (x :: xs) = some r → VRels W (x :: xs) ms → trap ≤ S0.length →
    ∃ o, h[a]? = some o ∧
      Concl L T W h ⟨false, none, 0, munit, S0, 0, trap⟩
        (fun w h => ⟨[.ret 0], w, munit, S0, 0, trap, h⟩)
        ⟨o.code, acc, .addr a, ms.map .v ++ S0, xs.length, trap, h⟩ r

theorem unrollS : ∀ {n env b xs r}, evalS n env b xs = some r →
    (nest b ≤ xs.length → ∃ n', n' ≤ n ∧
      evalS n' ((xs.take (nest b)).reverse ++ env) (strip b) (xs.drop (nest b)) = some r) ∧
    (xs.length < nest b → ∃ b', r = .val (.clos (xs.reverse ++ env) b') ∧
      nest b' + 1 + xs.length = nest b ∧ strip b' = strip b) := by
  intro n
  induction n with
  | zero => intro env b xs r h; cases h
  | succ n ih =>
    intro env b xs r h
    by_cases hf : ∃ b1, b = .fn b1
    · obtain ⟨b1, rfl⟩ := hf
      simp only [evalS, idOf, evalB] at h
      cases xs with
      | nil =>
        cases h
        simp only [nest, List.length_nil, strip]
        refine ⟨by omega, fun _ => ⟨b1, rfl, rfl, rfl⟩⟩
      | cons x xs =>
        simp only [retL, asClos] at h
        have h' : evalS n (x :: env) b1 xs = some r := by
          split at h
          · cases h
          · exact h
        obtain ⟨h1, h2⟩ := ih h'
        simp only [nest, List.length_cons, strip, List.take_succ_cons, List.drop_succ_cons,
          List.reverse_cons, List.append_assoc, List.singleton_append]
        refine ⟨?_, ?_⟩
        · intro hl
          obtain ⟨n', hn, he⟩ := h1 (by omega)
          exact ⟨n', by omega, he⟩
        · intro hl
          obtain ⟨b', e1, e2, e3⟩ := h2 (by omega)
          exact ⟨b', e1, by omega, e3⟩
    · have e1 : nest b = 0 := by
        cases b <;> first | rfl | exact absurd ⟨_, rfl⟩ hf
      have e2 : strip b = b := by
        cases b <;> first | rfl | exact absurd ⟨_, rfl⟩ hf
      rw [e1, e2]
      refine ⟨fun _ => ⟨n + 1, Nat.le_refl _, h⟩, by omega⟩

theorem unrollR {n v x xs r env b} (ha : asClos v = some (env, b))
    (h : retL (evalS n) v (x :: xs) = some r) :
    (nest b + 1 ≤ (x :: xs).length → ∃ n', n' ≤ n ∧
      evalS n' (((x :: xs).take (nest b + 1)).reverse ++ env) (strip b)
        ((x :: xs).drop (nest b + 1)) = some r) ∧
    ((x :: xs).length < nest b + 1 → ∃ b', r = .val (.clos ((x :: xs).reverse ++ env) b') ∧
      nest b' + (x :: xs).length = nest b ∧ strip b' = strip b) := by
  simp only [retL, ha] at h
  have h' : evalS n (x :: env) b xs = some r := by
    split at h
    · cases h
    · exact h
  obtain ⟨h1, h2⟩ := unrollS h'
  simp only [List.length_cons, List.take_succ_cons, List.drop_succ_cons,
    List.reverse_cons, List.append_assoc, List.singleton_append]
  refine ⟨?_, ?_⟩
  · intro hl
    obtain ⟨n', hn, he⟩ := h1 (by omega)
    exact ⟨n', by omega, he⟩
  · intro hl
    obtain ⟨b', e1, e2, e3⟩ := h2 (by omega)
    exact ⟨b', e1, by omega, e3⟩

theorem findFv_mem {id : Int} : ∀ {fv : List Int} {i : Nat}, id ∈ fv →
    ∃ j, findFv id i fv = .envacc (i + j) ∧ fv[j]? = some id := by
  intro fv
  induction fv with
  | nil => intro i h; cases h
  | cons x fv ih =>
    intro i h
    simp only [findFv]
    split
    · rename_i hx
      exact ⟨0, rfl, by simp [hx]⟩
    · rename_i hx
      simp only [List.mem_cons] at h
      rcases h with rfl | h
      · exact absurd rfl hx
      · obtain ⟨j, h1, h2⟩ := ih (i := i + 1) h
        exact ⟨j + 1, by rw [h1]; congr 1; omega, h2⟩

/-- The frame of a function that has just been entered. -/
theorem entry_env {L T W h f env b o a as ms S0 extra trap} (hf : FunObj L T W f env b o)
    (ha : h[a]? = some o) (hr : VRels W as ms) (hk : f.nargs ≤ as.length) :
    EnvRel W h (iniEnv f.fv f.nargs) f.nargs ((as.take f.nargs).reverse ++ env)
      ⟨false, none, f.nargs, .addr a, ms.map .v ++ S0, extra, trap⟩ := by
  have hlen := hr.length_eq
  constructor
  · intro i v hi hv
    rw [List.getElem?_append_left (by simp; omega)] at hv
    rw [List.getElem?_reverse (by simp; omega)] at hv
    simp only [List.length_take] at hv
    rw [List.getElem?_take_of_lt (by omega)] at hv
    have hj : min f.nargs as.length - 1 - i = f.nargs - 1 - i := by omega
    rw [hj] at hv
    have hj1 : f.nargs - 1 - i < as.length := by omega
    have hj2 : f.nargs - 1 - i < ms.length := by omega
    refine ⟨f.nargs - (f.nargs - 1 - i), ms[f.nargs - 1 - i], ?_, by omega, by simp only; omega, ?_, ?_⟩
    · simp only [iniEnv]
      rw [if_pos (by omega)]
    · simp only
      rw [List.getElem?_append_left (by simp; omega),
        show f.nargs - (f.nargs - (f.nargs - 1 - i)) = f.nargs - 1 - i by omega]
      simp [hj2]
    · have := List.Forall₂.get hr hj1 hj2
      rw [List.getElem?_eq_getElem hj1] at hv
      cases hv
      simpa using this
  · intro id hid hm
    obtain ⟨j, h1, h2⟩ := findFv_mem (i := 0) hm
    obtain ⟨v, x, h3, h4, h5⟩ := hf.fields j id h2
    refine ⟨j, v, x, a, o, by simpa using h1, rfl, ha, h4, ?_, h5⟩
    have hl : ((as.take f.nargs).reverse).length = f.nargs := by simp; omega
    rw [List.getElem?_append_right (by rw [hl]; omega), hl]
    rw [← h3]
    congr 1
    omega

/-- A function is entered with some arguments. -/
theorem enterFun {L T n} (hP : Prog L T) (hS : ∀ n' ≤ n, SimAt L T n')
    {W h f env b o a as ms r S0 trap acc} (hf : FunObj L T W f env b o) (ha : h[a]? = some o)
    (hO : HOk L T W h) (hr : VRels W as ms) (ht : trap ≤ S0.length) (has : 0 < as.length)
    (hA : f.nargs ≤ as.length → ∃ n', n' ≤ n ∧
      evalS n' ((as.take f.nargs).reverse ++ env) (strip b) (as.drop f.nargs) = some r)
    (hB : as.length < f.nargs → ∃ b', r = .val (.clos (as.reverse ++ env) b') ∧
      nest b' + 1 + as.length = f.nargs ∧ strip b' = strip b) :
    Concl L T W h ⟨false, none, 0, munit, S0, 0, trap⟩
      (fun w h => ⟨[.ret 0], w, munit, S0, 0, trap, h⟩)
      ⟨o.code, acc, .addr a, ms.map .v ++ S0, as.length - 1, trap, h⟩ r := by
  obtain ⟨C, k, hcode, hL⟩ := hP f hf.mem
  rw [hf.code] at hcode
  simp only [Option.some.injEq] at hcode
  have hpos : 0 < f.nargs := by rw [hf.nargs]; omega
  have hlen := hr.length_eq
  rcases Nat.lt_or_ge as.length f.nargs with hk | hk
  · -- a partial application
    obtain ⟨b', rfl, hn, hs⟩ := hB hk
    rw [if_pos (by omega)] at hcode
    refine ⟨W ++ [.clos (as.reverse ++ env) b'],
      h ++ [⟨.restart :: o.code, .addr a :: ms⟩], List.prefix_append _ _, List.prefix_append _ _,
      ?_, .addr h.length, ?_, ?_⟩
    · refine hO.snoc (.inr ⟨f, env, b, b', a, o, as, ms, rfl, ?_⟩)
      exact ⟨hf.mono (List.prefix_append _ _), getElem?_prefix (List.prefix_append _ _) ha,
        by omega, rfl, rfl, hr.mono (List.prefix_append _ _), hn, hs, has⟩
    · exact .clos (by rw [← hO.len]; simp)
    · intro fin hfin
      refine halts_congr ?_ hfin
      simp only [hcode, step]
      rw [if_neg (by omega), show 1 + (as.length - 1) = ms.length by omega, takeVals_append]
      simp only [Nat.not_lt_zero, if_false, gt_iff_lt, List.drop_zero]
      rw [show ms.length = (ms.map Slot.v).length by simp, List.drop_left]
      simp only [popFrame]
  · -- the function has its arguments
    obtain ⟨n', hn', he⟩ := hA hk
    have hE := entry_env (S0 := S0) (extra := as.length - f.nargs) (trap := trap) hf ha hr hk
    let F : Fr := ⟨false, none, f.nargs, .addr a, ms.map .v ++ S0, as.length - f.nargs, trap⟩
    have hm : Mode (.ret f.nargs :: C) F W (as.drop f.nargs)
        (fun w h => ⟨[.ret 0], w, munit, S0, 0, trap, h⟩) := by
      refine Mode.ret (ms := ms.drop f.nargs) (S0 := S0) rfl ?_ (List.forall₂_drop f.nargs hr)
        (by simp [F]) ht
      simp only [F]
      rw [List.drop_append_of_le_length (by simp; omega), List.map_drop]
    have hc := hS n' hn' env.length f.fv f.nargs (strip b) f.body _ _ r F hf.lifts he
      (by simp; omega) (iniEnv f.fv f.nargs) (.ret f.nargs :: C) k W h acc _ rfl
      ⟨hE, ⟨(by intro l tsz hh; cases hh), (by intro hh; cases hh)⟩,
        by simp only [F, List.length_append]; omega⟩ hO
      (cok_of (by simp) (by simp) (by simp) (by simp)) hL hm
    have hc2 : Concl L T W h ⟨false, none, 0, munit, S0, 0, trap⟩
      (fun w h => ⟨[.ret 0], w, munit, S0, 0, trap, h⟩)
      (F.st (compexp (iniEnv f.fv f.nargs) F.sf F.sz f.nargs f.body (.ret f.nargs :: C) k).1 acc h) r := by
      obtain ⟨W', h', q1, q2, q3, q4⟩ := hc
      refine ⟨W', h', q1, q2, q3, ?_⟩
      cases r with
      | val w => exact q4
      | exn w =>
        obtain ⟨w', h1, h2⟩ := q4
        exact ⟨w', h1, fun fin hf => h2 fin (raise_deeper _ ht hf)⟩
      | fail => exact absurd q4.1 (by simp [F])
    refine hc2.start ?_
    intro fin hfin
    rcases Nat.lt_or_ge 1 f.nargs with h1 | h1
    · rw [if_pos h1] at hcode
      refine .next ?_ hfin
      simp only [hcode, step]
      rw [if_pos (by omega)]
      simp only [F, Out.next.injEq, State.mk.injEq, true_and, and_true]
      omega
    · rw [if_neg (by omega)] at hcode
      have : as.length - f.nargs = as.length - 1 := by omega
      rw [hcode]
      simpa only [F, this] using hfin

theorem enterAt {L T n} (hP : Prog L T) (hS : ∀ n' ≤ n, SimAt L T n') : EnterAt L T n := by
  intro W h v a x xs ms r S0 trap acc hv hO he hr ht
  have ha : ∃ p, asClos v = some p := by
    simp only [retL] at he
    cases hc : asClos v with
    | some p => exact ⟨p, rfl⟩
    | none => rw [hc] at he; cases he
  obtain ⟨⟨env, b⟩, hac⟩ := ha
  obtain ⟨a', heq, hW⟩ := vrel_closure hv hac
  cases heq
  obtain ⟨o, ho, hobj⟩ := hO.get hW
  refine ⟨o, ho, ?_⟩
  obtain ⟨hA, hB⟩ := unrollR hac he
  rcases hobj with ⟨f, env', b', hac', hf⟩ | ⟨f, env', b0, b', fa, fo, args, ms0, hv', hp⟩
  · rw [hac] at hac'
    cases hac'
    have := hf.nargs
    refine enterFun (as := x :: xs) hP hS hf ho hO hr ht (by simp) ?_ ?_
    · intro hk
      rw [hf.nargs] at hk ⊢
      exact hA hk
    · intro hk
      obtain ⟨b', e1, e2, e3⟩ := hB (by omega)
      exact ⟨b', e1, by omega, e3⟩
  · subst hv'
    simp only [asClos, Option.some.injEq, Prod.mk.injEq] at hac
    obtain ⟨rfl, rfl⟩ := hac
    have hn := hp.nest
    have hlen := hp.rel.length_eq
    have hc := enterFun (as := args ++ x :: xs) (ms := ms0 ++ ms) (acc := acc) (r := r) hP hS hp.fn
      hp.heap hO (List.rel_append hp.rel hr) ht (by simp) ?_ ?_
    · refine hc.start ?_
      intro fin hfin
      refine .next ?_ hfin
      rw [hp.code]
      simp only [step, ho, hp.fields, Out.next.injEq, State.mk.injEq, List.map_append,
        List.append_assoc, true_and, and_true, List.length_append, List.length_cons]
      omega
    · intro hk
      simp only [List.length_append] at hk
      obtain ⟨n', hn', e⟩ := hA (by omega)
      refine ⟨n', hn', ?_⟩
      rw [show f.nargs = args.length + (nest b' + 1) by omega, List.take_length_add_append,
        List.drop_length_add_append, List.reverse_append, List.append_assoc, ← hp.strip]
      exact e
    · intro hk
      simp only [List.length_append] at hk
      obtain ⟨b2, e1, e2, e3⟩ := hB (by omega)
      refine ⟨b2, ?_, ?_, e3.trans hp.strip⟩
      · rw [e1, List.reverse_append, List.append_assoc]
      · simp only [List.length_append]; omega

/-- A value has been computed and meets the pending arguments. -/
theorem leaf {L T n} (hE : EnterAt L T n) {W h v v' C F xs tgt r} (hv : VRel W v v')
    (hO : HOk L T W h) (hm : Mode C F W xs tgt) (hr : retL (evalS n) v xs = some r) :
    Concl L T W h F tgt (F.st C v' h) r := by
  cases hm with
  | ord h1 =>
    cases hr
    exact ⟨W, h, List.prefix_refl _, List.prefix_refl _, hO, v', hv, fun fin hf => hf⟩
  | @ret xs ms S0 h1 h2 h3 h4 h5 =>
    -- skip a label
    have key : Concl L T W h F (fun w h => ⟨[.ret 0], w, munit, S0, 0, F.trap, h⟩)
        (F.st [.ret F.sz] v' h) r := by
      cases h3 with
      | nil =>
        cases hr
        refine ⟨W, h, List.prefix_refl _, List.prefix_refl _, hO, v', hv, ?_⟩
        intro fin hf
        refine halts_congr ?_ hf
        simp only [List.length_nil] at h4
        simp only [step, h4, Nat.not_lt_zero, if_false, gt_iff_lt, h2, List.map_nil,
          List.nil_append, List.drop_zero, popFrame]
      | @cons x y xs ms hxy hms =>
        have ha : ∃ p, asClos v = some p := by
          simp only [retL] at hr
          cases hc : asClos v with
          | some p => exact ⟨p, rfl⟩
          | none => rw [hc] at hr; cases hr
        obtain ⟨p, hac⟩ := ha
        obtain ⟨a, rfl, hW⟩ := vrel_closure hv hac
        obtain ⟨o, ho, hc⟩ := hE W h v a x xs (y :: ms) r S0 F.trap (.addr a) hv hO hr (.cons hxy hms) h5
        have hS : F.S = (F.S.take F.sz ++ (y :: ms).map .v) ++ S0 := by
          rw [List.append_assoc, ← h2, List.take_append_drop]
        refine (hc.call _ hS h5).start ?_
        intro fin hf
        refine .next ?_ hf
        simp only [List.length_cons] at h4
        simp only [step, h4]
        rw [if_pos (by omega)]
        simp only [enter, ho, h2]
        rfl
    unfold retOf at h1
    split at h1
    · cases h1
      refine key.start ?_
      intro fin hf
      exact halts_congr (by simp only [step, enter, popFrame]) hf
    · cases h1
      refine key.start ?_
      intro fin hf
      exact .next rfl (halts_congr (by simp only [step, enter, popFrame]) hf)
    · cases h1

end Mosml.Zam
