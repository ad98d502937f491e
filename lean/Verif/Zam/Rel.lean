import Verif.Zam.Labels
import Verif.Zam.Pend

/-!
# Relating the semantics and the machine
-/

namespace Mosml.Zam

/-- `C` is part of a program with labels `L`. -/
def LOk (L : Nat → Option Code) (C : Code) : Prop :=
  ∀ l r, (Instr.label l :: r) <:+ C → L l = some r

theorem LOk.of_sub {L C F} (h : LOk L F) (hs : Sub C F) : LOk L C :=
  fun l r hr => h l r (hs l r hr)

theorem LOk.of_ext {L C k F k'} (h : LOk L F) (hs : Ext C k F k') : LOk L C := h.of_sub hs.sub

theorem LOk.tail {L i C} (h : LOk L (i :: C)) : LOk L C := h.of_sub (sub_cons i C)

theorem LOk.label {L l C} (h : LOk L (.label l :: C)) : L l = some C :=
  h l C (List.suffix_refl _)

/-! ## Runs -/

theorem halts_congr {L s t fin} (h : step L s = step L t) (ht : Halts L t fin) : Halts L s fin := by
  cases ht with
  | halt h1 => exact .halt (h.trans h1)
  | uncaught h1 => exact .uncaught (h.trans h1)
  | next h1 h2 => exact .next (h.trans h1) h2

/-- Code whose outcome does not depend on the accumulator. -/
inductive AccIrr (L : Nat → Option Code) : Code → Prop
  | quote {c C} : AccIrr L (.quote c :: C)
  | access {n C} : AccIrr L (.access n :: C)
  | envacc {n C} : AccIrr L (.envacc n :: C)
  | closure {l C} : AccIrr L (.closure l 0 :: C)
  | closurerec {l n C} : n ≤ 1 → AccIrr L (.closurerec l n :: C)
  | dummy {n C} : AccIrr L (.prim (.dummy n) :: C)
  | fatal {C} : AccIrr L (.fatal :: C)
  | pushRetaddr {l C} : AccIrr L C → AccIrr L (.pushRetaddr l :: C)
  | pushtrap {l C} : AccIrr L C → AccIrr L (.pushtrap l :: C)
  | pop {n l C} : AccIrr L (.branch l :: C) → AccIrr L (.pop n :: .branch l :: C)
  | label {l C} : AccIrr L C → AccIrr L (.label l :: C)
  | branch {l c C} : L l = some c → AccIrr L c → AccIrr L (.branch l :: C)

theorem accIrr_halts {L C} (h : AccIrr L C) : ∀ {a e S x t H fin} (a' : MVal),
    Halts L ⟨C, a, e, S, x, t, H⟩ fin → Halts L ⟨C, a', e, S, x, t, H⟩ fin := by
  induction h with
  | quote => intro a e S x t H fin a' hh; exact halts_congr (by simp only [step]) hh
  | access =>
    intro a e S x t H fin a' hh
    refine halts_congr ?_ hh
    simp only [step]
  | envacc =>
    intro a e S x t H fin a' hh
    refine halts_congr ?_ hh
    simp only [step]
  | closure =>
    intro a e S x t H fin a' hh
    refine halts_congr ?_ hh
    simp [step, takeVals]
  | @closurerec l n C hn =>
    intro a e S x t H fin a' hh
    refine halts_congr ?_ hh
    have : n - 1 = 0 := by omega
    simp [step, takeVals, this]
  | dummy => intro a e S x t H fin a' hh; exact halts_congr (by simp only [step]) hh
  | fatal =>
    intro a e S x t H fin a' hh
    refine halts_congr ?_ hh
    simp only [step]
  | @pushRetaddr l C _ ih =>
    intro a e S x t H fin a' hh
    cases hh with
    | halt h1 => simp only [step] at h1; split at h1 <;> cases h1
    | uncaught h1 => simp only [step] at h1; split at h1 <;> cases h1
    | next h1 h2 =>
      simp only [step] at h1
      split at h1
      · rename_i c hc
        cases h1
        exact .next (by simp only [step, hc]) (ih a' h2)
      · cases h1
  | @pushtrap l C _ ih =>
    intro a e S x t H fin a' hh
    cases hh with
    | halt h1 => simp only [step] at h1; split at h1 <;> cases h1
    | uncaught h1 => simp only [step] at h1; split at h1 <;> cases h1
    | next h1 h2 =>
      simp only [step] at h1
      split at h1
      · rename_i c hc
        cases h1
        exact .next (by simp only [step, hc]) (ih a' h2)
      · cases h1
  | pop _ ih =>
    intro a e S x t H fin a' hh
    cases hh with
    | halt h1 => cases h1
    | uncaught h1 => cases h1
    | next h1 h2 => cases h1; exact .next rfl (ih a' h2)
  | label _ ih =>
    intro a e S x t H fin a' hh
    cases hh with
    | halt h1 => cases h1
    | uncaught h1 => cases h1
    | next h1 h2 => cases h1; exact .next rfl (ih a' h2)
  | branch hl _ ih =>
    intro a e S x t H fin a' hh
    cases hh with
    | halt h1 => simp only [step, jump, hl] at h1; cases h1
    | uncaught h1 => simp only [step, jump, hl] at h1; cases h1
    | next h1 h2 =>
      simp only [step, jump, hl] at h1
      cases h1
      exact .next (by simp only [step, jump, hl]) (ih a' h2)

/-- A label whose code does not look at the accumulator. -/
def LabIrr (L : Nat → Option Code) (l : Nat) : Prop := ∃ c, L l = some c ∧ AccIrr L c

theorem labelCode_irr {L C k} (hl : LOk L (labelCode C k).2.1) (hi : AccIrr L C) :
    LabIrr L (labelCode C k).1 := by
  unfold labelCode at hl ⊢
  split at hl
  · cases hi with
    | branch h1 h2 => exact ⟨_, h1, h2⟩
  · cases hi with
    | label h1 => exact ⟨_, hl.label, h1⟩
  · exact ⟨_, hl.label, hi⟩

theorem labelCode_accIrr {L C k} (hi : AccIrr L C) : AccIrr L (labelCode C k).2.1 := by
  unfold labelCode
  split
  · exact hi
  · exact hi
  · exact .label hi

/-! ## Lifted terms -/

/-- The primitives of the source and their numbers of arguments. -/
def primOk : Prim → Nat → Bool
  | .makeblock _ _, n => decide (0 < n)
  | .field _, n => n == 1
  | .raise, n => n == 1
  | .not, n => n == 1
  | .identity, n => n == 1
  | .test _, n => n == 2
  | .arith _, n => n == 2
  | _, _ => false

/-- `Lifts T m fv d sf e e'`: the term `e`, in the body of a function with free
variables `fv`, under `d` variables of this function and `m` others, is lifted
to `e'`; the functions in it are in `T`. -/
inductive Lifts (T : List Func) : Nat → List Int → Nat → Bool → Lam → Lam → Prop
  | var {m fv d sf} {n : Nat} : n < m + d → (d ≤ n → ((d : Int) - n - 1) ∈ fv) →
      Lifts T m fv d sf (.var n) (.var ((d : Int) - n - 1))
  | const {m fv d sf c} : Lifts T m fv d sf (.const c) (.const c)
  | fn {m fv d sf b f} : f ∈ T → f.nargs = nest b + 1 →
      Lifts T (m + d) f.fv f.nargs false (strip b) f.body →
      (∀ id ∈ f.fv, id < 0 ∧ -((m + d : Nat) : Int) ≤ id) → f.fv.Pairwise (· > ·) →
      (∀ id ∈ f.fv, (d : Int) + id < 0 → (d : Int) + id ∈ fv) →
      Lifts T m fv d sf (.fn b)
        (.prim (.closure f.lbl f.fv.length) (f.fv.map fun id => .var ((d : Int) + id)))
  | apply {m fv d sf f f' args args'} : args ≠ [] → Lifts T m fv d sf f f' →
      args'.length = args.length →
      (∀ (i : Nat) e e', args[i]? = some e → args'[i]? = some e' → Lifts T m fv d sf e e') →
      Lifts T m fv d sf (.apply f args) (.apply f' args')
  | lett {m fv d sf args args' body body'} : idOf (.lett args body) = none →
      args'.length = args.length →
      (∀ (i : Nat) e e', args[i]? = some e → args'[i]? = some e' → Lifts T m fv (d + i) sf e e') →
      Lifts T m fv (d + args.length) sf body body' →
      Lifts T m fv d sf (.lett args body) (.lett args' body')
  | lett1 {m fv d sf p arg arg'} : primOk p 1 = true → Lifts T m fv d sf arg arg' →
      Lifts T m fv d sf (.lett [arg] (.prim p [.var 0])) (.prim p [arg'])
  | letrec {m fv d sf fs fs' body body'} : fs ≠ [] → fs'.length = fs.length →
      (∀ e ∈ fs, isFn e = true) →
      (∀ (i : Nat) e e', fs[i]? = some e → fs'[i]? = some e' →
        Lifts T m fv (d + fs.length) false e e') →
      Lifts T m fv (d + fs.length) sf body body' →
      Lifts T m fv d sf (.letrec fs body) (.letrec fs' body')
  | prim {m fv d sf p args args'} : primOk p args.length = true → args'.length = args.length →
      (∀ (i : Nat) e e', args[i]? = some e → args'[i]? = some e' → Lifts T m fv d sf e e') →
      Lifts T m fv d sf (.prim p args) (.prim p args')
  | staticfail {m fv d} : Lifts T m fv d true .staticfail .staticfail
  | statichandle {m fv d sf a a' b b'} : Lifts T m fv d true a a' → Lifts T m fv d sf b b' →
      Lifts T m fv d sf (.statichandle a b) (.statichandle a' b')
  | handle {m fv d sf a a' b b'} : Lifts T m fv d false a a' → Lifts T m fv (d + 1) sf b b' →
      Lifts T m fv d sf (.handle a b) (.handle a' b')
  | cond {m fv d sf c c' a a' b b'} : Lifts T m fv d sf c c' → Lifts T m fv d sf a a' →
      Lifts T m fv d sf b b' → Lifts T m fv d sf (.cond c a b) (.cond c' a' b')
  | seq {m fv d sf a a' b b'} : Lifts T m fv d sf a a' →
      Lifts T m fv d sf b b' → Lifts T m fv d sf (.seq a b) (.seq a' b')
  | andalso {m fv d sf a a' b b'} : Lifts T m fv d sf a a' →
      Lifts T m fv d sf b b' → Lifts T m fv d sf (.andalso a b) (.andalso a' b')
  | orelse {m fv d sf a a' b b'} : Lifts T m fv d sf a a' →
      Lifts T m fv d sf b b' → Lifts T m fv d sf (.orelse a b) (.orelse a' b')

/-- Where static failure goes, no matter what is in the accumulator. -/
def SfIrr (L : Nat → Option Code) (sf : Sf) : Prop :=
  ∀ l tsz, sf = some (l, tsz) → LabIrr L l

theorem addPop_branch (n l C) :
    addPop n (.branch l :: C) = if n = 0 then .branch l :: C else .pop n :: .branch l :: C := by
  simp only [addPop]

theorem irr_RL {L} (es : List Lam) (hne : es ≠ [])
    (h : ∀ e ∈ es, ∀ ce sf sz dp C k, SfIrr L sf → LOk L (compexp ce sf sz dp e C k).1 →
      AccIrr L (compexp ce sf sz dp e C k).1) :
    ∀ ce sf sz dp C k, SfIrr L sf → LOk L (compRL ce sf sz dp es C k).1 →
      AccIrr L (compRL ce sf sz dp es C k).1 := by
  induction es with
  | nil => exact absurd rfl hne
  | cons e es ih =>
    intro ce sf sz dp C k hsf hl
    cases es with
    | nil => simp only [compRL] at hl ⊢; exact h e (by simp) _ _ _ _ _ _ hsf hl
    | cons e2 es =>
      rw [compRL.eq_3 _ _ _ _ _ _ _ _ (by simp)] at hl ⊢
      exact ih (by simp) (fun e he => h e (by simp [he])) _ _ _ _ _ _ hsf hl

theorem irr_LR {L} (es : List Lam) (hne : es ≠ [])
    (h : ∀ e ∈ es, ∀ ce sf sz dp C k, SfIrr L sf → LOk L (compexp ce sf sz dp e C k).1 →
      AccIrr L (compexp ce sf sz dp e C k).1) :
    ∀ ce sf sz dp C k, SfIrr L sf → LOk L (compLR ce sf sz dp es C k).1 →
      AccIrr L (compLR ce sf sz dp es C k).1 := by
  intro ce sf sz dp C k hsf hl
  cases es with
  | nil => exact absurd rfl hne
  | cons e es =>
    cases es with
    | nil => simp only [compLR] at hl ⊢; exact h e (by simp) _ _ _ _ _ _ hsf hl
    | cons e2 es =>
      rw [compLR.eq_3 _ _ _ _ _ _ _ _ (by simp)] at hl ⊢
      exact h e (by simp) _ _ _ _ _ _ hsf hl

theorem irr_var {L ce sz n C} : AccIrr L (findEnv ce sz n :: C) := by
  unfold findEnv
  split
  · generalize ce.fv = fv
    generalize 0 = i
    induction fv generalizing i with
    | nil => exact .fatal
    | cons x r ih => simp only [findFv]; split; exact .envacc; exact ih _
  · split
    · exact .fatal
    · exact .access

theorem irr_vars {L} (ids : List Int) (hne : ids ≠ []) : ∀ ce sf sz dp C k,
    AccIrr L (compRL ce sf sz dp (ids.map .var) C k).1 := by
  induction ids with
  | nil => exact absurd rfl hne
  | cons id ids ih =>
    intro ce sf sz dp C k
    cases ids with
    | nil => simp only [List.map, compRL, compexp]; exact irr_var
    | cons id2 ids =>
      simp only [List.map]
      rw [compRL.eq_3 _ _ _ _ _ _ _ _ (by simp)]
      exact ih (by simp) _ _ _ _ _ _

theorem irr_vars' {L} (g : Int → Int) (ids : List Int) (hne : ids ≠ []) : ∀ ce sf sz dp C k,
    AccIrr L (compRL ce sf sz dp (ids.map fun id => .var (g id)) C k).1 := by
  have := irr_vars (L := L) (ids.map g) (by simpa using hne)
  simpa only [List.map_map, Function.comp_def] using this

theorem primOk_pos {p n} (h : primOk p n = true) : 0 < n := by
  cases p <;> simp [primOk] at h <;> omega

theorem mem_of_lists {T m fv d sf} {args args' : List Lam} (hlen : args'.length = args.length)
    (h : ∀ (i : Nat) e e', args[i]? = some e → args'[i]? = some e' → Lifts T m fv d sf e e') :
    ∀ e' ∈ args', ∃ e, Lifts T m fv d sf e e' := by
  intro e' he
  obtain ⟨i, hi, rfl⟩ := List.mem_iff_getElem.mp he
  have hi' : i < args.length := by omega
  exact ⟨args[i], h i _ _ (by simp [hi']) (by simp [hi])⟩

theorem irr_dummies {L} {fs' : List Lam} (hne : fs' ≠ []) (C : Code) : AccIrr L (dummies fs' C) := by
  cases fs' with
  | nil => exact absurd rfl hne
  | cons e fs' =>
    unfold dummies
    split
    · rename_i heq; cases heq
    · exact .dummy
    · exact .fatal

theorem irr_prim {L p} (args' : List Lam) (hp : primOk p args'.length = true)
    (h : ∀ e ∈ args', ∀ ce sf sz dp C k, SfIrr L sf → LOk L (compexp ce sf sz dp e C k).1 →
      AccIrr L (compexp ce sf sz dp e C k).1) :
    ∀ ce sf sz dp C k, SfIrr L sf → LOk L (compexp ce sf sz dp (.prim p args') C k).1 →
      AccIrr L (compexp ce sf sz dp (.prim p args') C k).1 := by
  intro ce sf sz dp C k hsf hl
  have hne : args' ≠ [] := by
    intro hh; subst hh; have := primOk_pos hp; simp at this
  have hLR := irr_LR args' hne h
  rw [compexp.eq_def] at hl ⊢
  dsimp only at hl ⊢
  split at hl
  · exact h _ (by simp) _ _ _ _ _ _ hsf hl
  · exact h _ (by simp) _ _ _ _ _ _ hsf hl
  · exact hLR _ _ _ _ _ _ hsf hl
  · exact hLR _ _ _ _ _ _ hsf hl
  · split at hl
    · exact h _ (by simp) _ _ _ _ _ _ hsf hl
    · exact h _ (by simp) _ _ _ _ _ _ hsf hl
    · exact h _ (by simp) _ _ _ _ _ _ hsf hl
  · split at hl
    · exact hLR _ _ _ _ _ _ hsf hl
    · exact hLR _ _ _ _ _ _ hsf hl
    · exact hLR _ _ _ _ _ _ hsf hl
  · exact hLR _ _ _ _ _ _ hsf hl
  · simp [primOk] at hp
  · exact hLR _ _ _ _ _ _ hsf hl
  · exact hLR _ _ _ _ _ _ hsf hl

/-- The code of a term does not look at the accumulator it starts with. -/
theorem irr_comp {L T} : ∀ N m fv d sfb e e', sizeOf e' < N → Lifts T m fv d sfb e e' →
    ∀ ce sf sz dp C k, SfIrr L sf → LOk L (compexp ce sf sz dp e' C k).1 →
      AccIrr L (compexp ce sf sz dp e' C k).1 := by
  intro N
  induction N with
  | zero => intro m fv d sfb e e' h; omega
  | succ N ih =>
    intro m fv d sfb e e' he hL ce sf sz dp C k hsf hl
    have mem : ∀ {m fv d sfb} {args args' : List Lam}, sizeOf args' < N → args'.length = args.length →
        (∀ (i : Nat) e e', args[i]? = some e → args'[i]? = some e' → Lifts T m fv d sfb e e') →
        ∀ e ∈ args', ∀ ce sf sz dp C k, SfIrr L sf → LOk L (compexp ce sf sz dp e C k).1 →
          AccIrr L (compexp ce sf sz dp e C k).1 := by
      intro m fv d sfb args args' hs hlen h e' he'
      obtain ⟨e, hle⟩ := mem_of_lists hlen h e' he'
      have := List.sizeOf_lt_of_mem he'
      exact ih _ _ _ _ e e' (by omega) hle
    cases hL with
    | var _ _ => exact irr_var
    | const =>
      simp only [compexp, quoteOr]
      split
      · exact .quote
      · exact .access
      · exact .envacc
      · exact .quote
    | @fn _ _ _ _ b f hf _ _ _ _ _ =>
      rw [compexp.eq_def] at hl ⊢
      dsimp only
      rcases Classical.em (f.fv = []) with hh | hh
      · rw [hh]
        simp only [List.length_nil, List.map_nil, compRL]
        exact .closure
      · have := irr_vars (L := L) (f.fv.map fun id => (d : Int) + id) (by simpa using hh)
        simp only [List.map_map] at this
        exact this _ _ _ _ _ _
    | @apply _ _ _ _ f f' args args' hne hf hlen hargs =>
      simp only [Lam.apply.sizeOf_spec] at he
      have hne' : args' ≠ [] := by intro hh; subst hh; simp at hlen; exact hne (by simpa using hlen.symm)
      have hRL := irr_RL args' hne' (mem (by omega) hlen hargs)
      simp only [compexp] at hl ⊢
      split at hl
      · rename_i hc
        rw [if_pos hc]
        exact hRL _ _ _ _ _ _ hsf hl
      · rename_i hc
        rw [if_neg hc]
        split at hl
        · rename_i hc
          rw [if_pos hc]
          exact hRL _ _ _ _ _ _ hsf hl
        · rename_i hc
          rw [if_neg hc]
          exact .pushRetaddr (hRL _ _ _ _ _ _ hsf hl.tail)
    | @lett _ _ _ _ args args' body body' _ hlen hargs hbody =>
      simp only [Lam.lett.sizeOf_spec] at he
      simp only [compexp] at hl ⊢
      cases args' with
      | nil =>
        simp only [compLets] at hl ⊢
        exact ih _ _ _ _ _ _ (by omega) hbody _ _ _ _ _ _ hsf hl
      | cons e' es' =>
        simp only [compLets] at hl ⊢
        cases args with
        | nil => simp at hlen
        | cons e es =>
          have h0 := hargs 0 e e' rfl rfl
          simp only [List.cons.sizeOf_spec] at he
          exact ih _ _ _ _ _ _ (by omega) h0 _ _ _ _ _ _ hsf hl
    | @lett1 _ _ _ _ p arg arg' hp harg =>
      simp only [Lam.prim.sizeOf_spec, List.cons.sizeOf_spec, List.nil.sizeOf_spec] at he
      refine irr_prim [arg'] hp ?_ _ _ _ _ _ _ hsf hl
      intro e' he'
      simp only [List.mem_singleton] at he'
      subst he'
      exact ih _ _ _ _ _ _ (by omega) harg
    | @letrec _ _ _ _ fs fs' body body' hne hlen hfn hfs hbody =>
      simp only [Lam.letrec.sizeOf_spec] at he
      simp only [compexp] at hl ⊢
      have hne' : fs' ≠ [] := by intro hh; subst hh; simp at hlen; exact hne (by simpa using hlen.symm)
      split at hl
      · rename_i hc
        rw [if_pos hc]
        clear hl
        generalize hfs0 : fs = fs0 at hlen hne hfs
        unfold compOne
        split
        · exact .closure
        · rename_i lbl csz n rest
          cases fs0 with
          | nil => simp at hlen
          | cons e es =>
            have h0 := hfs 0 e _ rfl rfl
            generalize heq : Lam.prim (Prim.closure lbl csz) (Lam.var n :: rest) = e0 at h0
            cases h0 with
            | var => cases heq
            | const => cases heq
            | apply => cases heq
            | lett => cases heq
            | lett1 hp _ => cases heq; simp [primOk] at hp
            | letrec => cases heq
            | prim hp _ _ => cases heq; simp [primOk] at hp
            | handle => cases heq
            | statichandle => cases heq
            | cond => cases heq
            | seq => cases heq
            | andalso => cases heq
            | orelse => cases heq
            | @fn _ _ d2 _ b f hf _ _ _ _ _ =>
              simp only [Lam.prim.injEq, Prim.closure.injEq] at heq
              obtain ⟨⟨rfl, rfl⟩, hv⟩ := heq
              cases hfv : f.fv with
              | nil => rw [hfv] at hv; cases hv
              | cons i0 is =>
                rw [hfv] at hv
                simp only [List.map_cons, List.cons.injEq, Lam.var.injEq] at hv
                obtain ⟨rfl, rfl⟩ := hv
                split
                · rcases Classical.em (is = []) with hh | hh
                  · subst hh
                    simp only [List.map_nil, compRL]
                    exact .closurerec (by simp)
                  · exact irr_vars' _ is hh _ _ _ _ _ _
                · exact irr_vars' _ (i0 :: is) (by simp) _ _ _ _ _ _
        · exact .fatal
      · rename_i hc
        rw [if_neg hc]
        exact irr_dummies hne' _
    | @prim _ _ _ _ p args args' hp hlen hargs =>
      simp only [Lam.prim.sizeOf_spec] at he
      exact irr_prim args' (by rw [hlen]; exact hp) (mem (by omega) hlen hargs) _ _ _ _ _ _ hsf hl
    | staticfail =>
      simp only [compexp] at hl ⊢
      split at hl
      · rename_i l tsz
        obtain ⟨c, hc, hi⟩ := hsf l tsz rfl
        dsimp only
        rw [addPop_branch]
        split
        · exact .branch hc hi
        · exact .pop (.branch hc hi)
      · exact .fatal
    | @statichandle _ _ _ _ a a' b b' ha hb =>
      simp only [Lam.statichandle.sizeOf_spec] at he
      simp only [compexp] at hl ⊢
      split at hl
      · rename_i hc
        rw [if_pos hc]
        exact ih _ _ _ _ _ _ (by omega) ha _ _ _ _ _ _ hsf hl
      · rename_i hc
        rw [if_neg hc]
        refine ih _ _ _ _ _ _ (by omega) ha _ _ _ _ _ _ ?_ hl
        intro l tsz heq
        cases heq
        have h1 := (hl.of_ext (ext_comp _ _ _ _ _ _ _)).tail
        have h2 := h1.of_ext (ext_discard _ 0)
        exact labelCode_irr h2 (ih _ _ _ _ _ _ (by omega) hb _ _ _ _ _ _ hsf
          (h2.of_ext (ext_labelCode _ _)))
    | @handle _ _ _ _ a a' b b' ha hb =>
      simp only [Lam.handle.sizeOf_spec] at he
      simp only [compexp] at hl ⊢
      exact .pushtrap (ih _ _ _ _ _ _ (by omega) ha _ _ _ _ _ _ hsf hl.tail)
    | @cond _ _ _ _ c c' a a' b b' hc ha hb =>
      simp only [Lam.cond.sizeOf_spec] at he
      have hc' := ih _ _ _ _ _ _ (by omega) hc
      simp only [compexp] at hl ⊢
      split at hl
      · exact hc' _ _ _ _ _ _ hsf hl
      · split at hl
        · exact hc' _ _ _ _ _ _ hsf hl
        · exact hc' _ _ _ _ _ _ hsf hl
    | @seq _ _ _ _ a a' b b' ha hb =>
      simp only [Lam.seq.sizeOf_spec] at he
      simp only [compexp] at hl ⊢
      exact ih _ _ _ _ _ _ (by omega) ha _ _ _ _ _ _ hsf hl
    | @andalso _ _ _ _ a a' b b' ha hb =>
      simp only [Lam.andalso.sizeOf_spec] at he
      have hc' := ih _ _ _ _ _ _ (by omega) ha
      simp only [compexp] at hl ⊢
      split at hl <;> exact hc' _ _ _ _ _ _ hsf hl
    | @orelse _ _ _ _ a a' b b' ha hb =>
      simp only [Lam.orelse.sizeOf_spec] at he
      have hc' := ih _ _ _ _ _ _ (by omega) ha
      simp only [compexp] at hl ⊢
      split at hl <;> exact hc' _ _ _ _ _ _ hsf hl

end Mosml.Zam
