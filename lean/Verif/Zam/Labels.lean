import Verif.Zam.Model
import Mathlib.Data.List.Nodup

/-!
# Labels

Each label stands at one place of the code, and what follows a label stays
there as code is put in front.
-/

namespace Mosml.Zam

/-- The labels that stand in the code. -/
def labels : Code → List Nat
  | [] => []
  | .label l :: C => l :: labels C
  | _ :: C => labels C

def isLabel : Instr → Bool
  | .label _ => true
  | _ => false

theorem labels_cons {i : Instr} (h : isLabel i = false) (C : Code) : labels (i :: C) = labels C := by
  cases i <;> first | rfl | cases h

/-- What follows a label in `C` follows it in `F`. -/
def Sub (C F : Code) : Prop :=
  ∀ l r, (Instr.label l :: r) <:+ C → (Instr.label l :: r) <:+ F

/-- `F` is `C` with code put in front that makes the counter go from `k` to
`k'`. -/
structure Ext (C : Code) (k : Nat) (F : Code) (k' : Nat) : Prop where
  le : k ≤ k'
  sub : Sub C F
  new : ∀ l ∈ labels F, l ∈ labels C ∨ (k < l ∧ l ≤ k')
  nodup : (labels C).Nodup → (∀ l ∈ labels C, l ≤ k) → (labels F).Nodup

theorem ext_refl (C k) : Ext C k C k :=
  ⟨le_refl _, fun _ _ h => h, fun _ h => .inl h, fun h _ => h⟩

theorem ext_trans {C k F k' G k''} (h : Ext C k F k') (h' : Ext F k' G k'') : Ext C k G k'' := by
  refine ⟨le_trans h.le h'.le, fun l r hr => h'.sub l r (h.sub l r hr), ?_, ?_⟩
  · intro l hl
    rcases h'.new l hl with h1 | h1
    · rcases h.new l h1 with h2 | h2
      · exact .inl h2
      · have := h'.le
        exact .inr ⟨h2.1, by omega⟩
    · have := h.le
      exact .inr ⟨by omega, h1.2⟩
  · intro hn hb
    refine h'.nodup (h.nodup hn hb) ?_
    intro l hl
    rcases h.new l hl with h2 | h2
    · exact le_trans (hb l h2) h.le
    · exact h2.2

theorem sub_cons (i : Instr) (C : Code) : Sub C (i :: C) :=
  fun _ _ h => h.trans (List.suffix_cons i C)

theorem ext_cons {C k F k'} {i : Instr} (hi : isLabel i = false) (h : Ext C k F k') :
    Ext C k (i :: F) k' := by
  refine ⟨h.le, fun l r hr => sub_cons i F l r (h.sub l r hr), ?_, ?_⟩
  · rw [labels_cons hi]; exact h.new
  · rw [labels_cons hi]; exact h.nodup

theorem ext_label {C k F k'} (h : Ext C k F k') : Ext C k (.label (k' + 1) :: F) (k' + 1) := by
  refine ⟨Nat.le_succ_of_le h.le, fun l r hr => sub_cons _ F l r (h.sub l r hr), ?_, ?_⟩
  · intro l hl
    simp only [labels, List.mem_cons] at hl
    rcases hl with rfl | hl
    · exact .inr ⟨Nat.lt_succ_of_le h.le, le_refl _⟩
    · rcases h.new l hl with h1 | h1
      · exact .inl h1
      · exact .inr ⟨h1.1, Nat.le_succ_of_le h1.2⟩
  · intro hn hb
    simp only [labels]
    refine List.nodup_cons.mpr ⟨?_, h.nodup hn hb⟩
    intro hl
    rcases h.new _ hl with h1 | h1
    · have := hb _ h1; have := h.le; omega
    · omega

theorem ext_reserved {C k F k'} (h : Ext C (k + 1) F k') : Ext C k (.label (k + 1) :: F) k' := by
  have hle := h.le
  refine ⟨by omega, fun l r hr => sub_cons _ F l r (h.sub l r hr), ?_, ?_⟩
  · intro l hl
    simp only [labels, List.mem_cons] at hl
    rcases hl with rfl | hl
    · exact .inr ⟨by omega, hle⟩
    · rcases h.new l hl with h1 | h1
      · exact .inl h1
      · exact .inr ⟨by omega, h1.2⟩
  · intro hn hb
    simp only [labels]
    refine List.nodup_cons.mpr ⟨?_, h.nodup hn (fun l hl => Nat.le_succ_of_le (hb l hl))⟩
    intro hl
    rcases h.new _ hl with h1 | h1
    · have := hb _ h1; omega
    · omega

theorem ext_same {C F : Code} {k} (hs : Sub C F) (hl : labels F = labels C) : Ext C k F k :=
  ⟨le_refl _, hs, fun _ h => .inl (hl ▸ h), fun h _ => hl ▸ h⟩

theorem sub_of_suffix_cons {i : Instr} {C F : Code} (hi : isLabel i = false) (h : Sub C F) :
    Sub (i :: C) F := by
  intro l r hr
  rcases List.suffix_cons_iff.mp hr with h1 | h1
  · cases h1; cases hi
  · exact h l r h1

theorem sub_trans {A B C : Code} (h : Sub A B) (h' : Sub B C) : Sub A C :=
  fun l r hr => h' l r (h l r hr)

theorem sub_refl (C : Code) : Sub C C := fun _ _ h => h

theorem discard_eq (i : Instr) (C : Code) :
    discard (i :: C) = (i :: C) ∨ (isLabel i = false ∧ discard (i :: C) = discard C) := by
  cases i <;> first | exact .inl rfl | exact .inr ⟨rfl, rfl⟩

theorem discard_sub : ∀ C, Sub C (discard C) ∧ labels (discard C) = labels C := by
  intro C
  induction C with
  | nil => exact ⟨sub_refl _, rfl⟩
  | cons i C ih =>
    rcases discard_eq i C with h | ⟨h1, h2⟩
    · rw [h]; exact ⟨sub_refl _, rfl⟩
    · rw [h2, labels_cons h1]
      exact ⟨sub_of_suffix_cons h1 ih.1, ih.2⟩

theorem ext_discard (C k) : Ext C k (discard C) k :=
  ext_same (discard_sub C).1 (discard_sub C).2

/-- How `addPop` goes. -/
theorem addPop_sub : ∀ C n, Sub C (addPop n C) ∧ labels (addPop n C) = labels C := by
  intro C
  induction C with
  | nil =>
    intro n
    simp only [addPop]
    split
    · exact ⟨sub_refl _, rfl⟩
    · exact ⟨sub_cons _ _, rfl⟩
  | cons i C ih =>
    intro n
    unfold addPop
    split
    · rename_i m C' heq
      cases heq
      split
      · exact ⟨sub_refl _, rfl⟩
      · have := ih (n + m)
        exact ⟨sub_of_suffix_cons rfl this.1, this.2⟩
    · rename_i m C' heq
      cases heq
      split
      · exact ⟨sub_refl _, rfl⟩
      · exact ⟨sub_of_suffix_cons rfl (sub_cons _ _), rfl⟩
    · rename_i l m C' heq
      cases heq
      split
      · exact ⟨sub_refl _, rfl⟩
      · exact ⟨sub_cons _ _, rfl⟩
    · rename_i C' heq
      cases heq
      exact ⟨sub_refl _, rfl⟩
    · split
      · exact ⟨sub_refl _, rfl⟩
      · exact ⟨sub_cons _ _, rfl⟩

theorem ext_addPop (C n k) : Ext C k (addPop n C) k :=
  ext_same (addPop_sub C n).1 (addPop_sub C n).2

theorem ext_labelCode (C k) : Ext C k (labelCode C k).2.1 (labelCode C k).2.2 := by
  unfold labelCode
  split
  · exact ext_refl _ _
  · exact ext_refl _ _
  · exact ext_label (ext_refl _ _)

theorem ext_makeBranch (C k) : Ext C k (makeBranch C k).2.1 (makeBranch C k).2.2 := by
  unfold makeBranch
  split
  · exact ext_refl _ _
  · exact ext_refl _ _
  · exact ext_refl _ _
  · exact ext_refl _ _
  · exact ext_refl _ _
  · exact ext_label (ext_refl _ _)

theorem makeBranch_instr (C k) : isLabel (makeBranch C k).1 = false := by
  unfold makeBranch
  split <;> rfl

theorem findFv_instr (n i fv) : isLabel (findFv n i fv) = false := by
  induction fv generalizing i with
  | nil => rfl
  | cons x r ih => simp only [findFv]; split; rfl; exact ih _

theorem findEnv_instr (env sz n) : isLabel (findEnv env sz n) = false := by
  unfold findEnv
  split
  · exact findFv_instr _ _ _
  · split <;> rfl

theorem ext_quoteOr (c C k) : Ext C k (quoteOr c C) k := by
  unfold quoteOr
  split
  · exact ext_refl _ _
  · exact ext_refl _ _
  · exact ext_refl _ _
  · exact ext_cons rfl (ext_refl _ _)

theorem ext_dummies (es : List Lam) : ∀ C k, Ext C k (dummies es C) k := by
  induction es with
  | nil => intro C k; exact ext_refl _ _
  | cons e es ih =>
    intro C k
    unfold dummies
    split
    · rename_i heq; cases heq
    · rename_i heq; cases heq; exact ext_cons rfl (ext_cons rfl (ih _ _))
    · exact ext_cons rfl (ext_refl _ _)

/-- The property that is proved for all of the functions of the generator. -/
abbrev Good (g : Code → Nat → Code × Nat) : Prop := ∀ C k, Ext C k (g C k).1 (g C k).2

theorem ext_RL (es : List Lam)
    (h : ∀ e ∈ es, ∀ env sf sz dp, Good (compexp env sf sz dp e)) :
    ∀ env sf sz dp, Good (compRL env sf sz dp es) := by
  induction es with
  | nil => intro env sf sz dp C k; simp only [compRL]; exact ext_refl _ _
  | cons e es ih =>
    intro env sf sz dp C k
    cases es with
    | nil => simp only [compRL]; exact h e (by simp) env sf sz dp C k
    | cons e2 es =>
      rw [compRL.eq_3 _ _ _ _ _ _ _ _ (by simp)]
      exact ext_trans (ext_cons rfl (h e (by simp) env sf sz dp C k))
        (ih (fun e he => h e (by simp [he])) env sf (sz - 1) dp _ _)

theorem ext_LR (es : List Lam)
    (h : ∀ e ∈ es, ∀ env sf sz dp, Good (compexp env sf sz dp e)) :
    ∀ env sf sz dp, Good (compLR env sf sz dp es) := by
  induction es with
  | nil => intro env sf sz dp C k; simp only [compLR]; exact ext_refl _ _
  | cons e es ih =>
    intro env sf sz dp C k
    cases es with
    | nil => simp only [compLR]; exact h e (by simp) env sf sz dp C k
    | cons e2 es =>
      rw [compLR.eq_3 _ _ _ _ _ _ _ _ (by simp)]
      exact ext_trans (ext_cons rfl (ih (fun e he => h e (by simp [he])) env sf (sz + 1) dp C k))
        (h e (by simp) env sf sz dp _ _)

theorem ext_Lets (es : List Lam)
    (h : ∀ e ∈ es, ∀ env sf sz dp, Good (compexp env sf sz dp e)) :
    ∀ env sf sz dp, Good (compLets env sf sz dp es) := by
  induction es with
  | nil => intro env sf sz dp C k; simp only [compLets]; exact ext_refl _ _
  | cons e es ih =>
    intro env sf sz dp C k
    simp only [compLets]
    exact ext_trans (ext_cons rfl (ih (fun e he => h e (by simp [he])) _ sf (sz + 1) (dp + 1) C k))
      (h e (by simp) env sf sz dp _ _)

theorem ext_Recs (es : List Lam)
    (h : ∀ p fre, .prim p fre ∈ es → ∀ e ∈ fre, ∀ env sf sz dp, Good (compexp env sf sz dp e)) :
    ∀ env sf sz dp i, Good (compRecs env sf sz dp i es) := by
  induction es with
  | nil => intro env sf sz dp i C k; simp only [compRecs]; exact ext_refl _ _
  | cons e es ih =>
    intro env sf sz dp i C k
    unfold compRecs
    split
    · rename_i heq; cases heq
    · rename_i lbl csz fre es' heq
      cases heq
      exact ext_trans
        (ext_cons rfl (ext_cons rfl (ext_cons rfl (ext_cons rfl
          (ih (fun p fre hp => h p fre (by simp [hp])) env sf sz dp (i - 1) _ _)))))
        (ext_RL fre (h (.closure lbl csz) fre (by simp)) _ _ _ _ _ _)
    · exact ext_cons rfl (ext_refl _ _)

theorem ext_One (es : List Lam)
    (h : ∀ p fre, .prim p fre ∈ es → ∀ e ∈ fre, ∀ env sf sz dp, Good (compexp env sf sz dp e)) :
    ∀ env sf sz dp, Good (compOne env sf sz dp es) := by
  intro env sf sz dp C k
  unfold compOne
  split
  · exact ext_cons rfl (ext_cons rfl (ext_refl _ _))
  · rename_i lbl csz n rest
    have h1 := h (.closure lbl csz) (.var n :: rest) (by simp)
    split
    · exact ext_trans (ext_cons rfl (ext_cons rfl (ext_refl _ _)))
        (ext_RL rest (fun e he => h1 e (by simp [he])) _ _ _ _ _ _)
    · exact ext_trans (ext_cons rfl (ext_cons rfl (ext_refl _ _))) (ext_RL _ h1 _ _ _ _ _ _)
  · exact ext_cons rfl (ext_refl _ _)

theorem sizeOf_prim_mem {p : Prim} {fre : List Lam} {e : Lam} (h : e ∈ fre) :
    sizeOf e < sizeOf (Lam.prim p fre) := by
  have := List.sizeOf_lt_of_mem h
  simp only [Lam.prim.sizeOf_spec]
  omega

theorem ext_compexp : ∀ N e, sizeOf e < N → ∀ env sf sz dp, Good (compexp env sf sz dp e) := by
  intro N
  induction N with
  | zero => intro e h; omega
  | succ N ih =>
    intro e he env sf sz dp C k
    have mem : ∀ es : List Lam, sizeOf es < N → ∀ e ∈ es, ∀ env sf sz dp,
        Good (compexp env sf sz dp e) := by
      intro es hes e hm
      have := List.sizeOf_lt_of_mem hm
      exact ih e (by omega)
    cases e with
    | var n => exact ext_cons (findEnv_instr _ _ _) (ext_refl _ _)
    | const c => exact ext_quoteOr _ _ _
    | fn b => simp only [compexp]; exact ext_cons rfl (ext_refl _ _)
    | apply f args =>
      simp only [Lam.apply.sizeOf_spec] at he
      have hf := ih f (by omega)
      have ha := ext_RL args (mem args (by omega))
      simp only [compexp]
      split
      · exact ext_trans (ext_discard C k) (ext_trans (ext_cons rfl (ext_refl _ _))
          (ext_trans (ext_cons rfl (hf _ _ _ _ _ _)) (ha _ _ _ _ _ _)))
      · split
        · exact ext_trans (ext_cons rfl (ext_refl _ _))
            (ext_trans (ext_cons rfl (hf _ _ _ _ _ _)) (ha _ _ _ _ _ _))
        · exact ext_cons rfl (ext_trans (ext_labelCode C k) (ext_trans (ext_cons rfl (ext_refl _ _))
            (ext_trans (ext_cons rfl (hf _ _ _ _ _ _)) (ha _ _ _ _ _ _))))
    | lett args body =>
      simp only [Lam.lett.sizeOf_spec] at he
      have hf := ih body (by omega)
      have ha := ext_Lets args (mem args (by omega))
      simp only [compexp]
      exact ext_trans (ext_addPop C _ k) (ext_trans (hf _ _ _ _ _ _) (ha _ _ _ _ _ _))
    | letrec args body =>
      simp only [Lam.letrec.sizeOf_spec] at he
      have hf := ih body (by omega)
      have hmem : ∀ p fre, .prim p fre ∈ args → ∀ e ∈ fre, ∀ env sf sz dp,
          Good (compexp env sf sz dp e) := by
        intro p fre hp e hm
        have h1 := List.sizeOf_lt_of_mem hp
        have h2 := sizeOf_prim_mem (p := p) hm
        exact ih e (by omega)
      simp only [compexp]
      refine ext_trans (ext_addPop C args.length k) (ext_trans
        (hf (bindMany env dp sz args.length) sf (sz + args.length) (dp + args.length) _ _) ?_)
      split
      · exact ext_One args hmem _ _ _ _ _ _
      · exact ext_trans (ext_Recs args hmem _ _ _ _ _ _ _) (ext_dummies _ _ _)
    | prim p args =>
      simp only [Lam.prim.sizeOf_spec] at he
      have hm := mem args (by omega)
      have hLR := ext_LR args hm
      have hRL := ext_RL args hm
      rw [compexp.eq_def]
      dsimp only
      split
      · exact ext_trans (ext_cons rfl (ext_refl _ _)) (hm _ (by simp) _ _ _ _ _ _)
      · exact ext_trans (ext_cons rfl (ext_refl _ _)) (hm _ (by simp) _ _ _ _ _ _)
      · exact ext_trans (ext_cons rfl (ext_refl _ _)) (hLR _ _ _ _ _ _)
      · exact ext_trans (ext_cons rfl (ext_refl _ _)) (hLR _ _ _ _ _ _)
      · split
        · refine ext_trans ?_ (hm _ (by simp) _ _ _ _ _ _)
          exact ext_same (sub_of_suffix_cons rfl (sub_cons _ _)) rfl
        · refine ext_trans ?_ (hm _ (by simp) _ _ _ _ _ _)
          exact ext_same (sub_of_suffix_cons rfl (sub_cons _ _)) rfl
        · exact ext_trans (ext_cons rfl (ext_refl _ _)) (hm _ (by simp) _ _ _ _ _ _)
      · split
        · refine ext_trans ?_ (hLR _ _ _ _ _ _)
          exact ext_same (sub_of_suffix_cons rfl (sub_cons _ _)) rfl
        · refine ext_trans ?_ (hLR _ _ _ _ _ _)
          exact ext_same (sub_of_suffix_cons rfl (sub_cons _ _)) rfl
        · exact ext_trans (ext_cons rfl (ext_refl _ _)) (hLR _ _ _ _ _ _)
      · exact ext_trans (ext_discard C k) (ext_trans (ext_cons rfl (ext_refl _ _)) (hLR _ _ _ _ _ _))
      · exact ext_trans (ext_cons rfl (ext_refl _ _)) (hRL _ _ _ _ _ _)
      · exact hLR _ _ _ _ _ _
      · exact ext_trans (ext_cons rfl (ext_refl _ _)) (hLR _ _ _ _ _ _)
    | staticfail =>
      simp only [compexp]
      split
      · exact ext_trans (ext_discard C k) (ext_trans (ext_cons rfl (ext_refl _ _)) (ext_addPop _ _ _))
      · exact ext_cons rfl (ext_refl _ _)
    | statichandle a b =>
      simp only [Lam.statichandle.sizeOf_spec] at he
      have ha := ih a (by omega)
      have hb := ih b (by omega)
      simp only [compexp]
      split
      · exact ha _ _ _ _ _ _
      · exact ext_trans (ext_makeBranch C k) (ext_trans (hb _ _ _ _ _ _)
          (ext_trans (ext_labelCode _ _) (ext_trans (ext_discard _ _)
            (ext_trans (ext_cons (makeBranch_instr C k) (ext_refl _ _)) (ha _ _ _ _ _ _)))))
    | handle a b =>
      simp only [Lam.handle.sizeOf_spec] at he
      have ha := ih a (by omega)
      have hb := ih b (by omega)
      simp only [compexp]
      refine ext_cons rfl (ext_trans (ext_makeBranch C k) (ext_trans ?_ (ha _ _ _ _ _ _)))
      refine ext_cons rfl (ext_cons (makeBranch_instr C k) (ext_reserved (ext_cons rfl ?_)))
      exact ext_trans (ext_addPop _ _ _) (hb _ _ _ _ _ _)
    | cond c a b =>
      simp only [Lam.cond.sizeOf_spec] at he
      have hc := ih c (by omega)
      have ha := ih a (by omega)
      have hb := ih b (by omega)
      simp only [compexp]
      split
      · exact ext_trans (ext_cons rfl (hb _ _ _ _ _ _)) (hc _ _ _ _ _ _)
      · split
        · exact ext_trans (ext_cons rfl (ha _ _ _ _ _ _)) (hc _ _ _ _ _ _)
        · refine ext_trans (ext_makeBranch C k) (ext_trans (hb _ _ _ _ _ _)
            (ext_trans (ext_labelCode _ _) (ext_trans (ext_discard _ _)
              (ext_trans (ext_cons (makeBranch_instr C k) (ext_refl _ _))
                (ext_trans (ext_cons rfl (ha _ _ _ _ _ _)) (hc _ _ _ _ _ _))))))
    | seq a b =>
      simp only [Lam.seq.sizeOf_spec] at he
      simp only [compexp]
      exact ext_trans (ih b (by omega) _ _ _ _ _ _) (ih a (by omega) _ _ _ _ _ _)
    | andalso a b =>
      simp only [Lam.andalso.sizeOf_spec] at he
      have ha := ih a (by omega)
      have hb := ih b (by omega)
      simp only [compexp]
      split
      · exact ext_trans (ext_cons rfl (hb _ _ _ _ _ _)) (ha _ _ _ _ _ _)
      · exact ext_trans (ext_cons rfl (hb _ _ _ _ _ _)) (ha _ _ _ _ _ _)
      · refine ext_trans ?_ (ext_trans (ext_cons rfl (hb _ _ _ _ _ _)) (ha _ _ _ _ _ _))
        exact ext_trans (ext_same (sub_of_suffix_cons rfl (sub_refl _)) rfl)
          (ext_cons rfl (ext_labelCode _ _))
      · exact ext_trans (ext_cons rfl (hb _ _ _ _ _ _)) (ha _ _ _ _ _ _)
      · exact ext_trans (ext_label (ext_refl _ _))
          (ext_trans (ext_cons rfl (hb _ _ _ _ _ _)) (ha _ _ _ _ _ _))
    | orelse a b =>
      simp only [Lam.orelse.sizeOf_spec] at he
      have ha := ih a (by omega)
      have hb := ih b (by omega)
      simp only [compexp]
      split
      · exact ext_trans (ext_cons rfl (hb _ _ _ _ _ _)) (ha _ _ _ _ _ _)
      · exact ext_trans (ext_cons rfl (hb _ _ _ _ _ _)) (ha _ _ _ _ _ _)
      · refine ext_trans ?_ (ext_trans (ext_cons rfl (hb _ _ _ _ _ _)) (ha _ _ _ _ _ _))
        exact ext_trans (ext_same (sub_of_suffix_cons rfl (sub_refl _)) rfl)
          (ext_cons rfl (ext_labelCode _ _))
      · exact ext_trans (ext_cons rfl (hb _ _ _ _ _ _)) (ha _ _ _ _ _ _)
      · exact ext_trans (ext_label (ext_refl _ _))
          (ext_trans (ext_cons rfl (hb _ _ _ _ _ _)) (ha _ _ _ _ _ _))

theorem ext_comp (env sf sz dp e) : Good (compexp env sf sz dp e) :=
  ext_compexp _ e (Nat.lt_succ_self _) env sf sz dp

theorem ext_compRL (env sf sz dp es) : Good (compRL env sf sz dp es) :=
  ext_RL es (fun e _ => fun env sf sz dp => ext_comp env sf sz dp e) env sf sz dp

theorem ext_compLR (env sf sz dp es) : Good (compLR env sf sz dp es) :=
  ext_LR es (fun e _ => fun env sf sz dp => ext_comp env sf sz dp e) env sf sz dp

theorem ext_compLets (env sf sz dp es) : Good (compLets env sf sz dp es) :=
  ext_Lets es (fun e _ => fun env sf sz dp => ext_comp env sf sz dp e) env sf sz dp

theorem ext_compRecs (env sf sz dp i es) : Good (compRecs env sf sz dp i es) :=
  ext_Recs es (fun _ _ _ e _ => fun env sf sz dp => ext_comp env sf sz dp e) env sf sz dp i

end Mosml.Zam
