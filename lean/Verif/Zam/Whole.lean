import Verif.Zam.Lift

/-!
# The labels of a phrase
-/

namespace Mosml.Zam

theorem findLabel_none {l : Nat} : ∀ {C : Code}, l ∉ labels C → findLabel l C = none := by
  intro C
  induction C with
  | nil => intro _; rfl
  | cons i C ih =>
    intro h
    cases i with
    | label m =>
      simp only [labels, List.mem_cons, not_or] at h
      simp only [findLabel]
      rw [if_neg (fun hh => h.1 hh.symm)]
      exact ih h.2
    | _ => exact ih h

theorem label_mem {l : Nat} {r : Code} : ∀ {C : Code}, (Instr.label l :: r) <:+ C → l ∈ labels C := by
  intro C
  induction C with
  | nil => intro h; simp at h
  | cons i C ih =>
    intro h
    rcases List.suffix_cons_iff.mp h with h | h
    · cases h; simp [labels]
    · have := ih h
      cases i <;> simp only [labels, List.mem_cons] <;> first | exact this | exact .inr this

theorem findLabel_suffix {l : Nat} {r : Code} : ∀ {C : Code}, (labels C).Nodup →
    (Instr.label l :: r) <:+ C → findLabel l C = some r := by
  intro C
  induction C with
  | nil => intro _ h; simp at h
  | cons i C ih =>
    intro hn h
    rcases List.suffix_cons_iff.mp h with h' | h'
    · cases h'; simp [findLabel]
    · have hm := label_mem h'
      cases i with
      | label m =>
        simp only [labels, List.nodup_cons] at hn
        simp only [findLabel]
        rw [if_neg (by intro hh; subst hh; exact hn.1 hm)]
        exact ih hn.2 h'
      | _ => exact ih hn h'

/-- The code of the functions compiled so far. -/
structure FInv (k0 : Nat) (ls : List Nat) (C : Code) (k : Nat) : Prop where
  le : k0 ≤ k
  nodup : (labels C).Nodup
  new : ∀ l ∈ labels C, l ∈ ls ∨ (k0 < l ∧ l ≤ k)

theorem funcBody_ext (f : Func) (C k) :
    Ext C k (compexp (iniEnv f.fv f.nargs) none f.nargs f.nargs f.body (.ret f.nargs :: discard C) k).1
      (compexp (iniEnv f.fv f.nargs) none f.nargs f.nargs f.body (.ret f.nargs :: discard C) k).2 :=
  ext_trans (ext_cons rfl (ext_discard C k)) (ext_comp _ _ _ _ _ _ _)

theorem compileFunc_sub (f : Func) (C k) :
    Sub (compexp (iniEnv f.fv f.nargs) none f.nargs f.nargs f.body (.ret f.nargs :: discard C) k).1
      (compileFunc f C k).1 := by
  simp only [compileFunc]
  split
  · exact sub_trans (sub_cons _ _) (sub_trans (sub_cons _ _) (sub_cons _ _))
  · exact sub_cons _ _

theorem compileFunc_inv {k0 ls C k} (h : FInv k0 ls C k) (f : Func) (hf : f.lbl ∉ ls) (hk : f.lbl ≤ k0)
    (hls : ∀ l ∈ ls, l ≤ k0) : FInv k0 (f.lbl :: ls) (compileFunc f C k).1 (compileFunc f C k).2 := by
  have he := funcBody_ext f C k
  have hb : ∀ l ∈ labels C, l ≤ k := by
    intro l hl
    have h0 := h.le
    rcases h.new l hl with h1 | h1
    · exact le_trans (hls l h1) h.le
    · exact h1.2
  have hn := he.nodup h.nodup hb
  have h0 := h.le
  have h1 := he.le
  have key : labels (compileFunc f C k).1 = f.lbl :: labels (compexp (iniEnv f.fv f.nargs) none f.nargs f.nargs
      f.body (.ret f.nargs :: discard C) k).1 := by
    simp only [compileFunc]
    split <;> simp only [labels]
  have new : ∀ l ∈ labels (compexp (iniEnv f.fv f.nargs) none f.nargs f.nargs
      f.body (.ret f.nargs :: discard C) k).1, l ∈ ls ∨ (k0 < l ∧ l ≤ (compileFunc f C k).2) := by
    intro l hl
    rcases he.new l hl with h2 | h2
    · rcases h.new l h2 with h3 | h3
      · exact .inl h3
      · exact .inr ⟨h3.1, le_trans h3.2 h1⟩
    · exact .inr ⟨by omega, h2.2⟩
  refine ⟨le_trans h0 h1, ?_, ?_⟩
  · rw [key, List.nodup_cons]
    refine ⟨?_, hn⟩
    intro hm
    rcases new _ hm with h2 | h2
    · exact hf h2
    · omega
  · rw [key]
    intro l hl
    simp only [List.mem_cons] at hl ⊢
    rcases hl with hl | hl
    · exact .inl (.inl hl)
    · rcases new l hl with h2 | h2
      · exact .inl (.inr h2)
      · exact .inr h2

theorem compileRest_sub : ∀ (fs : List Func) C k, Sub C (compileRest fs C k).1 := by
  intro fs
  induction fs with
  | nil => intro C k; exact sub_refl _
  | cons f fs ih =>
    intro C k
    simp only [compileRest]
    exact sub_trans (sub_trans (funcBody_ext f C k).sub (compileFunc_sub f C k)) (ih _ _)

theorem compileRest_inv {k0} : ∀ (fs : List Func) ls C k, FInv k0 ls C k → (fs.map Func.lbl).Nodup →
    (∀ f ∈ fs, f.lbl ∉ ls ∧ f.lbl ≤ k0) → (∀ l ∈ ls, l ≤ k0) →
    ∃ ls', (∀ l ∈ ls', l ∈ ls ∨ l ∈ fs.map Func.lbl) ∧ FInv k0 ls' (compileRest fs C k).1 (compileRest fs C k).2 := by
  intro fs
  induction fs with
  | nil => intro ls C k h _ _ h4; exact ⟨ls, fun _ h => .inl h, h⟩
  | cons f fs ih =>
    intro ls C k h hn hf hls
    simp only [compileRest]
    simp only [List.map_cons, List.nodup_cons] at hn
    obtain ⟨h1, h2⟩ := hf f (by simp)
    have hx := ih (f.lbl :: ls) _ _ (compileFunc_inv h f h1 h2 hls) hn.2 ?_ ?_
    · obtain ⟨ls', g1, g2⟩ := hx
      refine ⟨ls', ?_, g2⟩
      intro l hl
      have := g1 l hl
      simp only [List.mem_cons, List.map_cons] at this ⊢
      tauto
    · intro g hg
      obtain ⟨h3, h4⟩ := hf g (by simp [hg])
      refine ⟨?_, h4⟩
      simp only [List.mem_cons, not_or]
      refine ⟨?_, h3⟩
      intro heq
      exact hn.1 (heq ▸ List.mem_map_of_mem hg)
    · intro l hl
      simp only [List.mem_cons] at hl
      rcases hl with rfl | hl
      · exact h2
      · exact hls l hl

theorem compileRest_mem {f : Func} : ∀ (fs : List Func) C k, f ∈ fs →
    ∃ C' k', Sub (compileFunc f C' k').1 (compileRest fs C k).1 := by
  intro fs
  induction fs with
  | nil => intro C k h; simp at h
  | cons g fs ih =>
    intro C k h
    simp only [compileRest]
    simp only [List.mem_cons] at h
    rcases h with rfl | h
    · exact ⟨C, k, compileRest_sub _ _ _⟩
    · exact ih _ _ h

theorem compileFunc_label (f : Func) (C k) :
    (Instr.label f.lbl :: (if f.nargs > 1 then
        .grab (f.nargs - 1) :: (compexp (iniEnv f.fv f.nargs) none f.nargs f.nargs f.body
          (.ret f.nargs :: discard C) k).1
      else (compexp (iniEnv f.fv f.nargs) none f.nargs f.nargs f.body
          (.ret f.nargs :: discard C) k).1)) <:+ (compileFunc f C k).1 := by
  simp only [compileFunc]
  split
  · exact List.suffix_cons _ _
  · exact List.suffix_refl _

/-- A phrase is a program. -/
theorem phrase_ok (e : Lam) (hok : Ok 0 false e) :
    LOk (compileLambda e).labels (compileLambda e).inits ∧
      Prog (compileLambda e).labels (lft 0 false e { fv := [], lbl := 0, funs := [] }).2.funs ∧
      Lifts (lft 0 false e { fv := [], lbl := 0, funs := [] }).2.funs 0 [] 0 false e
        (lft 0 false e { fv := [], lbl := 0, funs := [] }).1 := by
  obtain ⟨h1, h2⟩ := lft_ok _ e (Nat.lt_succ_self _) 0 0 false hok { fv := [], lbl := 0, funs := [] }
  have hP : compileLambda e = { inits := _, funcs := _ } := rfl
  rw [hP]
  generalize lft 0 false e { fv := [], lbl := 0, funs := [] } = r at h1 h2 ⊢
  have hfv : r.2.fv = [] := by
    have := h1.ok ⟨.nil, by simp⟩
    cases hc : r.2.fv with
    | nil => rfl
    | cons a l =>
      have := this.neg a (by simp [hc])
      omega
  have he := ext_comp { fv := [], va := fun _ => none } none 0 0 r.1 [] r.2.lbl
  generalize compexp { fv := [], va := fun _ => none } none 0 0 r.1 [] r.2.lbl = c at he ⊢
  have hin : (labels c.1).Nodup := he.nodup (by simp [labels]) (by simp [labels])
  have hib : ∀ l ∈ labels c.1, r.2.lbl < l ∧ l ≤ c.2 := by
    intro l hl
    rcases he.new l hl with h | h
    · simp [labels] at h
    · exact h
  obtain ⟨new, n1, n2, n3, _⟩ := h1.funs
  simp only [List.append_nil] at n1
  subst n1
  have hle := he.le
  obtain ⟨ls, l1, l2⟩ := compileRest_inv (k0 := c.2) r.2.funs [] [] c.2
    ⟨Nat.le_refl _, by simp [labels], by simp [labels]⟩ n2
    (fun f hf => ⟨by simp, by have := (n3 f hf).2; omega⟩) (by simp)
  have hdis : ∀ l ∈ labels (compileRest r.2.funs [] c.2).1, l ∉ labels c.1 := by
    intro l hl hc
    have h3 := hib l hc
    rcases l2.new l hl with h4 | h4
    · rcases l1 l h4 with h5 | h5
      · simp at h5
      · simp only [List.mem_map] at h5
        obtain ⟨f, hf, rfl⟩ := h5
        have := (n3 f hf).2
        omega
    · omega
  have hLf : LOk (Phrase.labels { inits := c.1, funcs := (compileRest r.2.funs [] c.2).1 })
      (compileRest r.2.funs [] c.2).1 := by
    intro l x hx
    simp only [Phrase.labels]
    rw [findLabel_none (hdis l (label_mem hx))]
    exact findLabel_suffix l2.nodup hx
  refine ⟨?_, ?_, ?_⟩
  · intro l x hx
    simp only [Phrase.labels]
    rw [findLabel_suffix hin hx]
  · intro f hf
    obtain ⟨C', k', hs⟩ := compileRest_mem r.2.funs [] c.2 hf
    refine ⟨discard C', k', ?_, hLf.of_sub (sub_trans (compileFunc_sub f C' k') hs)⟩
    exact hLf _ _ (hs _ _ (compileFunc_label f C' k'))
  · exact h2 _ _ (fun _ h => h) (by simp [hfv])

/-- The outcome of a phrase. -/
def Outcome : Res → Fin → Prop
  | .val v, .value m => Agrees v m
  | .exn v, .uncaught m => Agrees v m
  | _, _ => False

theorem phrase_sim (e : Lam) (hok : Ok 0 false e) {n r} (he : eval n [] e = some r) :
    ∃ fin, Outcome r fin ∧ Halts (compileLambda e).labels (compileLambda e).start fin := by
  obtain ⟨h1, h2, h3⟩ := phrase_ok e hok
  obtain ⟨k, hk⟩ := eval_evalS he
  have := sim h2 k 0 [] 0 e _ [] [] r ⟨false, none, 0, munit, [], 0, 0⟩ h3 hk rfl
    { fv := [], va := fun _ => none } [] (lft 0 false e { fv := [], lbl := 0, funs := [] }).2.lbl [] [] munit
    _ rfl ?_ ?_ ?_ h1 (.ord rfl)
  · obtain ⟨W, h, _, _, _, hp⟩ := this
    cases r with
    | val v =>
      obtain ⟨w, hw, hh⟩ := hp
      exact ⟨.value w, hw.agrees, hh _ (.halt rfl)⟩
    | exn v =>
      obtain ⟨w, hw, hh⟩ := hp
      exact ⟨.uncaught w, hw.agrees, hh _ (.uncaught rfl)⟩
    | fail => exact absurd hp.1 (by simp)
  · refine ⟨⟨?_, ?_⟩, ⟨?_, ?_⟩, by simp⟩
    · intro i v hi; omega
    · intro id _ h; simp at h
    · intro l tsz h; cases h
    · intro h; cases h
  · exact ⟨rfl, by simp⟩
  · constructor <;> intro _ _ h <;> cases h

/-- The machine has at most one outcome. -/
theorem halts_det {L s a} (h : Halts L s a) : ∀ {b}, Halts L s b → a = b := by
  induction h with
  | halt h =>
    intro b hb
    cases hb with
    | halt h' => rw [h] at h'; cases h'; rfl
    | uncaught h' => rw [h] at h'; cases h'
    | next h' _ => rw [h] at h'; cases h'
  | uncaught h =>
    intro b hb
    cases hb with
    | halt h' => rw [h] at h'; cases h'
    | uncaught h' => rw [h] at h'; cases h'; rfl
    | next h' _ => rw [h] at h'; cases h'
  | next h _ ih =>
    intro b hb
    cases hb with
    | halt h' => rw [h] at h'; cases h'
    | uncaught h' => rw [h] at h'; cases h'
    | next h' hb => rw [h] at h'; cases h'; exact ih hb

end Mosml.Zam
