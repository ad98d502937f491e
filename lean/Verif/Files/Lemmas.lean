import Verif.Files.Spec

namespace Mosml.Files

theorem takeWhile_all (p : Name) (h : Char.ofNat 0 ∉ p) : cString p = p := by
  unfold cString
  induction p with
  | nil => rfl
  | cons c cs ih =>
    have hc : c ≠ Char.ofNat 0 := fun e => h (by simp [e])
    rw [List.takeWhile_cons, if_pos (by simpa using hc), ih (fun e => h (List.mem_cons_of_mem _ e))]

theorem and_high (mode : Nat) : 0xA000 &&& mode = (10 &&& (mode / 4096 % 16)) * 4096 := by
  have e1 : (0xA000 : Nat) = 10 <<< 12 := by decide
  have e2 : mode / 4096 % 16 = (mode >>> 12) % 2 ^ 4 := by
    rw [Nat.shiftRight_eq_div_pow]; norm_num
  have e3 : (10 &&& (mode / 4096 % 16)) * 4096 = (10 &&& (mode / 4096 % 16)) <<< 12 := by
    rw [Nat.shiftLeft_eq]
  rw [e1, e3, e2]
  apply Nat.eq_of_testBit_eq
  intro i
  simp only [Nat.testBit_and, Nat.testBit_shiftLeft, Nat.testBit_mod_two_pow, Nat.testBit_shiftRight]
  by_cases hi : 12 ≤ i
  · have e : 12 + (i - 12) = i := by omega
    rw [e]
    simp only [ge_iff_le, hi, decide_true, Bool.true_and]
    by_cases h4 : i - 12 < 4
    · simp [h4]
    · have : Nat.testBit 10 (i - 12) = false := by
        apply Nat.testBit_lt_two_pow
        calc 10 < 2 ^ 4 := by decide
          _ ≤ 2 ^ (i - 12) := Nat.pow_le_pow_right (by decide) (by omega)
      simp [this]
  · simp [hi]

theorem roundMag_small (n : Nat) (h : n < 2 ^ 53) : RealConv.roundMag n = n := by
  unfold RealConv.roundMag; rw [if_pos h]

/-! ### Directory streams -/

theorem readLoop_visible (l : List Name) (hl : [] ∉ l) :
    readLoop l = match visible l with
      | [] => (.nothing, [])
      | e :: _ => (.name e, (readLoop l).2) := by
  induction l with
  | nil => rfl
  | cons e rest ih =>
    have hr : [] ∉ rest := fun h => hl (List.mem_cons_of_mem _ h)
    have he : e ≠ [] := fun h => hl (by simp [h])
    by_cases hv : e ≠ ['.', '.'] ∧ e ≠ ['.']
    · have : visible (e :: rest) = e :: visible rest := by
        unfold visible; rw [List.filter_cons, if_pos]; simpa using ⟨hv.2, hv.1⟩
      rw [this, readLoop, if_pos hv]; simp [mkOpt, he]
    · have : visible (e :: rest) = visible rest := by
        unfold visible; rw [List.filter_cons, if_neg]
        simp only [decide_eq_true_eq]; exact fun h => hv ⟨h.2, h.1⟩
      rw [this, readLoop, if_neg hv]; exact ih hr

theorem readLoop_rest (l : List Name) : visible (readLoop l).2 = (visible l).tail := by
  induction l with
  | nil => rfl
  | cons e rest ih =>
    by_cases hv : e ≠ ['.', '.'] ∧ e ≠ ['.']
    · have : visible (e :: rest) = e :: visible rest := by
        unfold visible; rw [List.filter_cons, if_pos]; simpa using ⟨hv.2, hv.1⟩
      rw [this, readLoop, if_pos hv]; rfl
    · have : visible (e :: rest) = visible rest := by
        unfold visible; rw [List.filter_cons, if_neg]
        simp only [decide_eq_true_eq]; exact fun h => hv ⟨h.2, h.1⟩
      rw [this, readLoop, if_neg hv]; exact ih

theorem readLoop_nonempty (l : List Name) (hl : [] ∉ l) : [] ∉ (readLoop l).2 := by
  induction l with
  | nil => exact hl
  | cons e rest ih =>
    have hr : [] ∉ rest := fun h => hl (List.mem_cons_of_mem _ h)
    rw [readLoop]; split
    · exact hr
    · exact ih hr

/-! ### Search path -/

theorem components_ne (p : Name) : components p ≠ [] := by
  cases p with
  | nil => simp [components]
  | cons c cs => unfold components; split <;> [simp; (split <;> simp)]

/-- splitting a path at its first colon -/
theorem components_split (d : Name) (hd : ':' ∉ d) (rest : Name) :
    components (d ++ ':' :: rest) = d :: components rest := by
  induction d with
  | nil => simp [components]
  | cons c cs ih =>
    have hc : c ≠ ':' := fun e => hd (by simp [e])
    rw [List.cons_append, components, if_neg hc, ih (fun h => hd (List.mem_cons_of_mem _ h))]

theorem components_last (d : Name) (hd : ':' ∉ d) : components d = [d] := by
  induction d with
  | nil => simp [components]
  | cons c cs ih =>
    have hc : c ≠ ':' := fun e => hd (by simp [e])
    rw [components, if_neg hc, ih (fun h => hd (List.mem_cons_of_mem _ h))]

theorem split_path (p : Name) : (':' ∉ p) ∨ ∃ d rest, ':' ∉ d ∧ p = d ++ ':' :: rest := by
  induction p with
  | nil => left; simp
  | cons c cs ih =>
    by_cases hc : c = ':'
    · right; exact ⟨[], cs, by simp, by simp [hc]⟩
    · rcases ih with h | ⟨d, rest, hd, e⟩
      · left; simp [h, Ne.symm hc]
      · right; exact ⟨c :: d, rest, by simp [hd, Ne.symm hc], by simp [e]⟩

theorem copyName_eq (n b : Name) (hb : b.length ≤ 512) :
    copyName n b = if b.length + n.length ≤ 512 then some (b ++ n) else none := by
  induction n generalizing b with
  | nil => simp [copyName, hb]
  | cons c cs ih =>
    rw [copyName, put]
    by_cases h : b.length < 512
    · rw [if_pos h]
      simp only []
      rw [ih (b ++ [c]) (by simp; omega)]
      simp only [List.length_append, List.length_cons, List.length_nil, List.append_assoc,
        List.cons_append, List.nil_append]
      by_cases h2 : b.length + (cs.length + 1) ≤ 512
      · rw [if_pos (by omega), if_pos h2]
      · rw [if_neg (by omega), if_neg h2]
    · rw [if_neg h, if_neg (by simp; omega)]

theorem copyDir_last (d b : Name) (hd : ':' ∉ d) (hb : b.length ≤ 512) :
    copyDir d b = if b.length + d.length ≤ 512 then some ([], b ++ d) else none := by
  induction d generalizing b with
  | nil => simp [copyDir, hb]
  | cons c cs ih =>
    have hc : c ≠ ':' := fun e => hd (by simp [e])
    have hcs : ':' ∉ cs := fun h => hd (List.mem_cons_of_mem _ h)
    rw [copyDir, if_pos hc, put]
    by_cases h : b.length < 512
    · rw [if_pos h]
      simp only []
      rw [ih (b ++ [c]) hcs (by simp; omega)]
      simp only [List.length_append, List.length_cons, List.length_nil, List.append_assoc,
        List.cons_append, List.nil_append]
      by_cases h2 : b.length + (cs.length + 1) ≤ 512
      · rw [if_pos (by omega), if_pos h2]
      · rw [if_neg (by omega), if_neg h2]
    · rw [if_neg h, if_neg (by simp; omega)]

theorem copyDir_split (d rest b : Name) (hd : ':' ∉ d) (hb : b.length ≤ 512) :
    copyDir (d ++ ':' :: rest) b =
      if b.length + d.length ≤ 512 then some (':' :: rest, b ++ d) else none := by
  induction d generalizing b with
  | nil => simp [copyDir, hb]
  | cons c cs ih =>
    have hc : c ≠ ':' := fun e => hd (by simp [e])
    have hcs : ':' ∉ cs := fun h => hd (List.mem_cons_of_mem _ h)
    rw [List.cons_append, copyDir, if_pos hc, put]
    by_cases h : b.length < 512
    · rw [if_pos h]
      simp only []
      rw [ih (b ++ [c]) hcs (by simp; omega)]
      simp only [List.length_append, List.length_cons, List.length_nil, List.append_assoc,
        List.cons_append, List.nil_append]
      by_cases h2 : b.length + (cs.length + 1) ≤ 512
      · rw [if_pos (by omega), if_pos h2]
      · rw [if_neg (by omega), if_neg h2]
    · rw [if_neg h, if_neg (by simp; omega)]

/-- what the loop does with the directory it has copied -/
theorem round_eq {α : Type} (name d : Name) (k : Name → α) (ov : α) :
    (match (if 0 + d.length ≤ 512 then some d else none : Option Name) with
      | none => ov
      | some b =>
        match (if b ≠ [] then put b '/' else some b) with
        | none => ov
        | some b1 =>
          match copyName name b1 with
          | none => ov
          | some full => if full.length < 512 then k full else ov) =
      if (inDir name d).length < 512 then k (inDir name d) else ov := by
  by_cases h0 : d = []
  · subst h0
    simp only [List.length_nil, Nat.add_zero, Nat.zero_le, if_true, ne_eq, not_true_eq_false, if_false]
    rw [copyName_eq name [] (by simp)]
    simp only [List.length_nil, Nat.zero_add, List.nil_append, inDir, if_true]
    by_cases h : name.length ≤ 512
    · rw [if_pos h]
    · rw [if_neg h, if_neg (by omega)]
  · have hlen : (inDir name d).length = d.length + 1 + name.length := by
      simp [inDir, h0]; omega
    by_cases h : 0 + d.length ≤ 512
    · rw [if_pos h]
      simp only []
      rw [if_pos h0, put]
      by_cases h1 : d.length < 512
      · rw [if_pos h1]
        simp only []
        rw [copyName_eq name _ (by simp; omega)]
        have e : d ++ ['/'] ++ name = inDir name d := by simp [inDir, h0]
        rw [e]
        by_cases h2 : (d ++ ['/']).length + name.length ≤ 512
        · rw [if_pos h2]
        · rw [if_neg h2, if_neg (by simp at h2; omega)]
      · rw [if_neg h1, if_neg (by omega)]
    · rw [if_neg h, if_neg (by omega)]

/-- the search over the list of candidates, with the limit of the buffer -/
def tryAll (acc : Name → Bool) : List Name → Found
  | [] => .null
  | f :: fs => if f.length < 512 then (if acc f then .file f else tryAll acc fs) else .overflow

theorem searchLoop_eq (acc : Name → Bool) (name : Name) (n : Nat) (path : Name) (h : path.length < n) :
    searchLoop acc name n path = tryAll acc (candidates path name) := by
  induction n generalizing path with
  | zero => omega
  | succ n ih =>
    rcases split_path path with hp | ⟨d, rest, hd, e⟩
    · have hr := round_eq name path (fun full => if acc full then Found.file full else .null) .overflow
      unfold candidates
      rw [components_last path hp, searchLoop, copyDir_last path [] hp (by simp)]
      simp only [List.length_nil, List.nil_append, List.map_cons, List.map_nil, tryAll]
      rw [← hr]
      by_cases hl : 0 + path.length ≤ 512
      · rw [if_pos hl, if_pos hl]; rfl
      · rw [if_neg hl, if_neg hl]
    · subst e
      have hr := round_eq name d
        (fun full => if acc full then Found.file full else searchLoop acc name n rest) .overflow
      have hlen : rest.length < n := by simp at h; omega
      unfold candidates
      rw [components_split d hd, searchLoop, copyDir_split d rest [] hd (by simp)]
      simp only [List.length_nil, List.nil_append, List.map_cons, tryAll]
      have := ih rest hlen
      unfold candidates at this
      rw [← this, ← hr]
      by_cases hl : 0 + d.length ≤ 512
      · rw [if_pos hl, if_pos hl]; rfl
      · rw [if_neg hl, if_neg hl]

theorem tryAll_fits (acc : Name → Bool) (l : List Name) (h : ∀ f ∈ l, f.length < 512) :
    tryAll acc l = firstExec acc l := by
  induction l with
  | nil => rfl
  | cons f fs ih =>
    rw [tryAll, if_pos (h f (by simp)), firstExec, List.find?_cons]
    cases hf : acc f with
    | true => rfl
    | false => exact ih (fun g hg => h g (List.mem_cons_of_mem _ hg))

theorem tryAll_overflow (acc : Name → Bool) (l : List Name) :
    tryAll acc l = .overflow ↔
      ∃ pre f post, l = pre ++ f :: post ∧ 512 ≤ f.length ∧ ∀ g ∈ pre, acc g = false ∧ g.length < 512 := by
  induction l with
  | nil => simp [tryAll]
  | cons f fs ih =>
    rw [tryAll]
    by_cases hl : f.length < 512
    · rw [if_pos hl]
      cases hf : acc f with
      | true =>
        simp only [if_true]
        constructor
        · intro h; cases h
        · rintro ⟨pre, g, post, e, hg, hp⟩
          cases pre with
          | nil => simp at e; rw [← e.1] at hg; omega
          | cons a as =>
            simp at e; have := (hp a (by simp)).1; rw [← e.1, hf] at this; cases this
      | false =>
        simp only [Bool.false_eq_true, if_false]
        rw [ih]
        constructor
        · rintro ⟨pre, g, post, e, hg, hp⟩
          refine ⟨f :: pre, g, post, by simp [e], hg, ?_⟩
          intro x hx
          rcases List.mem_cons.mp hx with rfl | hx
          · exact ⟨hf, hl⟩
          · exact hp x hx
        · rintro ⟨pre, g, post, e, hg, hp⟩
          cases pre with
          | nil => simp at e; rw [← e.1] at hg; omega
          | cons a as =>
            simp at e
            exact ⟨as, g, post, e.2, hg, fun x hx => hp x (List.mem_cons_of_mem _ hx)⟩
    · rw [if_neg hl]
      simp only [true_iff]
      exact ⟨[], f, fs, rfl, by omega, by simp⟩

end Mosml.Files
