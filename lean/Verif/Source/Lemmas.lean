import Verif.Source.Rules

/-! # The rules String and Comment -/

namespace Mosml.Source

open Mosml.Lex (LongestFirst)

theorem esc_longest (r : Text) :
    LongestFirst stringRules (fun i => (92 :: r).getD i 0) (escCase r).1 (escCase r).2 := by
  have h0 : (92 :: r).getD 0 0 = 92 := rfl
  -- what each case asks for
  have hall : ∀ k n, ruleAt (92 :: r) k n → 1 ≤ n ∧
      (1 < n → (k = 1 ∧ n = 2 ∧ r.getD 0 0 ∈ simpleChars) ∨
        (k = 2 ∧ r.getD 0 0 ∈ gapChars ∧ ∃ m, n = m + 2 ∧ gapLen r.tail = some m) ∨
        (k = 3 ∧ n = 3 ∧ r.getD 0 0 = 94 ∧ 64 ≤ r.getD 1 0 ∧ r.getD 1 0 ≤ 95) ∨
        (k = 4 ∧ n = 4 ∧ r.getD 0 0 ∈ digits ∧ r.getD 1 0 ∈ digits ∧ r.getD 2 0 ∈ digits) ∨
        (k = 5 ∧ n = 6 ∧ r.getD 0 0 = 117 ∧ r.getD 1 0 ∈ hexDigits ∧ r.getD 2 0 ∈ hexDigits ∧
          r.getD 3 0 ∈ hexDigits ∧ r.getD 4 0 ∈ hexDigits)) := by
    intro k n h
    rcases k with _|_|_|_|_|_|_|_|_|_|_|k <;> simp only [ruleAt, List.getD_cons_succ,
      List.getD_cons_zero, List.tail_cons] at h
    · exact ⟨by omega, by omega⟩
    · exact ⟨by omega, fun _ => Or.inl ⟨rfl, h.1, h.2.2⟩⟩
    · obtain ⟨m, h1, _, h2, h3⟩ := h
      exact ⟨by omega, fun _ => Or.inr (Or.inl ⟨rfl, h2, m, h1, h3⟩)⟩
    · exact ⟨by omega, fun _ => Or.inr (Or.inr (Or.inl ⟨rfl, h.1, h.2.2⟩))⟩
    · exact ⟨by omega, fun _ => Or.inr (Or.inr (Or.inr (Or.inl ⟨rfl, h.1, h.2.2⟩)))⟩
    · exact ⟨by omega, fun _ => Or.inr (Or.inr (Or.inr (Or.inr ⟨rfl, h.1, h.2.2⟩)))⟩
    · exact ⟨by omega, by omega⟩
    · exact ⟨by omega, by omega⟩
    · exact ⟨by omega, by omega⟩
    · exact ⟨by omega, by omega⟩
    · exact ⟨by omega, by omega⟩
  have hone : (∀ k n, 1 < n → ¬ ruleAt (92 :: r) k n) →
      LongestFirst stringRules (fun i => (92 :: r).getD i 0) 6 1 := by
    intro h
    refine longest_of _ 6 1 ⟨rfl, rfl⟩ ?_ h
    intro k' hk hr
    rcases k' with _|_|_|_|_|_|k'
    · simp [ruleAt] at hr
    · simp [ruleAt] at hr
    · obtain ⟨m, h1, _⟩ := hr; omega
    · simp [ruleAt] at hr
    · simp [ruleAt] at hr
    · simp [ruleAt] at hr
    · omega
  have hlong : ∀ k n, 1 < n → ruleAt (92 :: r) k n → (∀ k' n', 1 < n' → ruleAt (92 :: r) k' n' →
      k' = k ∧ n' = n) → LongestFirst stringRules (fun i => (92 :: r).getD i 0) k n := by
    intro k n hn h hu
    refine longest_of _ k n h ?_ ?_
    · intro k' hk hr; have := hu k' n hn hr; omega
    · intro k' n' hn' hr; have := hu k' n' (by omega) hr; omega
  cases r with
  | nil =>
    refine hone ?_
    intro k n hn h
    rcases (hall k n h).2 hn with h | h | h | h | h <;> revert h <;>
      simp [mem_simple, mem_gap, mem_digits]
  | cons d r' =>
    simp only [List.getD_cons_succ, List.getD_cons_zero, List.tail_cons] at hall
    simp only [escCase]
    split <;> rename_i hs
    · rw [mem_simple] at hs
      refine hlong 1 2 (by omega) ⟨rfl, rfl, by simpa [mem_simple] using hs⟩ ?_
      intro k' n' hn' h
      rcases (hall k' n' h).2 hn' with h | h | h | h | h
      · exact ⟨h.1, h.2.1⟩
      · have := h.2.1; rw [mem_gap] at this; omega
      · omega
      · have := h.2.2.1; rw [mem_digits] at this; omega
      · omega
    · split <;> rename_i hg
      · have hg' := hg
        rw [mem_gap] at hg'
        split <;> rename_i hl
        · rename_i n
          refine hlong 2 (n + 2) (by omega) ⟨n, rfl, rfl, hg, hl⟩ ?_
          intro k' n' hn' h
          rcases (hall k' n' h).2 hn' with h | h | h | h | h
          · exact absurd h.2.2 hs
          · obtain ⟨h1, _, m, h2, h3⟩ := h
            rw [hl] at h3
            simp only [Option.some.injEq] at h3
            exact ⟨h1, by omega⟩
          · omega
          · have := h.2.2.1; rw [mem_digits] at this; omega
          · omega
        · refine hone ?_
          intro k' n' hn' h
          rcases (hall k' n' h).2 hn' with h | h | h | h | h
          · exact absurd h.2.2 hs
          · obtain ⟨_, _, m, _, h3⟩ := h
            rw [hl] at h3; simp at h3
          · omega
          · have := h.2.2.1; rw [mem_digits] at this; omega
          · omega
      · split <;> rename_i h94
        · split <;> rename_i hc
          · refine hlong 3 3 (by omega) ⟨rfl, rfl, h94, hc⟩ ?_
            intro k' n' hn' h
            rcases (hall k' n' h).2 hn' with h | h | h | h | h
            · exact absurd h.2.2 hs
            · exact absurd h.2.1 hg
            · exact ⟨h.1, h.2.1⟩
            · have := h.2.2.1; rw [mem_digits] at this; omega
            · omega
          · refine hone ?_
            intro k' n' hn' h
            rcases (hall k' n' h).2 hn' with h | h | h | h | h
            · exact absurd h.2.2 hs
            · exact absurd h.2.1 hg
            · exact hc h.2.2.2
            · have := h.2.2.1; rw [mem_digits] at this; omega
            · omega
        · split <;> rename_i hd
          · have hd' := hd
            rw [mem_digits] at hd'
            split <;> rename_i hc
            · refine hlong 4 4 (by omega) ⟨rfl, rfl, hd, hc⟩ ?_
              intro k' n' hn' h
              rcases (hall k' n' h).2 hn' with h | h | h | h | h
              · exact absurd h.2.2 hs
              · exact absurd h.2.1 hg
              · omega
              · exact ⟨h.1, h.2.1⟩
              · omega
            · refine hone ?_
              intro k' n' hn' h
              rcases (hall k' n' h).2 hn' with h | h | h | h | h
              · exact absurd h.2.2 hs
              · exact absurd h.2.1 hg
              · omega
              · exact hc h.2.2.2
              · omega
          · split <;> rename_i hu
            · split <;> rename_i hc
              · refine hlong 5 6 (by omega) ⟨rfl, rfl, hu, hc⟩ ?_
                intro k' n' hn' h
                rcases (hall k' n' h).2 hn' with h | h | h | h | h
                · exact absurd h.2.2 hs
                · exact absurd h.2.1 hg
                · omega
                · exact absurd h.2.2.1 hd
                · exact ⟨h.1, h.2.1⟩
              · refine hone ?_
                intro k' n' hn' h
                rcases (hall k' n' h).2 hn' with h | h | h | h | h
                · exact absurd h.2.2 hs
                · exact absurd h.2.1 hg
                · omega
                · exact absurd h.2.2.1 hd
                · exact hc h.2.2.2
            · refine hone ?_
              intro k' n' hn' h
              rcases (hall k' n' h).2 hn' with h | h | h | h | h
              · exact absurd h.2.2 hs
              · exact absurd h.2.1 hg
              · omega
              · exact absurd h.2.2.1 hd
              · omega

theorem str_longest (l : Text) (hl : ∀ c ∈ l, c < 256) :
    LongestFirst stringRules (fun i => l.getD i 0) (strCase l).1 (strCase l).2 := by
  have hone : ∀ k, l.getD 0 0 ≠ 92 → ruleAt l k 1 → (∀ k' < k, ¬ ruleAt l k' 1) →
      LongestFirst stringRules (fun i => l.getD i 0) k 1 := fun k h hr hf =>
    longest_of l k 1 hr hf (fun k' n' hn => ruleAt_ne l h k' n' hn)
  have hno : ∀ k, 1 ≤ k → k ≤ 5 → ¬ ruleAt l k 1 := by
    intro k h1 h2
    rcases k with _|_|_|_|_|_|k
    · omega
    · simp [ruleAt]
    · rintro ⟨m, h, _⟩; omega
    · simp [ruleAt]
    · simp [ruleAt]
    · simp [ruleAt]
    · omega
  cases l with
  | nil =>
    refine hone 7 (by decide) ⟨rfl, Or.inl rfl⟩ ?_
    intro k hk hr
    by_cases h : 1 ≤ k ∧ k ≤ 5
    · exact hno k h.1 h.2 hr
    · obtain rfl | rfl : k = 0 ∨ k = 6 := by omega
      · simp [ruleAt] at hr
      · simp [ruleAt] at hr
  | cons c r =>
    have hc := hl c (by simp)
    have fin : ∀ k, c ≠ 92 → ruleAt (c :: r) k 1 → (k ≠ 0 → ¬ ruleAt (c :: r) 0 1) →
        (7 < k → ¬ ruleAt (c :: r) 7 1) → (8 < k → ¬ ruleAt (c :: r) 8 1) →
        (9 < k → ¬ ruleAt (c :: r) 9 1) → k ≤ 10 →
        LongestFirst stringRules (fun i => (c :: r).getD i 0) k 1 := by
      intro k h92 hr h0 h7 h8 h9 h10
      refine hone k h92 hr ?_
      intro k' hk hr'
      by_cases h : 1 ≤ k' ∧ k' ≤ 5
      · exact hno k' h.1 h.2 hr'
      · obtain rfl | rfl | rfl | rfl | rfl : k' = 0 ∨ k' = 6 ∨ k' = 7 ∨ k' = 8 ∨ k' = 9 := by omega
        · exact h0 (by omega) hr'
        · exact h92 hr'.2
        · exact h7 hk hr'
        · exact h8 hk hr'
        · exact h9 hk hr'
    simp only [strCase]
    split <;> rename_i h34
    · exact fin 0 (by omega) ⟨rfl, h34⟩ (by omega) (by omega) (by omega) (by omega) (by omega)
    · split <;> rename_i h92
      · subst h92; exact esc_longest r
      · split <;> rename_i he
        · exact fin 7 h92 ⟨rfl, he⟩ (fun _ h => h34 h.2) (by omega) (by omega) (by omega) (by omega)
        · split <;> rename_i hn
          · exact fin 8 h92 ⟨rfl, hn⟩ (fun _ h => h34 h.2) (fun _ h => he h.2) (by omega) (by omega)
              (by omega)
          · split <;> rename_i hi
            · exact fin 9 h92 ⟨rfl, by simp only [List.getD_cons_zero]; omega⟩ (fun _ h => h34 h.2)
                (fun _ h => he h.2) (fun _ h => hn h.2) (by omega) (by omega)
            · refine fin 10 h92 ⟨rfl, ?_⟩ (fun _ h => h34 h.2)
                (fun _ h => he h.2) (fun _ h => hn h.2) (fun _ h => ?_) (by omega)
              · simp only [List.getD_cons_zero]; omega
              · have := h.2
                simp only [List.getD_cons_zero] at this; omega

/-! ### the buffer -/

/-- The buffer holds a string. -/
def Holds (b : Buf) (cs : Text) : Prop :=
  1 ≤ b.data.length ∧ b.index = cs.length ∧ b.index ≤ b.data.length ∧ b.data.take b.index = cs

theorem store_holds (b : Buf) (cs : Text) (c : Nat) (h : Holds b cs) :
    ∃ b', store b c = some b' ∧ Holds b' (cs ++ [c]) := by
  obtain ⟨h1, h2, h3, h4⟩ := h
  unfold store
  have key : ∀ data : Text, b.index < data.length → data.take b.index = cs →
      Holds ⟨data.set b.index c, b.index + 1⟩ (cs ++ [c]) := by
    intro data hd ht
    refine ⟨by simp; omega, by simp [h2], by simp; omega, ?_⟩
    simp only
    rw [List.take_add_one, List.take_set_of_le (Nat.le_refl _), ht]
    simp [List.getElem?_set_self hd]
  by_cases hf : b.index ≥ b.data.length
  · simp only [hf, if_true]
    have hl : b.index < (b.data ++ List.replicate (b.data.length * 2 - b.data.length) 0).length := by
      simp; omega
    rw [if_pos hl]
    refine ⟨_, rfl, key _ hl ?_⟩
    rw [List.take_append_of_le_length h3, h4]
  · simp only [hf, if_false]
    rw [if_pos (by omega)]
    exact ⟨_, rfl, key _ (by omega) h4⟩

theorem get_holds (b : Buf) (cs : Text) (h : Holds b cs) : getStored b = some cs := by
  unfold getStored
  rw [if_pos h.2.2.1, h.2.2.2]

/-! ### strings -/

/-- What the rule does after an item: it stores the string and goes on. -/
def Continues (inp : Text) (w s : Text) : Prop :=
  ∀ fuel b cs, Holds b cs → ∃ b', Holds b' (cs ++ s) ∧
    stringRule (fuel + 1) inp b = stringRule fuel (inp.drop w.length) b'

theorem continues_store (inp w : Text) (c : Nat)
    (h : ∀ fuel b, stringRule (fuel + 1) inp b = match store b c with
      | some b' => stringRule fuel (inp.drop w.length) b'
      | none => .bad) : Continues inp w [c] := by
  intro fuel b cs hb
  obtain ⟨b', h1, h2⟩ := store_holds b cs c hb
  exact ⟨b', h2, by rw [h fuel b, h1]⟩

theorem gapLen_app (f t : Text) (hf : ∀ c ∈ f, c ∈ gapChars) :
    gapLen (f ++ 92 :: t) = some (f.length + 1) := by
  induction f with
  | nil => simp [gapLen]
  | cons c f ih =>
    have hc := hf c (by simp)
    have h92 : c ≠ 92 := by rintro rfl; revert hc; decide
    simp only [List.cons_append, gapLen]
    rw [if_neg h92, if_pos hc, ih fun d hd => hf d (by simp [hd])]
    simp

theorem gapLen_split (r : Text) (n : Nat) (h : gapLen r = some n) :
    ∃ f t, r = f ++ 92 :: t ∧ f.length + 1 = n ∧ ∀ c ∈ f, c ∈ gapChars := by
  induction r generalizing n with
  | nil => simp [gapLen] at h
  | cons c r ih =>
    simp only [gapLen] at h
    split at h <;> rename_i h92
    · simp only [Option.some.injEq] at h
      exact ⟨[], r, by simp [h92], by simpa using h, by simp⟩
    · split at h <;> rename_i hg
      · cases h2 : gapLen r with
        | none => simp [h2] at h
        | some k =>
          simp only [h2, Option.map_some, Option.some.injEq] at h
          obtain ⟨f, t, h3, h4, h5⟩ := ih k h2
          refine ⟨c :: f, t, by simp [h3], by simp; omega, ?_⟩
          intro d hd
          simp only [List.mem_cons] at hd
          rcases hd with rfl | hd
          · exact hg
          · exact h5 d hd
      · simp at h

theorem hexval_of (c d : Nat) (h : IsHex c d) : c ∈ hexDigits ∧ hexval c = d := by
  rw [mem_hex]
  unfold hexval
  rcases h with ⟨h1, h2⟩ | ⟨h1, h2, h3 | h3⟩
  · rw [if_pos (by omega)]; omega
  · rw [if_neg (by omega)]; omega
  · rw [if_neg (by omega)]; omega

theorem hex_of (c : Nat) (h : c ∈ hexDigits) : IsHex c (hexval c) := by
  rw [mem_hex] at h
  unfold IsHex hexval
  split <;> omega

/-- An item is scanned, whatever follows it. -/
theorem item_step (w s : Text) (h : Item w s) (t : Text) : Continues (w ++ t) w s := by
  cases h with
  | plain c hc =>
    obtain ⟨h1, h2, h3, h4, h5⟩ := hc
    apply continues_store
    intro fuel b
    have : strCase (c :: t) = (10, 1) := by
      simp only [strCase]
      rw [if_neg h3, if_neg h4, if_neg (by omega), if_neg (by omega), if_neg (by omega)]
    simp only [stringRule, List.cons_append, List.nil_append, this]
    rfl
  | control c h1 h2 =>
    apply continues_store
    intro fuel b
    have : strCase (92 :: 94 :: c :: t) = (3, 3) := by
      simp [strCase, escCase, mem_simple, mem_gap, h1, h2]
    simp only [stringRule, List.cons_append, List.nil_append, this]
    rfl
  | decimal a b c x y z ha hb hc hlt =>
    obtain ⟨ha1, rfl⟩ := ha
    obtain ⟨hb1, rfl⟩ := hb
    obtain ⟨hc1, rfl⟩ := hc
    apply continues_store
    intro fuel bf
    have : strCase (92 :: (48 + x) :: (48 + y) :: (48 + z) :: t) = (4, 4) := by
      simp only [strCase, escCase]
      rw [if_neg (by omega), if_pos trivial, if_neg (by rw [mem_simple]; omega),
        if_neg (by rw [mem_gap]; omega), if_neg (by omega), if_pos (by rw [mem_digits]; omega),
        if_pos]
      simp only [List.getD_cons_zero, List.getD_cons_succ, mem_digits]
      omega
    simp only [stringRule, List.cons_append, List.nil_append, this]
    have hcode : charCodeOfDecimal (92 :: (48 + x) :: (48 + y) :: (48 + z) :: t) 1 =
        100 * x + 10 * y + z := by
      simp [charCodeOfDecimal]
    rw [hcode, if_neg (by omega)]
    rfl
  | hex a b c d x y z u ha hb hc hd hlt =>
    obtain ⟨ha1, ha2⟩ := hexval_of _ _ ha
    obtain ⟨hb1, hb2⟩ := hexval_of _ _ hb
    obtain ⟨hc1, hc2⟩ := hexval_of _ _ hc
    obtain ⟨hd1, hd2⟩ := hexval_of _ _ hd
    apply continues_store
    intro fuel bf
    have : strCase (92 :: 117 :: a :: b :: c :: d :: t) = (5, 6) := by
      simp [strCase, escCase, mem_simple, mem_gap, mem_digits, ha1, hb1, hc1, hd1]
    simp only [stringRule, List.cons_append, List.nil_append, this]
    have hcode : charCodeOfHexadecimal (92 :: 117 :: a :: b :: c :: d :: t) 1 =
        4096 * x + 256 * y + 16 * z + u := by
      simp [charCodeOfHexadecimal, ha2, hb2, hc2, hd2]
    rw [hcode, if_neg (by omega)]
    rfl
  | gap f hne hf =>
    intro fuel b cs hb
    refine ⟨b, by simpa using hb, ?_⟩
    obtain ⟨c, f', rfl⟩ := List.exists_cons_of_ne_nil hne
    have hg : ∀ d ∈ c :: f', d ∈ gapChars := fun d hd => (mem_gap d).mpr (hf d hd)
    have hc := hf c (by simp)
    have : strCase (92 :: (c :: f' ++ [92]) ++ t) = (2, f'.length + 3) := by
      have h2 := gapLen_app f' t fun d hd => hg d (by simp [hd])
      have h3 : 92 :: (c :: f' ++ [92]) ++ t = 92 :: c :: (f' ++ 92 :: t) := by simp
      rw [h3]
      simp only [strCase, escCase]
      rw [if_neg (by omega), if_pos trivial, if_neg (by unfold Formatting at hc; rw [mem_simple]; omega),
        if_pos (hg c (by simp)), h2]
    have h4 : 92 :: (c :: f') ++ [92] ++ t = 92 :: (c :: f' ++ [92]) ++ t := rfl
    rw [h4]
    simp only [stringRule, this]
    congr 2
    simp
  | _ =>
    apply continues_store
    intro fuel b
    rfl

/-- A step of the rule: it ends at a quote, scans an item, or fails. -/
theorem rule_step (inp : Text) (hl : ∀ c ∈ inp, c < 256) :
    (∃ t, inp = 34 :: t ∧ ∀ fuel b, stringRule (fuel + 1) inp b = .ok b t) ∨
    (∃ w s t, Item w s ∧ inp = w ++ t ∧ 1 ≤ w.length) ∨
    (∀ fuel b, stringRule (fuel + 1) inp b = .error) := by
  have herr : ∀ k n, strCase inp = (k, n) → 6 ≤ k → k ≤ 9 →
      ∀ fuel b, stringRule (fuel + 1) inp b = .error := by
    intro k n h h1 h2 fuel b
    simp only [stringRule, h]
    obtain rfl | rfl | rfl | rfl : k = 6 ∨ k = 7 ∨ k = 8 ∨ k = 9 := by omega
    all_goals rfl
  cases inp with
  | nil => exact Or.inr (Or.inr (herr 7 1 rfl (by omega) (by omega)))
  | cons c r =>
    have hc256 := hl c (by simp)
    by_cases h34 : c = 34
    · subst h34
      refine Or.inl ⟨r, rfl, fun fuel b => ?_⟩
      simp [stringRule, strCase]
    by_cases h92 : c = 92
    · subst h92
      have hesc : strCase (92 :: r) = escCase r := by simp [strCase]
      have hill : escCase r = (6, 1) →
          ∀ fuel b, stringRule (fuel + 1) (92 :: r) b = .error := fun h =>
        herr 6 1 (hesc.trans h) (by omega) (by omega)
      cases r with
      | nil => exact Or.inr (Or.inr (hill rfl))
      | cons d r' =>
        by_cases hs : d ∈ simpleChars
        · refine Or.inr (Or.inl ?_)
          rw [mem_simple] at hs
          rcases hs with rfl | rfl | rfl | rfl | rfl | rfl | rfl | rfl | rfl
          · exact ⟨_, _, r', .backslash, rfl, by simp⟩
          · exact ⟨_, _, r', .quote, rfl, by simp⟩
          · exact ⟨_, _, r', .alert, rfl, by simp⟩
          · exact ⟨_, _, r', .backspace, rfl, by simp⟩
          · exact ⟨_, _, r', .tab, rfl, by simp⟩
          · exact ⟨_, _, r', .newline, rfl, by simp⟩
          · exact ⟨_, _, r', .vtab, rfl, by simp⟩
          · exact ⟨_, _, r', .formfeed, rfl, by simp⟩
          · exact ⟨_, _, r', .return, rfl, by simp⟩
        by_cases hg : d ∈ gapChars
        · cases hgl : gapLen r' with
          | none =>
            refine Or.inr (Or.inr (hill ?_))
            simp only [escCase]
            rw [if_neg hs, if_pos hg, hgl]
          | some n =>
            obtain ⟨f, t, h1, h2, h3⟩ := gapLen_split r' n hgl
            refine Or.inr (Or.inl ⟨_, _, t, .gap (d :: f) (by simp) ?_, by simp [h1], by simp⟩)
            intro e he
            simp only [List.mem_cons] at he
            rcases he with rfl | he
            · exact (mem_gap _).mp hg
            · exact (mem_gap _).mp (h3 e he)
        by_cases h94 : d = 94
        · subst h94
          by_cases hc : 64 ≤ r'.getD 0 0 ∧ r'.getD 0 0 ≤ 95
          · cases r' with
            | nil => simp at hc
            | cons e t => exact Or.inr (Or.inl ⟨_, _, t, .control e hc.1 hc.2, rfl, by simp⟩)
          · refine Or.inr (Or.inr (hill ?_))
            simp only [escCase]
            rw [if_neg hs, if_neg hg, if_pos trivial, if_neg hc]
        by_cases hd : d ∈ digits
        · by_cases hc : r'.getD 0 0 ∈ digits ∧ r'.getD 1 0 ∈ digits
          · rcases r' with _ | ⟨e, _ | ⟨g, t⟩⟩
            · simp [mem_digits] at hc
            · simp [mem_digits] at hc
            · simp only [List.getD_cons_zero, List.getD_cons_succ, mem_digits] at hc
              rw [mem_digits] at hd
              by_cases hlt : 100 * (d - 48) + 10 * (e - 48) + (g - 48) < 256
              · refine Or.inr (Or.inl ⟨_, _, t, .decimal d e g (d - 48) (e - 48) (g - 48)
                  ?_ ?_ ?_ hlt, rfl, by simp⟩) <;> constructor <;> omega
              · refine Or.inr (Or.inr fun fuel b => ?_)
                have h4 : strCase (92 :: d :: e :: g :: t) = (4, 4) := by
                  rw [hesc]
                  simp only [escCase]
                  rw [if_neg hs, if_neg hg, if_neg h94, if_pos ((mem_digits d).mpr hd), if_pos]
                  simp only [List.getD_cons_zero, List.getD_cons_succ, mem_digits]
                  exact hc
                simp only [stringRule, h4]
                rw [if_pos]
                simp only [charCodeOfDecimal, List.getD_cons_zero, List.getD_cons_succ]
                omega
          · refine Or.inr (Or.inr (hill ?_))
            simp only [escCase]
            rw [if_neg hs, if_neg hg, if_neg h94, if_pos hd, if_neg hc]
        by_cases hu : d = 117
        · subst hu
          by_cases hc : r'.getD 0 0 ∈ hexDigits ∧ r'.getD 1 0 ∈ hexDigits ∧ r'.getD 2 0 ∈ hexDigits ∧
              r'.getD 3 0 ∈ hexDigits
          · rcases r' with _ | ⟨e, _ | ⟨g, _ | ⟨i, _ | ⟨j, t⟩⟩⟩⟩
            · simp [mem_hex] at hc
            · simp [mem_hex] at hc
            · simp [mem_hex] at hc
            · simp [mem_hex] at hc
            · have hc' := hc
              simp only [List.getD_cons_zero, List.getD_cons_succ] at hc'
              by_cases hlt : 4096 * hexval e + 256 * hexval g + 16 * hexval i + hexval j < 256
              · exact Or.inr (Or.inl ⟨_, _, t, .hex e g i j _ _ _ _ (hex_of e hc'.1)
                  (hex_of g hc'.2.1) (hex_of i hc'.2.2.1) (hex_of j hc'.2.2.2) hlt, rfl, by simp⟩)
              · refine Or.inr (Or.inr fun fuel b => ?_)
                have h5 : strCase (92 :: 117 :: e :: g :: i :: j :: t) = (5, 6) := by
                  rw [hesc]
                  simp only [escCase]
                  rw [if_neg hs, if_neg hg, if_neg h94, if_neg hd, if_pos trivial, if_pos hc]
                simp only [stringRule, h5]
                rw [if_pos]
                simp only [charCodeOfHexadecimal, List.getD_cons_zero, List.getD_cons_succ]
                omega
          · refine Or.inr (Or.inr (hill ?_))
            simp only [escCase]
            rw [if_neg hs, if_neg hg, if_neg h94, if_neg hd, if_pos trivial, if_neg hc]
        · refine Or.inr (Or.inr (hill ?_))
          simp only [escCase]
          rw [if_neg hs, if_neg hg, if_neg h94, if_neg hd, if_neg hu]
    · by_cases he : c = 0 ∨ c = 26
      · refine Or.inr (Or.inr (herr 7 1 ?_ (by omega) (by omega)))
        simp only [strCase]; rw [if_neg h34, if_neg h92, if_pos he]
      by_cases hn : c = 10 ∨ c = 13
      · refine Or.inr (Or.inr (herr 8 1 ?_ (by omega) (by omega)))
        simp only [strCase]; rw [if_neg h34, if_neg h92, if_neg he, if_pos hn]
      by_cases hi : c < 26 ∨ c = 127 ∨ c = 255
      · refine Or.inr (Or.inr (herr 9 1 ?_ (by omega) (by omega)))
        simp only [strCase]; rw [if_neg h34, if_neg h92, if_neg he, if_neg hn, if_pos hi]
      · exact Or.inr (Or.inl ⟨[c], [c], r, .plain c ⟨by omega, by omega, h34, h92, by omega⟩, rfl,
          by simp⟩)

theorem string_complete (w s : Text) (h : Denotes w s) (rest : Text) :
    ∀ fuel b cs, w.length < fuel → Holds b cs →
      ∃ b', Holds b' (cs ++ s) ∧ stringRule fuel (w ++ 34 :: rest) b = .ok b' rest := by
  induction h with
  | nil =>
    intro fuel b cs hf hb
    obtain ⟨f, rfl⟩ : ∃ f, fuel = f + 1 := ⟨fuel - 1, by omega⟩
    exact ⟨b, by simpa using hb, by simp [stringRule, strCase]⟩
  | @cons w s w' s' hi _ ih =>
    intro fuel b cs hf hb
    have hw : 1 ≤ w.length := by cases hi <;> simp
    obtain ⟨f, rfl⟩ : ∃ f, fuel = f + 1 := ⟨fuel - 1, by omega⟩
    obtain ⟨b1, h1, h2⟩ := item_step w s hi (w' ++ 34 :: rest) f b cs hb
    obtain ⟨b2, h3, h4⟩ := ih f b1 (cs ++ s) (by rw [List.length_append] at hf; omega) h1
    refine ⟨b2, by simpa using h3, ?_⟩
    rw [List.append_assoc, h2, List.drop_left, h4]

theorem string_sound (fuel : Nat) :
    ∀ inp b cs, inp.length < fuel → (∀ c ∈ inp, c < 256) → Holds b cs →
      (∃ b' w s rest, stringRule fuel inp b = .ok b' rest ∧ inp = w ++ 34 :: rest ∧ Denotes w s ∧
        Holds b' (cs ++ s)) ∨ stringRule fuel inp b = .error := by
  induction fuel with
  | zero => intro inp b cs h; omega
  | succ fuel ih =>
    intro inp b cs hf hl hb
    rcases rule_step inp hl with ⟨t, h1, h2⟩ | ⟨w, s, t, h1, h2, h3⟩ | h
    · exact Or.inl ⟨b, [], [], t, h2 fuel b, by simp [h1], .nil, by simpa using hb⟩
    · obtain ⟨b1, h4, h5⟩ := item_step w s h1 t fuel b cs hb
      rw [← h2] at h5
      have h6 : inp.drop w.length = t := by rw [h2, List.drop_left]
      rw [h6] at h5
      have h7 : t.length < fuel := by rw [h2, List.length_append] at hf; omega
      rcases ih t b1 (cs ++ s) h7 (fun c hc => hl c (by rw [h2]; simp [hc])) h4 with
        ⟨b', w', s', rest, h8, h9, h10, h11⟩ | h8
      · refine Or.inl ⟨b', w ++ w', s ++ s', rest, h5.trans h8, ?_, .cons h1 h10, by
          simpa using h11⟩
        rw [h2, h9, List.append_assoc]
      · exact Or.inr (h5.trans h8)
    · exact Or.inr (h fuel b)

end Mosml.Source
