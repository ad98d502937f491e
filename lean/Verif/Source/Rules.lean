import Verif.Source.Spec

/-! # The case that is computed is the one that the lexing engine selects -/

namespace Mosml.Source

open Mosml.Lex (Regexp regexpForString charClass allChars Matches StarOf prefixOf FirstCase Accepts
  LongestFirst mem_charClass)

theorem mem_digits (c : Nat) : c ∈ digits ↔ 48 ≤ c ∧ c ≤ 57 := mem_charClass 48 57 c

theorem mem_hex (c : Nat) : c ∈ hexDigits ↔
    (48 ≤ c ∧ c ≤ 57) ∨ (97 ≤ c ∧ c ≤ 102) ∨ (65 ≤ c ∧ c ≤ 70) := by
  simp only [hexDigits, List.mem_append, mem_charClass, or_assoc]

theorem mem_simple (c : Nat) : c ∈ simpleChars ↔ c = 92 ∨ c = 34 ∨ c = 97 ∨ c = 98 ∨ c = 116 ∨
    c = 110 ∨ c = 118 ∨ c = 102 ∨ c = 114 := by
  simp [simpleChars]

theorem mem_gap (c : Nat) : c ∈ gapChars ↔ c = 32 ∨ c = 9 ∨ c = 10 ∨ c = 13 := by
  simp [gapChars]

/-- The first characters of a text, with NUL at its end. -/
def pre (l : Text) (n : Nat) : Text := prefixOf (fun i => l.getD i 0) n

theorem pre_zero (l : Text) : pre l 0 = [] := rfl

theorem pre_succ (l : Text) (n : Nat) : pre l (n + 1) = l.getD 0 0 :: pre l.tail n := by
  unfold pre prefixOf
  rw [List.range_succ_eq_map, List.map_cons, List.map_map]
  congr 1
  apply List.map_congr_left
  intro i _
  cases l <;> simp

theorem getD_tail (l : Text) (i : Nat) : l.tail.getD i 0 = l.getD (i + 1) 0 := by
  cases l <;> simp

theorem pre_nil_iff (l : Text) (n : Nat) : pre l n = [] ↔ n = 0 := by
  cases n with
  | zero => simp [pre_zero]
  | succ n => simp [pre_succ]

theorem matches_chars (cl : List Nat) (l : Text) (n : Nat) :
    Matches (.characters cl) (pre l n) ↔ n = 1 ∧ l.getD 0 0 ∈ cl := by
  simp only [Matches]
  cases n with
  | zero => simp [pre_zero]
  | succ n =>
    rw [pre_succ]
    constructor
    · rintro ⟨c, hc, h⟩
      simp only [List.cons.injEq, pre_nil_iff] at h
      exact ⟨by omega, h.1 ▸ hc⟩
    · rintro ⟨h, hc⟩
      obtain rfl : n = 0 := by omega
      exact ⟨_, hc, rfl⟩

theorem matches_seq (cl : List Nat) (r : Regexp) (l : Text) (n : Nat) :
    Matches (.sequence (.characters cl) r) (pre l n) ↔
      ∃ m, n = m + 1 ∧ l.getD 0 0 ∈ cl ∧ Matches r (pre l.tail m) := by
  simp only [Matches]
  cases n with
  | zero =>
    rw [pre_zero]
    constructor
    · rintro ⟨w1, w2, h, ⟨c, _, rfl⟩, _⟩; simp at h
    · rintro ⟨m, h, _⟩; omega
  | succ n =>
    rw [pre_succ]
    constructor
    · rintro ⟨w1, w2, h, ⟨c, hc, rfl⟩, h2⟩
      simp only [List.cons_append, List.nil_append, List.cons.injEq] at h
      exact ⟨n, rfl, h.1 ▸ hc, h.2 ▸ h2⟩
    · rintro ⟨m, h, hc, h2⟩
      obtain rfl : n = m := by omega
      exact ⟨[_], pre l.tail n, rfl, ⟨_, hc, rfl⟩, h2⟩

theorem star_chars (cl : List Nat) (w : List Nat) :
    StarOf (Matches (.characters cl)) w ↔ ∀ c ∈ w, c ∈ cl := by
  constructor
  · intro h
    induction h with
    | nil => simp
    | cons h1 _ ih =>
      obtain ⟨c, hc, rfl⟩ := h1
      intro d hd
      simp only [List.cons_append, List.nil_append, List.mem_cons] at hd
      rcases hd with rfl | hd
      · exact hc
      · exact ih d hd
  · intro h
    induction w with
    | nil => exact .nil
    | cons c w ih =>
      have := StarOf.cons (P := Matches (.characters cl)) (w1 := [c]) (w2 := w)
        ⟨c, h c (by simp), rfl⟩ (ih fun d hd => h d (by simp [hd]))
      simpa using this

theorem gap_iff (r : Text) (m : Nat) :
    (∃ w, (∀ c ∈ w, c ∈ gapChars) ∧ pre r m = w ++ [92]) ↔ gapLen r = some m := by
  induction r generalizing m with
  | nil =>
    simp only [gapLen, reduceCtorEq, iff_false]
    rintro ⟨w, _, h⟩
    have h92 : 92 ∈ pre [] m := by rw [h]; simp
    simp [pre, prefixOf] at h92
  | cons c r ih =>
    cases m with
    | zero =>
      rw [pre_zero]
      constructor
      · rintro ⟨w, _, h⟩; simp at h
      · intro h
        simp only [gapLen] at h
        split at h
        · simp at h
        · split at h
          · cases h2 : gapLen r <;> simp [h2] at h
          · simp at h
    | succ m =>
      rw [pre_succ]
      simp only [List.getD_cons_zero, List.tail_cons, gapLen]
      constructor
      · rintro ⟨w, hw, h⟩
        cases w with
        | nil =>
          simp only [List.nil_append, List.cons.injEq, pre_nil_iff] at h
          rw [if_pos h.1, h.2]
        | cons d w =>
          simp only [List.cons_append, List.cons.injEq] at h
          have hd := hw d (by simp)
          obtain ⟨rfl, h2⟩ := h
          have h92 : c ≠ 92 := by rintro rfl; revert hd; decide
          rw [if_neg h92, if_pos hd, (ih m).mp ⟨w, fun e he => hw e (by simp [he]), h2⟩]
          rfl
      · intro h
        split at h <;> rename_i h92
        · simp only [Option.some.injEq] at h
          obtain rfl : m = 0 := by omega
          exact ⟨[], by simp, by simp [h92, pre_zero]⟩
        · split at h <;> rename_i hg
          · cases h2 : gapLen r with
            | none => simp [h2] at h
            | some k =>
              simp only [h2, Option.map_some, Option.some.injEq] at h
              obtain rfl : k = m := by omega
              obtain ⟨w, hw, h3⟩ := (ih k).mpr h2
              refine ⟨c :: w, ?_, by simp [h3]⟩
              intro d hd
              simp only [List.mem_cons] at hd
              rcases hd with rfl | hd
              · exact hg
              · exact hw d hd
          · simp at h

theorem matches_gap (l : Text) (n : Nat) :
    Matches (.sequence (.sequence (.characters gapChars) (.repetition (.characters gapChars)))
        (.characters [92])) (pre l n) ↔
      ∃ m, n = m + 1 ∧ l.getD 0 0 ∈ gapChars ∧ gapLen l.tail = some m := by
  have key : Matches (.sequence (.sequence (.characters gapChars)
        (.repetition (.characters gapChars))) (.characters [92])) (pre l n) ↔
      ∃ c w, c ∈ gapChars ∧ (∀ d ∈ w, d ∈ gapChars) ∧ pre l n = c :: (w ++ [92]) := by
    simp only [Matches]
    constructor
    · rintro ⟨w1, w2, h, ⟨w3, w4, rfl, ⟨c, hc, rfl⟩, h4⟩, ⟨d, hd, rfl⟩⟩
      simp only [List.mem_singleton] at hd
      subst hd
      exact ⟨c, w4, hc, (star_chars _ _).mp h4, by simpa using h⟩
    · rintro ⟨c, w, hc, hw, h⟩
      exact ⟨c :: w, [92], by simpa using h, ⟨[c], w, rfl, ⟨c, hc, rfl⟩, (star_chars _ _).mpr hw⟩,
        ⟨92, by simp, rfl⟩⟩
  rw [key]
  cases n with
  | zero => simp [pre_zero]
  | succ n =>
    rw [pre_succ]
    constructor
    · rintro ⟨c, w, hc, hw, h⟩
      simp only [List.cons.injEq] at h
      exact ⟨n, rfl, h.1 ▸ hc, (gap_iff _ _).mp ⟨w, hw, h.2⟩⟩
    · rintro ⟨m, h, hc, h2⟩
      obtain rfl : n = m := by omega
      obtain ⟨w, hw, h3⟩ := (gap_iff _ _).mpr h2
      exact ⟨_, w, hc, hw, by rw [h3]⟩

theorem gapLen_pos (r : Text) (m : Nat) (h : gapLen r = some m) : 1 ≤ m := by
  obtain ⟨w, _, h2⟩ := (gap_iff r m).mpr h
  rcases Nat.eq_zero_or_pos m with rfl | h3
  · simp [pre_zero] at h2
  · exact h3

/-- What it is for a case of String to match the first `n` characters. -/
def ruleAt (l : Text) (k n : Nat) : Prop :=
  match k with
  | 0 => n = 1 ∧ l.getD 0 0 = 34
  | 1 => n = 2 ∧ l.getD 0 0 = 92 ∧ l.getD 1 0 ∈ simpleChars
  | 2 => ∃ m, n = m + 2 ∧ l.getD 0 0 = 92 ∧ l.getD 1 0 ∈ gapChars ∧ gapLen l.tail.tail = some m
  | 3 => n = 3 ∧ l.getD 0 0 = 92 ∧ l.getD 1 0 = 94 ∧ 64 ≤ l.getD 2 0 ∧ l.getD 2 0 ≤ 95
  | 4 => n = 4 ∧ l.getD 0 0 = 92 ∧ l.getD 1 0 ∈ digits ∧ l.getD 2 0 ∈ digits ∧ l.getD 3 0 ∈ digits
  | 5 => n = 6 ∧ l.getD 0 0 = 92 ∧ l.getD 1 0 = 117 ∧ l.getD 2 0 ∈ hexDigits ∧
      l.getD 3 0 ∈ hexDigits ∧ l.getD 4 0 ∈ hexDigits ∧ l.getD 5 0 ∈ hexDigits
  | 6 => n = 1 ∧ l.getD 0 0 = 92
  | 7 => n = 1 ∧ (l.getD 0 0 = 0 ∨ l.getD 0 0 = 26)
  | 8 => n = 1 ∧ (l.getD 0 0 = 10 ∨ l.getD 0 0 = 13)
  | 9 => n = 1 ∧ ((1 ≤ l.getD 0 0 ∧ l.getD 0 0 ≤ 26) ∨ l.getD 0 0 = 127 ∨ l.getD 0 0 = 255)
  | 10 => n = 1 ∧ 1 ≤ l.getD 0 0 ∧ l.getD 0 0 ≤ 255
  | _ => False

theorem matches_seq2 (a b : Nat) (r : Regexp) (w : List Nat) :
    Matches (.sequence (regexpForString [a, b]) r) w ↔
      Matches (.sequence (.characters [a]) (.sequence (.characters [b]) r)) w := by
  simp only [regexpForString, Matches, List.mem_singleton]
  constructor
  · rintro ⟨w1, w2, rfl, ⟨w3, w4, rfl, ⟨c, rfl, rfl⟩, ⟨d, rfl, rfl⟩⟩, h⟩
    exact ⟨[c], d :: w2, rfl, ⟨c, rfl, rfl⟩, [d], w2, rfl, ⟨d, rfl, rfl⟩, h⟩
  · rintro ⟨w1, w2, rfl, ⟨c, rfl, rfl⟩, w3, w4, rfl, ⟨d, rfl, rfl⟩, h⟩
    exact ⟨[c, d], w4, rfl, ⟨[c], [d], rfl, ⟨c, rfl, rfl⟩, ⟨d, rfl, rfl⟩⟩, h⟩

theorem rule_iff (l : Text) (k n : Nat) :
    (∃ e, stringRules[k]? = some e ∧ Matches e (pre l n)) ↔ ruleAt l k n := by
  have h1 : ∀ e : Regexp, (∃ e', some e = some e' ∧ Matches e' (pre l n)) ↔ Matches e (pre l n) :=
    fun e => ⟨fun ⟨e', h, h2⟩ => by simp only [Option.some.injEq] at h; subst h; exact h2,
      fun h => ⟨e, rfl, h⟩⟩
  rcases k with _|_|_|_|_|_|_|_|_|_|_|k
  · exact (h1 _).trans (by simp [ruleAt, matches_chars])
  · refine (h1 _).trans ?_
    simp only [matches_seq, matches_chars, ruleAt, getD_tail, List.mem_singleton]
    constructor
    · rintro ⟨m, rfl, h, rfl, h2⟩; exact ⟨rfl, h, h2⟩
    · rintro ⟨rfl, h, h2⟩; exact ⟨1, rfl, h, rfl, h2⟩
  · refine (h1 _).trans ?_
    rw [matches_seq]
    simp only [matches_gap, ruleAt, getD_tail, List.mem_singleton]
    constructor
    · rintro ⟨m, rfl, h, m', rfl, h2, h3⟩; exact ⟨m', rfl, h, h2, h3⟩
    · rintro ⟨m, rfl, h, h2, h3⟩; exact ⟨m + 1, rfl, h, m, rfl, h2, h3⟩
  · refine (h1 _).trans ?_
    simp only [matches_seq, matches_chars, ruleAt, getD_tail, List.mem_singleton, mem_charClass]
    constructor
    · rintro ⟨m, rfl, h, m', rfl, h2, rfl, h3⟩; exact ⟨rfl, h, h2, h3⟩
    · rintro ⟨rfl, h, h2, h3⟩; exact ⟨2, rfl, h, 1, rfl, h2, rfl, h3⟩
  · refine (h1 _).trans ?_
    simp only [matches_seq, matches_chars, ruleAt, getD_tail, List.mem_singleton]
    constructor
    · rintro ⟨m, rfl, h, m', rfl, h2, m'', rfl, h3, rfl, h4⟩; exact ⟨rfl, h, h2, h3, h4⟩
    · rintro ⟨rfl, h, h2, h3, h4⟩; exact ⟨3, rfl, h, 2, rfl, h2, 1, rfl, h3, rfl, h4⟩
  · refine (h1 _).trans ?_
    rw [matches_seq2]
    simp only [matches_seq, matches_chars, ruleAt, getD_tail, List.mem_singleton]
    constructor
    · rintro ⟨_, rfl, h, _, rfl, h2, _, rfl, h3, _, rfl, h4, _, rfl, h5, rfl, h6⟩
      exact ⟨rfl, h, h2, h3, h4, h5, h6⟩
    · rintro ⟨rfl, h, h2, h3, h4, h5, h6⟩
      exact ⟨5, rfl, h, 4, rfl, h2, 3, rfl, h3, 2, rfl, h4, 1, rfl, h5, rfl, h6⟩
  · exact (h1 _).trans (by simp [ruleAt, matches_chars])
  · refine (h1 _).trans ?_
    show Matches _ _ ∨ Matches _ _ ↔ _
    rw [matches_chars, matches_chars]
    simp only [ruleAt, List.mem_singleton]
    tauto
  · exact (h1 _).trans (by simp [ruleAt, matches_chars])
  · refine (h1 _).trans ?_
    rw [matches_chars]
    simp only [ruleAt, List.mem_append, List.mem_singleton, mem_charClass, or_assoc]
  · refine (h1 _).trans ?_
    rw [matches_chars]
    simp only [ruleAt, allChars, mem_charClass]
  · constructor
    · rintro ⟨e, h, _⟩
      have : stringRules.length = 11 := rfl
      rw [List.getElem?_eq_none (by omega)] at h
      simp at h
    · intro h; exact h.elim

/-- The longest match and the first case, in terms of `ruleAt`. -/
theorem longest_of (l : Text) (k n : Nat) (h : ruleAt l k n) (hf : ∀ k' < k, ¬ ruleAt l k' n)
    (hl : ∀ k' n', n < n' → ¬ ruleAt l k' n') :
    LongestFirst stringRules (fun i => l.getD i 0) k n := by
  refine ⟨⟨(rule_iff l k n).mpr h, ?_⟩, ?_⟩
  · intro k' hk e he hm
    exact hf k' hk ((rule_iff l k' n).mp ⟨e, he, hm⟩)
  · rintro n' hn ⟨e, he, hm⟩
    obtain ⟨k', hk', h2⟩ := List.getElem_of_mem he
    exact hl k' n' hn ((rule_iff l k' n').mp ⟨e, by rw [List.getElem?_eq_getElem hk', h2], hm⟩)

/-- A backslash is not the beginning of a longer item. -/
theorem ruleAt_ne (l : Text) (h : l.getD 0 0 ≠ 92) (k n : Nat) (hn : 1 < n) : ¬ ruleAt l k n := by
  rcases k with _|_|_|_|_|_|_|_|_|_|_|k <;> simp only [ruleAt]
  · omega
  · exact fun h1 => h h1.2.1
  · rintro ⟨_, _, h1, _⟩; exact h h1
  · exact fun h1 => h h1.2.1
  · exact fun h1 => h h1.2.1
  · exact fun h1 => h h1.2.1
  · omega
  · omega
  · omega
  · omega
  · omega
  · exact id

end Mosml.Source
