import Verif.Scan.Char
import Verif.Scan.Props

/-! # C105: the character constants in a lexer definition -/
namespace Mosml.Scan

theorem escLen_two (c : Nat) (r : List Nat) (h : c ≠ 92) : escLen (c :: r) = 0 := by
  unfold escLen
  split
  · rename_i h'; injection h' with h1; exact absurd h1 h
  · rename_i h'; injection h' with h1; exact absurd h1 h
  · rfl

theorem shortEsc_two (c : Nat) (r : List Nat) (h : c ≠ 92) : shortEsc (c :: r) = false := by
  unfold shortEsc
  split
  · rename_i h'; injection h' with h1; exact absurd h1 h
  · rfl

/-- A character constant means the character that is written: a plain one, an escape, a control character or a
decimal code. What is missing: invalid characters and codes above 255 (`C105_invalid_violation`, `C105_charcode_violation`). -/
theorem C105_char_partial (r : List Nat) :
    (∀ c, c ≠ 92 → char (c :: 96 :: r) = .ok c r) ∧
    (∀ c ∈ [92, 96, 110, 116, 98, 114], char (92 :: c :: 96 :: r) =
      .ok (if c = 110 then 10 else if c = 116 then 9 else if c = 98 then 8 else if c = 114 then 13 else c) r) ∧
    (∀ c, 64 ≤ c → c ≤ 95 → char (92 :: 94 :: c :: 96 :: r) = .ok (c - 64) r) ∧
    (∀ a b c, (48 ≤ a ∧ a ≤ 57) → (48 ≤ b ∧ b ≤ 57) → (48 ≤ c ∧ c ≤ 57) →
      100 * (a - 48) + 10 * (b - 48) + (c - 48) ≤ 255 →
      char (92 :: a :: b :: c :: 96 :: r) = .ok (100 * (a - 48) + 10 * (b - 48) + (c - 48)) r) := by
  refine ⟨?_, ?_, ?_, ?_⟩
  · intro c h
    unfold char
    rw [escLen_two c _ h, shortEsc_two c _ h]
    simp
  · intro c hc
    simp only [List.mem_cons, List.not_mem_nil, or_false] at hc
    have h5 : ∀ x, x ∈ [92, 96, 110, 116, 98, 114] → escLen (92 :: x :: 96 :: r) = 0 := by
      intro x hx
      simp only [List.mem_cons, List.not_mem_nil, or_false] at hx
      unfold escLen
      split
      · rename_i h'; injection h' with _ h'; injection h' with h' _; omega
      · rename_i h'
        injection h' with _ h'; injection h' with h1 h'; injection h' with h2 _
        subst h2
        simp [isDigit]
      · rfl
    have hs : shortEsc (92 :: c :: 96 :: r) = true := by
      rcases hc with rfl | rfl | rfl | rfl | rfl | rfl <;> rfl
    unfold char
    rw [h5 c (by simpa using hc), hs]
    simp [charForBackslash]
  · intro c h1 h2
    have e : escLen (92 :: 94 :: c :: 96 :: r) = 4 := by
      show (if 64 ≤ c ∧ c ≤ 95 then 4 else 0) = 4
      rw [if_pos ⟨h1, h2⟩]
    unfold char
    rw [e]
    simp
  · intro a b c ha hb hc h
    have e : escLen (92 :: a :: b :: c :: 96 :: r) = 5 := by
      unfold escLen
      split
      · rename_i h'; injection h' with _ h'; injection h' with h' _; omega
      · rename_i h'
        injection h' with _ h'; injection h' with h1 h'; injection h' with h2 h'; injection h' with h3 _
        subst h1; subst h2; subst h3
        rw [digit_of _ ha, digit_of _ hb, digit_of _ hc]; rfl
      · rename_i h1 h2; exact absurd rfl (h2 a b c r)
    unfold char
    rw [e]
    simp only [if_pos, decimalCode, List.getD_cons_zero, List.getD_cons_succ]
    rw [if_pos h]
    simp only
    rw [if_neg (by omega)]
    rfl

example : char [97, 96, 7] = .ok 97 [7] ∧ char [92, 110, 96] = .ok 10 [] ∧ char [92, 94, 65, 96] = .ok 1 [] ∧
    char [92, 48, 54, 53, 96, 7] = .ok 65 [7] ∧ char [97, 98] = .lexical .illFormed := by decide

/-- The characters that are invalid in a constant ("invalid character in character constant", Scanner.lex:122) are accepted in
every complete constant, because the rule with the quote matches more; so is a single backslash, unless another quote
follows. -/
theorem C105_invalid_violation (c : Nat) (hc : (1 ≤ c ∧ c ≤ 31) ∨ c = 127 ∨ c = 255) (r : List Nat) :
    char (c :: 96 :: r) = .ok c r ∧ char [92, 96] = .ok 92 [] :=
  ⟨(C105_char_partial r).1 c (by omega), by decide⟩

example : char [10, 96, 7] = .ok 10 [7] ∧ char [10, 7] = .lexical .invalid := by decide

/-- A code above 255 raises Chr and not the lexical error. -/
theorem C105_charcode_violation (a b c : Nat) (ha : 48 ≤ a ∧ a ≤ 57) (hb : 48 ≤ b ∧ b ≤ 57) (hc : 48 ≤ c ∧ c ≤ 57)
    (hx : 255 < 100 * (a - 48) + 10 * (b - 48) + (c - 48)) (r : List Nat) :
    char (92 :: a :: b :: c :: 96 :: r) = .chr := by
  have e : escLen (92 :: a :: b :: c :: 96 :: r) = 5 := by
    unfold escLen
    split
    · rename_i h'; injection h' with _ h'; injection h' with h' _; omega
    · rename_i h'
      injection h' with _ h'; injection h' with h1 h'; injection h' with h2 h'; injection h' with h3 _
      subst h1; subst h2; subst h3
      rw [digit_of _ ha, digit_of _ hb, digit_of _ hc]; rfl
    · rename_i h1 h2; exact absurd rfl (h2 a b c r)
  unfold char
  rw [e]
  simp only [if_pos, decimalCode, List.getD_cons_zero, List.getD_cons_succ]
  rw [if_neg (by omega)]

example : char [92, 50, 53, 54, 96] = .chr := by decide

end Mosml.Scan
