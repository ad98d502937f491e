import Verif.Source.Comments
import Verif.Strings.Model

/-!
# C85: string constants, comments and long identifiers of source text
-/

namespace Mosml.Source

open Mosml.Lex (LongestFirst)

/-- The case of the rule String that the model takes, and its length, are the
first case on the longest prefix that matches (C48: what the generated lexer
does), for all texts. -/
theorem C85_string_rules (l : Text) (hl : ∀ c ∈ l, c < 256) :
    LongestFirst stringRules (fun i => l.getD i 0) (strCase l).1 (strCase l).2 :=
  str_longest l hl

example : strCase [92, 32, 10, 92, 65] = (2, 4) := by decide

/-- The same for the rule Comment. -/
theorem C85_comment_rules (l : Text) (hl : ∀ c ∈ l, c < 256) :
    LongestFirst commentRules (fun i => l.getD i 0) (comCase l).1 (comCase l).2 :=
  com_longest l hl

example : comCase [40, 42, 41] = (0, 2) := by decide

theorem reset_holds (initial : Text) (h : 1 ≤ initial.length) : Holds (resetBuf initial) [] :=
  ⟨h, rfl, Nat.zero_le _, rfl⟩

/-- After a quote, the lexer returns the string `s` and goes on at `rest` exactly
if the text is a constant that denotes `s`, a quote, and `rest`: whatever earlier
strings have left in the buffer, and for all lengths. -/
theorem C85_string (initial : Text) (hi : 1 ≤ initial.length) (inp : Text)
    (hl : ∀ c ∈ inp, c < 256) (s rest : Text) :
    stringConst initial inp = .ok s rest ↔ ∃ w, inp = w ++ 34 :: rest ∧ Denotes w s := by
  constructor
  · intro h
    unfold stringConst at h
    rcases string_sound (inp.length + 1) inp (resetBuf initial) [] (by omega) hl
      (reset_holds initial hi) with ⟨b', w, s', rest', h1, h2, h3, h4⟩ | h1
    · rw [h1] at h
      simp only [get_holds b' _ h4, List.nil_append, Res.ok.injEq] at h
      obtain ⟨rfl, rfl⟩ := h
      exact ⟨w, h2, h3⟩
    · rw [h1] at h; simp at h
  · rintro ⟨w, rfl, hd⟩
    obtain ⟨b', h1, h2⟩ := string_complete w s hd rest ((w ++ 34 :: rest).length + 1)
      (resetBuf initial) [] (by simp; omega) (reset_holds initial hi)
    unfold stringConst
    rw [h2]
    simp only [get_holds b' _ h1, List.nil_append]

example : Denotes ([65, 92, 110, 92, 32, 10, 92, 92, 48, 54, 54]) [65, 10, 66] := by
  have h : Denotes [92, 48, 54, 54] [66] := by
    have := Denotes.cons (.decimal 48 54 54 0 6 6 ⟨by omega, rfl⟩ ⟨by omega, rfl⟩ ⟨by omega, rfl⟩
      (by omega)) .nil
    simpa using this
  exact .cons (.plain 65 (by unfold Plain; omega)) (.cons .newline (.cons (.gap [32, 10] (by simp)
    (by simp [Formatting])) h))

/-- Otherwise LexicalError is raised: no other exception, and the lexer always
ends. -/
theorem C85_string_error (initial : Text) (hi : 1 ≤ initial.length) (inp : Text)
    (hl : ∀ c ∈ inp, c < 256) :
    stringConst initial inp = .error ↔
      ¬ ∃ w s rest, inp = w ++ 34 :: rest ∧ Denotes w s := by
  constructor
  · rintro h ⟨w, s, rest, h1, h2⟩
    rw [(C85_string initial hi inp hl s rest).mpr ⟨w, h1, h2⟩] at h
    simp at h
  · intro h
    unfold stringConst
    rcases string_sound (inp.length + 1) inp (resetBuf initial) [] (by omega) hl
      (reset_holds initial hi) with ⟨b', w, s, rest, h1, h2, h3, h4⟩ | h1
    · exact absurd ⟨w, s, rest, h2, h3⟩ h
    · rw [h1]

example : stringConst (List.replicate 256 0) [65, 10, 34] matches .error := by decide +kernel

/-- A constant denotes one string: no text is two constants. -/
theorem C85_string_unique (inp : Text) (hl : ∀ c ∈ inp, c < 256) (w s rest w' s' rest' : Text)
    (h : inp = w ++ 34 :: rest) (hd : Denotes w s) (h' : inp = w' ++ 34 :: rest')
    (hd' : Denotes w' s') : w = w' ∧ s = s' ∧ rest = rest' := by
  have h1 := (C85_string [0] (by simp) inp hl s rest).mpr ⟨w, h, hd⟩
  have h2 := (C85_string [0] (by simp) inp hl s' rest').mpr ⟨w', h', hd'⟩
  rw [h1] at h2
  simp only [Res.ok.injEq] at h2
  obtain ⟨rfl, rfl⟩ := h2
  rw [h] at h'
  exact ⟨List.append_cancel_right h', rfl, rfl⟩

example : ([65, 34, 66] : Text) = [65] ++ 34 :: [66] ∧ Denotes [65] [65] :=
  ⟨rfl, .cons (.plain 65 (by unfold Plain; omega)) .nil⟩

theorem denotes_map (f : Nat → Text) (s : Text) (hf : ∀ c ∈ s, Item (f c) [c]) :
    Denotes (s.flatMap f) s := by
  induction s with
  | nil => exact .nil
  | cons c s ih =>
    rw [List.flatMap_cons]
    exact .cons (hf c (by simp)) (ih fun d hd => hf d (by simp [hd]))

theorem item_escape (c : Nat) (hc : c < 256) : Item (Strings.toMLescape c) [c] := by
  unfold Strings.toMLescape
  split_ifs with h1 h2 h3 h4 h5 h6 h7 h8 h9 h10 h11
  · subst h1; exact .backslash
  · subst h2; exact .quote
  · exact .plain c ⟨by omega, by omega, h2, h1, by omega⟩
  · have := Item.decimal (48 + c / 100) (48 + c / 10 % 10) (48 + c % 10) (c / 100) (c / 10 % 10)
      (c % 10) ⟨by omega, rfl⟩ ⟨by omega, rfl⟩ ⟨by omega, rfl⟩ (by omega)
    rwa [show 100 * (c / 100) + 10 * (c / 10 % 10) + c % 10 = c by omega] at this
  · subst h5; exact .alert
  · subst h6; exact .backspace
  · subst h7; exact .tab
  · subst h8; exact .newline
  · subst h9; exact .return
  · subst h10; exact .vtab
  · subst h11; exact .formfeed
  · have := Item.control (c + 64) (by omega) (by omega)
    rwa [Nat.add_sub_cancel] at this

/-- What `String.toString` returns, between quotes, is a constant for the string. -/
theorem C85_toString (initial : Text) (hi : 1 ≤ initial.length) (s rest : Text)
    (hs : ∀ c ∈ s, c < 256) :
    stringConst initial (Strings.toString s ++ 34 :: rest) = .ok s rest := by
  have hd := denotes_map Strings.toMLescape s fun c hc => item_escape c (hs c hc)
  obtain ⟨b', h1, h2⟩ := string_complete _ s hd rest
    ((Strings.toString s ++ 34 :: rest).length + 1) (resetBuf initial) []
    (by simp [Strings.toString]; omega) (reset_holds initial hi)
  unfold stringConst
  rw [show Strings.toString s = s.flatMap Strings.toMLescape from rfl] at *
  rw [h2]
  simp only [get_holds b' _ h1, List.nil_append]

example : Strings.toString [65, 10, 255] = [65, 92, 110, 92, 50, 53, 53] := by decide

theorem item_makestring (c : Nat) (hc : c < 256) : Item (Strings.makestringChar c) [c] := by
  unfold Strings.makestringChar
  by_cases h1 : c = 34
  · rw [if_pos h1]; subst h1; exact .quote
  rw [if_neg h1]
  by_cases h2 : c = 92
  · rw [if_pos h2]; subst h2; exact .backslash
  rw [if_neg h2]
  by_cases h3 : c = 7
  · rw [if_pos h3]; subst h3; exact .alert
  rw [if_neg h3]
  by_cases h4 : c = 8
  · rw [if_pos h4]; subst h4; exact .backspace
  rw [if_neg h4]
  by_cases h5 : c = 9
  · rw [if_pos h5]; subst h5; exact .tab
  rw [if_neg h5]
  by_cases h6 : c = 10
  · rw [if_pos h6]; subst h6; exact .newline
  rw [if_neg h6]
  by_cases h7 : c = 11
  · rw [if_pos h7]; subst h7; exact .vtab
  rw [if_neg h7]
  by_cases h8 : c = 12
  · rw [if_pos h8]; subst h8; exact .formfeed
  rw [if_neg h8]
  by_cases h9 : c = 13
  · rw [if_pos h9]; subst h9; exact .return
  rw [if_neg h9]
  by_cases h10 : c ≤ 31
  · rw [if_pos h10]
    have := Item.control (c + 64) (by omega) (by omega)
    rwa [Nat.add_sub_cancel] at this
  rw [if_neg h10]
  by_cases h11 : (32 ≤ c ∧ c ≤ 126) ∨ (128 ≤ c ∧ c ≤ 254)
  · rw [if_pos h11]
    exact .plain c ⟨by omega, by omega, h1, h2, by omega⟩
  rw [if_neg h11]
  have := Item.decimal (48 + c / 100) (48 + c / 10 % 10) (48 + c % 10) (c / 100) (c / 10 % 10)
    (c % 10) ⟨by omega, rfl⟩ ⟨by omega, rfl⟩ ⟨by omega, rfl⟩ (by omega)
  rwa [show 100 * (c / 100) + 10 * (c / 10 % 10) + c % 10 = c by omega] at this

/-- What the interactive system prints for a string value is read back by the
compiler as that string. -/
theorem C85_printed_string (initial : Text) (hi : 1 ≤ initial.length) (s rest : Text)
    (hs : ∀ c ∈ s, c < 256) :
    ∃ t, Strings.makestringBytes s ++ rest = 34 :: t ∧ stringConst initial t = .ok s rest := by
  have hd := denotes_map Strings.makestringChar s fun c hc => item_makestring c (hs c hc)
  refine ⟨s.flatMap Strings.makestringChar ++ 34 :: rest, by simp [Strings.makestringBytes], ?_⟩
  obtain ⟨b', h1, h2⟩ := string_complete _ s hd rest
    ((s.flatMap Strings.makestringChar ++ 34 :: rest).length + 1) (resetBuf initial) []
    (by simp; omega) (reset_holds initial hi)
  unfold stringConst
  rw [h2]
  simp only [get_holds b' _ h1, List.nil_append]

example : Strings.makestringBytes [34, 7, 1, 127] =
    [34, 92, 34, 92, 97, 92, 94, 65, 92, 49, 50, 55, 34] := by decide

/-- The same for characters. -/
theorem C85_printed_char (initial : Text) (hi : 1 ≤ initial.length) (c : Nat) (rest : Text)
    (hc : c < 256) :
    ∃ t, Strings.makestringOfChar c ++ rest = 35 :: 34 :: t ∧
      charConst initial t = .ok c rest := by
  have hd := denotes_map Strings.makestringChar [c] fun d hd => item_makestring d (by
    simp only [List.mem_singleton] at hd; omega)
  refine ⟨Strings.makestringChar c ++ 34 :: rest, by simp [Strings.makestringOfChar], ?_⟩
  obtain ⟨b', h1, h2⟩ := string_complete _ [c] hd rest
    ((Strings.makestringChar c ++ 34 :: rest).length + 1) (resetBuf initial) []
    (by simp; omega) (reset_holds initial hi)
  simp only [List.flatMap_cons, List.flatMap_nil, List.append_nil] at h2
  unfold charConst stringConst
  rw [h2]
  simp [get_holds b' _ h1]

example : Strings.makestringOfChar 9 = [35, 34, 92, 116, 34] := by decide

/-- A character constant is a string constant for a string of one character. -/
theorem C85_char (initial : Text) (hi : 1 ≤ initial.length) (inp : Text)
    (hl : ∀ c ∈ inp, c < 256) (c : Nat) (rest : Text) :
    charConst initial inp = .ok c rest ↔ ∃ w, inp = w ++ 34 :: rest ∧ Denotes w [c] := by
  rw [← C85_string initial hi inp hl [c] rest]
  unfold charConst
  cases h : stringConst initial inp with
  | ok s r =>
    simp only [Res.ok.injEq]
    rcases s with _ | ⟨d, _ | ⟨e, s⟩⟩ <;> simp
  | error => simp
  | bad => simp

example : charConst (List.replicate 256 0) [92, 116, 34, 59] matches .ok 9 [59] := by decide +kernel

/-- The bracket that opens a comment is matched with the bracket that closes it:
the lexer goes on at `rest` exactly if the text before it, cut into brackets and
other characters from left to right, has one closing bracket more than opening
ones, and no proper part from its beginning has. -/
theorem C85_comment (inp rest : Text) :
    comment inp = .ok () rest ↔ ∃ ts, inp = textOf ts ++ rest ∧ Munch ts rest ∧ IsComment ts := by
  have hlen : ∀ ts, ts.length ≤ (textOf ts).length := by
    intro ts
    induction ts with
    | nil => simp
    | cons t ts ih =>
      have : 1 ≤ t.text.length := by cases t <;> simp [Lexeme.text]
      simp only [textOf, List.flatMap_cons, List.length_append, List.length_cons] at *
      omega
  constructor
  · intro h
    unfold comment at h
    rcases comment_sound (inp.length + 1) inp 0 (by omega) with ⟨ts, rest', h1, h2, h3, h4⟩ | h1
    · simp only [Nat.zero_add, Nat.cast_one] at h1
      rw [h1] at h
      simp only [Res.ok.injEq, true_and] at h
      subst h
      exact ⟨ts, h2, h3, by simpa [Closes, IsComment] using h4⟩
    · simp only [Nat.zero_add, Nat.cast_one] at h1
      rw [h1] at h; simp at h
  · rintro ⟨ts, rfl, h3, h4⟩
    have := comment_complete ts rest 0 ((textOf ts ++ rest).length + 1)
      (by have := hlen ts; simp; omega) h3 (by simpa [Closes, IsComment] using h4)
    simpa [comment] using this

example : comment [97, 40, 42, 41, 42, 41, 42, 41, 59] matches .ok () [59] := by decide +kernel

/-- Otherwise the comment is not terminated, and LexicalError is raised. -/
theorem C85_comment_error (inp : Text) :
    comment inp = .error ↔
      ¬ ∃ ts rest, inp = textOf ts ++ rest ∧ Munch ts rest ∧ IsComment ts := by
  constructor
  · rintro h ⟨ts, rest, h1⟩
    rw [(C85_comment inp rest).mpr ⟨ts, h1⟩] at h
    simp at h
  · intro h
    unfold comment
    rcases comment_sound (inp.length + 1) inp 0 (by omega) with ⟨ts, rest, h1, h2, h3, h4⟩ | h1
    · exact absurd ⟨ts, rest, h2, h3, by simpa [Closes, IsComment] using h4⟩ h
    · simpa using h1

example : comment [97, 40, 42, 41, 42, 41] matches .error := by decide +kernel

/-- A long identifier is cut at its dots, the last part first; every list of parts
without dots is found again. -/
theorem C85_long_identifier (s : Text) :
    joinDots (splitQualId s).reverse = s ∧ (∀ x ∈ splitQualId s, 46 ∉ x) ∧
    ∀ xs, xs ≠ [] → (∀ x ∈ xs, 46 ∉ x) → joinDots xs = s → splitQualId s = xs.reverse := by
  obtain ⟨ys, h1, h2, h3, h4⟩ := parse_spec s 0 0 [] (Nat.le_refl _) (Nat.zero_le _) (by simp)
  simp only [List.append_nil, List.drop_zero] at h1 h3
  unfold splitQualId
  rw [h1]
  refine ⟨by simpa using h3, by simpa using h4, ?_⟩
  intro xs hx dx h
  rw [join_inj xs ys hx h2 dx h4 (h.trans h3.symm)]

example : splitQualId [65, 46, 66, 46, 43] = [[43], [66], [65]] := by
  have := (C85_long_identifier [65, 46, 66, 46, 43]).2.2 [[65], [66], [43]] (by simp) (by simp) rfl
  simpa using this

/-! ## Departures from the Definition -/

/-- Form feed is a formatting character of the Definition (section 2.2), and white
space for the lexer (Lexer.lex:233), but a gap with a form feed is refused. -/
theorem C85_gap_violation (initial rest : Text) :
    stringConst initial ([92, 12, 92, 34] ++ rest) = .error := by
  unfold stringConst
  simp [stringRule, strCase, escCase, mem_simple, mem_gap, mem_digits]

example : stringConst (List.replicate 256 0) [92, 9, 92, 34] matches .ok [] [] := by decide +kernel

/-- The codes 27 to 31 are no printable characters, but they are accepted in string
constants, while the printable character 255 of ISO Latin 1 is not. -/
theorem C85_unprintable_violation (initial : Text) (hi : 1 ≤ initial.length) (c : Nat)
    (hc : 27 ≤ c ∧ c ≤ 31) : stringConst initial [c, 34] = .ok [c] [] ∧
      stringConst initial [255, 34] = .error := by
  constructor
  · refine (C85_string initial hi [c, 34] ?_ [c] []).mpr ⟨[c], rfl, ?_⟩
    · intro d hd
      simp only [List.mem_cons, List.not_mem_nil, or_false] at hd
      omega
    · exact .cons (.plain c ⟨by omega, by omega, by omega, by omega, by omega⟩) .nil
  · simp [stringConst, stringRule, strCase]

end Mosml.Source
