import Verif.Source.Lemmas

/-! # Comments and long identifiers -/

namespace Mosml.Source

open Mosml.Lex (Regexp regexpForString LongestFirst Matches allChars mem_charClass)

/-! ### the rule Comment -/

theorem matches_two (a b : Nat) (l : Text) (n : Nat) :
    Matches (regexpForString [a, b]) (pre l n) ↔ n = 2 ∧ l.getD 0 0 = a ∧ l.getD 1 0 = b := by
  simp only [regexpForString]
  rw [matches_seq]
  simp only [matches_chars, getD_tail, List.mem_singleton]
  constructor
  · rintro ⟨m, rfl, h, rfl, h2⟩; exact ⟨rfl, h, h2⟩
  · rintro ⟨rfl, h, h2⟩; exact ⟨1, rfl, h, rfl, h2⟩

theorem com_longest (l : Text) (hl : ∀ c ∈ l, c < 256) :
    LongestFirst commentRules (fun i => l.getD i 0) (comCase l).1 (comCase l).2 := by
  have h0 : ∀ n, Matches (regexpForString [40, 42]) (pre l n) ↔
      n = 2 ∧ l.getD 0 0 = 40 ∧ l.getD 1 0 = 42 := matches_two 40 42 l
  have h1 : ∀ n, Matches (regexpForString [42, 41]) (pre l n) ↔
      n = 2 ∧ l.getD 0 0 = 42 ∧ l.getD 1 0 = 41 := matches_two 42 41 l
  have h2 : ∀ n, Matches (.alternative (.characters [0]) (.characters [26])) (pre l n) ↔
      n = 1 ∧ (l.getD 0 0 = 0 ∨ l.getD 0 0 = 26) := fun n => by
    show Matches _ _ ∨ Matches _ _ ↔ _
    rw [matches_chars, matches_chars]; simp only [List.mem_singleton]; tauto
  have h3 : ∀ n, Matches (.characters allChars) (pre l n) ↔
      n = 1 ∧ 1 ≤ l.getD 0 0 ∧ l.getD 0 0 ≤ 255 := fun n => by
    rw [matches_chars]; simp only [allChars, mem_charClass]
  have hx : l.getD 0 0 < 256 := by
    cases l with
    | nil => simp
    | cons c r => exact hl c (by simp)
  have main : ∀ k n, (∃ e, commentRules[k]? = some e ∧ Matches e (pre l n)) →
      (∀ k' < k, ∀ e, commentRules[k']? = some e → ¬ Matches e (pre l n)) →
      (∀ n', n < n' → ∀ e ∈ commentRules, ¬ Matches e (pre l n')) →
      LongestFirst commentRules (fun i => l.getD i 0) k n := by
    intro k n a b c
    exact ⟨⟨a, b⟩, fun n' hn ⟨e, he, hm⟩ => c n' hn e he hm⟩
  have hmem : ∀ e ∈ commentRules, e = regexpForString [40, 42] ∨ e = regexpForString [42, 41] ∨
      e = .alternative (.characters [0]) (.characters [26]) ∨ e = .characters allChars := by
    intro e he; simpa [commentRules] using he
  have long2 : ∀ n', 2 < n' → ∀ e ∈ commentRules, ¬ Matches e (pre l n') := by
    intro n' hn e he hm
    rcases hmem e he with rfl | rfl | rfl | rfl
    · rw [h0] at hm; omega
    · rw [h1] at hm; omega
    · rw [h2] at hm; omega
    · rw [h3] at hm; omega
  have long1 : ¬ (l.getD 0 0 = 40 ∧ l.getD 1 0 = 42) → ¬ (l.getD 0 0 = 42 ∧ l.getD 1 0 = 41) →
      ∀ n', 1 < n' → ∀ e ∈ commentRules, ¬ Matches e (pre l n') := by
    intro ha hb n' hn e he hm
    rcases hmem e he with rfl | rfl | rfl | rfl
    · rw [h0] at hm; exact ha hm.2
    · rw [h1] at hm; exact hb hm.2
    · rw [h2] at hm; omega
    · rw [h3] at hm; omega
  have e0 : commentRules[0]? = some (regexpForString [40, 42]) := rfl
  have e1 : commentRules[1]? = some (regexpForString [42, 41]) := rfl
  have e2 : commentRules[2]? = some (.alternative (.characters [0]) (.characters [26])) := rfl
  have e3 : commentRules[3]? = some (.characters allChars) := rfl
  cases l with
  | nil =>
    refine main 2 1 ⟨_, e2, (h2 1).mpr ⟨rfl, Or.inl rfl⟩⟩ ?_ (long1 (by simp) (by simp))
    intro k hk e he hm
    obtain rfl | rfl : k = 0 ∨ k = 1 := by omega
    · rw [e0] at he; simp only [Option.some.injEq] at he; subst he; rw [h0] at hm; omega
    · rw [e1] at he; simp only [Option.some.injEq] at he; subst he; rw [h1] at hm; omega
  | cons c r =>
    simp only [List.getD_cons_zero, List.getD_cons_succ] at *
    have hh : ∀ d, d ≠ 0 → (r.head? = some d ↔ r.getD 0 0 = d) := by
      intro d hd
      cases r with
      | nil => simp; omega
      | cons x r => simp
    simp only [comCase, hh 42 (by omega), hh 41 (by omega)]
    split <;> rename_i ha
    · exact main 0 2 ⟨_, e0, (h0 2).mpr ⟨rfl, ha⟩⟩ (by omega) long2
    · split <;> rename_i hb
      · refine main 1 2 ⟨_, e1, (h1 2).mpr ⟨rfl, hb⟩⟩ ?_ long2
        intro k hk e he hm
        obtain rfl : k = 0 := by omega
        rw [e0] at he; simp only [Option.some.injEq] at he; subst he
        rw [h0] at hm; exact ha hm.2
      · split <;> rename_i hc
        · refine main 2 1 ⟨_, e2, (h2 1).mpr ⟨rfl, hc⟩⟩ ?_ (long1 ha hb)
          intro k hk e he hm
          obtain rfl | rfl : k = 0 ∨ k = 1 := by omega
          · rw [e0] at he; simp only [Option.some.injEq] at he; subst he; rw [h0] at hm; omega
          · rw [e1] at he; simp only [Option.some.injEq] at he; subst he; rw [h1] at hm; omega
        · refine main 3 1 ⟨_, e3, (h3 1).mpr ⟨rfl, by omega, by omega⟩⟩ ?_ (long1 ha hb)
          intro k hk e he hm
          obtain rfl | rfl | rfl : k = 0 ∨ k = 1 ∨ k = 2 := by omega
          · rw [e0] at he; simp only [Option.some.injEq] at he; subst he; rw [h0] at hm; omega
          · rw [e1] at he; simp only [Option.some.injEq] at he; subst he; rw [h1] at hm; omega
          · rw [e2] at he; simp only [Option.some.injEq] at he; subst he
            rw [h2] at hm; exact hc hm.2

/-- The text up to the bracket that closes `k + 1` comments. -/
def Closes (k : Nat) (ts : List Lexeme) : Prop :=
  closes ts = opens ts + (k + 1) ∧ ∀ p, p <+: ts → p ≠ ts → closes p ≤ opens p + k

theorem closes_nil (k : Nat) : ¬ Closes k [] := by
  rintro ⟨h, _⟩; simp [closes, opens] at h

theorem prefix_cons_iff (P : List Lexeme → Prop) (t : Lexeme) (ts : List Lexeme) :
    (∀ p, p <+: t :: ts → p ≠ t :: ts → P p) ↔
      P [] ∧ ∀ p, p <+: ts → p ≠ ts → P (t :: p) := by
  constructor
  · intro h
    refine ⟨h [] (List.nil_prefix) (by simp), fun p hp hn => h (t :: p) ?_ (by simpa using hn)⟩
    exact List.prefix_cons_inj t |>.mpr hp
  · rintro ⟨h0, h⟩ p hp hn
    cases p with
    | nil => exact h0
    | cons x p =>
      obtain ⟨q, hq⟩ := hp
      simp only [List.cons_append, List.cons.injEq] at hq
      obtain ⟨rfl, hq⟩ := hq
      exact h p ⟨q, hq⟩ (fun e => hn (by rw [e]))

theorem closes_opening (k : Nat) (ts : List Lexeme) :
    Closes k (.opening :: ts) ↔ Closes (k + 1) ts := by
  unfold Closes
  rw [prefix_cons_iff]
  simp only [closes, opens, List.count_cons]
  simp only [show (Lexeme.opening == Lexeme.closing) = false from rfl,
    show (Lexeme.opening == Lexeme.opening) = true from rfl, Bool.false_eq_true, if_false, if_true,
    List.count_nil]
  constructor
  · rintro ⟨h1, _, h3⟩; exact ⟨by omega, fun p hp hn => by have := h3 p hp hn; omega⟩
  · rintro ⟨h1, h3⟩; exact ⟨by omega, by omega, fun p hp hn => by have := h3 p hp hn; omega⟩

theorem closes_closing (k : Nat) (ts : List Lexeme) :
    Closes (k + 1) (.closing :: ts) ↔ Closes k ts := by
  unfold Closes
  rw [prefix_cons_iff]
  simp only [closes, opens, List.count_cons]
  simp only [show (Lexeme.closing == Lexeme.closing) = true from rfl,
    show (Lexeme.closing == Lexeme.opening) = false from rfl, Bool.false_eq_true, if_false, if_true,
    List.count_nil]
  constructor
  · rintro ⟨h1, _, h3⟩; exact ⟨by omega, fun p hp hn => by have := h3 p hp hn; omega⟩
  · rintro ⟨h1, h3⟩; exact ⟨by omega, by omega, fun p hp hn => by have := h3 p hp hn; omega⟩

theorem closes_last (ts : List Lexeme) : Closes 0 (.closing :: ts) ↔ ts = [] := by
  unfold Closes
  rw [prefix_cons_iff]
  simp only [closes, opens, List.count_cons]
  simp only [show (Lexeme.closing == Lexeme.closing) = true from rfl,
    show (Lexeme.closing == Lexeme.opening) = false from rfl, Bool.false_eq_true, if_false, if_true,
    List.count_nil]
  constructor
  · rintro ⟨h1, _, h3⟩
    by_contra hne
    have := h3 [] List.nil_prefix (fun e => hne e.symm)
    simp at this
  · rintro rfl
    exact ⟨by simp, by omega, fun p hp hn => absurd (List.prefix_nil.mp hp) hn⟩

theorem closes_other (k c : Nat) (ts : List Lexeme) :
    Closes k (.other c :: ts) ↔ Closes k ts := by
  unfold Closes
  rw [prefix_cons_iff]
  have h1 : (Lexeme.other c == Lexeme.closing) = false := by simp
  have h2 : (Lexeme.other c == Lexeme.opening) = false := by simp
  simp only [closes, opens, List.count_cons, h1, h2, Bool.false_eq_true, if_false,
    List.count_nil]
  constructor
  · rintro ⟨h1, _, h3⟩; exact ⟨by omega, fun p hp hn => by have := h3 p hp hn; omega⟩
  · rintro ⟨h1, h3⟩; exact ⟨by omega, by omega, fun p hp hn => by have := h3 p hp hn; omega⟩

theorem prefix_two (a b c : Nat) (r : Text) :
    [a, b] <+: c :: r ↔ c = a ∧ r.head? = some b := by
  constructor
  · rintro ⟨q, hq⟩
    simp only [List.cons_append, List.nil_append, List.cons.injEq] at hq
    exact ⟨hq.1.symm, by rw [← hq.2]; rfl⟩
  · rintro ⟨rfl, h⟩
    cases r with
    | nil => simp at h
    | cons x r =>
      simp only [List.head?_cons, Option.some.injEq] at h
      subst h
      exact ⟨r, rfl⟩

theorem comment_complete (ts : List Lexeme) (rest : Text) :
    ∀ k fuel, ts.length < fuel → Munch ts rest → Closes k ts →
      commentRule fuel (textOf ts ++ rest) (k + 1) = .ok () rest := by
  induction ts with
  | nil => intro k fuel _ _ h; exact absurd h (closes_nil k)
  | cons t ts ih =>
    intro k fuel hf hm hc
    obtain ⟨f, rfl⟩ : ∃ f, fuel = f + 1 := ⟨fuel - 1, by omega⟩
    simp only [List.length_cons] at hf
    cases t with
    | opening =>
      have htx : textOf (.opening :: ts) ++ rest = 40 :: 42 :: (textOf ts ++ rest) := by
        simp [textOf, Lexeme.text]
      have hcase : comCase (40 :: 42 :: (textOf ts ++ rest)) = (0, 2) := by simp [comCase]
      rw [htx]
      simp only [commentRule, hcase, List.drop_succ_cons, List.drop_zero]
      have := ih (k + 1) f (by omega) hm ((closes_opening k ts).mp hc)
      push_cast at this
      exact this
    | closing =>
      have htx : textOf (.closing :: ts) ++ rest = 42 :: 41 :: (textOf ts ++ rest) := by
        simp [textOf, Lexeme.text]
      have hcase : comCase (42 :: 41 :: (textOf ts ++ rest)) = (1, 2) := by simp [comCase]
      rw [htx]
      simp only [commentRule, hcase, List.drop_succ_cons, List.drop_zero]
      cases k with
      | zero =>
        have := (closes_last ts).mp hc
        subst this
        simp [textOf]
      | succ k =>
        rw [if_pos (by push_cast; omega)]
        have := ih k f (by omega) hm ((closes_closing k ts).mp hc)
        have h2 : ((k + 1 : Nat) : Int) + 1 - 1 = (k : Int) + 1 := by push_cast; omega
        rw [h2]; exact this
    | other c =>
      simp only [Munch] at hm
      obtain ⟨h0, h26, ha, hb, hm⟩ := hm
      rw [prefix_two] at ha hb
      have htx : textOf (.other c :: ts) ++ rest = c :: (textOf ts ++ rest) := by
        simp [textOf, Lexeme.text]
      have hcase : comCase (c :: (textOf ts ++ rest)) = (3, 1) := by
        simp only [comCase]
        rw [if_neg ha, if_neg hb, if_neg (by omega)]
      rw [htx]
      simp only [commentRule, hcase, List.drop_succ_cons, List.drop_zero]
      exact ih k f (by omega) hm ((closes_other k c ts).mp hc)

theorem comment_sound (fuel : Nat) : ∀ inp k, inp.length < fuel →
    (∃ ts rest, commentRule fuel inp (k + 1 : Nat) = .ok () rest ∧ inp = textOf ts ++ rest ∧
      Munch ts rest ∧ Closes k ts) ∨ commentRule fuel inp (k + 1 : Nat) = .error := by
  induction fuel with
  | zero => intro inp k h; omega
  | succ fuel ih =>
    intro inp k hf
    cases inp with
    | nil => right; rfl
    | cons c r =>
      simp only [List.length_cons] at hf
      by_cases ha : c = 40 ∧ r.head? = some 42
      · have hcase : comCase (c :: r) = (0, 2) := by simp only [comCase]; rw [if_pos ha]
        obtain ⟨rfl, h2⟩ := ha
        cases r with
        | nil => simp at h2
        | cons d r =>
          simp only [List.head?_cons, Option.some.injEq] at h2
          subst h2
          simp only [commentRule, hcase, List.drop_succ_cons, List.drop_zero]
          simp only [List.length_cons] at hf
          have e : ((k + 1 : Nat) : Int) + 1 = ((k + 1 + 1 : Nat) : Int) := by push_cast; rfl
          rw [e]
          rcases ih r (k + 1) (by omega) with ⟨ts, rest, h1, h2, h3, h4⟩ | h
          · left
            exact ⟨.opening :: ts, rest, h1, by simp [textOf, Lexeme.text, h2], h3,
              (closes_opening k ts).mpr h4⟩
          · right; exact h
      by_cases hb : c = 42 ∧ r.head? = some 41
      · have hcase : comCase (c :: r) = (1, 2) := by
          simp only [comCase]; rw [if_neg ha, if_pos hb]
        obtain ⟨rfl, h2⟩ := hb
        cases r with
        | nil => simp at h2
        | cons d r =>
          simp only [List.head?_cons, Option.some.injEq] at h2
          subst h2
          simp only [commentRule, hcase, List.drop_succ_cons, List.drop_zero]
          simp only [List.length_cons] at hf
          cases k with
          | zero =>
            left
            refine ⟨[.closing], r, by simp, by simp [textOf, Lexeme.text], trivial,
              (closes_last []).mpr rfl⟩
          | succ k =>
            rw [if_pos (by push_cast; omega)]
            have e : ((k + 1 + 1 : Nat) : Int) - 1 = ((k + 1 : Nat) : Int) := by push_cast; omega
            rw [e]
            rcases ih r k (by omega) with ⟨ts, rest, h1, h2, h3, h4⟩ | h
            · left
              exact ⟨.closing :: ts, rest, h1, by simp [textOf, Lexeme.text, h2], h3,
                (closes_closing k ts).mpr h4⟩
            · right; exact h
      by_cases he : c = 0 ∨ c = 26
      · right
        have hcase : comCase (c :: r) = (2, 1) := by
          simp only [comCase]; rw [if_neg ha, if_neg hb, if_pos he]
        simp only [commentRule, hcase]
      · have hcase : comCase (c :: r) = (3, 1) := by
          simp only [comCase]; rw [if_neg ha, if_neg hb, if_neg he]
        simp only [commentRule, hcase, List.drop_succ_cons, List.drop_zero]
        rcases ih r k (by omega) with ⟨ts, rest, h1, h2, h3, h4⟩ | h
        · left
          refine ⟨.other c :: ts, rest, h1, by simp [textOf, Lexeme.text, h2], ?_,
            (closes_other k c ts).mpr h4⟩
          rw [h2] at ha hb
          exact ⟨by omega, by omega, by rw [prefix_two]; exact ha, by rw [prefix_two]; exact hb, h3⟩
        · right; exact h

/-! ### long identifiers -/

theorem drop_take_succ (s : Text) (i n : Nat) (hi : i ≤ n) (hn : n < s.length) :
    (s.drop i).take (n + 1 - i) = (s.drop i).take (n - i) ++ [s.getD n 0] := by
  have h : n + 1 - i = (n - i) + 1 := by omega
  rw [h, List.take_add_one]
  congr 1
  rw [List.getElem?_drop, show i + (n - i) = n by omega, List.getElem?_eq_getElem hn]
  simp [List.getD_eq_getElem?_getD, List.getElem?_eq_getElem hn]

theorem parse_spec (s : Text) (i n : Nat) (acc : List Text) (hi : i ≤ n) (hn : n ≤ s.length)
    (hd : 46 ∉ (s.drop i).take (n - i)) :
    ∃ xs, parseQual s i n acc = xs.reverse ++ acc ∧ xs ≠ [] ∧ joinDots xs = s.drop i ∧
      ∀ x ∈ xs, 46 ∉ x := by
  fun_induction parseQual s i n acc with
  | case1 i n acc h =>
    obtain rfl : n = s.length := by omega
    refine ⟨[(s.drop i).take (s.length - i)], by simp, by simp, ?_, ?_⟩
    · simp only [joinDots]
      rw [List.take_of_length_le (by simp)]
    · intro x hx
      simp only [List.mem_singleton] at hx
      rw [hx]; exact hd
  | case2 i n acc h hdot ih =>
    obtain ⟨xs, h1, h2, h3, h4⟩ := ih (Nat.le_refl _) (by omega) (by simp)
    refine ⟨(s.drop i).take (n - i) :: xs, by simp [h1], by simp, ?_, ?_⟩
    · obtain ⟨y, ys, rfl⟩ := List.exists_cons_of_ne_nil h2
      simp only [joinDots]
      rw [h3]
      have hlt : n < s.length := by omega
      have h5 : s.drop n = 46 :: s.drop (n + 1) := by
        rw [List.drop_eq_getElem_cons hlt]
        congr 1
        simpa [List.getD_eq_getElem?_getD, List.getElem?_eq_getElem hlt] using hdot
      rw [← h5]
      have h6 : s.drop n = (s.drop i).drop (n - i) := by
        rw [List.drop_drop, show i + (n - i) = n by omega]
      rw [h6, List.take_append_drop]
    · intro x hx
      simp only [List.mem_cons] at hx
      rcases hx with rfl | hx
      · exact hd
      · exact h4 x hx
  | case3 i n acc h hdot ih =>
    refine ih (by omega) (by omega) ?_
    rw [drop_take_succ s i n hi (by omega), List.mem_append, List.mem_singleton]
    rintro (h1 | h1)
    · exact hd h1
    · exact hdot h1.symm

theorem split_dot (a b a' b' : Text) (ha : 46 ∉ a) (ha' : 46 ∉ a')
    (h : a ++ 46 :: b = a' ++ 46 :: b') : a = a' ∧ b = b' := by
  induction a generalizing a' with
  | nil =>
    cases a' with
    | nil => simpa using h
    | cons c a' =>
      simp only [List.nil_append, List.cons_append, List.cons.injEq] at h
      simp [← h.1] at ha'
  | cons c a ih =>
    cases a' with
    | nil =>
      simp only [List.nil_append, List.cons_append, List.cons.injEq] at h
      simp [h.1] at ha
    | cons d a' =>
      simp only [List.cons_append, List.cons.injEq] at h
      simp only [List.mem_cons, not_or] at ha ha'
      obtain ⟨h1, h2⟩ := ih a' ha.2 ha'.2 h.2
      exact ⟨by rw [h.1, h1], h2⟩

theorem join_inj (xs ys : List Text) (hx : xs ≠ []) (hy : ys ≠ []) (dx : ∀ x ∈ xs, 46 ∉ x)
    (dy : ∀ y ∈ ys, 46 ∉ y) (h : joinDots xs = joinDots ys) : xs = ys := by
  induction xs generalizing ys with
  | nil => exact absurd rfl hx
  | cons x xs ih =>
    obtain ⟨y, ys, rfl⟩ := List.exists_cons_of_ne_nil hy
    have hx1 := dx x (by simp)
    have hy1 := dy y (by simp)
    cases xs with
    | nil =>
      cases ys with
      | nil => simp only [joinDots] at h; rw [h]
      | cons y' ys =>
        simp only [joinDots] at h
        rw [h] at hx1
        simp at hx1
    | cons x' xs =>
      cases ys with
      | nil =>
        simp only [joinDots] at h
        rw [← h] at hy1
        simp at hy1
      | cons y' ys =>
        simp only [joinDots] at h
        obtain ⟨h1, h2⟩ := split_dot x _ y _ hx1 hy1 h
        rw [h1, ih (y' :: ys) (by simp) (by simp) (fun z hz => dx z (by simp [hz]))
          (fun z hz => dy z (by simp [hz])) h2]

end Mosml.Source
