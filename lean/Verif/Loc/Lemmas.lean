import Verif.Loc.Spec
import Verif.Util

namespace Mosml.Loc
open Mosml.Num

theorem adv_clean (n : Nat) (s r : Str) : ∀ p l st, 10 ∉ s → 26 ∉ s →
    advance (s.length + n) ⟨p, l, st, s ++ r⟩ = advance n ⟨p + s.length, l, st, r⟩ := by
  induction s with
  | nil => intro p l st _ _; simp
  | cons c s ih =>
    intro p l st h1 h2
    simp only [List.mem_cons, not_or] at h1 h2
    have e : (c :: s).length + n = (s.length + n) + 1 := by simp; omega
    rw [e, List.cons_append, advance.eq_5 _ _ _ _ _ _ (Ne.symm h2.1) (Ne.symm h1.1), ih _ _ _ h1.2 h2.2]
    congr 2
    simp; omega

theorem adv_any (n : Nat) (s r : Str) : ∀ p l st, 26 ∉ s → ∃ st',
    advance (s.length + n) ⟨p, l, st, s ++ r⟩ = advance n ⟨p + s.length, l + s.count 10, st', r⟩ := by
  induction s with
  | nil => intro p l st _; exact ⟨st, by simp⟩
  | cons c s ih =>
    intro p l st h2
    simp only [List.mem_cons, not_or] at h2
    have e : (c :: s).length + n = (s.length + n) + 1 := by simp; omega
    rw [e, List.cons_append]
    by_cases h1 : c = 10
    · subst h1
      rw [advance]
      obtain ⟨st', h⟩ := ih (p + 1) (l + 1) (p + 1) h2.2
      refine ⟨st', h.trans ?_⟩
      congr 2 <;> simp <;> omega
    · rw [advance.eq_5 _ _ _ _ _ _ (Ne.symm h2.1) h1]
      obtain ⟨st', h⟩ := ih (p + 1) l st h2.2
      refine ⟨st', h.trans ?_⟩
      congr 2
      · simp; omega
      · rw [List.count_cons_of_ne h1]

theorem adv_lines (n : Nat) (s r : Str) (p l st : Nat) (h : 26 ∉ s) (he : ∃ t, s = t ++ [10]) :
    advance (s.length + n) ⟨p, l, st, s ++ r⟩ = advance n ⟨p + s.length, l + s.count 10, p + s.length, r⟩ := by
  obtain ⟨t, rfl⟩ := he
  obtain ⟨st', h'⟩ := adv_any (n + 1) t (10 :: r) p l st (fun hh => h (by simp [hh]))
  have e : (t ++ [10]).length + n = t.length + (n + 1) := by simp; omega
  rw [e, List.append_assoc, List.singleton_append, h', advance]
  congr 2 <;> simp <;> omega

theorem adv_pre (n : Nat) (s r : Str) (h : 26 ∉ s) (he : LineEnd s) :
    advance (s.length + n) ⟨0, 1, 0, s ++ r⟩ = advance n ⟨s.length, 1 + s.count 10, s.length, r⟩ := by
  rcases he with rfl | he
  · simp
  · rw [adv_lines n s r 0 1 0 h he]; simp

theorem lines_cons (l : Str) (ls : List Str) : lines (l :: ls) = l ++ 10 :: lines ls := by
  simp [lines]

theorem lines_end (ls : List Str) : ∀ x : Str, ∃ t, x ++ (10 :: lines ls) = t ++ [10] := by
  induction ls with
  | nil => intro x; exact ⟨x, by simp [lines]⟩
  | cons l ls ih =>
    intro x
    obtain ⟨t, h⟩ := ih (x ++ (10 :: l))
    refine ⟨t, ?_⟩
    rw [lines_cons, ← h]
    simp

theorem lines_append (ls ms : List Str) : lines (ls ++ ms) = lines ls ++ lines ms := by
  simp [lines]

theorem lines_count (ls : List Str) (h : ∀ l ∈ ls, 10 ∉ l) : (lines ls).count 10 = ls.length := by
  induction ls with
  | nil => rfl
  | cons l ls ih =>
    rw [lines_cons, List.count_append, List.count_cons_self, ih (fun m hm => h m (by simp [hm])),
      List.count_eq_zero_of_not_mem (h l (by simp))]
    simp

theorem copyLine_line (x r : Str) (h1 : 10 ∉ x) (h2 : 26 ∉ x) : copyLine (x ++ 10 :: r) = (x ++ [10], r) := by
  induction x with
  | nil => rfl
  | cons c x ih =>
    simp only [List.mem_cons, not_or] at h1 h2
    rw [List.cons_append, copyLine.eq_4 _ _ (Ne.symm h2.1) (Ne.symm h1.1), ih h1.2 h2.2]
    rfl

theorem copyLine_eof (x : Str) (h1 : 10 ∉ x) (h2 : 26 ∉ x) : copyLine x = (x ++ (str "<EOF>" ++ [10]), []) := by
  induction x with
  | nil => rfl
  | cons c x ih =>
    simp only [List.mem_cons, not_or] at h1 h2
    rw [copyLine.eq_4 _ _ (Ne.symm h2.1) (Ne.symm h1.1), ih h1.2 h2.2]
    rfl

theorem copyLine_tail (x tail : Str) (h1 : 10 ∉ x) (h2 : 26 ∉ x) (ht : Tail tail) :
    (copyLine (x ++ tail)).1 = x ++ (if tail = [] then str "<EOF>" else []) ++ [10] := by
  rcases ht with rfl | ⟨post, rfl⟩
  · rw [List.append_nil, copyLine_eof x h1 h2]; simp
  · rw [copyLine_line x post h1 h2]; simp

theorem skipLine_line (x r : Str) (h1 : 10 ∉ x) (h2 : 26 ∉ x) : skipLine (x ++ 10 :: r) = r := by
  induction x with
  | nil => rfl
  | cons c x ih =>
    simp only [List.mem_cons, not_or] at h1 h2
    rw [List.cons_append, skipLine.eq_4 _ _ (Ne.symm h2.1) (Ne.symm h1.1), ih h1.2 h2.2]

theorem copyLines_lines (ls : List Str) (r : Str) (h1 : ∀ l ∈ ls, 10 ∉ l) (h2 : ∀ l ∈ ls, 26 ∉ l) :
    copyLines ls.length (lines ls ++ r) = ((ls.map shown).flatten, r) := by
  induction ls with
  | nil => rfl
  | cons l ls ih =>
    have ih := ih (fun m hm => h1 m (by simp [hm])) (fun m hm => h2 m (by simp [hm]))
    rw [lines_cons, List.length_cons, copyLines,
      show l ++ 10 :: lines ls ++ r = l ++ 10 :: (lines ls ++ r) by simp, copyLine_line l _ (h1 l (by simp)) (h2 l (by simp)), ih]
    simp [shown, errPrompt]

theorem skipLines_lines (ls : List Str) (r : Str) (h1 : ∀ l ∈ ls, 10 ∉ l) (h2 : ∀ l ∈ ls, 26 ∉ l) :
    skipLines ls.length (lines ls ++ r) = r := by
  induction ls with
  | nil => rfl
  | cons l ls ih =>
    have ih := ih (fun m hm => h1 m (by simp [hm])) (fun m hm => h2 m (by simp [hm]))
    rw [lines_cons, List.length_cons, skipLines,
      show l ++ 10 :: lines ls ++ r = l ++ 10 :: (lines ls ++ r) by simp, skipLine_line l _ (h1 l (by simp)) (h2 l (by simp)), ih]

theorem trLine_first (a s : Str) (l ch : Nat) (h1 : 10 ∉ a) (h2 : 26 ∉ a) :
    trLine a.length l ch (a ++ s) = under 32 a ++ trLine 0 l ch s := by
  induction a with
  | nil => rfl
  | cons c a ih =>
    simp only [List.mem_cons, not_or] at h1 h2
    rw [List.cons_append, List.length_cons, trLine.eq_4 _ _ _ _ _ (Ne.symm h2.1) (Ne.symm h1.1), ih h1.2 h2.2]
    by_cases h : c = 9 <;> simp [under, h]

theorem trLine_len (m s : Str) (n ch : Nat) (h1 : 10 ∉ m) (h2 : 26 ∉ m) :
    trLine 0 (m.length + n) ch (m ++ s) = under ch m ++ trLine 0 n ch s := by
  induction m with
  | nil => simp [under]
  | cons c a ih =>
    simp only [List.mem_cons, not_or] at h1 h2
    have e : (c :: a).length + n = (a.length + n) + 1 := by simp; omega
    rw [e, List.cons_append, trLine.eq_5 _ _ _ _ (Ne.symm h2.1) (Ne.symm h1.1), ih h1.2 h2.2]
    by_cases h : c = 9 <;> simp [under, h]

theorem trLine_end (tail b : Str) (ch : Nat) (ht : Tail tail) (h1 : 10 ∉ b) (h2 : 26 ∉ b) : ∀ n,
    trLine 0 n ch (b ++ tail) = under ch (b.take n) ++ (if tail = [] then List.replicate 5 ch else []) := by
  induction b with
  | nil =>
    intro n
    rcases ht with rfl | ⟨post, rfl⟩
    · cases n <;> rfl
    · cases n <;> rfl
  | cons c b ih =>
    intro n
    simp only [List.mem_cons, not_or] at h1 h2
    cases n with
    | zero =>
      rw [List.cons_append, trLine.eq_6 _ _ _ (Ne.symm h2.1) (Ne.symm h1.1), ih h1.2 h2.2]
      simp
    | succ n =>
      rw [List.cons_append, trLine.eq_5 _ _ _ _ (Ne.symm h2.1) (Ne.symm h1.1), ih h1.2 h2.2]
      by_cases h : c = 9 <;> simp [under, h]

theorem lastLine_eq (y s : Str) : lastLine y.length (y ++ s) = y ++ trLine 0 100 46 s := by
  induction y with
  | nil => rfl
  | cons c y ih => rw [List.length_cons, List.cons_append, lastLine, ih]; rfl

theorem middle_eq (l : Nat) (ls : List Str) (r : Str) (h1 : ∀ l ∈ ls, 10 ∉ l) (h2 : ∀ l ∈ ls, 26 ∉ l) :
    middle l (l + (1 + ls.length)) (lines ls ++ r) = (shownLines ls, r) := by
  unfold middle shownLines
  by_cases h : ls.length ≤ 7
  · rw [if_pos (by omega), if_pos h]
    have e : l + (1 + ls.length) - (l + 1) = ls.length := by omega
    rw [e, copyLines_lines ls r h1 h2]
  · rw [if_neg (by omega), if_neg h]
    dsimp only
    obtain ⟨A, B, C, rfl, hA, hB, hC⟩ : ∃ A B C : List Str, ls = A ++ (B ++ C) ∧ A.length = 3 ∧
        B.length = ls.length - 6 ∧ C.length = 3 := by
      refine ⟨ls.take 3, (ls.drop 3).take (ls.length - 6), (ls.drop 3).drop (ls.length - 6), ?_, ?_, ?_, ?_⟩
      · rw [List.take_append_drop, List.take_append_drop]
      · rw [List.length_take]; omega
      · rw [List.length_take, List.length_drop]; omega
      · rw [List.length_drop, List.length_drop]; omega
    simp only [List.mem_append] at h1 h2
    have a1 := copyLines_lines A (lines B ++ (lines C ++ r)) (fun m hm => h1 m (by simp [hm])) (fun m hm => h2 m (by simp [hm]))
    have a2 := skipLines_lines B (lines C ++ r) (fun m hm => h1 m (by simp [hm])) (fun m hm => h2 m (by simp [hm]))
    have a3 := copyLines_lines C r (fun m hm => h1 m (by simp [hm])) (fun m hm => h2 m (by simp [hm]))
    rw [hA] at a1
    rw [hC] at a3
    have e : l + (1 + (A ++ (B ++ C)).length) - 3 - (l + 4) = B.length := by
      rw [hB]; simp only [List.length_append] at h ⊢; omega
    have eT : (A ++ (B ++ C)).take 3 = A := by rw [← hA, List.take_left]
    have eD : (A ++ (B ++ C)).drop ((A ++ (B ++ C)).length - 3) = C := by
      have : (A ++ (B ++ C)).length - 3 = (A ++ B).length := by simp only [List.length_append]; omega
      rw [this, ← List.append_assoc, List.drop_left]
    rw [lines_append, lines_append, show lines A ++ (lines B ++ lines C) ++ r = lines A ++ (lines B ++ (lines C ++ r)) by simp, a1]
    dsimp only
    rw [e, a2, a3, eT, eD]
    simp [shown, errPrompt]

/-! ### every range has parts -/

theorem split_last (s : Str) : ∃ pre a, s = pre ++ a ∧ LineEnd pre ∧ 10 ∉ a := by
  induction s with
  | nil => exact ⟨[], [], rfl, Or.inl rfl, by simp⟩
  | cons c s ih =>
    obtain ⟨pre, a, h1, h2, h3⟩ := ih
    rcases h2 with rfl | ⟨t, rfl⟩
    · by_cases h : c = 10
      · subst h; exact ⟨[10], a, by rw [h1]; rfl, Or.inr ⟨[], rfl⟩, h3⟩
      · exact ⟨[], c :: a, by rw [h1]; rfl, Or.inl rfl, by simp [h3, Ne.symm h]⟩
    · exact ⟨c :: (t ++ [10]), a, by rw [h1]; rfl, Or.inr ⟨c :: t, rfl⟩, h3⟩

theorem split_lines (s : Str) : ∃ ls y, s = lines ls ++ y ∧ (∀ l ∈ ls, 10 ∉ l) ∧ 10 ∉ y := by
  induction s with
  | nil => exact ⟨[], [], rfl, by simp, by simp⟩
  | cons c s ih =>
    obtain ⟨ls, y, h1, h2, h3⟩ := ih
    by_cases h : c = 10
    · subst h
      refine ⟨[] :: ls, y, by rw [h1, lines_cons]; rfl, ?_, h3⟩
      intro l hl
      rcases List.mem_cons.mp hl with rfl | hl
      · simp
      · exact h2 l hl
    · cases ls with
      | nil =>
        refine ⟨[], c :: y, by rw [h1]; rfl, by simp, ?_⟩
        simp [h3, Ne.symm h]
      | cons l ls =>
        refine ⟨(c :: l) :: ls, y, by rw [h1, lines_cons, lines_cons]; rfl, ?_, h3⟩
        intro l' hl
        rcases List.mem_cons.mp hl with rfl | hl
        · have := h2 l (by simp)
          simp [this, Ne.symm h]
        · exact h2 l' (by simp [hl])

theorem split_tail (s : Str) : ∃ b tail, s = b ++ tail ∧ 10 ∉ b ∧ Tail tail := by
  induction s with
  | nil => exact ⟨[], [], rfl, by simp, Or.inl rfl⟩
  | cons c s ih =>
    by_cases h : c = 10
    · subst h; exact ⟨[], 10 :: s, rfl, by simp, Or.inr ⟨s, rfl⟩⟩
    · obtain ⟨b, tail, h1, h2, h3⟩ := ih
      exact ⟨c :: b, tail, by rw [h1]; rfl, by simp [h2, Ne.symm h], h3⟩

end Mosml.Loc
