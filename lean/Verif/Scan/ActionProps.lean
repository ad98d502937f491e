import Verif.Scan.Action
import Verif.Scan.Props

/-! # C106: the actions in a lexer definition -/
namespace Mosml.Scan

/-- the character does not form a comment bracket with what follows -/
def Apart (c : Nat) (l : List Nat) : Prop := ¬ (c = 40 ∧ l.head? = some 42) ∧ ¬ (c = 42 ∧ l.head? = some 41)

/-- the text of a comment, when `r` follows: characters and comments -/
inductive Com : List Nat → List Nat → Prop
  | nil (r : List Nat) : Com [] r
  | char (c : Nat) (t r : List Nat) : c ≠ 26 → Apart c (t ++ r) → Com t r → Com (c :: t) r
  | com (t u r : List Nat) : Com t (42 :: 41 :: (u ++ r)) → Com u r → Com (40 :: 42 :: (t ++ 42 :: 41 :: u)) r

/-- the text of an action, when `r` follows: characters, texts in braces, strings and comments -/
inductive Act : List Nat → List Nat → Prop
  | nil (r : List Nat) : Act [] r
  | char (c : Nat) (t r : List Nat) : c ≠ 26 → c ≠ 123 → c ≠ 125 → c ≠ 34 → Apart c (t ++ r) → Act t r → Act (c :: t) r
  | brace (t u r : List Nat) : Act t (125 :: (u ++ r)) → Act u r → Act (123 :: (t ++ 125 :: u)) r
  | str (l : List Item) (u r : List Nat) : (∀ i ∈ l, i.Ok) → Act u r → Act (34 :: (l.flatMap Item.text ++ 34 :: u)) r
  | com (t u r : List Nat) : Com t (42 :: 41 :: (u ++ r)) → Act u r → Act (40 :: 42 :: (t ++ 42 :: 41 :: u)) r

theorem apart_take (c : Nat) (l : List Nat) (h : Apart c l) :
    (c :: l).take 2 ≠ [40, 42] ∧ (c :: l).take 2 ≠ [42, 41] := by
  cases l with
  | nil => simp
  | cons x l =>
    simp only [Apart, List.head?_cons, Option.some.injEq] at h
    simpa using h

theorem comment_char (n d c : Nat) (l : List Nat) (h : c ≠ 26) (ha : Apart c l) :
    comment (n + 1) d (c :: l) = comment n d l := by
  have := apart_take c l ha
  rw [comment, if_neg this.1, if_neg this.2, if_neg (by simpa [atEof] using h)]
  rfl

theorem comment_open (n d : Nat) (l : List Nat) : comment (n + 1) d (40 :: 42 :: l) = comment n (d + 1) l := by
  rw [comment, if_pos (by rfl)]; rfl

theorem comment_close (n d : Nat) (l : List Nat) :
    comment (n + 1) d (42 :: 41 :: l) = if d - 1 = 0 then some l else comment n (d - 1) l := by
  rw [comment, if_neg (by simp), if_pos (by rfl)]; rfl

theorem comment_com (t r : List Nat) (h : Com t r) :
    ∃ k, k ≤ t.length ∧ ∀ n d, 1 ≤ d → comment (n + k) d (t ++ r) = comment n d r := by
  induction h with
  | nil r => exact ⟨0, Nat.le_refl _, fun _ _ _ => rfl⟩
  | char c t r h1 h2 _ ih =>
    obtain ⟨k, hk, e⟩ := ih
    refine ⟨k + 1, by simp; omega, fun n d hd => ?_⟩
    have := comment_char (n + k) d c (t ++ r) h1 h2
    rw [← e n d hd]; exact this
  | com t u r _ _ ih1 ih2 =>
    obtain ⟨k1, hk1, e1⟩ := ih1
    obtain ⟨k2, hk2, e2⟩ := ih2
    refine ⟨k2 + 1 + k1 + 1, by simp; omega, fun n d hd => ?_⟩
    have t1 : (40 :: 42 :: (t ++ 42 :: 41 :: u)) ++ r = 40 :: 42 :: (t ++ 42 :: 41 :: (u ++ r)) := by simp
    have n1 : n + (k2 + 1 + k1 + 1) = ((n + k2) + 1 + k1) + 1 := by omega
    rw [t1, n1, comment_open, e1 _ _ (by omega), comment_close, if_neg (by omega)]
    exact e2 n d hd

/-- A comment ends at the bracket that matches the first one. -/
theorem C106_comment (t r : List Nat) (h : Com t (42 :: 41 :: r)) (n : Nat) (hn : t.length < n) :
    comment n 1 (t ++ 42 :: 41 :: r) = some r := by
  obtain ⟨k, hk, e⟩ := comment_com _ _ h
  obtain ⟨m, rfl⟩ : ∃ m, n = (m + 1) + k := ⟨n - k - 1, by omega⟩
  rw [e _ _ (Nat.le_refl 1), comment_close]; rfl

/-- `a (* " *) { *) b` after the opening bracket -/
example : comment 20 1 [97, 40, 42, 34, 42, 41, 123, 42, 41, 98] = some [98] := by decide

theorem item_text_pos (i : Item) : 1 ≤ i.text.length := by
  cases i <;> simp [Item.text]

theorem items_length (l : List Item) : l.length ≤ (l.flatMap Item.text).length := by
  induction l with
  | nil => simp
  | cons i l ih =>
    have := item_text_pos i
    rw [List.flatMap_cons, List.length_append, List.length_cons]; omega

theorem get_pos (s : St) (x : List Nat × St) (h : get s = some x) : x.2.init = s.init := by
  unfold get at h
  split at h
  · injection h with h; rw [← h]
  · cases h

theorem string_lit (s : St) (hs : 0 < s.init.length) (l : List Item) (h : ∀ i ∈ l, i.Ok) (r : List Nat) (n : Nat)
    (hn : l.length < n) :
    ∃ s1, 0 < s1.init.length ∧ string n (reset s) (l.flatMap Item.text ++ 34 :: r) = .ok s1 r := by
  obtain ⟨k, rfl⟩ : ∃ k, n = (k + 1) + l.length := ⟨n - l.length - 1, by omega⟩
  obtain ⟨s1, h1, h2⟩ := string_items l h (34 :: r) (k + 1) (reset s) [] (reset_inv s hs)
  exact ⟨s1, h1.pos, by rw [h2]; rfl⟩

theorem action_char (n d c : Nat) (s : St) (l : List Nat) (h : c ≠ 26) (h1 : c ≠ 123) (h2 : c ≠ 125) (h3 : c ≠ 34)
    (ha : Apart c l) : action (n + 1) d s (c :: l) = action n d s l := by
  have := apart_take c l ha
  rw [action, if_neg (by simpa using h1), if_neg (by simpa using h2), if_neg (by simpa using h3), if_neg this.1,
    if_neg this.2, if_neg (by simpa [atEof] using h)]
  rfl

theorem action_open (n d : Nat) (s : St) (l : List Nat) : action (n + 1) d s (123 :: l) = action n (d + 1) s l := by
  rw [action, if_pos (by rfl)]; rfl

theorem action_close (n d : Nat) (s : St) (l : List Nat) :
    action (n + 1) d s (125 :: l) = if d - 1 = 0 then .ok s l else action n (d - 1) s l := by
  rw [action, if_neg (by simp), if_pos (by rfl)]; rfl

theorem action_act (t r : List Nat) (h : Act t r) (s : St) (hs : 0 < s.init.length) :
    ∃ k s', k ≤ t.length ∧ 0 < s'.init.length ∧ ∀ n d, 1 ≤ d → action (n + k) d s (t ++ r) = action n d s' r := by
  induction h generalizing s with
  | nil r => exact ⟨0, s, Nat.le_refl _, hs, fun _ _ _ => rfl⟩
  | char c t r h1 h2 h3 h4 h5 _ ih =>
    obtain ⟨k, s', hk, hs', e⟩ := ih s hs
    refine ⟨k + 1, s', by simp; omega, hs', fun n d hd => ?_⟩
    rw [← e n d hd]
    exact action_char (n + k) d c s (t ++ r) h1 h2 h3 h4 h5
  | brace t u r _ _ ih1 ih2 =>
    obtain ⟨k1, s1, hk1, hs1, e1⟩ := ih1 s hs
    obtain ⟨k2, s2, hk2, hs2, e2⟩ := ih2 s1 hs1
    refine ⟨k2 + 1 + k1 + 1, s2, by simp; omega, hs2, fun n d hd => ?_⟩
    have t1 : (123 :: (t ++ 125 :: u)) ++ r = 123 :: (t ++ 125 :: (u ++ r)) := by simp
    have n1 : n + (k2 + 1 + k1 + 1) = ((n + k2) + 1 + k1) + 1 := by omega
    rw [t1, n1, action_open, e1 _ _ (by omega), action_close, if_neg (by omega)]
    exact e2 n d hd
  | str l u r hl _ ih =>
    have t1 : (34 :: (l.flatMap Item.text ++ 34 :: u)) ++ r = 34 :: (l.flatMap Item.text ++ 34 :: (u ++ r)) := by simp
    have hlen : l.length < (34 :: (l.flatMap Item.text ++ 34 :: (u ++ r))).length := by
      have := items_length l
      simp only [List.length_cons, List.length_append]; omega
    obtain ⟨s1, hs1, e1⟩ := string_lit s hs l hl (u ++ r) _ hlen
    obtain ⟨k2, s2, hk2, hs2, e2⟩ := ih (reset s1) hs1
    refine ⟨k2 + 1, s2, by simp; omega, hs2, fun n d hd => ?_⟩
    rw [t1, ← Nat.add_assoc, action, if_neg (by simp), if_neg (by simp), if_pos (by rfl)]
    simp only [List.drop_succ_cons, List.drop_zero]
    rw [e1]
    exact e2 n d hd
  | com t u r hc _ ih =>
    have t1 : (40 :: 42 :: (t ++ 42 :: 41 :: u)) ++ r = 40 :: 42 :: (t ++ 42 :: 41 :: (u ++ r)) := by simp
    have e1 := C106_comment t (u ++ r) hc (40 :: 42 :: (t ++ 42 :: 41 :: (u ++ r))).length
      (by simp only [List.length_cons, List.length_append]; omega)
    obtain ⟨k2, s2, hk2, hs2, e2⟩ := ih s hs
    refine ⟨k2 + 1, s2, by simp; omega, hs2, fun n d hd => ?_⟩
    rw [t1, ← Nat.add_assoc, action, if_neg (by simp), if_neg (by simp), if_neg (by simp), if_pos (by rfl)]
    simp only [List.drop_succ_cons, List.drop_zero]
    rw [e1]
    exact e2 n d hd

/-- An action ends at the brace that matches the first one: braces in strings and comments do not count. What is missing: strings of
Standard ML that the scanner does not know (`C106_escape_violation`). -/
theorem C106_action_partial (t r : List Nat) (s : St) (hs : 0 < s.init.length) (h : Act t (125 :: r)) (n : Nat)
    (hn : t.length < n) : ∃ s', 0 < s'.init.length ∧ action n 1 s (t ++ 125 :: r) = .ok s' r := by
  obtain ⟨k, s', hk, hs', e⟩ := action_act _ _ h s hs
  obtain ⟨m, rfl⟩ : ∃ m, n = (m + 1) + k := ⟨n - k - 1, by omega⟩
  exact ⟨s', hs', by rw [e _ _ (Nat.le_refl 1), action_close]; rfl⟩

/-- `f{"}"}(*}*)} x` after the opening brace -/
example : ∃ s', action 30 1 ⟨[0], none, 0⟩ [102, 123, 34, 125, 34, 125, 40, 42, 125, 42, 41, 125, 32, 120] = .ok s' [32, 120] :=
  ⟨_, rfl⟩

example : Act [102, 123, 34, 125, 34, 125, 40, 42, 125, 42, 41] [125, 32, 120] := by
  refine .char 102 _ _ (by decide) (by decide) (by decide) (by decide) (by simp [Apart]) ?_
  refine .brace [34, 125, 34] [40, 42, 125, 42, 41] _ ?_ ?_
  · exact .str [.plain 125] [] _ (by intro i hi; simp at hi; subst hi; simp [Item.Ok]) (.nil _)
  · exact .com [125] [] _ (.char 125 [] _ (by decide) (by simp [Apart]) (.nil _)) (.nil _)

/-- The escapes \a, \v, \f and \u of Standard ML, which Moscow ML itself accepts, are errors in the strings of
an action, wherever they are in the string and in the action. -/
theorem C106_escape_violation (t : List Nat) (s : St) (hs : 0 < s.init.length) (l : List Item) (hl : ∀ i ∈ l, i.Ok) (c : Nat)
    (hc : c = 97 ∨ c = 118 ∨ c = 102 ∨ c = 117) (r : List Nat)
    (h : Act t (34 :: (l.flatMap Item.text ++ 92 :: c :: r))) (n : Nat) (hn : t.length < n) :
    action n 1 s (t ++ 34 :: (l.flatMap Item.text ++ 92 :: c :: r)) = .badString (.lexical .escape) := by
  obtain ⟨k, s', hk, hs', e⟩ := action_act _ _ h s hs
  obtain ⟨m, rfl⟩ : ∃ m, n = (m + 1) + k := ⟨n - k - 1, by omega⟩
  rw [e _ _ (Nat.le_refl 1), action, if_neg (by simp), if_neg (by simp), if_pos (by rfl)]
  have hlen : l.length + 1 ≤ (34 :: (l.flatMap Item.text ++ 92 :: c :: r)).length := by
    have := items_length l
    simp only [List.length_cons, List.length_append]; omega
  obtain ⟨q, hq⟩ : ∃ q, (34 :: (l.flatMap Item.text ++ 92 :: c :: r)).length = (q + 1) + l.length :=
    ⟨(34 :: (l.flatMap Item.text ++ 92 :: c :: r)).length - l.length - 1, by omega⟩
  obtain ⟨s1, _, h2⟩ := string_items l hl (92 :: c :: r) (q + 1) (reset s') [] (reset_inv s' hs')
  have h3 : string (q + 1) s1 (92 :: c :: r) = .lexical .escape := by
    rcases hc with rfl | rfl | rfl | rfl <;> rfl
  rw [hq]
  simp only [List.drop_succ_cons, List.drop_zero]
  rw [h2, h3]

/-- `"\a"}` after the opening brace -/
example : action 9 1 ⟨[0], none, 0⟩ [34, 92, 97, 34, 125] = .badString (.lexical .escape) := by decide

end Mosml.Scan
