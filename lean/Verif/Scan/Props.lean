import Verif.Scan.Model
import Verif.Util

/-! # C105: the strings in a lexer definition -/
namespace Mosml.Scan

/-- the characters `acc` have been stored -/
structure Inv (s : St) (acc : List Nat) : Prop where
  pos : 0 < s.init.length
  bpos : 0 < (buff s).length
  idx : s.idx = acc.length
  le : s.idx ≤ (buff s).length
  val : (buff s).take s.idx = acc

theorem buff_put (s : St) (c : Nat) : buff (put s c) = (buff s).set s.idx c := by
  obtain ⟨i, c', k⟩ := s
  cases c' <;> rfl

theorem init_put (s : St) (c : Nat) : (put s c).init.length = s.init.length := by
  obtain ⟨i, c', k⟩ := s
  cases c' <;> simp [put]

theorem idx_put (s : St) (c : Nat) : (put s c).idx = s.idx := by
  obtain ⟨i, c', k⟩ := s
  cases c' <;> rfl

theorem grow_inv (s : St) (acc : List Nat) (h : Inv s acc) : Inv (grow s) acc ∧ (grow s).idx < (buff (grow s)).length := by
  unfold grow
  by_cases hl : s.idx ≥ (buff s).length
  · rw [if_pos hl]
    have hb := h.bpos
    have hle := h.le
    refine ⟨⟨h.pos, ?_, h.idx, ?_, ?_⟩, ?_⟩
    · show 0 < (buff s ++ _).length
      rw [List.length_append]; omega
    · show s.idx ≤ (buff s ++ _).length
      rw [List.length_append]; omega
    · show (buff s ++ _).take s.idx = acc
      rw [List.take_append_of_le_length hle]; exact h.val
    · show s.idx < (buff s ++ _).length
      rw [List.length_append, List.length_replicate]; omega
  · rw [if_neg hl]; exact ⟨h, by omega⟩

theorem store_inv (s : St) (acc : List Nat) (h : Inv s acc) (c : Nat) :
    ∃ s', store s c = some s' ∧ Inv s' (acc ++ [c]) := by
  obtain ⟨hg, hl⟩ := grow_inv s acc h
  unfold store
  simp only
  rw [if_pos hl]
  refine ⟨_, rfl, ?_⟩
  have hb : buff ⟨(put (grow s) c).init, (put (grow s) c).cur, (put (grow s) c).idx + 1⟩ =
      (buff (grow s)).set (grow s).idx c := buff_put (grow s) c
  refine ⟨?_, ?_, ?_, ?_, ?_⟩
  · show 0 < (put (grow s) c).init.length
    rw [init_put]; exact hg.pos
  · rw [hb, List.length_set]; exact hg.bpos
  · show (put (grow s) c).idx + 1 = _
    rw [idx_put, hg.idx]; simp
  · rw [hb, List.length_set]
    show (put (grow s) c).idx + 1 ≤ _
    rw [idx_put]; omega
  · rw [hb]
    show List.take ((put (grow s) c).idx + 1) _ = _
    rw [idx_put, List.take_add_one, List.take_set_of_le (Nat.le_refl _), hg.val]
    simp [hl]

/-- storing characters one after the other -/
def storeAll (s : St) : List Nat → Option St
  | [] => some s
  | c :: l => (store s c).bind (fun s => storeAll s l)

theorem storeAll_inv (l : List Nat) (s : St) (acc : List Nat) (h : Inv s acc) :
    ∃ s', storeAll s l = some s' ∧ Inv s' (acc ++ l) := by
  induction l generalizing s acc with
  | nil => exact ⟨s, rfl, by simpa using h⟩
  | cons c l ih =>
    obtain ⟨s1, e1, h1⟩ := store_inv s acc h c
    obtain ⟨s2, e2, h2⟩ := ih s1 _ h1
    refine ⟨s2, ?_, by simpa using h2⟩
    simp only [storeAll, e1, Option.bind_some, e2]

theorem reset_inv (s : St) (h : 0 < s.init.length) : Inv (reset s) [] :=
  ⟨h, h, rfl, Nat.zero_le _, by simp [reset]⟩

theorem get_inv (s : St) (acc : List Nat) (h : Inv s acc) :
    ∃ s', get s = some (acc, s') ∧ 0 < s'.init.length := by
  unfold get
  rw [if_pos h.le, h.val]
  exact ⟨_, rfl, h.pos⟩

/-- However many characters are stored after a reset, and whatever was stored before, the string that is got consists of exactly
these, and the buffer can be used again. -/
theorem C105_buffer (s : St) (h : 0 < s.init.length) (l : List Nat) :
    ∃ s1 s2, storeAll (reset s) l = some s1 ∧ get s1 = some (l, s2) ∧ 0 < s2.init.length := by
  obtain ⟨s1, e1, h1⟩ := storeAll_inv l _ _ (reset_inv s h)
  obtain ⟨s2, e2, h2⟩ := get_inv s1 _ h1
  exact ⟨s1, s2, e1, by simpa using e2, h2⟩

example : ((storeAll (reset ⟨[1, 2], some [5], 9⟩) [10, 11, 12, 13, 14]).bind get).map Prod.fst =
    some [10, 11, 12, 13, 14] := by decide

/-- the parts of a string in a lexer definition -/
inductive Item
  | plain (c : Nat)
  | esc (c : Nat)
  | ctl (c : Nat)
  | dec (a b c : Nat)
  | gap (b : Nat) (ws : List Nat)

/-- how a part is written -/
def Item.text : Item → List Nat
  | .plain c => [c]
  | .esc c => [92, c]
  | .ctl c => [92, 94, c]
  | .dec a b c => [92, a, b, c]
  | .gap b ws => 92 :: b :: (ws ++ [92])

/-- the characters that it means -/
def Item.value : Item → List Nat
  | .plain c => [c]
  | .esc c => [if c = 110 then 10 else if c = 116 then 9 else if c = 98 then 8 else if c = 114 then 13 else c]
  | .ctl c => [c - 64]
  | .dec a b c => [100 * (a - 48) + 10 * (b - 48) + (c - 48)]
  | .gap _ _ => []

/-- the parts that are allowed -/
def Item.Ok : Item → Prop
  | .plain c => c ≠ 34 ∧ c ≠ 92 ∧ (c = 0 ∨ 32 ≤ c) ∧ c ≠ 127 ∧ c ≠ 255
  | .esc c => c = 92 ∨ c = 34 ∨ c = 110 ∨ c = 116 ∨ c = 98 ∨ c = 114
  | .ctl c => 64 ≤ c ∧ c ≤ 95
  | .dec a b c => (48 ≤ a ∧ a ≤ 57) ∧ (48 ≤ b ∧ b ≤ 57) ∧ (48 ≤ c ∧ c ≤ 57) ∧
      100 * (a - 48) + 10 * (b - 48) + (c - 48) ≤ 255
  | .gap b ws => blank b = true ∧ ∀ w ∈ ws, blank w = true

theorem gapStep_eq (ws : List Nat) (h : ∀ w ∈ ws, blank w = true) (r : List Nat) :
    gapStep (ws ++ 92 :: r) = .skip r := by
  induction ws with
  | nil => rfl
  | cons w ws ih =>
    rw [List.cons_append, gapStep, if_pos (h w (by simp))]
    exact ih (fun x hx => h x (by simp [hx]))

theorem digit_of (a : Nat) (h : 48 ≤ a ∧ a ≤ 57) : isDigit a = true := by
  simp [isDigit, h.1, h.2]

theorem blank_digit (a : Nat) (h : 48 ≤ a ∧ a ≤ 57) : blank a = false := by
  simp only [blank, Bool.or_eq_false_iff, beq_eq_false_iff_ne]; omega

/-- the match for three digits -/
theorem step_dec (a b c : Nat) (ha : 48 ≤ a ∧ a ≤ 57) (hb : 48 ≤ b ∧ b ≤ 57) (hc : 48 ≤ c ∧ c ≤ 57) (r : List Nat) :
    step (92 :: a :: b :: c :: r) =
      if 100 * (a - 48) + 10 * (b - 48) + (c - 48) ≤ 255 then .put (100 * (a - 48) + 10 * (b - 48) + (c - 48)) r
      else .chr := by
  have e : step (92 :: a :: b :: c :: r) = escStep (a :: b :: c :: r) := rfl
  rw [e, escStep, blank_digit a ha, if_neg (by decide), if_neg (by omega), if_neg (by omega), if_pos (digit_of a ha)]
  rw [decStep, digit_of b hb, digit_of c hc, if_pos (by decide)]
  simp only [decimalCode]
  by_cases h : 100 * (a - 48) + 10 * (b - 48) + (c - 48) ≤ 255
  · rw [if_pos h, if_pos h]
    simp only
    rw [if_neg (by omega)]
  · rw [if_neg h, if_neg h]

/-- the match for a part: it is skipped or stored -/
theorem step_item (i : Item) (h : i.Ok) (r : List Nat) :
    (i.value = [] ∧ step (i.text ++ r) = .skip r) ∨ ∃ c, i.value = [c] ∧ step (i.text ++ r) = .put c r := by
  cases i with
  | plain c =>
    obtain ⟨h1, h2, h3, h4, h5⟩ := h
    refine .inr ⟨c, rfl, ?_⟩
    show step (c :: r) = _
    rw [step, if_neg h1, if_neg h2, if_neg (by omega), if_neg (by omega)]
  | esc c =>
    refine .inr ⟨_, rfl, ?_⟩
    have h' : c = 92 ∨ c = 34 ∨ c = 110 ∨ c = 116 ∨ c = 98 ∨ c = 114 := h
    rcases h' with h' | h' | h' | h' | h' | h' <;> subst h' <;> rfl
  | ctl c =>
    refine .inr ⟨_, rfl, ?_⟩
    have h' : 64 ≤ c ∧ c ≤ 95 := h
    have e : step (92 :: 94 :: c :: r) = ctlStep (c :: r) := rfl
    show step (92 :: 94 :: c :: r) = _
    rw [e, ctlStep, if_pos h']
  | dec a b c =>
    obtain ⟨h1, h2, h3, h4⟩ := h
    refine .inr ⟨_, rfl, ?_⟩
    show step (92 :: a :: b :: c :: r) = _
    rw [step_dec a b c h1 h2 h3, if_pos h4]
  | gap b ws =>
    obtain ⟨h1, h2⟩ := h
    refine .inl ⟨rfl, ?_⟩
    have e : step (92 :: b :: (ws ++ 92 :: r)) = escStep (b :: (ws ++ 92 :: r)) := rfl
    have t : (Item.gap b ws).text ++ r = 92 :: b :: (ws ++ 92 :: r) := by simp [Item.text]
    rw [t, e, escStep, if_pos h1, gapStep_eq ws h2]

theorem string_items (l : List Item) (h : ∀ i ∈ l, i.Ok) (r : List Nat) (n : Nat) (s : St) (acc : List Nat)
    (hs : Inv s acc) :
    ∃ s', Inv s' (acc ++ l.flatMap Item.value) ∧ string (n + l.length) s (l.flatMap Item.text ++ r) = string n s' r := by
  induction l generalizing s acc with
  | nil => exact ⟨s, by simpa using hs, rfl⟩
  | cons i l ih =>
    have hi := step_item i (h i (by simp)) (l.flatMap Item.text ++ r)
    have hl : ∀ j ∈ l, j.Ok := fun j hj => h j (List.mem_cons_of_mem _ hj)
    have t : (i :: l).flatMap Item.text ++ r = i.text ++ (l.flatMap Item.text ++ r) := by simp
    have en : n + (i :: l).length = (n + l.length) + 1 := by simp; omega
    rw [t, en]
    unfold string
    rcases hi with ⟨hv, hst⟩ | ⟨c, hv, hst⟩
    · obtain ⟨s', h1, h2⟩ := ih hl s acc hs
      refine ⟨s', by simpa [hv] using h1, ?_⟩
      rw [hst]; simp only; rw [h2]; cases n <;> simp [string]
    · obtain ⟨s1, e1, hs1⟩ := store_inv s acc hs c
      obtain ⟨s', h1, h2⟩ := ih hl s1 _ hs1
      refine ⟨s', by simpa [hv] using h1, ?_⟩
      rw [hst]; simp only; rw [e1]; simp only; rw [h2]; cases n <;> simp [string]

/-- A string in a lexer definition means the characters that its parts mean, in order and however many; the scanner goes on after
the closing quote. The number of matches may be any that is large enough. What is missing: the error for codes above 255 (`C105_code_violation`). -/
theorem C105_string_partial (s : St) (hs : 0 < s.init.length) (l : List Item) (h : ∀ i ∈ l, i.Ok) (r : List Nat) (n : Nat)
    (hn : l.length < n) :
    ∃ s1 s2, string n (reset s) (l.flatMap Item.text ++ 34 :: r) = .ok s1 r ∧
      get s1 = some (l.flatMap Item.value, s2) := by
  obtain ⟨k, rfl⟩ : ∃ k, n = (k + 1) + l.length := ⟨n - l.length - 1, by omega⟩
  obtain ⟨s1, h1, h2⟩ := string_items l h (34 :: r) (k + 1) (reset s) [] (reset_inv s hs)
  obtain ⟨s2, e2, _⟩ := get_inv s1 _ h1
  exact ⟨s1, s2, by rw [h2]; rfl, by simpa using e2⟩

/-- `a\n\^A\065\ \"` and a quote -/
example : ∃ s1 s2, string 9 (reset ⟨[0], none, 0⟩)
      [97, 92, 110, 92, 94, 65, 92, 48, 54, 53, 92, 32, 92, 92, 34, 34, 7] = .ok s1 [7] ∧
    get s1 = some ([97, 10, 1, 65, 34], s2) := ⟨_, _, rfl, rfl⟩

/-- A code above 255 is to be reported as a lexical error ("character code in string > 255", Scanner.lex:91), but
Char.chr raises Chr before the code is checked, after any allowed parts and whatever follows. -/
theorem C105_code_violation (s : St) (hs : 0 < s.init.length) (l : List Item) (h : ∀ i ∈ l, i.Ok) (a b c : Nat)
    (ha : 48 ≤ a ∧ a ≤ 57) (hb : 48 ≤ b ∧ b ≤ 57) (hc : 48 ≤ c ∧ c ≤ 57)
    (hx : 255 < 100 * (a - 48) + 10 * (b - 48) + (c - 48)) (r : List Nat) (n : Nat) (hn : l.length < n) :
    string n (reset s) (l.flatMap Item.text ++ 92 :: a :: b :: c :: r) = .chr := by
  obtain ⟨k, rfl⟩ : ∃ k, n = (k + 1) + l.length := ⟨n - l.length - 1, by omega⟩
  obtain ⟨s1, _, h2⟩ := string_items l h (92 :: a :: b :: c :: r) (k + 1) (reset s) [] (reset_inv s hs)
  rw [h2, string, step_dec a b c ha hb hc, if_neg (by omega)]

example : string 9 (reset ⟨[0], none, 0⟩) [97, 92, 50, 53, 54, 34] = .chr := by decide

/-- The error for the code is never reported, whatever the text. -/
theorem C105_code_never (n : Nat) (s : St) (l : List Nat) : string n s l ≠ .lexical .code := by
  have hd : ∀ a r, decStep a r ≠ .fail .code := by
    intro a r
    match r with
    | [] => simp [decStep]
    | [_] => simp [decStep]
    | b :: c :: r =>
      simp only [decStep, decimalCode]
      by_cases h : (isDigit b && isDigit c) = true
      · rw [if_pos h]
        by_cases h' : 100 * (a - 48) + 10 * (b - 48) + (c - 48) ≤ 255
        · rw [if_pos h']; simp only; rw [if_neg (by omega)]; simp
        · rw [if_neg h']; simp
      · rw [if_neg h]; simp
  have hg : ∀ r, gapStep r ≠ .fail .code := by
    intro r
    induction r with
    | nil => simp [gapStep]
    | cons c r ih => rw [gapStep]; split; exact ih; split <;> simp
  have hc : ∀ r, ctlStep r ≠ .fail .code := by
    intro r
    cases r with
    | nil => simp [ctlStep]
    | cons c r => rw [ctlStep]; split <;> simp
  have he : ∀ r, escStep r ≠ .fail .code := by
    intro r
    cases r with
    | nil => simp [escStep]
    | cons c r =>
      rw [escStep]
      split
      · exact hg r
      · split
        · simp
        · split
          · exact hc r
          · split
            · exact hd c r
            · simp
  have hst : ∀ r, step r ≠ .fail .code := by
    intro r
    cases r with
    | nil => simp [step]
    | cons c r =>
      rw [step]
      split
      · simp
      · split
        · exact he r
        · split
          · simp
          · split <;> simp
  induction n generalizing s l with
  | zero => simp [string]
  | succ n ih =>
    rw [string]
    have := hst l
    generalize step l = t at this
    cases t with
    | done r => simp
    | put c r =>
      simp only
      cases store s c with
      | none => simp
      | some s' => exact ih s' r
    | skip r => exact ih s r
    | fail e => intro hh; simp only [Res.lexical.injEq] at hh; exact this (by rw [hh])
    | chr => simp

example : string 9 (reset ⟨[0], none, 0⟩) [97, 92, 50, 53, 34] = .lexical .escape := by decide

end Mosml.Scan
