import Verif.Strings.Lemmas

namespace Mosml.Strings
open Mosml.Ints

/-- `e` is a form of character `c` that the ML scanner reads back, whatever follows. -/
def ReadsML (e : Bytes) (c : Nat) : Prop :=
  (c ≠ 92 ∧ e = [c]) ∨ ∃ f, e = 92 :: f ∧ ∀ rest, fromMLescape (f ++ rest) = some (c, rest)

theorem readsML_ite {p : Prop} [Decidable p] {a b : Bytes} {c : Nat} (h1 : p → ReadsML a c)
    (h2 : ¬p → ReadsML b c) : ReadsML (if p then a else b) c := by
  by_cases h : p
  · rw [if_pos h]; exact h1 h
  · rw [if_neg h]; exact h2 h

theorem from3Dec_digits (c : Nat) (h : c < 256) (rest : Bytes) :
    from3Dec ((48 + c / 100) :: (48 + c / 10 % 10) :: (48 + c % 10) :: rest) = some (c, rest) := by
  unfold from3Dec
  dsimp only
  rw [if_pos (by omega)]
  have : ((0 * 10 + (48 + c / 100) - 48) * 10 + (48 + c / 10 % 10) - 48) * 10 + (48 + c % 10) - 48 = c := by omega
  rw [this, chrB, if_neg (by omega)]; rfl

theorem fromMLescape_dec (c : Nat) (h : c < 256) (rest : Bytes) :
    fromMLescape ((48 + c / 100) :: (48 + c / 10 % 10) :: (48 + c % 10) :: rest) = some (c, rest) := by
  rw [fromMLescape.eq_def]
  dsimp only
  iterate 11 rw [if_neg (by omega)]
  exact from3Dec_digits c h rest

theorem fromMLescape_ctrl (c : Nat) (h : c ≤ 31) (rest : Bytes) :
    fromMLescape (94 :: (c + 64) :: rest) = some (c, rest) := by
  rw [fromMLescape.eq_def]
  simp only [Nat.reduceEqDiff, if_false, or_self, if_true]
  rw [if_pos (by omega), Nat.add_sub_cancel]

theorem readsML_of_ctrl (a c : Nat) (h : ∀ rest, fromMLescape (a :: rest) = some (c, rest)) :
    ReadsML [92, a] c := Or.inr ⟨[a], rfl, h⟩

theorem esc_simple (rest : Bytes) :
    fromMLescape (97 :: rest) = some (7, rest) ∧ fromMLescape (98 :: rest) = some (8, rest) ∧
    fromMLescape (116 :: rest) = some (9, rest) ∧ fromMLescape (110 :: rest) = some (10, rest) ∧
    fromMLescape (114 :: rest) = some (13, rest) ∧ fromMLescape (118 :: rest) = some (11, rest) ∧
    fromMLescape (102 :: rest) = some (12, rest) ∧ fromMLescape (34 :: rest) = some (34, rest) ∧
    fromMLescape (92 :: rest) = some (92, rest) := by
  refine ⟨?_, ?_, ?_, ?_, ?_, ?_, ?_, ?_, ?_⟩ <;> (rw [fromMLescape.eq_def]; simp)

theorem toMLescape_reads (c : Nat) (h : c < 256) : ReadsML (toMLescape c) c := by
  unfold toMLescape
  refine readsML_ite (fun h1 => ?_) (fun h1 => ?_)
  · subst h1; exact readsML_of_ctrl _ _ fun r => (esc_simple r).2.2.2.2.2.2.2.2
  refine readsML_ite (fun h2 => ?_) (fun h2 => ?_)
  · subst h2; exact readsML_of_ctrl _ _ fun r => (esc_simple r).2.2.2.2.2.2.2.1
  refine readsML_ite (fun h3 => ?_) (fun h3 => ?_)
  · refine readsML_ite (fun h4 => ?_) (fun h4 => ?_)
    · exact Or.inl ⟨h1, rfl⟩
    · exact Or.inr ⟨_, rfl, fun r => fromMLescape_dec c h r⟩
  refine readsML_ite (fun h5 => ?_) (fun h5 => ?_)
  · subst h5; exact readsML_of_ctrl _ _ fun r => (esc_simple r).1
  refine readsML_ite (fun h6 => ?_) (fun h6 => ?_)
  · subst h6; exact readsML_of_ctrl _ _ fun r => (esc_simple r).2.1
  refine readsML_ite (fun h7 => ?_) (fun h7 => ?_)
  · subst h7; exact readsML_of_ctrl _ _ fun r => (esc_simple r).2.2.1
  refine readsML_ite (fun h8 => ?_) (fun h8 => ?_)
  · subst h8; exact readsML_of_ctrl _ _ fun r => (esc_simple r).2.2.2.1
  refine readsML_ite (fun h9 => ?_) (fun h9 => ?_)
  · subst h9; exact readsML_of_ctrl _ _ fun r => (esc_simple r).2.2.2.2.1
  refine readsML_ite (fun h10 => ?_) (fun h10 => ?_)
  · subst h10; exact readsML_of_ctrl _ _ fun r => (esc_simple r).2.2.2.2.2.1
  refine readsML_ite (fun h11 => ?_) (fun h11 => ?_)
  · subst h11; exact readsML_of_ctrl _ _ fun r => (esc_simple r).2.2.2.2.2.2.1
  · exact Or.inr ⟨_, rfl, fun r => fromMLescape_ctrl c (by omega) r⟩

theorem makestringChar_reads (c : Nat) (h : c < 256) : ReadsML (makestringChar c) c := by
  unfold makestringChar
  refine readsML_ite (fun h1 => ?_) (fun h1 => ?_)
  · subst h1; exact readsML_of_ctrl _ _ fun r => (esc_simple r).2.2.2.2.2.2.2.1
  refine readsML_ite (fun h2 => ?_) (fun h2 => ?_)
  · subst h2; exact readsML_of_ctrl _ _ fun r => (esc_simple r).2.2.2.2.2.2.2.2
  refine readsML_ite (fun h3 => ?_) (fun h3 => ?_)
  · subst h3; exact readsML_of_ctrl _ _ fun r => (esc_simple r).1
  refine readsML_ite (fun h4 => ?_) (fun h4 => ?_)
  · subst h4; exact readsML_of_ctrl _ _ fun r => (esc_simple r).2.1
  refine readsML_ite (fun h5 => ?_) (fun h5 => ?_)
  · subst h5; exact readsML_of_ctrl _ _ fun r => (esc_simple r).2.2.1
  refine readsML_ite (fun h6 => ?_) (fun h6 => ?_)
  · subst h6; exact readsML_of_ctrl _ _ fun r => (esc_simple r).2.2.2.1
  refine readsML_ite (fun h7 => ?_) (fun h7 => ?_)
  · subst h7; exact readsML_of_ctrl _ _ fun r => (esc_simple r).2.2.2.2.2.1
  refine readsML_ite (fun h8 => ?_) (fun h8 => ?_)
  · subst h8; exact readsML_of_ctrl _ _ fun r => (esc_simple r).2.2.2.2.2.2.1
  refine readsML_ite (fun h9 => ?_) (fun h9 => ?_)
  · subst h9; exact readsML_of_ctrl _ _ fun r => (esc_simple r).2.2.2.2.1
  refine readsML_ite (fun h10 => ?_) (fun h10 => ?_)
  · exact Or.inr ⟨_, rfl, fun r => fromMLescape_ctrl c h10 r⟩
  refine readsML_ite (fun h11 => ?_) (fun h11 => ?_)
  · exact Or.inl ⟨h2, rfl⟩
  · exact Or.inr ⟨_, rfl, fun r => fromMLescape_dec c h r⟩

theorem fromStringLoop_read (e : Bytes) (c : Nat) (h : ReadsML e c) (rest acc : Bytes) :
    fromStringLoop (e ++ rest) acc = fromStringLoop rest (c :: acc) := by
  rcases h with ⟨hc, rfl⟩ | ⟨f, rfl, hf⟩
  · rw [List.singleton_append, fromStringLoop.eq_def]
    dsimp only
    rw [if_neg hc]
  · rw [List.cons_append, fromStringLoop.eq_def]
    dsimp only
    rw [if_pos rfl]
    split
    · rename_i h; rw [hf] at h; cases h
    · rename_i d src2 h; rw [hf] at h; cases h; rfl

theorem fromStringLoop_flatMap (g : Nat → Bytes) (s : Bytes) (hg : ∀ c ∈ s, ReadsML (g c) c) :
    ∀ acc, fromStringLoop (s.flatMap g) acc = some (acc.reverse ++ s) := by
  induction s with
  | nil => intro acc; simp [fromStringLoop]
  | cons c s ih =>
    intro acc
    rw [List.flatMap_cons, fromStringLoop_read _ c (hg c (by simp)), ih (fun d hd => hg d (by simp [hd]))]
    simp

theorem makestring_len_eq (c : Nat) : (makestringChar c).length = makestringLen c := by
  unfold makestringChar makestringLen
  by_cases h : c = 34 ∨ c = 92 ∨ c = 7 ∨ c = 8 ∨ c = 9 ∨ c = 10 ∨ c = 11 ∨ c = 12 ∨ c = 13
  · rw [if_pos h]
    rcases h with rfl | rfl | rfl | rfl | rfl | rfl | rfl | rfl | rfl <;> rfl
  · rw [if_neg h]
    simp only [not_or] at h
    obtain ⟨h1, h2, h3, h4, h5, h6, h7, h8, h9⟩ := h
    rw [if_neg h1, if_neg h2, if_neg h3, if_neg h4, if_neg h5, if_neg h6, if_neg h7, if_neg h8, if_neg h9]
    split_ifs <;> rfl

/-! ### C escapes -/

def ReadsC (e : Bytes) (c : Nat) : Prop :=
  (c ≠ 92 ∧ e = [c]) ∨ ∃ f, e = 92 :: f ∧ ∀ rest, fromCescape (f ++ rest) = some (c, rest)

theorem readsC_ite {p : Prop} [Decidable p] {a b : Bytes} {c : Nat} (h1 : p → ReadsC a c)
    (h2 : ¬p → ReadsC b c) : ReadsC (if p then a else b) c := by
  by_cases h : p
  · rw [if_pos h]; exact h1 h
  · rw [if_neg h]; exact h2 h

theorem cesc_simple (rest : Bytes) :
    fromCescape (97 :: rest) = some (7, rest) ∧ fromCescape (98 :: rest) = some (8, rest) ∧
    fromCescape (116 :: rest) = some (9, rest) ∧ fromCescape (110 :: rest) = some (10, rest) ∧
    fromCescape (114 :: rest) = some (13, rest) ∧ fromCescape (118 :: rest) = some (11, rest) ∧
    fromCescape (102 :: rest) = some (12, rest) ∧ fromCescape (34 :: rest) = some (34, rest) ∧
    fromCescape (92 :: rest) = some (92, rest) ∧ fromCescape (63 :: rest) = some (63, rest) ∧
    fromCescape (39 :: rest) = some (39, rest) := by
  refine ⟨?_, ?_, ?_, ?_, ?_, ?_, ?_, ?_, ?_, ?_, ?_⟩ <;> rfl

theorem fromCescape_oct (c : Nat) (h : c < 256) (rest : Bytes) :
    fromCescape ((48 + c / 64) :: (48 + c / 8 % 8) :: (48 + c % 8) :: rest) = some (c, rest) := by
  unfold fromCescape
  dsimp only
  iterate 12 rw [if_neg (by omega)]
  rw [if_pos (by omega)]
  unfold fromOct octalOpt
  simp only
  rw [if_pos (by omega), if_pos (by omega)]
  have : ((48 + c / 64 - 48) * 8 + (48 + c / 8 % 8) - 48) * 8 + (48 + c % 8) - 48 = c := by omega
  rw [this, chrB, if_neg (by omega)]; rfl

theorem toCescape_reads (c : Nat) (h : c < 256) : ReadsC (toCescape c) c := by
  unfold toCescape
  have sc (a c : Nat) (h : ∀ rest, fromCescape (a :: rest) = some (c, rest)) : ReadsC [92, a] c :=
    Or.inr ⟨[a], rfl, h⟩
  refine readsC_ite (fun h1 => ?_) (fun h1 => ?_)
  · subst h1; exact sc _ _ fun r => (cesc_simple r).2.2.2.2.2.2.2.2.1
  refine readsC_ite (fun h2 => ?_) (fun h2 => ?_)
  · subst h2; exact sc _ _ fun r => (cesc_simple r).2.2.2.2.2.2.2.2.2.1
  refine readsC_ite (fun h3 => ?_) (fun h3 => ?_)
  · subst h3; exact sc _ _ fun r => (cesc_simple r).2.2.2.2.2.2.2.2.2.2
  refine readsC_ite (fun h4 => ?_) (fun h4 => ?_)
  · subst h4; exact sc _ _ fun r => (cesc_simple r).2.2.2.2.2.2.2.1
  refine readsC_ite (fun h5 => ?_) (fun h5 => ?_)
  · exact Or.inl ⟨h1, rfl⟩
  refine readsC_ite (fun h6 => ?_) (fun h6 => ?_)
  · subst h6; exact sc _ _ fun r => (cesc_simple r).2.2.2.1
  refine readsC_ite (fun h7 => ?_) (fun h7 => ?_)
  · subst h7; exact sc _ _ fun r => (cesc_simple r).2.2.2.2.1
  refine readsC_ite (fun h8 => ?_) (fun h8 => ?_)
  · subst h8; exact sc _ _ fun r => (cesc_simple r).2.2.1
  refine readsC_ite (fun h9 => ?_) (fun h9 => ?_)
  · subst h9; exact sc _ _ fun r => (cesc_simple r).2.2.2.2.2.1
  refine readsC_ite (fun h10 => ?_) (fun h10 => ?_)
  · subst h10; exact sc _ _ fun r => (cesc_simple r).2.1
  refine readsC_ite (fun h11 => ?_) (fun h11 => ?_)
  · subst h11; exact sc _ _ fun r => (cesc_simple r).2.2.2.2.2.2.1
  refine readsC_ite (fun h12 => ?_) (fun h12 => ?_)
  · subst h12; exact sc _ _ fun r => (cesc_simple r).1
  · exact Or.inr ⟨_, rfl, fun r => fromCescape_oct c h r⟩

theorem addchar_spec (fresh : Nat → Bytes) (hf : ∀ n, (fresh n).length = n) (tmp : Bytes) (max len c : Nat)
    (hm : tmp.length = max) (hpos : 0 < max) (hl : len ≤ max) :
    (addchar fresh tmp max len c).1.length = (addchar fresh tmp max len c).2 ∧
    0 < (addchar fresh tmp max len c).2 ∧ len + 1 ≤ (addchar fresh tmp max len c).2 ∧
    (addchar fresh tmp max len c).1.take (len + 1) = tmp.take len ++ [c] := by
  have key (t : Bytes) (ht : len < t.length) (he : t.take len = tmp.take len) :
      (t.set len c).take (len + 1) = tmp.take len ++ [c] := by
    rw [List.take_succ_eq_append_getElem (by simpa using ht), List.take_set, List.set_eq_of_length_le (by simp), he]
    simp
  unfold addchar realloc
  by_cases h : len ≥ max
  · have : len = max := by omega
    subst this
    simp only [ge_iff_le, Nat.le_refl, if_true]
    have hlen : (tmp.take len ++ (fresh (2 * len)).drop len).length = 2 * len := by simp [hf]; omega
    refine ⟨by rw [List.length_set, hlen], by omega, by omega, key _ (by omega) ?_⟩
    rw [List.take_append_of_le_length (by simp; omega), List.take_take, Nat.min_self]
  · simp only [h, if_false]
    exact ⟨by simp [hm], hpos, by omega, key tmp (by omega) rfl⟩

theorem fromCStringLoop_read (fresh : Nat → Bytes) (e : Bytes) (c : Nat) (h : ReadsC e c) (rest tmp : Bytes)
    (max len : Nat) :
    fromCStringLoop fresh tmp max len (e ++ rest) =
      fromCStringLoop fresh (addchar fresh tmp max len c).1 (addchar fresh tmp max len c).2 (len + 1) rest := by
  rcases h with ⟨hc, rfl⟩ | ⟨f, rfl, hf⟩
  · rw [List.singleton_append, fromCStringLoop.eq_def]
    dsimp only
    rw [if_neg hc]
  · rw [List.cons_append, fromCStringLoop.eq_def]
    dsimp only
    rw [if_pos rfl]
    split
    · rename_i h; rw [hf] at h; cases h
    · rename_i d src2 h; rw [hf] at h; cases h; rfl

theorem fromCStringLoop_flatMap (fresh : Nat → Bytes) (hf : ∀ n, (fresh n).length = n) (g : Nat → Bytes)
    (s : Bytes) (hg : ∀ c ∈ s, ReadsC (g c) c) : ∀ (tmp : Bytes) (max len : Nat), tmp.length = max → 0 < max →
    len ≤ max → fromCStringLoop fresh tmp max len (s.flatMap g) = some (tmp.take len ++ s) := by
  induction s with
  | nil => intro tmp max len _ _ _; simp [fromCStringLoop]
  | cons c s ih =>
    intro tmp max len h1 h2 h3
    obtain ⟨a1, a2, a3, a4⟩ := addchar_spec fresh hf tmp max len c h1 h2 h3
    rw [List.flatMap_cons, fromCStringLoop_read fresh _ c (hg c (by simp)),
      ih (fun d hd => hg d (by simp [hd])) _ _ _ a1 a2 a3, a4]
    simp

/-! ### array copies -/

theorem upd_other {α : Type} (σ : Arrays α) (a i : Nat) (v : α) (b : Nat) (h : b ≠ a) : upd σ a i v b = σ b :=
  if_neg h
theorem upd_self {α : Type} (σ : Arrays α) (a i : Nat) (v : α) : upd σ a i v a = (σ a).set i v := if_pos rfl

theorem getD_some {α : Type} [Inhabited α] {l : List α} {i : Nat} (h : i < l.length) :
    some (l.getD i default) = l[i]? := by
  rw [List.getD_eq_getElem?_getD, List.getElem?_eq_getElem h]; rfl

theorem hi2lo_spec {α : Type} [Inhabited α] (a1 i1 a2 i2 : Nat) (hov : a1 = a2 → i1 ≤ i2) (n : Nat) :
    ∀ σ : Arrays α, i1 + n ≤ (σ a1).length → i2 + n ≤ (σ a2).length →
    (∀ b, b ≠ a2 → hi2lo a1 i1 a2 i2 n σ b = σ b) ∧
    Copied (σ a1) i1 (σ a2) i2 n (hi2lo a1 i1 a2 i2 n σ a2) := by
  induction n with
  | zero => intro σ _ _; exact ⟨fun _ _ => rfl, rfl, fun j hj => by omega, fun _ _ => rfl⟩
  | succ j ih =>
    intro σ h1 h2
    rw [hi2lo]
    generalize hv : (σ a1).getD (i1 + j) default = v
    have hv' : some v = (σ a1)[i1 + j]? := by rw [← hv]; exact getD_some (by omega)
    have e2 := upd_self σ a2 (i2 + j) v
    have e1 : (upd σ a2 (i2 + j) v a1).length = (σ a1).length := by
      by_cases h : a1 = a2
      · subst h; rw [upd_self]; simp
      · rw [upd_other _ _ _ _ _ h]
    obtain ⟨ho, hlen, hin, hout⟩ := ih (upd σ a2 (i2 + j) v) (by omega) (by rw [e2]; simp; omega)
    refine ⟨fun b hb => by rw [ho b hb, upd_other _ _ _ _ _ hb], by rw [hlen, e2]; simp, ?_, ?_⟩
    · intro k hk
      by_cases hkj : k < j
      · rw [hin k hkj]
        by_cases h : a1 = a2
        · subst h
          have := hov rfl
          rw [e2, List.getElem?_set_ne (by omega)]
        · rw [upd_other _ _ _ _ _ h]
      · have : k = j := by omega
        subst this
        rw [hout _ (by omega), e2, List.getElem?_set_self (by omega), hv']
    · intro i hi
      rw [hout i (by omega), e2, List.getElem?_set_ne (by omega)]

theorem lo2hi_spec {α : Type} [Inhabited α] (a1 i1 a2 i2 : Nat) (hov : a1 = a2 → i2 ≤ i1) (m : Nat) :
    ∀ (j : Nat) (σ : Arrays α), i1 + j + m ≤ (σ a1).length → i2 + j + m ≤ (σ a2).length →
    (∀ b, b ≠ a2 → lo2hi a1 i1 a2 i2 m j σ b = σ b) ∧
    Copied (σ a1) (i1 + j) (σ a2) (i2 + j) m (lo2hi a1 i1 a2 i2 m j σ a2) := by
  induction m with
  | zero => intro j σ _ _; exact ⟨fun _ _ => rfl, rfl, fun j hj => by omega, fun _ _ => rfl⟩
  | succ m ih =>
    intro j σ h1 h2
    rw [lo2hi]
    generalize hv : (σ a1).getD (i1 + j) default = v
    have hv' : some v = (σ a1)[i1 + j]? := by rw [← hv]; exact getD_some (by omega)
    have e2 := upd_self σ a2 (i2 + j) v
    have e1 : (upd σ a2 (i2 + j) v a1).length = (σ a1).length := by
      by_cases h : a1 = a2
      · subst h; rw [upd_self]; simp
      · rw [upd_other _ _ _ _ _ h]
    obtain ⟨ho, hlen, hin, hout⟩ := ih (j + 1) (upd σ a2 (i2 + j) v) (by omega) (by rw [e2]; simp; omega)
    refine ⟨fun b hb => by rw [ho b hb, upd_other _ _ _ _ _ hb], by rw [hlen, e2]; simp, ?_, ?_⟩
    · intro k hk
      by_cases hk0 : k = 0
      · subst hk0
        rw [hout _ (by omega), e2, Nat.add_zero, List.getElem?_set_self (by omega), hv', Nat.add_zero]
      · have e : i2 + j + k = i2 + (j + 1) + (k - 1) := by omega
        have e' : i1 + j + k = i1 + (j + 1) + (k - 1) := by omega
        rw [e, e', hin (k - 1) (by omega)]
        by_cases h : a1 = a2
        · subst h
          have := hov rfl
          rw [e2, List.getElem?_set_ne (by omega)]
        · rw [upd_other _ _ _ _ _ h]
    · intro i hi
      rw [hout i (by omega), e2, List.getElem?_set_ne (by omega)]

theorem fillLoop_spec (c : Nat) (hc : c < 256) (n : Nat) : ∀ (b : Blk) (s : Bytes) (p : Nat), IsStr b s →
    p + n ≤ s.length → ∃ t, IsStr (fillLoop b p c n) t ∧ t.length = s.length ∧
      (∀ j, j < n → t[p + j]? = some c) ∧ (∀ i, i < p ∨ p + n ≤ i → t[i]? = s[i]?) := by
  induction n with
  | zero => intro b s p h _; exact ⟨s, h, rfl, fun j hj => by omega, fun _ _ => rfl⟩
  | succ n ih =>
    intro b s p h hp
    obtain ⟨t, ht, hl, hin, hout⟩ := ih (b.setByte p c) (s.set p c) (p + 1)
      (setByte_isStr h p c (by omega) hc) (by simp; omega)
    refine ⟨t, ht, by simpa using hl, ?_, ?_⟩
    · intro j hj
      by_cases h0 : j = 0
      · subst h0
        rw [hout _ (by omega), Nat.add_zero, List.getElem?_set_self (by omega)]
      · rw [show p + j = p + 1 + (j - 1) by omega]; exact hin _ (by omega)
    · intro i hi
      rw [hout i (by omega), List.getElem?_set_ne (by omega)]

end Mosml.Strings
