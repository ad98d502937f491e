import Verif.Strings.Spec
import Mathlib.Tactic.IntervalCases

namespace Mosml.Strings
open Mosml.Ints

theorem mkStr_isStr (s : Bytes) (hc : ∀ c ∈ s, c < 256) (hl : s.length ≤ maxlen) : IsStr (mkStr s) s := by
  refine ⟨hc, hl, ⟨0, by omega, by simp [mkStr]⟩, by simp [mkStr]; omega, by simp [mkStr], ?_⟩
  have : 8 * (s.length / 8 + 1) - 1 = (s ++ List.replicate (7 - s.length % 8) 0).length := by simp; omega
  simp only [mkStr]
  rw [this, List.getD_eq_getElem?_getD, List.getElem?_append_right (Nat.le_refl _)]
  simp

theorem stringLength_of_isStr {b : Blk} {s : Bytes} (h : IsStr b s) : stringLength b = s.length := by
  obtain ⟨color, hcol, hhd⟩ := h.header
  have hw : wosizeHd b.hd = s.length / 8 + 1 := by unfold wosizeHd; rw [hhd]; omega
  unfold stringLength
  rw [hw]
  dsimp only
  rw [h.last]; omega

theorem contents_of_isStr {b : Blk} {s : Bytes} (h : IsStr b s) : contents b = s := by
  unfold contents; rw [stringLength_of_isStr h, h.front]

theorem getElem?_of_isStr {b : Blk} {s : Bytes} (h : IsStr b s) (i : Nat) (hi : i < s.length) :
    b.bytes[i]? = s[i]? := by
  have := h.front
  rw [← congrArg (·[i]?) this]
  rw [List.getElem?_take_of_lt hi]

theorem bytes_split {b : Blk} {s : Bytes} (h : IsStr b s) : b.bytes = s ++ b.bytes.drop s.length := by
  have := List.take_append_drop s.length b.bytes
  rw [h.front] at this
  exact this.symm

/-- building a proper string from bytes -/
theorem isStr_of (b : Blk) (s : Bytes) (len : Nat) (hlen : s.length = len) (hm : len ≤ maxlen)
    (hc : ∀ c ∈ s, c < 256)
    (hh : ∃ color, color < 4 ∧ b.hd = (len / 8 + 1) * 1024 + color * 256 + 253)
    (hs : b.bytes.length = 8 * (len / 8 + 1)) (hf : b.bytes.take len = s)
    (hl : b.bytes.getD (8 * (len / 8 + 1) - 1) 0 = 7 - len % 8) : IsStr b s := by
  subst hlen
  exact ⟨hc, hm, hh, hs, hf, hl⟩

theorem allocString_spec (len : Nat) (h : len ≤ maxlen) (fresh : Nat → Nat) (color : Nat) (hcol : color < 4) :
    ∃ s, s.length = len ∧ IsStr (allocString len fresh (color * 256)) s := by
  let b := allocString len fresh (color * 256)
  have hw : (len + 8) / 8 = len / 8 + 1 := by omega
  have hsz : b.bytes.length = 8 * (len / 8 + 1) := by
    simp [b, allocString, Blk.setByte, hw]; omega
  refine ⟨b.bytes.take len, by simp [hsz]; omega, ?_⟩
  refine isStr_of b _ len (by simp [hsz]; omega) h ?_ ⟨color, hcol, ?_⟩ hsz rfl ?_
  · intro c hc
    have hc := List.mem_of_mem_take hc
    simp only [b, allocString, Blk.setByte] at hc
    rcases List.mem_or_eq_of_mem_set hc with hc | hc
    · rcases List.mem_append.1 hc with hc | hc
      · have := List.mem_of_mem_take hc
        simp only [List.mem_map] at this
        obtain ⟨i, -, rfl⟩ := this
        exact Nat.mod_lt _ (by omega)
      · rw [List.mem_replicate] at hc; omega
    · subst hc; exact Nat.mod_lt _ (by omega)
  · simp only [b, allocString, Blk.setByte, mkHeader, hw]
    unfold maxlen at h
    rw [Nat.mod_eq_of_lt (by omega)]
  · simp only [b, allocString, Blk.setByte, hw]
    rw [List.getD_eq_getElem?_getD, List.getElem?_set_self (by simp; omega)]
    simp; omega

theorem setByte_isStr {b : Blk} {s : Bytes} (h : IsStr b s) (i c : Nat) (hi : i < s.length) (hc : c < 256) :
    IsStr (b.setByte i c) (s.set i c) := by
  have hcm : c % 256 = c := Nat.mod_eq_of_lt hc
  refine isStr_of _ _ s.length (by simp) h.short ?_ h.header (by simp [Blk.setByte, h.size]) ?_ ?_
  · intro d hd
    rcases List.mem_or_eq_of_mem_set hd with hd | hd
    · exact h.chars d hd
    · omega
  · simp only [Blk.setByte, hcm]
    rw [List.take_set, h.front]
  · simp only [Blk.setByte, hcm]
    rw [List.getD_eq_getElem?_getD, List.getElem?_set_ne (by omega), ← List.getD_eq_getElem?_getD, h.last]

theorem memmove_some {src dst : Bytes} {o1 o2 n : Nat} (h1 : o1 + n ≤ src.length) (h2 : o2 + n ≤ dst.length) :
    memmove src o1 dst o2 n = some (dst.take o2 ++ ((src.drop o1).take n ++ dst.drop (o2 + n))) := by
  unfold memmove; rw [if_pos ⟨h1, h2⟩]

theorem memmove_copied {src dst out : Bytes} {o1 o2 n : Nat} (h : memmove src o1 dst o2 n = some out) :
    Copied src o1 dst o2 n out := by
  unfold memmove at h
  rcases ite_or h with ⟨⟨h1, h2⟩, h⟩ | ⟨-, h⟩
  · cases h
    refine ⟨by simp; omega, ?_, ?_⟩
    · intro j hj
      rw [List.getElem?_append_right (by simp), List.getElem?_append_left (by simp; omega)]
      rw [List.getElem?_take_of_lt (by simp; omega), List.getElem?_drop]
      congr 1; simp; omega
    · intro i hi
      rcases hi with hi | hi
      · rw [List.getElem?_append_left (by simp; omega), List.getElem?_take_of_lt hi]
      · rw [List.getElem?_append_right (by simp; omega), List.getElem?_append_right (by simp; omega),
          List.getElem?_drop]
        congr 1; simp; omega
  · cases h

theorem copied_ext {α : Type} {src dst a b : List α} {o1 o2 n : Nat} (ha : Copied src o1 dst o2 n a)
    (hb : Copied src o1 dst o2 n b) : a = b := by
  apply List.ext_getElem?
  intro i
  by_cases h : i < o2 ∨ o2 + n ≤ i
  · rw [ha.2.2 i h, hb.2.2 i h]
  · have : i = o2 + (i - o2) := by omega
    rw [this, ha.2.1 _ (by omega), hb.2.1 _ (by omega)]

/-- replacing a prefix region of a proper string -/
theorem replace_isStr {b : Blk} {s t : Bytes} (h : IsStr b s) (hlen : t.length = s.length)
    (ht : ∀ c ∈ t, c < 256) : IsStr { b with bytes := t ++ b.bytes.drop s.length } t := by
  have hs := h.size
  refine isStr_of _ _ s.length hlen h.short ht h.header (by simp [hlen]; omega) (by simp [← hlen]) ?_
  rw [List.getD_eq_getElem?_getD]
  simp only
  rw [List.getElem?_append_right (by omega), List.getElem?_drop, hlen,
    show s.length + (8 * (s.length / 8 + 1) - 1 - s.length) = 8 * (s.length / 8 + 1) - 1 by omega,
    ← List.getD_eq_getElem?_getD, h.last]

/-- copying part of a proper string into a proper string -/
theorem memmove_isStr {b1 b2 : Blk} {s1 s2 : Bytes} (h1 : IsStr b1 s1) (h2 : IsStr b2 s2) (o1 o2 n : Nat)
    (hb1 : o1 + n ≤ s1.length) (hb2 : o2 + n ≤ s2.length) :
    ∃ bs, memmove b1.bytes o1 b2.bytes o2 n = some bs ∧
      IsStr { b2 with bytes := bs } (s2.take o2 ++ ((s1.drop o1).take n ++ s2.drop (o2 + n))) := by
  have hz1 := h1.size
  have hz2 := h2.size
  refine ⟨_, memmove_some (by omega) (by omega), ?_⟩
  let t := s2.take o2 ++ ((s1.drop o1).take n ++ s2.drop (o2 + n))
  have hlen : t.length = s2.length := by simp [t]; omega
  have := replace_isStr (t := t) h2 hlen (by
    intro c hc
    rcases List.mem_append.1 hc with hc | hc
    · exact h2.chars c (List.mem_of_mem_take hc)
    · rcases List.mem_append.1 hc with hc | hc
      · exact h1.chars c (List.mem_of_mem_drop (List.mem_of_mem_take hc))
      · exact h2.chars c (List.mem_of_mem_drop hc))
  have e : b2.bytes.take o2 ++ ((b1.bytes.drop o1).take n ++ b2.bytes.drop (o2 + n))
      = t ++ b2.bytes.drop s2.length := by
    have e2 := bytes_split h2
    have e1 := bytes_split h1
    simp only [t]
    rw [show b2.bytes.take o2 = s2.take o2 by
        rw [e2, List.take_append_of_le_length (by omega)],
      show b2.bytes.drop (o2 + n) = s2.drop (o2 + n) ++ b2.bytes.drop s2.length by
        conv_lhs => rw [e2]
        rw [List.drop_append_of_le_length (by omega)],
      show (b1.bytes.drop o1).take n = (s1.drop o1).take n by
        conv_lhs => rw [e1]
        rw [List.drop_append_of_le_length (by omega), List.take_append_of_le_length (by simp; omega)]]
    simp
  rw [e]; exact this

theorem smlConcat_spec {b1 b2 : Blk} {s1 s2 : Bytes} (h1 : IsStr b1 s1) (h2 : IsStr b2 s2)
    (fresh : Nat → Nat) (color : Nat) (hcol : color < 4) :
    (s1.length + s2.length ≤ maxlen →
      ∃ b, smlConcat b1 b2 fresh (color * 256) = some b ∧ IsStr b (s1 ++ s2)) ∧
    (maxlen < s1.length + s2.length → smlConcat b1 b2 fresh (color * 256) = none) := by
  have l1 := stringLength_of_isStr h1
  have l2 := stringLength_of_isStr h2
  have hs1 := h1.short
  have hs2 := h2.short
  constructor
  · intro hle
    unfold smlConcat
    simp only [l1, l2]
    by_cases e1 : s1.length = 0
    · rw [if_pos e1]
      refine ⟨b2, rfl, ?_⟩
      rw [List.eq_nil_of_length_eq_zero e1]; exact h2
    rw [if_neg e1]
    by_cases e2 : s2.length = 0
    · rw [if_pos e2]
      refine ⟨b1, rfl, ?_⟩
      rw [List.eq_nil_of_length_eq_zero e2, List.append_nil]; exact h1
    rw [if_neg e2, if_neg (by unfold maxWosize; unfold maxlen at hle; omega)]
    obtain ⟨s, hlen, hs⟩ := allocString_spec (s1.length + s2.length) hle fresh color hcol
    obtain ⟨bs1, hm1, hi1⟩ := memmove_isStr h1 hs 0 0 s1.length (by omega) (by omega)
    rw [hm1, Option.bind_some]
    have hl : (s.take 0 ++ ((s1.drop 0).take s1.length ++ s.drop (0 + s1.length))).length
        = s1.length + s2.length := by simp; omega
    obtain ⟨bs2, hm2, hi2⟩ := memmove_isStr h2 hi1 0 s1.length s2.length (by omega) (by omega)
    simp only at hm2
    rw [hm2, Option.map_some]
    refine ⟨_, rfl, ?_⟩
    simp only at hi2
    convert hi2 using 1
    simp
    omega
  · intro hgt
    unfold smlConcat
    simp only [l1, l2]
    rw [if_neg (fun h => by omega), if_neg (fun h => by omega),
      if_pos (by unfold maxWosize; unfold maxlen at hgt; omega)]

theorem concatLen_eq (bs : List Blk) (ss : List Bytes) (h : List.Forall₂ IsStr bs ss) :
    ∀ n, concatLen bs n = n + ss.flatten.length := by
  induction h with
  | nil => intro n; simp [concatLen]
  | cons h _ ih =>
    intro n
    rw [concatLen, ih, stringLength_of_isStr h]
    simp; omega

theorem intVal_small {n : Nat} (h : n < 2 ^ 31) : intVal n = n := by
  unfold intVal; dsimp only; rw [Nat.mod_eq_of_lt (by omega), if_pos h]

theorem concatCopy_spec (bs : List Blk) (ss : List Bytes) (h : List.Forall₂ IsStr bs ss)
    (hsm : ∀ s ∈ ss, s.length < 2 ^ 31) : ∀ (nb : Blk) (done rest : Bytes), IsStr nb (done ++ rest) →
    rest.length = ss.flatten.length →
    ∃ b, concatCopy nb done.length bs = some b ∧ IsStr b (done ++ ss.flatten) := by
  induction h with
  | nil =>
    intro nb done rest hb hl
    simp at hl
    subst hl
    exact ⟨nb, rfl, by simpa using hb⟩
  | @cons b1 s1 bs ss h1 _ ih =>
    intro nb done rest hb hl
    have hl' : rest.length = s1.length + ss.flatten.length := by simpa using hl
    have hsm1 := hsm s1 (by simp)
    simp only [concatCopy, blitString, stringLength_of_isStr h1, intVal_small hsm1]
    obtain ⟨bs1, hm, hi⟩ := memmove_isStr h1 hb 0 done.length s1.length (by omega) (by simp; omega)
    rw [hm, Option.map_some, Option.bind_some]
    have e : (done ++ rest).take done.length ++ ((s1.drop 0).take s1.length ++
        (done ++ rest).drop (done.length + s1.length)) = (done ++ s1) ++ rest.drop s1.length := by
      simp [List.drop_append]
    rw [e] at hi
    obtain ⟨b, hb1, hb2⟩ := ih (fun s hs => hsm s (by simp [hs])) _ (done ++ s1) (rest.drop s1.length) hi
      (by simp at hl' ⊢; omega)
    rw [List.length_append] at hb1
    exact ⟨b, hb1, by simpa using hb2⟩

/-! ### comparison -/

theorem cmpLoop_same (n c : Nat) (p q : Bytes) : cmpLoop (n + 1) (c :: p) (c :: q) = cmpLoop n p q :=
  if_neg (fun h => h rfl)

theorem cmpLoop_diff (n : Nat) {c d : Nat} (h : c ≠ d) (p q : Bytes) :
    cmpLoop (n + 1) (c :: p) (d :: q) = some (if c < d then -1 else 1) := if_pos h

theorem cmpLoop_spec : ∀ (n : Nat) (p q s t : Bytes), n = min s.length t.length →
    p.take n = s.take n → q.take n = t.take n → n ≤ p.length → n ≤ q.length →
    (cmpLoop n p q = some (-1) ∧ s < t) ∨ (cmpLoop n p q = some 1 ∧ t < s) ∨
    (cmpLoop n p q = none ∧ s.take n = t.take n) := by
  intro n
  induction n with
  | zero => intro p q s t _ _ _ _ _; right; right; simp [cmpLoop]
  | succ n ih =>
    intro p q s t hn hp hq hpl hql
    match s, t, p, q with
    | [], _, _, _ => simp at hn
    | _ :: _, [], _, _ => simp at hn
    | _, _, [], _ => simp at hpl
    | _, _, _ :: _, [] => simp at hql
    | a :: s, b :: t, c :: p, d :: q =>
      simp only [List.take_succ_cons, List.cons.injEq] at hp hq
      obtain ⟨rfl, hp⟩ := hp
      obtain ⟨rfl, hq⟩ := hq
      simp only [List.length_cons] at hn hpl hql
      by_cases hcd : c = d
      · subst hcd
        rw [cmpLoop_same]
        rcases ih p q s t (by omega) hp hq (by omega) (by omega) with h | h | h
        · left; exact ⟨h.1, by rw [List.cons_lt_cons_iff]; right; exact ⟨rfl, h.2⟩⟩
        · right; left; exact ⟨h.1, by rw [List.cons_lt_cons_iff]; right; exact ⟨rfl, h.2⟩⟩
        · right; right; exact ⟨h.1, by simp [h.2]⟩
      · rw [cmpLoop_diff n hcd]
        by_cases hlt : c < d
        · left; rw [if_pos hlt]; exact ⟨rfl, by rw [List.cons_lt_cons_iff]; exact Or.inl hlt⟩
        · right; left; rw [if_neg hlt]
          exact ⟨rfl, by rw [List.cons_lt_cons_iff]; left; omega⟩

theorem lt_of_prefix : ∀ (s t : Bytes), s.length < t.length → s.take s.length = t.take s.length → s < t := by
  intro s
  induction s with
  | nil =>
    intro t h _
    match t with
    | [] => simp at h
    | _ :: _ => exact List.nil_lt_cons _ _
  | cons a s ih =>
    intro t h e
    match t with
    | [] => simp at h
    | b :: t =>
      simp only [List.length_cons, List.take_succ_cons, List.cons.injEq] at h e
      rw [List.cons_lt_cons_iff]
      exact Or.inr ⟨e.1, ih t (by omega) e.2⟩

/-- the outcome of compare_strings -/
theorem compareStrings_spec {b1 b2 : Blk} {s t : Bytes} (h1 : IsStr b1 s) (h2 : IsStr b2 t) :
    ((compareStrings b1 b2 = -1 ∨ compareStrings b1 b2 = -2) ∧ s < t) ∨
    ((compareStrings b1 b2 = 1 ∨ compareStrings b1 b2 = 2) ∧ t < s) ∨
    (compareStrings b1 b2 = 0 ∧ s = t) := by
  unfold compareStrings
  simp only [stringLength_of_isStr h1, stringLength_of_isStr h2]
  have hz1 := h1.size
  have hz2 := h2.size
  have hmin : (if s.length ≤ t.length then s.length else t.length) = min s.length t.length := by
    rw [Nat.min_def]
  rw [hmin]
  have f1 := bytes_split h1
  have f2 := bytes_split h2
  rcases cmpLoop_spec (min s.length t.length) b1.bytes b2.bytes s t rfl
    (by conv_lhs => rw [f1]
        rw [List.take_append_of_le_length (by omega)])
    (by conv_lhs => rw [f2]
        rw [List.take_append_of_le_length (by omega)]) (by omega) (by omega) with ⟨h, hl⟩ | ⟨h, hl⟩ | ⟨h, he⟩
  · rw [h]; left; exact ⟨Or.inl rfl, hl⟩
  · rw [h]; right; left; exact ⟨Or.inl rfl, hl⟩
  · rw [h]
    simp only
    by_cases e : s.length = t.length
    · right; right
      rw [if_pos e]
      refine ⟨rfl, ?_⟩
      rw [e, Nat.min_self] at he
      rwa [List.take_of_length_le (by omega), List.take_of_length_le (by omega)] at he
    · rw [if_neg e]
      by_cases hlt : s.length < t.length
      · left; rw [if_pos hlt]
        exact ⟨Or.inr rfl, lt_of_prefix s t hlt (by rwa [Nat.min_eq_left (by omega)] at he)⟩
      · right; left; rw [if_neg hlt]
        exact ⟨Or.inr rfl, lt_of_prefix t s (by omega) (by rw [Nat.min_eq_right (by omega)] at he; exact he.symm)⟩

theorem cmpValLoop_spec (n : Nat) : ∀ p q : Bytes,
    (cmpLoop n p q = none ↔ cmpValLoop n p q = none) ∧
    (cmpLoop n p q = some (-1) → ∃ r, cmpValLoop n p q = some r ∧ r < 0) ∧
    (cmpLoop n p q = some 1 → ∃ r, cmpValLoop n p q = some r ∧ 0 < r) := by
  induction n with
  | zero => intro p q; simp [cmpLoop, cmpValLoop]
  | succ n ih =>
    intro p q
    simp only [cmpLoop, cmpValLoop]
    by_cases h : p.headD 0 ≠ q.headD 0
    · rw [if_pos h, if_pos h]
      refine ⟨by simp, ?_, ?_⟩
      · intro hh
        refine ⟨_, rfl, ?_⟩
        by_cases hl : p.headD 0 < q.headD 0
        · omega
        · rw [if_neg hl] at hh; simp at hh
      · intro hh
        refine ⟨_, rfl, ?_⟩
        by_cases hl : p.headD 0 < q.headD 0
        · rw [if_pos hl] at hh; simp at hh
        · omega
    · rw [if_neg h, if_neg h]; exact ih _ _

end Mosml.Strings
