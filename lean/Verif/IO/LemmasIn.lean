import Verif.IO.LemmasOut

namespace Mosml.IO

theorem sysRead_spec (os : Nat → Nat) (w : World) (n : Nat) :
    (sysRead os w n).2.data = w.data ∧ (sysRead os w n).2.pos = w.pos + (sysRead os w n).1.length ∧
    (∀ i, i < (sysRead os w n).1.length → (sysRead os w n).1[i]? = w.data[w.pos + i]?) ∧
    (sysRead os w n).1.length ≤ n ∧
    ((sysRead os w n).1.length = 0 → n = 0 ∨ w.data.length ≤ w.pos) := by
  unfold sysRead
  simp only
  generalize hr : (if min n (w.data.length - w.pos) = 0 then 0 else
    max 1 (min (min n (w.data.length - w.pos)) (os w.calls))) = r
  have hl : r ≤ w.data.length - w.pos := by rw [← hr]; split <;> omega
  have hn : r ≤ n := by rw [← hr]; split <;> omega
  have hlen : ((w.data.drop w.pos).take r).length = r := by rw [List.length_take, List.length_drop]; omega
  rw [hlen]
  refine ⟨trivial, rfl, fun i hi => ?_, hn, fun h0 => ?_⟩
  · rw [List.getElem?_take, if_pos hi, List.getElem?_drop]
  · rw [h0] at hr
    by_cases h : min n (w.data.length - w.pos) = 0
    · omega
    · rw [if_neg h] at hr; omega

/-- `p` is the position in the file as the user of an input channel sees it -/
structure In (s : World × Chan) (p : Nat) : Prop where
  sy : s.1.pos = s.2.offset
  cm : s.2.curr ≤ s.2.max
  mb : s.2.max ≤ bufSize
  bl : s.2.buff.length = bufSize
  mo : s.2.max ≤ s.2.offset
  bf : ∀ i, i < s.2.max → s.2.buff[i]? = s.1.data[s.2.offset - s.2.max + i]?
  ps : p = s.2.offset - (s.2.max - s.2.curr)

theorem In.le_length {s p} (h : In s p) (hm : 0 < s.2.max) : s.2.offset ≤ s.1.data.length := by
  have h1 := h.bf (s.2.max - 1) (by omega)
  have := h.bl; have := h.mb; have := h.mo
  rw [List.getElem?_eq_getElem (by omega)] at h1
  have h2 := (List.getElem?_eq_some_iff.mp h1.symm).1
  omega

theorem getElem?_ext_take {a b : Bytes} {k : Nat} (hl : a.length = k) (h : ∀ i, i < k → a[i]? = b[i]?) : a = b.take k := by
  apply List.ext_getElem?
  intro i
  rw [List.getElem?_take]
  by_cases hi : i < k
  · rw [if_pos hi, h i hi]
  · rw [if_neg hi, List.getElem?_eq_none (by omega)]

/-- reading from the buffer -/
theorem In.buffered {s p} (h : In s p) (n : Nat) (hn : n ≤ s.2.max - s.2.curr) :
    ((s.2.buff.drop s.2.curr).take n).length = n ∧
    (s.2.buff.drop s.2.curr).take n = (s.1.data.drop p).take n ∧
    In (s.1, { s.2 with curr := s.2.curr + n }) (p + n) := by
  obtain ⟨sy, cm, mb, bl, mo, bf, ps⟩ := h
  have hl : ((s.2.buff.drop s.2.curr).take n).length = n := by rw [List.length_take, List.length_drop]; omega
  refine ⟨hl, ?_, ⟨sy, by simp only; omega, mb, bl, mo, bf, by simp only; omega⟩⟩
  apply getElem?_ext_take hl
  intro i hi
  rw [List.getElem?_take, if_pos hi, List.getElem?_drop, List.getElem?_drop, bf _ (by omega)]
  congr 1; omega

/-- what was read from the descriptor replaces the buffer -/
theorem In.refilled {s p} (h : In s p) (he : s.2.max ≤ s.2.curr) (os : Nat → Nat) (n k : Nat)
    (hk : k ≤ (sysRead os s.1 n).1.length) (hn : n ≤ bufSize) :
    (sysRead os s.1 n).1.take k = (s.1.data.drop p).take k ∧
    In ((sysRead os s.1 n).2, ⟨s.2.offset + (sysRead os s.1 n).1.length, k, (sysRead os s.1 n).1.length,
      bcopy s.2.buff 0 (sysRead os s.1 n).1⟩) (p + k) := by
  obtain ⟨r1, r2, r3, r4, r5⟩ := sysRead_spec os s.1 n
  obtain ⟨sy, cm, mb, bl, mo, bf, ps⟩ := h
  generalize hr : sysRead os s.1 n = r at *
  obtain ⟨bs, w'⟩ := r
  simp only at *
  constructor
  · apply getElem?_ext_take (by rw [List.length_take]; omega)
    intro i hi
    rw [List.getElem?_take, if_pos hi, List.getElem?_drop, r3 i (by omega)]
    congr 1; omega
  · refine ⟨by simp only; omega, hk, by simp only; omega, by simp only; rw [length_bcopy _ _ _ (by omega)]; exact bl,
      by simp only; omega, ?_, by simp only; omega⟩
    intro i hi
    simp only at hi ⊢
    rw [getElem?_bcopy _ _ _ _ (by omega), if_neg (by omega), if_pos (by omega), Nat.sub_zero, r3 i hi, r1]
    congr 1; omega

theorem getch_spec {os s p} (h : In s p) :
    (getch os s.1 s.2).1 = s.1.data[p]? ∧ (getch os s.1 s.2).2.1.data = s.1.data ∧
    In (getch os s.1 s.2).2 (if p < s.1.data.length then p + 1 else p) := by
  unfold getch
  by_cases hc : s.2.curr ≥ s.2.max
  · rw [if_pos hc]
    obtain ⟨r1, r2, r3, r4, r5⟩ := sysRead_spec os s.1 bufSize
    have hp : p = s.1.pos := by have := h.ps; have := h.sy; omega
    by_cases h0 : (sysRead os s.1 bufSize).1.length = 0
    · have hle : s.1.data.length ≤ s.1.pos := by
        rcases r5 h0 with h | h
        · have := bufSize_pos; omega
        · exact h
      simp only [h0, if_true]
      refine ⟨by rw [List.getElem?_eq_none (by omega)], r1, ?_⟩
      rw [if_neg (by omega)]
      exact ⟨by simp only; rw [r2, h0]; exact h.sy, h.cm, h.mb, h.bl, h.mo, by simp only; rw [r1]; exact h.bf, h.ps⟩
    · simp only [h0, if_false]
      have h1 := r3 0 (by omega)
      have hlt : s.1.pos < s.1.data.length := by
        by_contra hh
        rw [List.getElem?_eq_none (l := s.1.data) (by omega), List.getElem?_eq_none_iff] at h1
        omega
      obtain ⟨_, h3⟩ := h.refilled hc os bufSize 1 (by omega) (Nat.le_refl _)
      refine ⟨?_, r1, ?_⟩
      · rw [hp, ← Nat.add_zero s.1.pos, ← h1, List.getD_eq_getElem?_getD,
          List.getElem?_eq_getElem (by omega : 0 < (sysRead os s.1 bufSize).1.length), Option.getD_some]
      · rw [if_pos (by omega)]; exact h3
  · rw [if_neg hc]
    obtain ⟨h1, h2, h3⟩ := h.buffered 1 (by omega)
    have hle := h.le_length (by omega)
    have := h.ps; have := h.mo; have := h.bl; have := h.mb
    refine ⟨?_, rfl, ?_⟩
    · have e := h.bf s.2.curr (by omega)
      simp only
      rw [List.getD_eq_getElem?_getD, show p = s.2.offset - s.2.max + s.2.curr by omega, ← e,
        List.getElem?_eq_getElem (by omega), Option.getD_some]
    · rw [if_pos (by omega)]; exact h3

theorem getblock_spec {os s p} (h : In s p) (n : Nat) :
    ∃ bs s', getblock os s.1 s.2 n = (bs, s') ∧ bs = (s.1.data.drop p).take bs.length ∧ bs.length ≤ n ∧
      (bs = [] → n = 0 ∨ s.1.data.length ≤ p) ∧ In s' (p + bs.length) ∧ s'.1.data = s.1.data := by
  unfold getblock
  by_cases h1 : n ≤ s.2.max - s.2.curr
  · rw [if_pos h1]
    obtain ⟨a, b, c⟩ := h.buffered n h1
    refine ⟨_, _, rfl, by rw [a]; exact b, by omega, fun e => ?_, by rw [a]; exact c, rfl⟩
    rw [e] at a; exact Or.inl a.symm
  · rw [if_neg h1]
    by_cases h2 : s.2.max - s.2.curr > 0
    · rw [if_pos h2]
      obtain ⟨a, b, c⟩ := h.buffered (s.2.max - s.2.curr) (Nat.le_refl _)
      refine ⟨_, _, rfl, by rw [a]; exact b, by omega, fun e => ?_, by rw [a]; exact c, rfl⟩
      rw [e] at a; simp at a; omega
    · rw [if_neg h2]
      have hp : p = s.1.pos := by have := h.ps; have := h.sy; omega
      by_cases h3 : n < bufSize
      · rw [if_pos h3]
        obtain ⟨r1, r2, r3, r4, r5⟩ := sysRead_spec os s.1 bufSize
        generalize hk : (if n > (sysRead os s.1 bufSize).1.length then (sysRead os s.1 bufSize).1.length else n) = k
        have hkl : k ≤ (sysRead os s.1 bufSize).1.length := by rw [← hk]; split <;> omega
        have hkn : k ≤ n := by rw [← hk]; split <;> omega
        obtain ⟨a, b⟩ := h.refilled (by omega) os bufSize k hkl (Nat.le_refl _)
        have hl : ((sysRead os s.1 bufSize).1.take k).length = k := by rw [List.length_take]; omega
        refine ⟨(sysRead os s.1 bufSize).1.take k, ((sysRead os s.1 bufSize).2,
          ⟨s.2.offset + (sysRead os s.1 bufSize).1.length, k, (sysRead os s.1 bufSize).1.length,
            bcopy s.2.buff 0 (sysRead os s.1 bufSize).1⟩), by simp only [hk], by rw [hl]; exact a, by omega, fun e => ?_,
          by rw [hl]; exact b, r1⟩
        rw [e] at hl
        simp only [List.length_nil] at hl
        by_cases hn0 : n = 0
        · exact Or.inl hn0
        · right
          have : (sysRead os s.1 bufSize).1.length = 0 := by
            by_contra hh; rw [← hl] at hk; split at hk <;> omega
          rcases r5 this with h | h
          · have := bufSize_pos; omega
          · omega
      · rw [if_neg h3]
        obtain ⟨r1, r2, r3, r4, r5⟩ := sysRead_spec os s.1 n
        refine ⟨(sysRead os s.1 n).1, ((sysRead os s.1 n).2, ⟨s.2.offset + (sysRead os s.1 n).1.length, 0, 0, s.2.buff⟩),
          rfl, ?_, r4, fun e => ?_, ?_, r1⟩
        · apply getElem?_ext_take rfl
          intro i hi
          rw [List.getElem?_drop, hp, r3 i hi]
        · rw [e] at r5
          rcases r5 rfl with h | h
          · exact Or.inl h
          · right; omega
        · have := h.sy
          exact ⟨by simp only; omega, Nat.le_refl _, Nat.zero_le _, h.bl, Nat.zero_le _,
            fun i hi => absurd hi (Nat.not_lt_zero _), by simp only; omega⟩

theorem reallyGetblock_spec {os : Nat → Nat} : ∀ fuel s p n, In s p → n ≤ fuel →
    ∃ bs ok s', reallyGetblock os fuel s.1 s.2 n = (bs, ok, s') ∧ bs = (s.1.data.drop p).take n ∧
      (ok = true ↔ bs.length = n) ∧ In s' (p + bs.length) ∧ s'.1.data = s.1.data := by
  intro fuel
  induction fuel with
  | zero =>
    intro s p n h hn
    have : n = 0 := by omega
    subst this
    exact ⟨[], true, s, by simp [reallyGetblock], by simp, by simp, h, rfl⟩
  | succ f ih =>
    intro s p n h hn
    unfold reallyGetblock
    by_cases h0 : n = 0
    · subst h0
      rw [if_pos rfl]
      exact ⟨[], true, s, rfl, by simp, by simp, h, rfl⟩
    · rw [if_neg h0]
      obtain ⟨bs, s1, e, b1, b2, b3, b4, b5⟩ := getblock_spec (os := os) h n
      rw [e]
      simp only
      by_cases hb : bs.length = 0
      · rw [if_pos hb]
        have hb' : bs = [] := List.length_eq_zero_iff.mp hb
        have hle : s.1.data.length ≤ p := by
          rcases b3 hb' with h | h
          · omega
          · exact h
        refine ⟨[], false, s1, rfl, by rw [List.drop_eq_nil_of_le hle, List.take_nil], by simp; omega, ?_, b5⟩
        rw [hb] at b4; exact b4
      · rw [if_neg hb]
        obtain ⟨bs', ok, s2, e2, c1, c2, c3, c4⟩ := ih s1 (p + bs.length) (n - bs.length) b4 (by omega)
        rw [e2]
        refine ⟨bs ++ bs', ok, s2, rfl, ?_, ?_, by rw [List.length_append, ← Nat.add_assoc]; exact c3, c4.trans b5⟩
        · rw [c1, b5, ← List.drop_drop]
          have : (s.1.data.drop p).take n =
              ((s.1.data.drop p).take bs.length ++ ((s.1.data.drop p).drop bs.length).take (n - bs.length)) := by
            rw [← List.take_add]; congr 1; omega
          rw [this, ← b1]
        · rw [c2, List.length_append]; omega

theorem seekIn_spec {s p} (h : In s p) (dest : Nat) : In (seekIn s.1 s.2 dest) dest ∧ (seekIn s.1 s.2 dest).1.data = s.1.data := by
  unfold seekIn
  obtain ⟨sy, cm, mb, bl, mo, bf, ps⟩ := h
  by_cases hd : dest + s.2.max ≥ s.2.offset ∧ dest ≤ s.2.offset
  · rw [if_pos hd]
    exact ⟨⟨sy, by simp only; omega, mb, bl, mo, bf, by simp only; omega⟩, rfl⟩
  · rw [if_neg hd]
    exact ⟨⟨rfl, Nat.le_refl _, Nat.zero_le _, bl, Nat.zero_le _, fun i hi => absurd hi (Nat.not_lt_zero _), rfl⟩, rfl⟩

/-- the outcome of `input_scan_line` at position `p`: with a newline within reach, the length of the line including it, and
those characters are in the buffer; otherwise minus the number of characters in the buffer, which is full or holds the rest
of the file -/
def ScanPost (data : Bytes) (p : Nat) (k : Int) (s' : World × Chan) : Prop :=
  (∃ j : Nat, k = j + 1 ∧ data[p + j]? = some 10 ∧ (∀ i, i < j → data[p + i]? ≠ some 10) ∧
    s'.2.curr + (j + 1) ≤ s'.2.max) ∨
  (∃ n : Nat, k = -(n : Int) ∧ (∀ i, i < n → data[p + i]? ≠ some 10) ∧ s'.2.max - s'.2.curr = n ∧
    (n = bufSize ∨ data.length ≤ p + n))

theorem scanLine_spec {os : Nat → Nat} : ∀ fuel s p q, In s p → s.2.curr ≤ q → q ≤ s.2.max →
    (∀ i, s.2.curr ≤ i → i < q → s.2.buff[i]? ≠ some 10) → bufSize + 1 ≤ fuel + (q - s.2.curr) →
    ∃ k s', scanLine os fuel s.1 s.2 q = (k, s') ∧ In s' p ∧ s'.1.data = s.1.data ∧ ScanPost s.1.data p k s' := by
  intro fuel
  induction fuel with
  | zero => intro s p q h h1 h2 h3 h4; have := h.mb; omega
  | succ f ih =>
    intro s p q h h1 h2 h3 h4
    -- the test of the character at `q`, when there is one
    have step : ∀ s1 : World × Chan, ∀ q1, In s1 p → s1.1.data = s.1.data → s1.2.curr ≤ q1 → q1 < s1.2.max →
        (∀ i, s1.2.curr ≤ i → i < q1 → s1.2.buff[i]? ≠ some 10) → q1 - s1.2.curr = q - s.2.curr →
        ∃ k s', (if s1.2.buff.getD q1 0 ≠ 10 then scanLine os f s1.1 s1.2 (q1 + 1)
          else (((q1 + 1 - s1.2.curr : Nat) : Int), s1.1, s1.2)) = (k, s') ∧ In s' p ∧ s'.1.data = s.1.data ∧
          ScanPost s.1.data p k s' := by
      intro s1 q1 i1 i2 i3 i4 i5 i6
      have hlt : q1 < s1.2.buff.length := by have := i1.bl; have := i1.mb; omega
      have hgd : s1.2.buff[q1]? = some (s1.2.buff.getD q1 0) := by
        rw [List.getD_eq_getElem?_getD, List.getElem?_eq_getElem hlt, Option.getD_some]
      by_cases hn : s1.2.buff.getD q1 0 ≠ 10
      · rw [if_pos hn]
        obtain ⟨k, s', a, b, c, d⟩ := ih s1 p (q1 + 1) i1 (by omega) (by omega) (by
          intro i hi hi2
          by_cases hiq : i = q1
          · subst hiq; rw [hgd]; intro e; exact hn (Option.some.inj e)
          · exact i5 i hi (by omega)) (by omega)
        rw [i2] at c d
        exact ⟨k, s', a, b, c, d⟩
      · rw [if_neg hn]
        have h10 : s1.2.buff.getD q1 0 = 10 := not_not.mp hn
        have hps := i1.ps
        have hmo := i1.mo
        refine ⟨_, s1, rfl, i1, i2, Or.inl ⟨q1 - s1.2.curr, ?_, ?_, ?_, by omega⟩⟩
        · omega
        · have := i1.bf q1 i4
          rw [hgd, h10, i2] at this
          rw [this]; congr 1; omega
        · intro i hi
          have := i1.bf (s1.2.curr + i) (by omega)
          rw [i2] at this
          have h5 := i5 (s1.2.curr + i) (by omega) (by omega)
          rw [this] at h5
          rw [show p + i = s1.2.offset - s1.2.max + (s1.2.curr + i) by omega]
          exact h5
    unfold scanLine
    by_cases hq : q ≥ s.2.max
    · have hqm : q = s.2.max := by omega
      simp only [hq, if_true]
      have hn : (if s.2.curr > 0 then s.2.curr else 0) = s.2.curr := by split <;> omega
      -- the channel after shifting
      have hsh : ∃ c : Chan, (⟨s.2.offset, s.2.curr - (if s.2.curr > 0 then s.2.curr else 0),
          s.2.max - (if s.2.curr > 0 then s.2.curr else 0),
          if s.2.curr > 0 then bcopy s.2.buff 0 ((s.2.buff.drop s.2.curr).take (s.2.max - s.2.curr)) else s.2.buff⟩ : Chan) = c ∧
          In (s.1, c) p ∧ c.curr = 0 ∧ c.max = s.2.max - s.2.curr ∧ c.offset = s.2.offset ∧
          ∀ i, i < c.max → c.buff[i]? ≠ some 10 := by
        refine ⟨_, rfl, ?_⟩
        obtain ⟨sy, cm, mb, bl, mo, bf, ps⟩ := h
        rw [hn]
        have hbc : ∀ i, i < s.2.max - s.2.curr →
            (if s.2.curr > 0 then bcopy s.2.buff 0 ((s.2.buff.drop s.2.curr).take (s.2.max - s.2.curr)) else s.2.buff)[i]? =
              s.2.buff[s.2.curr + i]? := by
          intro i hi
          have hl : ((s.2.buff.drop s.2.curr).take (s.2.max - s.2.curr)).length = s.2.max - s.2.curr := by
            rw [List.length_take, List.length_drop]; omega
          by_cases hc : s.2.curr > 0
          · rw [if_pos hc, getElem?_bcopy _ _ _ _ (by omega), if_neg (by omega), if_pos (by omega), Nat.sub_zero,
              List.getElem?_take, if_pos hi, List.getElem?_drop]
          · rw [if_neg hc]; congr 1; omega
        refine ⟨⟨sy, by simp only; omega, by simp only; omega, ?_, by simp only; omega, ?_, by simp only; omega⟩,
          by simp only; omega, rfl, rfl, ?_⟩
        · simp only
          split
          · rw [length_bcopy _ _ _ (by rw [List.length_take, List.length_drop]; omega)]; exact bl
          · exact bl
        · intro i hi
          simp only at hi ⊢
          rw [hbc i hi, bf _ (by omega)]
          congr 1; omega
        · intro i hi
          simp only at hi ⊢
          rw [hbc i hi]
          exact h3 _ (by omega) (by omega)
      obtain ⟨c, hc, i1, c0, cm, co, cn⟩ := hsh
      rw [hn] at hc
      simp only [hn]
      have hcm : s.2.max - s.2.curr = c.max := cm.symm
      have hcb : (if s.2.curr > 0 then bcopy s.2.buff 0 ((s.2.buff.drop s.2.curr).take (s.2.max - s.2.curr)) else s.2.buff)
        = c.buff := by rw [← hc]
      rw [hcb]
      simp only [Nat.sub_self, Nat.sub_zero, hcm]
      have hcc : (⟨s.2.offset, 0, c.max, c.buff⟩ : Chan) = c := by
        obtain ⟨co', cc', cm', cb'⟩ := c
        simp only at c0 co ⊢
        rw [c0, co]
      have hrest : ∀ (x : Bool), (c.max = bufSize ∨ s.1.data.length ≤ p + c.max) →
          ScanPost s.1.data p (-((c.max : Nat) : Int)) (s.1, c) := by
        intro _ hh
        refine Or.inr ⟨c.max, rfl, ?_, by simp only; omega, hh⟩
        intro i hi
        have h5 := cn i hi
        have h6 := i1.bf i hi
        have := i1.ps; have := i1.mo
        simp only at *
        rw [h6] at h5
        rw [show p + i = c.offset - c.max + i by omega]
        exact h5
      by_cases hfull : c.max ≥ bufSize
      · simp only [hfull, if_true]
        rw [hcc]
        have := i1.mb
        exact ⟨_, _, rfl, i1, rfl, hrest true (Or.inl (by simp only at *; omega))⟩
      · simp only [hfull, if_false]
        obtain ⟨r1, r2, r3, r4, r5⟩ := sysRead_spec os s.1 (bufSize - c.max)
        generalize hr : sysRead os s.1 (bufSize - c.max) = r at *
        obtain ⟨bs, w'⟩ := r
        simp only at r1 r2 r3 r4 r5 ⊢
        have isy := i1.sy
        have ips := i1.ps
        have imo := i1.mo
        have imb := i1.mb
        have ibl := i1.bl
        simp only at isy ips imo imb ibl
        by_cases hb0 : bs.length = 0
        · simp only [hb0, if_true]
          rw [hcc]
          refine ⟨_, _, rfl, ⟨?_, i1.cm, i1.mb, i1.bl, i1.mo, ?_, i1.ps⟩, r1, ?_⟩
          · simp only; rw [r2, hb0]; exact isy
          · simp only; rw [r1]; exact i1.bf
          · have hh := hrest true (Or.inr (by rcases r5 hb0 with h | h <;> omega))
            rcases hh with ⟨j, e, _⟩ | h
            · omega
            · exact Or.inr h
        · simp only [hb0, if_false]
          have hin : In (w', (⟨s.2.offset + bs.length, 0, c.max + bs.length, bcopy c.buff c.max bs⟩ : Chan)) p := by
            refine ⟨by simp only; omega, Nat.zero_le _, by simp only; omega, ?_, by simp only; omega, ?_,
              by simp only; omega⟩
            · simp only; rw [length_bcopy _ _ _ (by omega)]; exact ibl
            · intro i hi
              simp only at hi ⊢
              rw [getElem?_bcopy _ _ _ _ (by omega), r1]
              by_cases hi2 : i < c.max
              · rw [if_pos hi2]
                have := i1.bf i hi2
                simp only at this
                rw [this]; congr 1; omega
              · rw [if_neg hi2, if_pos (by omega), r3 _ (by omega)]
                congr 1; omega
          have := step (w', ⟨s.2.offset + bs.length, 0, c.max + bs.length, bcopy c.buff c.max bs⟩) (q - s.2.curr) hin r1
            (Nat.zero_le _) (by simp only; omega) (by
              intro i _ hi
              simp only at hi ⊢
              rw [getElem?_bcopy _ _ _ _ (by omega), if_pos (by omega)]
              exact cn i (by omega)) (by simp only; omega)
          simp only [Nat.sub_zero] at this
          exact this
    · simp only [hq, if_false]
      exact step s q h rfl h1 (by omega) h3 rfl

end Mosml.IO
