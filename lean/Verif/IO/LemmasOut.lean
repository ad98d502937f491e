import Verif.IO.Model

namespace Mosml.IO

theorem bufSize_pos : 0 < bufSize := by decide

theorem bufSize_lt : bufSize < 2 ^ 31 := by decide

theorem writeAt_nil (d : Bytes) (p : Nat) : writeAt d p [] = d := by simp [writeAt]

theorem getElem?_writeAt {bs : Bytes} (h : bs ≠ []) (d : Bytes) (p i : Nat) :
    (writeAt d p bs)[i]? =
      if i < p then (if i < d.length then d[i]? else some 0)
      else if i < p + bs.length then bs[i - p]? else d[i]? := by
  unfold writeAt
  rw [if_neg h]
  by_cases h1 : i < p
  · rw [if_pos h1, List.append_assoc, List.append_assoc]
    by_cases h2 : i < d.length
    · rw [if_pos h2, List.getElem?_append_left (by simp; omega), List.getElem?_take, if_pos h1]
    · rw [if_neg h2, List.getElem?_append_right (by simp; omega),
        List.getElem?_append_left (by simp; omega), List.getElem?_replicate, if_pos (by simp; omega)]
  · rw [if_neg h1]
    have hl : (d.take p ++ List.replicate (p - d.length) 0).length = p := by simp; omega
    by_cases h2 : i < p + bs.length
    · rw [if_pos h2, List.getElem?_append_left (by rw [List.length_append, hl]; omega),
        List.getElem?_append_right (by omega), hl]
    · rw [if_neg h2, List.getElem?_append_right (by rw [List.length_append, hl]; omega), List.length_append, hl,
        List.getElem?_drop]
      congr 1; omega

theorem length_writeAt {bs : Bytes} (h : bs ≠ []) (d : Bytes) (p : Nat) :
    (writeAt d p bs).length = max d.length (p + bs.length) := by
  unfold writeAt; rw [if_neg h]; simp; omega

theorem length_bcopy (b bs : Bytes) (i : Nat) (h : i + bs.length ≤ b.length) :
    (bcopy b i bs).length = b.length := by simp [bcopy]; omega

theorem getElem?_bcopy (b bs : Bytes) (i j : Nat) (h : i + bs.length ≤ b.length) :
    (bcopy b i bs)[j]? = if j < i then b[j]? else if j < i + bs.length then bs[j - i]? else b[j]? := by
  unfold bcopy
  have hl : (b.take i).length = i := by simp; omega
  by_cases h1 : j < i
  · rw [if_pos h1, List.append_assoc, List.getElem?_append_left (by omega), List.getElem?_take, if_pos h1]
  · rw [if_neg h1]
    by_cases h2 : j < i + bs.length
    · rw [if_pos h2, List.getElem?_append_left (by rw [List.length_append, hl]; omega),
        List.getElem?_append_right (by omega), hl]
    · rw [if_neg h2, List.getElem?_append_right (by rw [List.length_append, hl]; omega), List.length_append, hl,
        List.getElem?_drop]
      congr 1; omega

/-- overwriting, from inside, what has just been written: the combined effect is one write of the merged bytes -/
theorem writeAt_writeAt (d a b : Bytes) (p i : Nat) (hi : i ≤ a.length) :
    writeAt (writeAt d p a) (p + i) b = writeAt d p (a.take i ++ b ++ a.drop (i + b.length)) := by
  by_cases hb : b = []
  · subst hb; simp [writeAt_nil]
  · have hbl : 0 < b.length := List.length_pos_iff.mpr hb
    have hm : a.take i ++ b ++ a.drop (i + b.length) ≠ [] := by
      intro h; have := congrArg List.length h; simp at this; exact hb this.2.1
    have hml : (a.take i ++ b ++ a.drop (i + b.length)).length = max a.length (i + b.length) := by simp; omega
    have hmg : ∀ j, (a.take i ++ b ++ a.drop (i + b.length))[j]? =
        if j < i then a[j]? else if j < i + b.length then b[j - i]? else a[j]? := by
      intro j
      have hl : (a.take i).length = i := by simp; omega
      by_cases h1 : j < i
      · rw [if_pos h1, List.append_assoc, List.getElem?_append_left (by omega), List.getElem?_take, if_pos h1]
      · rw [if_neg h1]
        by_cases h2 : j < i + b.length
        · rw [if_pos h2, List.getElem?_append_left (by rw [List.length_append, hl]; omega),
            List.getElem?_append_right (by omega), hl]
        · rw [if_neg h2, List.getElem?_append_right (by rw [List.length_append, hl]; omega), List.length_append, hl,
            List.getElem?_drop]
          congr 1; omega
    apply List.ext_getElem?
    intro j
    rw [getElem?_writeAt hb, getElem?_writeAt hm, hml, hmg]
    by_cases ha : a = []
    · subst ha
      simp only [List.length_nil, Nat.le_zero_eq] at hi
      subst hi
      simp only [writeAt_nil, Nat.add_zero, List.length_nil, Nat.not_lt_zero, if_false, Nat.zero_add, Nat.sub_zero]
      by_cases h1 : j < p
      · rw [if_pos h1, if_pos h1]
      · rw [if_neg h1, if_neg h1]
        by_cases h2 : j < p + b.length
        · rw [if_pos h2, if_pos (by omega), if_pos (by omega)]
        · rw [if_neg h2, if_neg (by omega)]
    · rw [getElem?_writeAt ha, length_writeAt ha]
      by_cases h1 : j < p
      · rw [if_pos (by omega), if_pos (by omega), if_pos h1, if_pos h1]
      · rw [if_neg h1, if_neg h1]
        by_cases h2 : j < p + i
        · rw [if_pos h2, if_pos (by omega), if_pos (by omega), if_pos (by omega), if_pos (by omega)]
        · rw [if_neg h2]
          by_cases h3 : j < p + i + b.length
          · rw [if_pos h3, if_pos (by omega), if_neg (by omega), if_pos (by omega)]
            congr 1; omega
          · rw [if_neg h3]
            by_cases h4 : j < p + a.length
            · rw [if_pos h4, if_pos (by omega), if_neg (by omega), if_neg (by omega)]
            · rw [if_neg h4, if_neg (by omega)]

theorem writeAt_append (d a b : Bytes) (p : Nat) :
    writeAt (writeAt d p a) (p + a.length) b = writeAt d p (a ++ b) := by
  rw [writeAt_writeAt _ _ _ _ _ (Nat.le_refl _), List.take_length, List.drop_eq_nil_of_le (by omega), List.append_nil]

theorem writeLoop_spec (os : Nat → Nat) : ∀ fuel w bs, bs.length ≤ fuel →
    (writeLoop os fuel w bs).data = writeAt w.data w.pos bs ∧ (writeLoop os fuel w bs).pos = w.pos + bs.length := by
  intro fuel
  induction fuel with
  | zero =>
    intro w bs h
    have : bs = [] := List.length_eq_zero_iff.mp (by omega)
    subst this
    exact ⟨(writeAt_nil _ _).symm, rfl⟩
  | succ f ih =>
    intro w bs h
    unfold writeLoop
    by_cases hb : bs = []
    · rw [if_pos hb]; subst hb; exact ⟨(writeAt_nil _ _).symm, rfl⟩
    · rw [if_neg hb]
      have hbl : 0 < bs.length := List.length_pos_iff.mpr hb
      obtain ⟨h1, h2⟩ := ih (sysWrite os w bs).2 (bs.drop (sysWrite os w bs).1) (by
        simp only [sysWrite, List.length_drop]; omega)
      refine ⟨h1.trans ?_, h2.trans ?_⟩
      · simp only [sysWrite]
        generalize hr : max 1 (min bs.length (os w.calls)) = r
        have hl : (bs.take r).length = r := by rw [List.length_take]; omega
        conv_lhs => rw [← hl]
        rw [hl, show w.pos + r = w.pos + (bs.take r).length by omega, writeAt_append, List.take_append_drop]
      · simp only [sysWrite, List.length_drop]; omega

theorem reallyWrite_spec (os : Nat → Nat) (w : World) (bs : Bytes) (h : bs.length < 2 ^ 31) :
    (reallyWrite os w bs).data = writeAt w.data w.pos bs ∧ (reallyWrite os w bs).pos = w.pos + bs.length := by
  unfold reallyWrite
  rw [if_neg (by omega)]
  exact writeLoop_spec os _ w bs (Nat.le_refl _)

/-- `(d, p)` is the contents of the file and the position in it as the user of an output channel sees them -/
structure Out (s : World × Chan) (d : Bytes) (p : Nat) : Prop where
  cm : s.2.curr ≤ s.2.max
  mb : s.2.max ≤ bufSize
  bl : s.2.buff.length = bufSize
  dt : d = writeAt s.1.data s.1.pos (s.2.buff.take s.2.max)
  ps : p = s.1.pos + s.2.curr

/-- nothing buffered lies ahead of the current position -/
def AtMax (s : World × Chan) : Prop := s.2.curr = s.2.max

/-- the channel knows the position of the descriptor -/
def Synced (s : World × Chan) : Prop := s.1.pos = s.2.offset

theorem flush_spec {os s d p} (h : Out s d p) :
    Out (flush os s.1 s.2) d (p + (s.2.max - s.2.curr)) ∧ (flush os s.1 s.2).2.max = 0 ∧
      (flush os s.1 s.2).1.data = d ∧
      (flush os s.1 s.2).1.pos + s.2.offset = s.1.pos + (flush os s.1 s.2).2.offset := by
  obtain ⟨cm, mb, bl, dt, ps⟩ := h
  unfold flush
  by_cases hm : s.2.max > 0
  · rw [if_pos hm]
    have hl : (s.2.buff.take s.2.max).length = s.2.max := by rw [List.length_take]; omega
    obtain ⟨h1, h2⟩ := reallyWrite_spec os s.1 (s.2.buff.take s.2.max) (by have := bufSize_lt; omega)
    refine ⟨⟨Nat.le_refl _, Nat.zero_le _, bl, ?_, ?_⟩, rfl, h1.trans dt.symm, ?_⟩
    · simp only [List.take_zero, writeAt_nil]; rw [h1]; exact dt
    · simp only; rw [h2, hl]; omega
    · simp only; rw [h2, hl]; omega
  · rw [if_neg hm]
    have hm0 : s.2.max = 0 := by omega
    refine ⟨⟨cm, mb, bl, dt, by simp only; omega⟩, hm0, ?_, by simp only⟩
    rw [dt, hm0, List.take_zero, writeAt_nil]

/-- copying into the buffer at `curr` -/
theorem copy_spec {w : World} {c : Chan} {d p} (bs : Bytes) (h : Out (w, c) d p) (hf : c.curr + bs.length ≤ bufSize) :
    Out (w, ⟨c.offset, c.curr + bs.length, if c.curr + bs.length > c.max then c.curr + bs.length else c.max,
      bcopy c.buff c.curr bs⟩) (writeAt d p bs) (p + bs.length) := by
  obtain ⟨cm, mb, bl, dt, ps⟩ := h
  simp only at cm mb bl dt ps
  refine ⟨?_, ?_, ?_, ?_, ?_⟩
  · simp only; split <;> omega
  · simp only; split <;> omega
  · simp only; rw [length_bcopy _ _ _ (by omega)]; exact bl
  · simp only
    have hl : (c.buff.take c.max).length = c.max := by rw [List.length_take]; omega
    rw [ps, dt, writeAt_writeAt _ _ _ _ _ (by omega)]
    congr 1
    apply List.ext_getElem?
    intro j
    have hl2 : ((c.buff.take c.max).take c.curr).length = c.curr := by rw [List.length_take]; omega
    rw [List.getElem?_take, getElem?_bcopy _ _ _ _ (by omega)]
    by_cases h1 : j < c.curr
    · rw [List.append_assoc, List.getElem?_append_left (by omega), List.getElem?_take, if_pos h1, List.getElem?_take,
        if_pos (by omega), if_pos (by split <;> omega), if_pos h1]
    · by_cases h2 : j < c.curr + bs.length
      · rw [List.getElem?_append_left (by rw [List.length_append, hl2]; omega),
          List.getElem?_append_right (by omega), hl2, if_pos (by split <;> omega), if_neg h1, if_pos h2]
      · rw [List.getElem?_append_right (by rw [List.length_append, hl2]; omega), List.length_append, hl2,
          List.getElem?_drop, show c.curr + bs.length + (j - (c.curr + bs.length)) = j by omega, List.getElem?_take,
          if_neg h1, if_neg h2]
        by_cases h3 : j < c.max
        · rw [if_pos h3, if_pos (by split <;> omega)]
        · rw [if_neg h3, if_neg (by split <;> omega)]
  · simp only; omega

theorem putch_spec {os s d p} (h : Out s d p) (ch : Nat) :
    Out (putch os s.1 s.2 ch) (writeAt d p [ch % 256]) (p + 1) ∧
      (AtMax s → AtMax (putch os s.1 s.2 ch)) ∧ (Synced s → Synced (putch os s.1 s.2 ch)) := by
  obtain ⟨w, c⟩ := s
  by_cases hc : c.curr ≥ bufSize
  · obtain ⟨h1, h2, h3, h4⟩ := flush_spec (os := os) h
    have hcm : c.curr = c.max := by have := h.cm; have := h.mb; simp only at *; omega
    simp only [hcm, Nat.sub_self, Nat.add_zero] at h1 h2 h3 h4
    generalize hfl : flush os w c = r at h1 h2 h3 h4
    obtain ⟨w', c'⟩ := r
    have hcur : c'.curr = 0 := by have := h1.cm; simp only at *; omega
    have hp : putch os w c ch = (w', ⟨c'.offset, c'.curr + 1, if c'.curr + 1 > c'.max then c'.curr + 1 else c'.max,
        bcopy c'.buff c'.curr [ch % 256]⟩) := by
      unfold putch; rw [if_pos hc, hfl]
    simp only [hp]
    have := copy_spec [ch % 256] h1 (by have := bufSize_pos; simp only [List.length_singleton]; omega)
    refine ⟨this, fun _ => ?_, fun hs => ?_⟩
    · unfold AtMax; simp only at *; rw [if_pos (by omega)]
    · unfold Synced at *; simp only at *; omega
  · have hp : putch os w c ch = (w, ⟨c.offset, c.curr + 1, if c.curr + 1 > c.max then c.curr + 1 else c.max,
        bcopy c.buff c.curr [ch % 256]⟩) := by
      unfold putch; rw [if_neg hc]
    simp only [hp]
    have := copy_spec [ch % 256] h (by simp only [List.length_singleton]; omega)
    refine ⟨this, fun ha => ?_, fun hs => hs⟩
    unfold AtMax at *; simp only at *; rw [if_pos (by omega)]

/-- the four bytes of a word, most significant first -/
def wordBytes (x : Nat) : Bytes := [x / 2 ^ 24 % 256, x / 2 ^ 16 % 256, x / 2 ^ 8 % 256, x % 256]

theorem putword_spec {os s d p} (h : Out s d p) (x : Nat) :
    Out (putword os s.1 s.2 x) (writeAt d p (wordBytes x)) (p + 4) ∧
      (AtMax s → AtMax (putword os s.1 s.2 x)) ∧ (Synced s → Synced (putword os s.1 s.2 x)) := by
  obtain ⟨h1, a1, s1⟩ := putch_spec (os := os) h (x / 2 ^ 24)
  obtain ⟨h2, a2, s2⟩ := putch_spec (os := os) h1 (x / 2 ^ 16)
  obtain ⟨h3, a3, s3⟩ := putch_spec (os := os) h2 (x / 2 ^ 8)
  obtain ⟨h4, a4, s4⟩ := putch_spec (os := os) h3 x
  refine ⟨?_, fun h => a4 (a3 (a2 (a1 h))), fun h => s4 (s3 (s2 (s1 h)))⟩
  have e : ∀ (q : Bytes) (y : Nat), writeAt (writeAt d p q) (p + q.length) [y] = writeAt d p (q ++ [y]) :=
    fun q y => writeAt_append d q [y] p
  have e1 := e [x / 2 ^ 24 % 256] (x / 2 ^ 16 % 256)
  have e2 := e [x / 2 ^ 24 % 256, x / 2 ^ 16 % 256] (x / 2 ^ 8 % 256)
  have e3 := e [x / 2 ^ 24 % 256, x / 2 ^ 16 % 256, x / 2 ^ 8 % 256] (x % 256)
  simp only [List.length_cons, List.length_nil, List.cons_append, List.nil_append, Nat.zero_add] at e1 e2 e3
  rw [show p + 1 + 1 = p + (1 + 1) from rfl, e1, show p + (1 + 1) + 1 = p + (1 + 1 + 1) from rfl, e2, e3] at h4
  exact h4

theorem putblock_spec {os s d p} (h : Out s d p) (bs : Bytes) (hb : bs.length < 2 ^ 31)
    (hok : s.2.curr = 0 → bufSize ≤ bs.length → s.2.max = 0) :
    Out (putblock os s.1 s.2 bs) (writeAt d p bs) (p + bs.length) ∧
      (AtMax s → AtMax (putblock os s.1 s.2 bs)) ∧ (Synced s → Synced (putblock os s.1 s.2 bs)) := by
  obtain ⟨w, c⟩ := s
  have cm := h.cm
  have mb := h.mb
  have bl := h.bl
  simp only at cm mb bl hok
  unfold putblock
  by_cases h1 : c.curr = 0 ∧ bs.length ≥ bufSize - c.curr
  · simp only [h1, and_self, if_true, true_and]
    have hm0 : c.max = 0 := hok h1.1 (by omega)
    obtain ⟨e1, e2⟩ := reallyWrite_spec os w bs hb
    have hdt : d = w.data := by rw [h.dt]; simp only [hm0, List.take_zero, writeAt_nil]
    have hps := h.ps
    simp only [h1.1, Nat.add_zero] at hps
    have h1' : bs.length ≥ bufSize - 0 := by omega
    rw [if_pos h1']
    refine ⟨⟨by simp only; omega, mb, bl, ?_, ?_⟩, fun ha => hm0.symm, fun hs => ?_⟩
    · simp only [hm0, List.take_zero, writeAt_nil]; rw [e1, hdt, hps]
    · simp only; rw [e2, hps]; omega
    · unfold Synced at *; simp only at *; omega
  · simp only [h1, if_false]
    by_cases h2 : bs.length ≤ bufSize - c.curr
    · simp only [h2, if_true]
      refine ⟨copy_spec bs h (by omega), fun ha => ?_, fun hs => hs⟩
      unfold AtMax at *; simp only at *; split <;> omega
    · simp only [h2, if_false]
      generalize hm : bufSize - c.curr = m at h1 h2
      have htl : (bs.take m).length = m := by rw [List.length_take]; omega
      have hc := copy_spec (bs.take m) h (by rw [htl]; omega)
      have hmx : (if c.curr + (bs.take m).length > c.max then c.curr + (bs.take m).length else c.max) = bufSize := by
        rw [htl]; split <;> omega
      rw [hmx] at hc
      have hbl := hc.bl
      have hdt := hc.dt
      have hps := hc.ps
      simp only at hbl hdt hps
      have hall : (bcopy c.buff c.curr (bs.take m)).take bufSize = bcopy c.buff c.curr (bs.take m) :=
        List.take_of_length_le (by omega)
      obtain ⟨e1, e2⟩ := reallyWrite_spec os w ((bcopy c.buff c.curr (bs.take m)).take bufSize)
        (by rw [hall, hbl]; exact bufSize_lt)
      rw [List.length_take, hbl, Nat.min_self] at e2
      rw [← hdt] at e1
      generalize hw' : reallyWrite os w ((bcopy c.buff c.curr (bs.take m)).take bufSize) = w' at e1 e2
      generalize hbuf : bcopy c.buff c.curr (bs.take m) = buf at *
      have hdl : (bs.drop m).length = bs.length - m := List.length_drop
      have hwa : writeAt (writeAt d p (bs.take m)) (p + m) (bs.drop m) = writeAt d p bs := by
        have := writeAt_append d (bs.take m) (bs.drop m) p
        rw [List.take_append_drop, htl] at this
        exact this
      have hpos : p + m = w'.pos := by rw [e2]; rw [htl] at hps; omega
      by_cases h3 : bs.length - m ≤ bufSize
      · simp only [h3, if_true]
        have hc2 : Out (w', ⟨c.offset + bufSize, 0, 0, buf⟩) (writeAt d p (bs.take m)) (p + m) :=
          ⟨Nat.le_refl _, Nat.zero_le _, hbl, by simp only [List.take_zero, writeAt_nil]; exact e1.symm,
            by simp only; omega⟩
        have hc3 := copy_spec (bs.drop m) hc2 (by rw [hdl]; simp only; omega)
        simp only [hdl, Nat.zero_add] at hc3
        rw [hwa, if_pos (by omega), show p + m + (bs.length - m) = p + bs.length by omega] at hc3
        refine ⟨hc3, fun _ => rfl, fun hs => ?_⟩
        unfold Synced at *; simp only at *; omega
      · simp only [h3, if_false]
        obtain ⟨f1, f2⟩ := reallyWrite_spec os w' (bs.drop m) (by omega)
        refine ⟨⟨Nat.le_refl _, Nat.zero_le _, hbl, ?_, ?_⟩, fun _ => rfl, fun hs => ?_⟩
        · simp only [List.take_zero, writeAt_nil]; rw [f1, e1, ← hpos, hwa]
        · simp only; rw [f2, hdl, ← hpos]; omega
        · unfold Synced at *; simp only at *; omega

theorem seekOut_spec {os s d p} (h : Out s d p) (hs : Synced s) (dest : Nat) :
    Out (seekOut os s.1 s.2 dest) d dest ∧ Synced (seekOut os s.1 s.2 dest) := by
  obtain ⟨w, c⟩ := s
  unfold seekOut
  by_cases hd : dest ≥ c.offset ∧ dest ≤ c.offset + c.max
  · simp only [hd, and_self, if_true]
    refine ⟨⟨by simp only; omega, h.mb, h.bl, h.dt, ?_⟩, hs⟩
    unfold Synced at hs; simp only at *; omega
  · simp only [hd, if_false]
    obtain ⟨h1, h2, h3, h4⟩ := flush_spec (os := os) h
    simp only at h1 h2 h3 h4
    have h5 := h1.cm
    refine ⟨⟨h1.cm, h1.mb, h1.bl, ?_, by simp only at *; omega⟩, rfl⟩
    simp only [h2, List.take_zero, writeAt_nil]; exact h3.symm

end Mosml.IO
