import Verif.IO.LemmasIn

/-!
C20 to C23: buffered output and input (src/runtime/io.c), binary integers and the byte vectors of reals.
`os` is any function deciding how many bytes each system call transfers.
-/
namespace Mosml.IO

/-- the bytes an output operation is asked to write -/
def OutOp.bytes : OutOp → Bytes
  | .char ch => [ch % 256]
  | .word x => [x / 2 ^ 24 % 256, x / 2 ^ 16 % 256, x / 2 ^ 8 % 256, x % 256]
  | .block bs => bs
  | .flush => []
  | .seek _ => []

/-- the same operation on an unbuffered file: contents and position -/
def OutOp.unbuffered (dp : Bytes × Nat) : OutOp → Bytes × Nat
  | .seek d => (dp.1, d)
  | op => (writeAt dp.1 dp.2 op.bytes, dp.2 + op.bytes.length)

/-- plain output: no seeks, and no block of 2^31 bytes or more -/
def OutOp.Plain : OutOp → Prop
  | .seek _ => False
  | .block bs => bs.length < 2 ^ 31
  | _ => True

theorem outStep_plain {os s d p} (h : Out s d p) (ha : AtMax s) (op : OutOp) (ho : op.Plain) :
    Out (outStep os s op) (writeAt d p op.bytes) (p + op.bytes.length) ∧ AtMax (outStep os s op) ∧
      (Synced s → Synced (outStep os s op)) := by
  cases op with
  | char ch => obtain ⟨a, b, c⟩ := putch_spec (os := os) h ch; exact ⟨a, b ha, c⟩
  | word x => obtain ⟨a, b, c⟩ := putword_spec (os := os) h x; exact ⟨a, b ha, c⟩
  | block bs =>
    have hb : bs.length < 2 ^ 31 := ho
    have hmod : bs.take (bs.length % 2 ^ 32) = bs := by
      rw [Nat.mod_eq_of_lt (by omega)]; exact List.take_length
    obtain ⟨a, b, c⟩ := putblock_spec (os := os) h bs hb (fun h0 _ => by unfold AtMax at ha; omega)
    simp only [outStep, output, hmod]
    exact ⟨a, b ha, c⟩
  | flush =>
    obtain ⟨a, b, c, d'⟩ := flush_spec (os := os) h
    unfold AtMax at ha
    refine ⟨?_, ?_, fun hs => ?_⟩
    · simp only [OutOp.bytes, writeAt_nil, List.length_nil, Nat.add_zero]
      rw [ha, Nat.sub_self, Nat.add_zero] at a
      exact a
    · have := a.cm; unfold AtMax; simp only [outStep] at *; omega
    · unfold Synced at *; simp only [outStep] at *; omega
  | seek d => exact absurd ho id

theorem outRun_plain {os} : ∀ (ops : List OutOp) s d p, Out s d p → AtMax s → (∀ op ∈ ops, op.Plain) →
    Out (outRun os s ops) (writeAt d p (ops.flatMap OutOp.bytes)) (p + (ops.flatMap OutOp.bytes).length) ∧
      AtMax (outRun os s ops) ∧ (Synced s → Synced (outRun os s ops)) := by
  intro ops
  induction ops with
  | nil => intro s d p h ha _; simp only [List.flatMap_nil, writeAt_nil]; exact ⟨h, ha, id⟩
  | cons op ops ih =>
    intro s d p h ha ho
    obtain ⟨a, b, c⟩ := outStep_plain (os := os) h ha op (ho op (by simp))
    obtain ⟨a', b', c'⟩ := ih (outStep os s op) _ _ a b (fun x hx => ho x (by simp [hx]))
    rw [writeAt_append, Nat.add_assoc, ← List.length_append] at a'
    exact ⟨a', b', fun h => c' (c h)⟩

theorem out_open (w : World) {buff : Bytes} (hb : buff.length = bufSize) :
    Out (w, openDescr buff) w.data w.pos ∧ AtMax (w, openDescr buff) :=
  ⟨⟨Nat.le_refl _, Nat.zero_le _, hb, by simp [openDescr, writeAt_nil], rfl⟩, rfl⟩

/-! ### C20 -/

/-- On a freshly opened channel, any sequence of character, word and block outputs and flushes, followed by a flush, leaves
in the file, from the descriptor's initial position on, exactly the concatenation of what was output; whatever the sizes
of the blocks (below 2^31) and however the system splits the writes. -/
theorem C20_contents_partial (os : Nat → Nat) (w : World) (buff : Bytes) (hb : buff.length = bufSize) (ops : List OutOp)
    (ho : ∀ op ∈ ops, op.Plain) :
    (outRun os (w, openDescr buff) (ops ++ [.flush])).1.data = writeAt w.data w.pos (ops.flatMap OutOp.bytes) := by
  obtain ⟨h, ha⟩ := out_open w hb
  obtain ⟨a, b, _⟩ := outRun_plain (os := os) ops _ _ _ h ha ho
  have := (flush_spec (os := os) a).2.2.1
  unfold outRun at *
  rw [List.foldl_append]
  exact this

/-- the same for an empty file: it then contains exactly the concatenation -/
theorem C20_new_file_partial (os : Nat → Nat) (k : Nat) (buff : Bytes) (hb : buff.length = bufSize) (ops : List OutOp)
    (ho : ∀ op ∈ ops, op.Plain) :
    (outRun os (⟨[], 0, k⟩, openDescr buff) (ops ++ [.flush])).1.data = ops.flatMap OutOp.bytes := by
  rw [C20_contents_partial os _ buff hb ops ho]
  unfold writeAt
  split
  · rename_i h; simp [h]
  · simp

example : (∀ op ∈ [OutOp.char 65, .word 1, .block (List.replicate 5000 66), .flush], op.Plain) ∧
    ([OutOp.char 65, .word 1, .block (List.replicate 2 66), .flush].flatMap OutOp.bytes = [65, 0, 0, 0, 1, 66, 66]) := by
  constructor
  · intro op h
    simp only [List.mem_cons, List.not_mem_nil, or_false] at h
    rcases h with rfl | rfl | rfl | rfl
    · trivial
    · trivial
    · show (List.replicate 5000 66).length < 2 ^ 31
      rw [List.length_replicate]; omega
    · trivial
  · decide

/-- `pos_out` reports the number of bytes output so far -/
theorem C20_pos_partial (os : Nat → Nat) (w : World) (buff : Bytes) (hb : buff.length = bufSize) (hw : w.pos = 0)
    (ops : List OutOp) (ho : ∀ op ∈ ops, op.Plain) :
    posOut (outRun os (w, openDescr buff) ops).2 = (ops.flatMap OutOp.bytes).length := by
  obtain ⟨h, ha⟩ := out_open w hb
  obtain ⟨a, _, c⟩ := outRun_plain (os := os) ops _ _ _ h ha ho
  have h1 := a.ps
  have h2 : Synced (outRun os (w, openDescr buff) ops) := c hw
  unfold Synced at h2
  unfold posOut
  omega

/-- A block of 2^31 bytes is not written at all, though `pos_out` then reports a position 2^31 further on. -/
theorem C20_huge_violation (os : Nat → Nat) (k : Nat) (buff x : Bytes) (hl : x.length = 2 ^ 31) :
    (outRun os (⟨[], 0, k⟩, openDescr buff) [.block x, .flush]).1.data = [] ∧
      posOut (outRun os (⟨[], 0, k⟩, openDescr buff) [.block x, .flush]).2 = x.length := by
  have ht : x.take (x.length % 2 ^ 32) = x := by apply List.take_of_length_le; omega
  have hge : x.length ≥ bufSize - 0 := by rw [hl]; decide
  have h1 : outStep os (⟨[], 0, k⟩, openDescr buff) (.block x) = (⟨[], 0, k⟩, ⟨x.length, 0, 0, buff⟩) := by
    simp only [outStep, output, ht]
    unfold putblock
    simp only [openDescr]
    rw [if_pos ⟨trivial, hge⟩]
    unfold reallyWrite
    rw [if_pos (by omega), Nat.zero_add]
  unfold outRun
  simp only [List.foldl_cons, List.foldl_nil]
  rw [h1]
  exact ⟨rfl, rfl⟩

example : ∃ x : Bytes, x.length = 2 ^ 31 := ⟨List.replicate _ 7, List.length_replicate⟩

/-! ### C21 -/

/-- In the state `(d, p)` of the unbuffered file, `op` is not one of the operations the buffering gets wrong: an explicit
flush, or a block of at least a buffer's size, short of the end of the file. -/
def OutOp.Safe (dp : Bytes × Nat) : OutOp → Prop
  | .flush => dp.1.length ≤ dp.2
  | .block bs => bs.length < 2 ^ 31 ∧ (bufSize ≤ bs.length → dp.1.length ≤ dp.2)
  | _ => True

/-- every operation is `Safe` when its turn comes -/
def SafeRun (dp : Bytes × Nat) : List OutOp → Prop
  | [] => True
  | op :: ops => op.Safe dp ∧ SafeRun (op.unbuffered dp) ops

theorem atMax_of_end {s d p} (h : Out s d p) (he : d.length ≤ p) : AtMax s := by
  have h1 := h.dt; have h2 := h.ps; have h3 := h.cm; have h4 := h.bl; have h5 := h.mb
  unfold AtMax
  by_contra hne
  have hl : (s.2.buff.take s.2.max).length = s.2.max := by rw [List.length_take]; omega
  have hnn : s.2.buff.take s.2.max ≠ [] := by intro e; rw [e] at hl; simp at hl; omega
  have := length_writeAt hnn s.1.data s.1.pos
  rw [← h1, hl] at this
  omega

theorem outStep_safe {os s d p} (h : Out s d p) (hs : Synced s) (op : OutOp) (ho : op.Safe (d, p)) :
    Out (outStep os s op) (op.unbuffered (d, p)).1 (op.unbuffered (d, p)).2 ∧ Synced (outStep os s op) := by
  cases op with
  | char ch => obtain ⟨a, _, c⟩ := putch_spec (os := os) h ch; exact ⟨a, c hs⟩
  | word x => obtain ⟨a, _, c⟩ := putword_spec (os := os) h x; exact ⟨a, c hs⟩
  | block bs =>
    have hb : bs.length < 2 ^ 31 := ho.1
    have hmod : bs.take (bs.length % 2 ^ 32) = bs := by
      rw [Nat.mod_eq_of_lt (by omega)]; exact List.take_length
    obtain ⟨a, b, c⟩ := putblock_spec (os := os) h bs hb (fun h0 hbig => by
      have := atMax_of_end h (ho.2 hbig); unfold AtMax at this; omega)
    simp only [outStep, output, hmod]
    exact ⟨a, c hs⟩
  | flush =>
    have ha := atMax_of_end h ho
    obtain ⟨a, _, c⟩ := outStep_plain (os := os) h ha .flush trivial
    exact ⟨a, c hs⟩
  | seek dest => exact seekOut_spec h hs dest

theorem outRun_safe {os} : ∀ (ops : List OutOp) s d p, Out s d p → Synced s → SafeRun (d, p) ops →
    Out (outRun os s ops) (ops.foldl OutOp.unbuffered (d, p)).1 (ops.foldl OutOp.unbuffered (d, p)).2 ∧
      Synced (outRun os s ops) := by
  intro ops
  induction ops with
  | nil => intro s d p h hs _; exact ⟨h, hs⟩
  | cons op ops ih =>
    intro s d p h hs ho
    obtain ⟨a, b⟩ := outStep_safe (os := os) h hs op ho.1
    exact ih _ _ _ a b ho.2

/-- Any sequence of outputs, seeks and flushes on a channel freshly opened at position 0 has, once flushed, the effect on
the file of the same operations on an unbuffered file, and `pos_out` reports the unbuffered position; provided no
explicit flush, and no block of 4096 bytes or more, happens short of the end of the file. -/
theorem C21_unbuffered_partial (os : Nat → Nat) (w : World) (hw : w.pos = 0) (buff : Bytes) (hb : buff.length = bufSize)
    (ops : List OutOp) (ho : SafeRun (w.data, 0) ops) :
    (flush os (outRun os (w, openDescr buff) ops).1 (outRun os (w, openDescr buff) ops).2).1.data =
        (ops.foldl OutOp.unbuffered (w.data, 0)).1 ∧
      posOut (outRun os (w, openDescr buff) ops).2 = (ops.foldl OutOp.unbuffered (w.data, 0)).2 := by
  obtain ⟨h, _⟩ := out_open w hb
  rw [hw] at h
  obtain ⟨a, b⟩ := outRun_safe (os := os) ops _ _ _ h hw ho
  refine ⟨(flush_spec (os := os) a).2.2.1, ?_⟩
  have := a.ps
  unfold Synced at b
  unfold posOut
  omega

/-- the discipline of a program that writes a header last: back to the header and forward again, flushing at the end -/
example : SafeRun ([], 0) [.word 0, .block (List.replicate 3 66), .seek 0, .word 7, .seek 7, .flush] ∧
    ([OutOp.word 0, .block (List.replicate 3 66), .seek 0, .word 7, .seek 7, .flush].foldl OutOp.unbuffered ([], 0)) =
      ([0, 0, 0, 7, 66, 66, 66], 7) := by
  have e : [OutOp.word 0, .block (List.replicate 3 66), .seek 0, .word 7, .seek 7].foldl OutOp.unbuffered ([], 0) =
      ([0, 0, 0, 7, 66, 66, 66], 7) := by decide +kernel
  refine ⟨⟨trivial, ⟨?_, ?_⟩, trivial, trivial, trivial, ?_, trivial⟩, by decide +kernel⟩
  · show 3 < 2 ^ 31
    omega
  · intro h
    exact absurd h (by show ¬ bufSize ≤ 3; decide)
  · show ([OutOp.word 0, .block (List.replicate 3 66), .seek 0, .word 7, .seek 7].foldl OutOp.unbuffered ([], 0)).1.length ≤
      ([OutOp.word 0, .block (List.replicate 3 66), .seek 0, .word 7, .seek 7].foldl OutOp.unbuffered ([], 0)).2
    rw [e]
    decide

/-- Whatever went before, a flush brings the file to the contents an unbuffered file would have; but it moves the
position forward over the data buffered ahead of it. -/
theorem C21_flush (os : Nat → Nat) (s : World × Chan) (d : Bytes) (p : Nat) (h : Out s d p) :
    (flush os s.1 s.2).1.data = d ∧ Out (flush os s.1 s.2) d (p + (s.2.max - s.2.curr)) :=
  ⟨(flush_spec (os := os) h).2.2.1, (flush_spec (os := os) h).1⟩

/-- Patching a header: a word is output at the end of the file, then any plain output, then the word is overwritten
through `seek_out` and the position moved to the end again, as in src/runtime/extern.c:413-427.  The file then holds the
patched word followed by the data, and the position is at its end. -/
theorem C21_backpatch (os : Nat → Nat) (s : World × Chan) (d : Bytes) (h : Out s d d.length) (hs : Synced s)
    (body : List OutOp) (hb : ∀ op ∈ body, op.Plain) (x y : Nat) :
    Out (outRun os s ([.word x] ++ body ++ [.seek d.length, .word y, .seek (d.length + 4 + (body.flatMap OutOp.bytes).length)]))
      (d ++ OutOp.bytes (.word y) ++ body.flatMap OutOp.bytes) (d.length + 4 + (body.flatMap OutOp.bytes).length) := by
  have ha := atMax_of_end h (Nat.le_refl _)
  have e0 : ∀ bs : Bytes, writeAt d d.length bs = d ++ bs := by
    intro bs; unfold writeAt
    split
    · rename_i hh; simp [hh]
    · rw [List.take_length, Nat.sub_self, List.drop_eq_nil_of_le (by omega)]; simp
  obtain ⟨a, _, c⟩ := outRun_plain (os := os) ([.word x] ++ body) s d d.length h ha (by
    intro op hop
    rcases List.mem_append.mp hop with h | h
    · simp only [List.mem_singleton] at h; subst h; trivial
    · exact hb op h)
  have hfm : ([OutOp.word x] ++ body).flatMap OutOp.bytes = OutOp.bytes (.word x) ++ body.flatMap OutOp.bytes := by
    simp [List.flatMap_append]
  rw [hfm, e0] at a
  obtain ⟨b, sb⟩ := seekOut_spec (os := os) a (c hs) d.length
  obtain ⟨f, _, sf⟩ := putword_spec (os := os) b y
  obtain ⟨g, _⟩ := seekOut_spec (os := os) f (sf sb) (d.length + 4 + (body.flatMap OutOp.bytes).length)
  have : writeAt (d ++ (OutOp.bytes (.word x) ++ body.flatMap OutOp.bytes)) d.length (wordBytes y) =
      d ++ OutOp.bytes (.word y) ++ body.flatMap OutOp.bytes := by
    unfold writeAt
    rw [if_neg (by simp [wordBytes]), List.take_left, show d.length - (d ++ _).length = 0 by simp, List.replicate_zero,
      List.append_nil]
    rw [show d.length + (wordBytes y).length = (d ++ OutOp.bytes (.word x)).length by simp [wordBytes, OutOp.bytes],
      ← List.append_assoc d, List.drop_left]
    rfl
  rw [this] at g
  have hrun : ∀ (l : List OutOp) (x y z : OutOp), outRun os s (l ++ [x, y, z]) =
      outStep os (outStep os (outStep os (outRun os s l) x) y) z := by
    intro l x y z; simp [outRun, List.foldl_append]
  rw [hrun]
  simp only [outStep]
  exact g

example : Out ((⟨[], 0, 0⟩, openDescr (List.replicate bufSize 0)) : World × Chan) [] 0 ∧
    Synced (⟨[], 0, 0⟩, openDescr (List.replicate bufSize 0)) :=
  ⟨(out_open ⟨[], 0, 0⟩ List.length_replicate).1, rfl⟩

/-- A flush after a backward seek undoes the seek: after output of "AB", a seek to 0, a flush and output of "C", the file
is "ABC", where the unbuffered operations leave "CB". -/
theorem C21_flush_violation :
    ∃ (w : World) (ops : List OutOp) (buff : Bytes), w.pos = 0 ∧ buff.length = bufSize ∧ ∀ os,
      (outRun os (w, openDescr buff) (ops ++ [.flush])).1.data = [65, 66, 67] ∧
      ((ops ++ [OutOp.flush]).foldl OutOp.unbuffered (w.data, 0)).1 = [67, 66] := by
  refine ⟨⟨[], 0, 0⟩, [.char 65, .char 66, .seek 0, .flush, .char 67], List.replicate bufSize 0, rfl,
    List.length_replicate, fun os => ⟨?_, by decide +kernel⟩⟩
  obtain ⟨h0, ha0⟩ := out_open ⟨[], 0, 0⟩ (List.length_replicate (n := bufSize) (a := 0))
  generalize hs : ((⟨[], 0, 0⟩, openDescr (List.replicate bufSize 0)) : World × Chan) = s at h0 ha0
  obtain ⟨h1, ha1, hs1⟩ := outRun_plain (os := os) [.char 65, .char 66] s _ _ h0 ha0 (by
    intro op h; simp only [List.mem_cons, List.not_mem_nil, or_false] at h; rcases h with rfl | rfl <;> trivial)
  have e1 : writeAt [] 0 ([OutOp.char 65, .char 66].flatMap OutOp.bytes) = [65, 66] := by decide +kernel
  have e2 : 0 + ([OutOp.char 65, .char 66].flatMap OutOp.bytes).length = 2 := by decide +kernel
  rw [e1, e2] at h1
  have hsy : Synced (outRun os s [.char 65, .char 66]) := hs1 (by rw [← hs]; rfl)
  have hcb : (outRun os s [.char 65, .char 66]).2.offset = 0 ∧ (outRun os s [.char 65, .char 66]).2.max = 2 := by
    rw [← hs]
    have hz : ¬ (0 ≥ bufSize) := by decide +kernel
    have hz1 : ¬ (1 ≥ bufSize) := by decide +kernel
    simp only [outRun, List.foldl_cons, List.foldl_nil, outStep, putch, openDescr, hz, hz1, if_false]
    decide
  generalize hs2 : outRun os s [.char 65, .char 66] = s2 at h1 hsy hcb
  have h3 := (seekOut_spec (os := os) h1 hsy 0).1
  have hsk : seekOut os s2.1 s2.2 0 = (s2.1, { s2.2 with curr := 0 }) := by
    unfold seekOut; rw [if_pos ⟨by omega, Nat.zero_le _⟩, Nat.zero_sub]
  rw [hsk] at h3
  obtain ⟨h4, hm4, _, _⟩ := flush_spec (os := os) h3
  have h2e : s2.2.max - 0 = 2 := by omega
  simp only [h2e] at h4
  have ha4 : AtMax (flush os s2.1 { s2.2 with curr := 0 }) := by
    have := h4.cm; unfold AtMax; simp only at *; omega
  obtain ⟨h5, ha5, _⟩ := outRun_plain (os := os) [.char 67] _ _ _ h4 ha4 (by
    intro op h; simp only [List.mem_cons, List.not_mem_nil, or_false] at h; subst h; trivial)
  have h6 := (flush_spec (os := os) h5).2.2.1
  have e3 : writeAt [65, 66] (0 + 2) ([OutOp.char 67].flatMap OutOp.bytes) = [65, 66, 67] := by decide +kernel
  rw [e3] at h6
  have : outRun os s ([.char 65, .char 66, .seek 0, .flush, .char 67] ++ [.flush]) =
      outStep os (outRun os (outStep os (outStep os (outRun os s [.char 65, .char 66]) (.seek 0)) .flush) [.char 67])
        .flush := by
    simp only [outRun, List.cons_append, List.nil_append, List.foldl_cons, List.foldl_nil]
  rw [this, hs2]
  have hst : outStep os s2 (.seek 0) = (s2.1, { s2.2 with curr := 0 }) := hsk
  have hfl : ∀ t : World × Chan, outStep os t .flush = flush os t.1 t.2 := fun _ => rfl
  rw [hst, hfl, hfl]
  exact h6

/-- A block of 4096 bytes or more output where the buffer starts is written at once, and the old contents of the buffer are
written after it at the next flush: after "A", a seek to 0 and a block of 4096 bytes `B`, the file is that block followed
by "A", where the unbuffered operations leave the block alone. -/
theorem C21_block_violation :
    ∃ (w : World) (ops : List OutOp) (buff blk : Bytes), w.pos = 0 ∧ buff.length = bufSize ∧ ∀ os,
      (outRun os (w, openDescr buff) (ops ++ [.flush])).1.data = blk ++ [65] ∧
      ((ops ++ [OutOp.flush]).foldl OutOp.unbuffered (w.data, 0)).1 = blk := by
  generalize hblk : List.replicate bufSize 66 = blk
  have hbl : blk.length = bufSize := by rw [← hblk, List.length_replicate]
  have hlt := bufSize_lt
  have hpos := bufSize_pos
  refine ⟨⟨[], 0, 0⟩, [.char 65, .seek 0, .block blk], List.replicate bufSize 0, blk, rfl,
    List.length_replicate, fun os => ⟨?_, ?_⟩⟩
  · have hz : ¬ (0 ≥ bufSize) := by decide +kernel
    have h1 : outStep os (⟨[], 0, 0⟩, openDescr (List.replicate bufSize 0)) (.char 65) =
        (⟨[], 0, 0⟩, ⟨0, 1, 1, bcopy (List.replicate bufSize 0) 0 [65]⟩) := by
      simp only [outStep, putch, openDescr, hz, if_false]; rfl
    generalize hbf : bcopy (List.replicate bufSize 0) 0 [65] = bf at h1
    have hbf1 : bf.take 1 = [65] := by rw [← hbf]; rfl
    have h2 : outStep os (⟨[], 0, 0⟩, ⟨0, 1, 1, bf⟩) (.seek 0) = (⟨[], 0, 0⟩, ⟨0, 0, 1, bf⟩) := rfl
    have ht : blk.take (blk.length % 2 ^ 32) = blk := by rw [Nat.mod_eq_of_lt (by omega)]; exact List.take_length
    have h3 : outStep os (⟨[], 0, 0⟩, ⟨0, 0, 1, bf⟩) (.block blk) =
        (reallyWrite os ⟨[], 0, 0⟩ blk, ⟨bufSize, 0, 1, bf⟩) := by
      simp only [outStep, output, ht]
      unfold putblock
      simp only
      rw [if_pos ⟨trivial, by omega⟩, hbl, Nat.zero_add]
    obtain ⟨w1, w2⟩ := reallyWrite_spec os ⟨[], 0, 0⟩ blk (by omega)
    have w1' : (reallyWrite os ⟨[], 0, 0⟩ blk).data = blk := by
      rw [w1]; unfold writeAt; split
      · rename_i h; simp [h]
      · simp
    generalize hw : reallyWrite os ⟨[], 0, 0⟩ blk = w' at *
    simp only [hbl, Nat.zero_add] at w2
    have h4 : (outStep os (w', ⟨bufSize, 0, 1, bf⟩) .flush).1.data = blk ++ [65] := by
      simp only [outStep, flush]
      rw [if_pos (by decide), hbf1]
      rw [(reallyWrite_spec os w' [65] (by decide)).1, w1', w2, ← hbl]
      unfold writeAt
      rw [if_neg (by decide), List.take_length, Nat.sub_self, List.drop_eq_nil_of_le (by omega)]
      simp
    simp only [outRun, List.cons_append, List.nil_append, List.foldl_cons, List.foldl_nil]
    rw [h1, h2, h3]
    exact h4
  · simp only [List.cons_append, List.nil_append, List.foldl_cons, List.foldl_nil, OutOp.unbuffered, OutOp.bytes]
    rw [writeAt_nil]
    have : writeAt [] 0 [65 % 256] = [65] := by decide +kernel
    rw [this]
    unfold writeAt
    rw [if_neg (by intro h; rw [h] at hbl; simp at hbl; omega)]
    rw [List.drop_eq_nil_of_le (by simp; omega)]
    simp

/-! ### C22 -/

/-- input operations -/
inductive InOp where
  | char
  | block (n : Nat)
  | exactly (n : Nat)
  | scan
  | seek (dest : Nat)

/-- the bytes an operation delivers, and the state after it -/
def inStep (os : Nat → Nat) (s : World × Chan) : InOp → Bytes × World × Chan
  | .char => let r := getch os s.1 s.2; (r.1.toList, r.2)
  | .block n => getblock os s.1 s.2 n
  | .exactly n => let r := reallyGetblock os n s.1 s.2 n; (r.1, r.2.2)
  | .scan => ([], (scanLine os (bufSize + 1) s.1 s.2 s.2.curr).2)
  | .seek d => ([], seekIn s.1 s.2 d)

/-- the states reached and what is delivered on the way -/
def inRun (os : Nat → Nat) (s : World × Chan) : List InOp → Bytes × World × Chan
  | [] => ([], s)
  | op :: ops =>
    let r := inStep os s op
    let r' := inRun os r.2 ops
    (r.1 ++ r'.1, r'.2)

theorem in_open (w : World) (hw : w.pos = 0) {buff : Bytes} (hb : buff.length = bufSize) : In (w, openDescr buff) 0 :=
  ⟨hw, Nat.le_refl _, Nat.zero_le _, hb, Nat.zero_le _, fun i hi => absurd hi (Nat.not_lt_zero _), rfl⟩

/-- `pos_in` is the position from which the next bytes are delivered -/
theorem C22_pos (s : World × Chan) (p : Nat) (h : In s p) : posIn s.2 = p := h.ps.symm

/-- `input_char` delivers the byte at the position, or reports the end of the file -/
theorem C22_char (os : Nat → Nat) (s : World × Chan) (p : Nat) (h : In s p) :
    (getch os s.1 s.2).1 = s.1.data[p]? ∧ (getch os s.1 s.2).2.1.data = s.1.data ∧
    In (getch os s.1 s.2).2 (if p < s.1.data.length then p + 1 else p) := getch_spec h

/-- `input` delivers a piece of the file from the position on, of at most the size asked for, and nothing only at the end
of the file -/
theorem C22_block (os : Nat → Nat) (s : World × Chan) (p n : Nat) (h : In s p) :
    ∃ bs s', getblock os s.1 s.2 n = (bs, s') ∧ bs = (s.1.data.drop p).take bs.length ∧ bs.length ≤ n ∧
      (bs = [] → n = 0 ∨ s.1.data.length ≤ p) ∧ In s' (p + bs.length) ∧ s'.1.data = s.1.data := getblock_spec h n

/-- `really_getblock` delivers as much as asked for, or all there is and failure -/
theorem C22_exactly (os : Nat → Nat) (s : World × Chan) (p n : Nat) (h : In s p) :
    ∃ bs ok s', reallyGetblock os n s.1 s.2 n = (bs, ok, s') ∧ bs = (s.1.data.drop p).take n ∧
      (ok = true ↔ p + n ≤ s.1.data.length ∨ n = 0) ∧ In s' (p + bs.length) ∧ s'.1.data = s.1.data := by
  obtain ⟨bs, ok, s', a, b, c, d⟩ := reallyGetblock_spec (os := os) n s p n h (Nat.le_refl _)
  refine ⟨bs, ok, s', a, b, ?_, d⟩
  rw [c, b, List.length_take, List.length_drop]
  omega

/-- `input_scan_line` does not move the position, and finds the first newline if it is within reach -/
theorem C22_scan (os : Nat → Nat) (s : World × Chan) (p : Nat) (h : In s p) :
    ∃ k s', scanLine os (bufSize + 1) s.1 s.2 s.2.curr = (k, s') ∧ In s' p ∧ s'.1.data = s.1.data ∧
      ScanPost s.1.data p k s' :=
  scanLine_spec _ s p _ h (Nat.le_refl _) h.cm (fun i h1 h2 => by omega) (by omega)

/-- `seek_in` sets the position -/
theorem C22_seek (s : World × Chan) (p dest : Nat) (h : In s p) :
    In (seekIn s.1 s.2 dest) dest ∧ (seekIn s.1 s.2 dest).1.data = s.1.data := seekIn_spec h dest

theorem inStep_spec (os : Nat → Nat) (s : World × Chan) (p : Nat) (h : In s p) (op : InOp) (ho : ∀ d, op ≠ .seek d) :
    (inStep os s op).1 = (s.1.data.drop p).take (inStep os s op).1.length ∧
      In (inStep os s op).2 (p + (inStep os s op).1.length) ∧ (inStep os s op).2.1.data = s.1.data := by
  cases op with
  | char =>
    obtain ⟨a, b, c⟩ := getch_spec (os := os) h
    simp only [inStep]
    by_cases hp : p < s.1.data.length
    · rw [if_pos hp] at c
      rw [a, List.getElem?_eq_getElem hp]
      refine ⟨?_, c, b⟩
      rw [Option.toList_some, List.length_singleton]
      have hd : s.1.data.drop p = s.1.data[p] :: s.1.data.drop (p + 1) := List.drop_eq_getElem_cons hp
      rw [hd]; rfl
    · rw [if_neg hp] at c
      rw [a, List.getElem?_eq_none (by omega)]
      exact ⟨rfl, c, b⟩
  | block n =>
    obtain ⟨bs, s', e, a, _, _, c, d⟩ := getblock_spec (os := os) h n
    simp only [inStep, e]
    exact ⟨a, c, d⟩
  | exactly n =>
    obtain ⟨bs, ok, s', e, a, _, c, d⟩ := reallyGetblock_spec (os := os) n s p n h (Nat.le_refl _)
    simp only [inStep, e]
    refine ⟨?_, c, d⟩
    conv_lhs => rw [a]
    rw [a, List.length_take, ← List.take_eq_take_min]
  | scan =>
    obtain ⟨k, s', e, a, b, _⟩ := C22_scan os s p h
    simp only [inStep, e]
    exact ⟨rfl, a, b⟩
  | seek d => exact absurd rfl (ho d)

/-- Any sequence of character, block and line operations delivers exactly the file's bytes from the position on, in order
and without gaps, and ends at the position reached; however the system splits the reads. -/
theorem C22_reads (os : Nat → Nat) : ∀ (ops : List InOp) (s : World × Chan) (p : Nat), In s p →
    (∀ op ∈ ops, ∀ d, op ≠ .seek d) →
    (inRun os s ops).1 = (s.1.data.drop p).take (inRun os s ops).1.length ∧
      posIn (inRun os s ops).2.2 = p + (inRun os s ops).1.length ∧ In (inRun os s ops).2 (p + (inRun os s ops).1.length) ∧
      (inRun os s ops).2.1.data = s.1.data := by
  intro ops
  induction ops with
  | nil => intro s p h _; exact ⟨rfl, h.ps.symm, h, rfl⟩
  | cons op ops ih =>
    intro s p h ho
    obtain ⟨a, b, c⟩ := inStep_spec os s p h op (ho op (by simp))
    obtain ⟨a', b', c', d'⟩ := ih (inStep os s op).2 _ b (fun x hx => ho x (by simp [hx]))
    simp only [inRun]
    rw [List.length_append, ← Nat.add_assoc]
    refine ⟨?_, b', c', d'.trans c⟩
    conv_lhs => rw [a, a', c]
    rw [← List.drop_drop, ← List.take_add]

/-- After any operations, seeks included, on a freshly opened channel, a seek to `dest` followed by any reads delivers the
file's bytes from `dest` on. -/
theorem C22_seek_reads (os : Nat → Nat) (w : World) (hw : w.pos = 0) (buff : Bytes) (hb : buff.length = bufSize)
    (before after : List InOp) (dest : Nat) (ho : ∀ op ∈ after, ∀ d, op ≠ .seek d) :
    let s := (inRun os (w, openDescr buff) before).2
    let r := inRun os (seekIn s.1 s.2 dest) after
    r.1 = (w.data.drop dest).take r.1.length ∧ posIn r.2.2 = dest + r.1.length := by
  have key : ∀ (ops : List InOp) (s : World × Chan) (p : Nat), In s p →
      ∃ p', In (inRun os s ops).2 p' ∧ (inRun os s ops).2.1.data = s.1.data := by
    intro ops
    induction ops with
    | nil => intro s p h; exact ⟨p, h, rfl⟩
    | cons op ops ih =>
      intro s p h
      by_cases hs : ∃ d, op = .seek d
      · obtain ⟨d, rfl⟩ := hs
        obtain ⟨a, b⟩ := seekIn_spec h d
        obtain ⟨p', x, y⟩ := ih (inStep os s (.seek d)).2 d a
        exact ⟨p', x, y.trans b⟩
      · obtain ⟨_, b, c⟩ := inStep_spec os s p h op (fun d hd => hs ⟨d, hd⟩)
        obtain ⟨p', x, y⟩ := ih (inStep os s op).2 _ b
        exact ⟨p', x, y.trans c⟩
  intro s r
  obtain ⟨p', h1, h2⟩ := key before _ _ (in_open w hw hb)
  obtain ⟨h3, h4⟩ := seekIn_spec h1 dest
  obtain ⟨a, b, _, _⟩ := C22_reads os after _ _ h3 ho
  rw [h4, h2] at a
  exact ⟨a, b⟩

example : In ((⟨[72, 105, 10, 33], 0, 0⟩, openDescr (List.replicate bufSize 0)) : World × Chan) 0 ∧
    (∀ op ∈ [InOp.char, .scan, .block 2, .exactly 9], ∀ d, op ≠ .seek d) :=
  ⟨in_open _ rfl List.length_replicate, by
    intro op h d
    simp only [List.mem_cons, List.not_mem_nil, or_false] at h
    rcases h with rfl | rfl | rfl | rfl <;> simp⟩

/-! ### C23 -/

theorem getword_spec (os : Nat → Nat) (s : World × Chan) (p a b c d : Nat) (h : In s p)
    (h0 : s.1.data[p]? = some a) (h1 : s.1.data[p + 1]? = some b) (h2 : s.1.data[p + 2]? = some c)
    (h3 : s.1.data[p + 3]? = some d) :
    ∃ s', getword os s.1 s.2 = (some (((a * 256 + b) * 256 + c) * 256 + d), s') ∧ In s' (p + 4) := by
  have one : ∀ (s : World × Chan) (p a : Nat), In s p → s.1.data[p]? = some a →
      ∃ s', getch os s.1 s.2 = (some a, s') ∧ In s' (p + 1) ∧ s'.1.data = s.1.data := by
    intro s p a h h0
    obtain ⟨x, y, z⟩ := getch_spec (os := os) h
    rw [if_pos (List.getElem?_eq_some_iff.mp h0).1] at z
    refine ⟨(getch os s.1 s.2).2, ?_, z, y⟩
    rw [← h0, ← x]
  obtain ⟨s1, e1, i1, d1⟩ := one s p a h h0
  obtain ⟨s2, e2, i2, d2⟩ := one s1 (p + 1) b i1 (by rw [d1]; exact h1)
  obtain ⟨s3, e3, i3, d3⟩ := one s2 (p + 2) c i2 (by rw [d2, d1]; exact h2)
  obtain ⟨s4, e4, i4, d4⟩ := one s3 (p + 3) d i3 (by rw [d3, d2, d1]; exact h3)
  refine ⟨s4, ?_, i4⟩
  unfold getword
  simp only [e1, e2, e3, e4, Nat.zero_mul, Nat.zero_add]

/-- What `output_binary_int n` writes anywhere in a file, `input_binary_int` reads back at that place as `n`, for every
`n` of the signed 32-bit range. -/
theorem C23_int (os os' : Nat → Nat) (n : Int) (h1 : -2 ^ 31 ≤ n) (h2 : n < 2 ^ 31) (s : World × Chan) (d : Bytes) (p : Nat)
    (h : Out s d p) (r : World × Chan) (hr : In r p)
    (hd : ∀ so, so = outputInt os s.1 s.2 n → r.1.data = (flush os so.1 so.2).1.data) :
    (inputInt os' r.1 r.2).1 = some n := by
  have hd := hd _ rfl
  unfold outputInt at hd
  obtain ⟨a, _, _⟩ := putword_spec (os := os) h (n % 2 ^ 32).toNat
  rw [(flush_spec (os := os) a).2.2.1] at hd
  generalize hx : (n % 2 ^ 32).toNat = x at *
  have hxl : x < 2 ^ 32 := by omega
  have hg : ∀ i, i < 4 → r.1.data[p + i]? = (wordBytes x)[i]? := by
    intro i hi
    rw [hd, getElem?_writeAt (by simp [wordBytes]), if_neg (by omega), if_pos (by simp [wordBytes]; omega)]
    congr 1; omega
  obtain ⟨s', e, _⟩ := getword_spec os' r p _ _ _ _ hr (hg 0 (by omega)) (hg 1 (by omega)) (hg 2 (by omega)) (hg 3 (by omega))
  unfold inputInt
  rw [e]
  simp only
  have hv : ((x / 2 ^ 24 % 256 * 256 + x / 2 ^ 16 % 256) * 256 + x / 2 ^ 8 % 256) * 256 + x % 256 = x := by omega
  rw [hv]
  congr 1
  split <;> omega

example : (-2 : Int) ^ 31 ≤ -5 ∧ (-5 : Int) < 2 ^ 31 := by decide

/-- Outside that range the value read back differs. -/
theorem C23_int_range (os os' : Nat → Nat) (n : Int) (hn : ¬ (-2 ^ 31 ≤ n ∧ n < 2 ^ 31)) (s : World × Chan) (d : Bytes)
    (p : Nat) (h : Out s d p) (r : World × Chan) (hr : In r p)
    (hd : ∀ so, so = outputInt os s.1 s.2 n → r.1.data = (flush os so.1 so.2).1.data) :
    ∃ m, (inputInt os' r.1 r.2).1 = some m ∧ m ≠ n ∧ m % 2 ^ 32 = n % 2 ^ 32 := by
  have hm : ∃ m : Int, -2 ^ 31 ≤ m ∧ m < 2 ^ 31 ∧ m % 2 ^ 32 = n % 2 ^ 32 :=
    ⟨(n + 2 ^ 31) % 2 ^ 32 - 2 ^ 31, by omega, by omega, by omega⟩
  obtain ⟨m, m1, m2, m3⟩ := hm
  refine ⟨m, C23_int os os' m m1 m2 s d p h r hr ?_, by rintro rfl; exact hn ⟨m1, m2⟩, m3⟩
  intro so hso
  apply hd
  rw [hso]
  unfold outputInt
  rw [m3]

/-- the bytes of a double in memory, least significant first, are delivered most significant first; and back -/
theorem C23_real (d : Bytes) (hd : d.length = 8) :
    doubleToVec d = d.reverse ∧ vecToDouble (doubleToVec d) = d ∧ doubleToVec (vecToDouble d) = d := by
  match d, hd with
  | [a, b, c, d, e, f, g, h], _ => exact ⟨rfl, rfl, rfl⟩

example : doubleToVec [0, 0, 0, 0, 0, 0, 0xF0, 0x3F] = [0x3F, 0xF0, 0, 0, 0, 0, 0, 0] := by decide

end Mosml.IO
