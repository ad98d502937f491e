import Verif.GcCtrl.Model
import Verif.Util

/-! # C103: the controls of the garbage collector -/
namespace Mosml.GcCtrl

/-- what config.h demands of the settings: the minor heap has between 4096 and 2^28 words, the increment is a positive number of
whole pages of at least 1024 words -/
structure Valid (s : St) : Prop where
  words : s.minor % 8 = 0
  minorMin : 4096 ≤ s.minor / 8
  minorMax : s.minor / 8 ≤ 268435456
  pages : s.incr % 4096 = 0
  incrMin : 1024 ≤ s.incr / 8
  percent : 1 ≤ s.pfree

theorem norm_pos (i : Int) (h : 0 ≤ i) (hi : i ≤ 72057594037927936) :
    normHeapincr i = if i = 0 then 1024 else (i + 4095) / 4096 * 4096 := by
  simp only [normHeapincr, toU, heapChunkMin, heapChunkMax]
  by_cases h0 : i = 0
  · subst h0; decide
  · rw [if_neg h0]
    have e : (i + 4096 - 1) / 4096 * 4096 = (i + 4095) / 4096 * 4096 := by
      rw [show i + 4096 - 1 = i + 4095 by omega]
    rw [e]
    generalize hq : (i + 4095) / 4096 = q
    have hq1 : 1 ≤ q := by omega
    have hq2 : q ≤ 17592186044417 := by omega
    rw [if_neg (by omega), if_neg (by omega)]

theorem minsize_eq (s : Int) : normMinsize s = if s < 4096 then 4096 else if 268435456 < s then 268435456 else s := by
  simp only [normMinsize, minorHeapMin, minorHeapMax]
  by_cases h : s < 4096
  · rw [if_pos h, if_pos h]; decide
  · rw [if_neg h, if_neg h]

/-- The settings with which a program starts are valid, whatever is asked for with CAMLRUNPARAM (main.c:202-213; increments from 0
up to 2^56 words), and are those
asked for if these are valid. -/
theorem C103_init_partial (m i p : Int) (h : 0 ≤ i) (hi : i ≤ 72057594037927936) :
    Valid (initGc m i p) ∧
    (4096 ≤ m → m ≤ 268435456 → (initGc m i p).minor = m * 8) ∧
    i * 8 ≤ (initGc m i p).incr ∧ (1 ≤ p → (initGc m i p).pfree = p) := by
  have e1 : (initGc m i p).minor = normMinsize m * 8 := rfl
  have e2 : (initGc m i p).incr = normHeapincr i * 8 := rfl
  have e3 : (initGc m i p).pfree = if p < 1 then 1 else p := rfl
  rw [minsize_eq] at e1
  rw [norm_pos i h hi] at e2
  refine ⟨⟨?_, ?_, ?_, ?_, ?_, ?_⟩, ?_, ?_, ?_⟩ <;> (try rw [e1]) <;> (try rw [e2]) <;> (try rw [e3]) <;>
    (repeat' split) <;> omega

example : initGc 32768 31744 30 = ⟨262144, 262144, 30⟩ ∧ initGc 0 0 0 = ⟨32768, 8192, 1⟩ := by decide

/-- A negative increment of at least a page becomes 2^57 words instead of the minimum. -/
theorem C103_init_violation (m i p : Int) (hl : -1000000000 ≤ i) (hu : i ≤ -4096) :
    (initGc m i p).incr = 144115188075855872 * 8 := by
  show normHeapincr i * 8 = _
  simp only [normHeapincr, toU, heapChunkMin, heapChunkMax]
  generalize hq : (i + 4096 - 1) / 4096 = q
  have hq1 : q ≤ -1 := by omega
  have hq2 : -10000000 ≤ q := by omega
  have hn : ¬ (q * 4096) % 18446744073709551616 < 1024 := by omega
  simp only [if_neg hn]
  rw [if_pos (by omega)]

example : (initGc 32768 (-5000) 30).incr = 1152921504606846976 ∧ (initGc 32768 (-5) 30).incr = 8192 := by decide

/-- gc_get gives numbers that, read as integers, are the sizes in words and the percentage. What is missing: they
are not all values of type int (`C103_get_violation`). -/
theorem C103_get_partial (s : St) (h : s.minor % 8 = 0) (h' : s.incr % 8 = 0) :
    longVal (gcGet s).1 = s.incr / 8 ∧ longVal (gcGet s).2.1 = s.minor / 8 ∧ longVal (gcGet s).2.2 = s.pfree ∧
    isLong (gcGet s).2.2 := by
  simp only [gcGet, longVal, wsizeBsize, valLong, isLong]
  refine ⟨?_, ?_, ?_, ?_⟩ <;> omega

/-- In every valid state, the two sizes in the result of gc_get are not tagged as integers: the collector takes them
for pointers. -/
theorem C103_get_violation (s : St) (h : Valid s) : ¬ isLong (gcGet s).1 ∧ ¬ isLong (gcGet s).2.1 := by
  have h1 := h.words
  have h2 := h.pages
  simp only [gcGet, wsizeBsize, valLong, isLong]
  constructor <;> omega

example : gcGet ⟨262144, 262144, 30⟩ = (65536, 65536, 61) := by decide

example : Valid ⟨262144, 262144, 30⟩ := by constructor <;> decide

/-- gc_set with what gc_get reports changes nothing; with a positive increment it sets it to the number of bytes asked for, rounded up
to whole pages; the minor heap gets the size asked for if this has between 4096 and 2^28 bytes. What is
missing: the limits are those for words, applied to bytes (`C103_set_violation`). -/
theorem C103_set_partial (s : St) (hs : Valid s) (i m p : Int) (hi : 0 < i) (hi' : i ≤ 9007199254740992) :
    gcSet s (s.incr / 8) (s.minor / 8) s.pfree = s ∧
    (gcSet s i m p).incr % 4096 = 0 ∧ i * 8 ≤ (gcSet s i m p).incr ∧ (gcSet s i m p).incr < i * 8 + 4096 ∧
    (512 ≤ m → m ≤ 33554432 → (gcSet s i m p).minor = m * 8) ∧
    1 ≤ (gcSet s i m p).pfree ∧ (1 ≤ p → (gcSet s i m p).pfree = p) := by
  have h1 := hs.words
  have h2 := hs.pages
  have h3 := hs.percent
  have e1 : (gcSet s i m p).incr = if i * 8 ≠ s.incr then normHeapincr (i * 8) else s.incr := rfl
  have e2 : (gcSet s i m p).minor = if m * 8 ≠ s.minor then normMinsize (m * 8) else s.minor := rfl
  have e3 : (gcSet s i m p).pfree = if p < 1 then 1 else p := rfl
  rw [norm_pos (i * 8) (by omega) (by omega), if_neg (by omega : ¬ i * 8 = 0)] at e1
  rw [minsize_eq] at e2
  refine ⟨?_, ?_, ?_, ?_, ?_, ?_, ?_⟩
  · obtain ⟨a, b, c⟩ := s
    simp only at h1 h2 h3
    show St.mk (if a / 8 * 8 ≠ a then normMinsize (a / 8 * 8) else a)
      (if b / 8 * 8 ≠ b then normHeapincr (b / 8 * 8) else b) (if c < 1 then 1 else c) = _
    rw [if_neg (by omega), if_neg (by omega), if_neg (by omega)]
  all_goals (try rw [e1]) <;> (try rw [e2]) <;> (try rw [e3]) <;> (repeat' split) <;> omega

example : gcSet ⟨262144, 262144, 30⟩ 1000 1000 20 = ⟨8000, 8192, 20⟩ := by decide

/-- The limits for the sizes are numbers of words, but gc_set applies them to numbers of bytes. An increment of 0 becomes 1024
bytes, which is no whole number of pages; a negative one, compared as unsigned, becomes 2^57 bytes; a minor heap
of less than 512 words gets 512, although at least 4096 are demanded; and one of more than 2^25 words, up to the
2^28 that are allowed, gets only 2^25. -/
theorem C103_set_violation (s : St) (hs : Valid s) (m p i : Int) :
    ((gcSet s 0 m p).incr = 1024 ∧ ¬ Valid (gcSet s 0 m p)) ∧
    (-1000000000 ≤ i → i ≤ -512 → (gcSet s i m p).incr = 144115188075855872) ∧
    (m < 512 → (gcSet s i m p).minor = 512 * 8 ∧ ¬ Valid (gcSet s i m p)) ∧
    (33554432 < m → m * 8 ≠ s.minor → (gcSet s i m p).minor = 33554432 * 8) := by
  have h1 := hs.minorMin
  have h2 := hs.incrMin
  have e1 : ∀ i, (gcSet s i m p).incr = if i * 8 ≠ s.incr then normHeapincr (i * 8) else s.incr := fun _ => rfl
  have e2 : (gcSet s i m p).minor = if m * 8 ≠ s.minor then normMinsize (m * 8) else s.minor := rfl
  rw [minsize_eq] at e2
  have a1 : (gcSet s 0 m p).incr = 1024 := by
    rw [e1, if_pos (by omega)]; decide
  have a3 : m < 512 → (gcSet s i m p).minor = 512 * 8 := by
    intro h
    rw [e2, if_pos (by omega), if_pos (by omega)]; rfl
  refine ⟨⟨a1, ?_⟩, ?_, fun h => ⟨a3 h, ?_⟩, ?_⟩
  · intro hv
    have := hv.pages
    rw [a1] at this
    omega
  · intro hl hu
    rw [e1, if_pos (by omega)]
    simp only [normHeapincr, toU, heapChunkMin, heapChunkMax]
    generalize hq : (i * 8 + 4096 - 1) / 4096 = q
    have hq1 : q ≤ -1 := by omega
    have hq2 : -10000000 ≤ q := by omega
    have hm : (q * 4096) % 18446744073709551616 = q * 4096 + 18446744073709551616 := by omega
    have hn : ¬ (q * 4096) % 18446744073709551616 < 1024 := by omega
    simp only [if_neg hn]
    rw [if_pos (by omega)]
  · intro hv
    have := hv.minorMin
    rw [a3 h] at this
    omega
  · intro h h'
    rw [e2, if_pos h', if_neg (by omega), if_pos (by omega)]; rfl

example : gcSet ⟨262144, 262144, 30⟩ 0 100 20 = ⟨4096, 1024, 20⟩ ∧
    gcSet ⟨262144, 262144, 30⟩ (-512) 67108864 20 = ⟨268435456, 144115188075855872, 20⟩ := by decide

/-- In a valid state the heap grows by whole pages, enough for the block asked for; only a request above the limit
fails. -/
theorem C103_chunk (s : St) (hs : Valid s) (r : Int) :
    (∀ n, chunkSize s r = some n → r ≤ n ∧ s.incr ≤ n ∧ n % 4096 = 0 ∧ (s.incr < n → n < r + 4096)) ∧
    (chunkSize s r = none → 144115188075855872 < r) := by
  have h := hs.pages
  simp only [chunkSize, heapChunkMax]
  constructor
  · intro n hn
    split at hn
    · injection hn; omega
    · split at hn
      · injection hn; omega
      · cases hn
  · intro hn
    split at hn
    · cases hn
    · split at hn
      · cases hn
      · omega

example : chunkSize ⟨262144, 262144, 30⟩ 100 = some 262144 ∧ chunkSize ⟨262144, 262144, 30⟩ 300000 = some 303104 := by
  decide

/-- After gc_set with the increment 0, a small request makes the heap grow by a quarter of a page. -/
theorem C103_chunk_violation (s : St) (hs : Valid s) (m p r : Int) (hr : r < 1024) :
    chunkSize (gcSet s 0 m p) r = some 1024 := by
  have a1 := (C103_set_violation s hs m p 0).1.1
  unfold chunkSize
  rw [a1, if_pos hr]

example : chunkSize (gcSet ⟨262144, 262144, 30⟩ 0 32768 30) 100 = some 1024 := by decide

end Mosml.GcCtrl
