import Verif.Util

/-!
C45: src/mosmllib/Buffer.sml.  A string made by `create_string` has arbitrary contents, which every operation that makes one is given as
a function of the position.  An access out of bounds (`set_nth_char` and `blit_string` do not check) and an endless loop are `none`.
Sizes are natural numbers without bound: nothing computed is above twice `String.maxSize`, so `Overflow` is never raised.
-/
namespace Mosml.Lib.Buffer

/-- `String.maxSize` on a 64-bit machine (Strbase.mlp; (2^54-1)*8-1) -/
def maxSize : Nat := 144115188075855863

/-- Buffer.sml:6-8 -/
structure Buf where
  elts : List Char
  size : Nat
  initial : Nat

/-- Buffer.sml:11 -/
def create (g : Nat → Char) (n : Nat) : List Char := (List.range n).map g

/-- Buffer.sml:12 -/
def update (s : List Char) (i : Nat) (c : Char) : Option (List Char) := if i < s.length then some (s.set i c) else none

/-- Buffer.sml:13-14 -/
def blit (s1 : List Char) (o1 : Nat) (s2 : List Char) (o2 len : Nat) : Option (List Char) :=
  if o1 + len ≤ s1.length ∧ o2 + len ≤ s2.length then some (s2.take o2 ++ (s1.drop o1).take len ++ s2.drop (o2 + len)) else none

/-- Buffer.sml:16-21; `none` is the exception Size -/
def new (g : Nat → Char) (bufSize : Int) : Option Buf :=
  if bufSize > 0 ∧ bufSize ≤ maxSize then some ⟨create g bufSize.toNat, 0, bufSize.toNat⟩ else none

/-- Buffer.sml:23 -/
def clear (b : Buf) : Buf := { b with size := 0 }

/-- Buffer.sml:27-29 -/
def reset (g : Nat → Char) (b : Buf) : Buf := { b with elts := create g b.initial, size := 0 }

/-- Buffer.sml:31-33 -/
def contents (g : Nat → Char) (b : Buf) : Option (List Char) := blit b.elts 0 (create g b.size) 0 b.size

/-- Buffer.sml:38-40 -/
def roundUp (newSize new : Nat) : Option Nat :=
  if new < newSize then if new = 0 then none else roundUp newSize (2 * new)
  else if new > maxSize then some maxSize else some new
termination_by newSize - new

/-- the outcomes of the operations that add -/
inductive Res where
  | undef
  | Size
  | ok (b : Buf)

/-- Buffer.sml:35-46 -/
def resize (g : Nat → Char) (b : Buf) (more : Nat) : Res :=
  let newSize := b.size + more
  if newSize > maxSize then .Size
  else match roundUp newSize (2 * b.elts.length) with
    | none => .undef
    | some newLen => match blit b.elts 0 (create g newLen) 0 b.size with
      | none => .undef
      | some arr' => .ok { b with elts := arr' }

/-- Buffer.sml:49-53 -/
def addChar (g : Nat → Char) (b : Buf) (c : Char) : Res :=
  match (if b.size = b.elts.length then resize g b 1 else .ok b) with
  | .ok b => match update b.elts b.size c with
    | some e => .ok { b with elts := e, size := b.size + 1 }
    | none => .undef
  | r => r

/-- Buffer.sml:55-60 `addSubString`; the substring is `ss` from `off`, `len` characters -/
def addSub (g : Nat → Char) (b : Buf) (ss : List Char) (off len : Nat) : Res :=
  let newSize := b.size + len
  match (if newSize ≥ b.elts.length then resize g b len else .ok b) with
  | .ok b => match blit ss off b.elts b.size len with
    | some e => .ok { b with elts := e, size := newSize }
    | none => .undef
  | r => r

/-- Buffer.sml:62-67: `addString` -/
def addString (g : Nat → Char) (b : Buf) (x : List Char) : Res :=
  let len := x.length
  let newSize := b.size + len
  match (if newSize ≥ b.elts.length then resize g b len else .ok b) with
  | .ok b => match blit x 0 b.elts b.size len with
    | some e => .ok { b with elts := e, size := newSize }
    | none => .undef
  | r => r

/-! ### properties -/

inductive Op where
  | clear
  | reset
  | addChar (c : Char)
  | addString (x : List Char)
  | addSubString (s : List Char) (off len : Nat)

/-- one operation; `some false`: Size was raised and the buffer is as it was -/
def step (g : Nat → Char) (b : Buf) : Op → Option (Buf × Bool)
  | .clear => some (clear b, true)
  | .reset => some (reset g b, true)
  | .addChar c => match addChar g b c with | .undef => none | .Size => some (b, false) | .ok b => some (b, true)
  | .addString x => match addString g b x with | .undef => none | .Size => some (b, false) | .ok b => some (b, true)
  | .addSubString s o l => match addSub g b s o l with | .undef => none | .Size => some (b, false) | .ok b => some (b, true)

/-- what is in the buffer after an operation, and whether it succeeds -/
def spec (t : List Char) : Op → List Char × Bool
  | .clear => ([], true)
  | .reset => ([], true)
  | .addChar c => if t.length + 1 ≤ maxSize then (t ++ [c], true) else (t, false)
  | .addString x => if t.length + x.length ≤ maxSize then (t ++ x, true) else (t, false)
  | .addSubString s o l => if t.length + l ≤ maxSize then (t ++ (s.drop o).take l, true) else (t, false)

/-- the arguments are possible: a substring is within its string -/
def Valid : Op → Prop
  | .addSubString s o l => o + l ≤ s.length
  | _ => True

def run (b : Buf) : List (Op × (Nat → Char)) → Option (Buf × List Bool)
  | [] => some (b, [])
  | (o, g) :: os => do
    let (b, ok) ← step g b o
    let (b, oks) ← run b os
    some (b, ok :: oks)

def specRun (t : List Char) : List Op → List Char × List Bool
  | [] => (t, [])
  | o :: os =>
    let r := spec t o
    let q := specRun r.1 os
    (q.1, r.2 :: q.2)

structure Holds (b : Buf) (t : List Char) : Prop where
  size : b.size = t.length
  len : b.elts.length ≤ maxSize
  pos : 0 < b.elts.length
  init : 0 < b.initial ∧ b.initial ≤ maxSize
  fits : b.size ≤ b.elts.length
  text : b.elts.take b.size = t

theorem blit_ok {s1 s2 : List Char} {o1 o2 len : Nat} (h1 : o1 + len ≤ s1.length) (h2 : o2 + len ≤ s2.length) :
    blit s1 o1 s2 o2 len = some (s2.take o2 ++ (s1.drop o1).take len ++ s2.drop (o2 + len)) := by
  unfold blit; rw [if_pos ⟨h1, h2⟩]

theorem roundUp_ok {newSize : Nat} (hm : newSize ≤ maxSize) (new : Nat) (hp : 0 < new) : ∃ n, roundUp newSize new = some n ∧ newSize ≤ n ∧ n ≤ maxSize ∧ 0 < n := by
  fun_induction roundUp newSize new with
  | case1 => omega
  | case2 new h1 h2 ih => exact ih (by omega)
  | case3 new h1 h2 => exact ⟨_, rfl, hm, by omega, by unfold maxSize; omega⟩
  | case4 new h1 h2 => exact ⟨_, rfl, by omega, by omega, hp⟩

theorem resize_ok (g : Nat → Char) {b : Buf} {t : List Char} (h : Holds b t) (more : Nat) (hm : b.size + more ≤ maxSize) :
    ∃ b', resize g b more = .ok b' ∧ Holds b' t ∧ b.size + more ≤ b'.elts.length := by
  obtain ⟨n, h1, h2, h3, h4⟩ := roundUp_ok hm (2 * b.elts.length) (by have := h.pos; omega)
  unfold resize
  dsimp only
  have hl : (create g n).length = n := by simp [create]
  have hf := h.fits
  rw [if_neg (by omega), h1]
  dsimp only
  rw [blit_ok (by omega) (by omega)]
  have hlen : ((create g n).take 0 ++ (b.elts.drop 0).take b.size ++ (create g n).drop (0 + b.size)).length = n := by
    simp only [List.take_zero, List.nil_append, List.drop_zero, Nat.zero_add, List.length_append, List.length_take, List.length_drop, hl]; omega
  refine ⟨_, rfl, ⟨h.size, ?_, ?_, h.init, ?_, ?_⟩, ?_⟩
  · dsimp only; rw [hlen]; exact h3
  · dsimp only; rw [hlen]; exact h4
  · dsimp only; rw [hlen]; omega
  · simp only [List.take_zero, List.nil_append, List.drop_zero, Nat.zero_add]
    rw [List.take_append_of_le_length (by simp; omega), List.take_take, Nat.min_self]; exact h.text
  · dsimp only; rw [hlen]; exact h2

theorem resize_Size (g : Nat → Char) (b : Buf) (more : Nat) (hm : ¬ b.size + more ≤ maxSize) : resize g b more = .Size := by
  unfold resize; dsimp only; rw [if_pos (by omega)]

theorem add_core {b : Buf} {t x : List Char} (h : Holds b t) (hl : b.size + x.length ≤ b.elts.length) :
    Holds { b with elts := b.elts.take b.size ++ x ++ b.elts.drop (b.size + x.length), size := b.size + x.length } (t ++ x) := by
  have hs := h.size
  have hlen : (b.elts.take b.size ++ x ++ b.elts.drop (b.size + x.length)).length = b.elts.length := by simp; omega
  refine ⟨by simp [hs], ?_, ?_, h.init, ?_, ?_⟩
  · dsimp only; rw [hlen]; exact h.len
  · dsimp only; rw [hlen]; exact h.pos
  · dsimp only; rw [hlen]; exact hl
  · dsimp only
    rw [List.take_append_of_le_length (by simp; omega), h.text, List.take_of_length_le (by simp; omega)]

theorem addSub_ok (g : Nat → Char) {b : Buf} {t : List Char} (h : Holds b t) (s : List Char) (o l : Nat) (hv : o + l ≤ s.length) (hm : b.size + l ≤ maxSize) :
    ∃ b', addSub g b s o l = .ok b' ∧ Holds b' (t ++ (s.drop o).take l) := by
  have hx : ((s.drop o).take l).length = l := by simp; omega
  have key : ∀ b' : Buf, Holds b' t → b'.size = b.size → b.size + l ≤ b'.elts.length →
      ∃ b'', (match blit s o b'.elts b'.size l with | some e => Res.ok { b' with elts := e, size := b.size + l } | none => .undef) = .ok b'' ∧
        Holds b'' (t ++ (s.drop o).take l) := by
    intro b' h' hs hl
    rw [blit_ok hv (by omega)]
    refine ⟨_, rfl, ?_⟩
    have := add_core (x := (s.drop o).take l) h' (by rw [hx, hs]; exact hl)
    rw [hx, hs] at this
    rw [hs]
    exact this
  unfold addSub
  dsimp only
  by_cases c : b.size + l ≥ b.elts.length
  · rw [if_pos c]
    obtain ⟨b', h1, h2, h3⟩ := resize_ok g h l hm
    rw [h1]
    exact key b' h2 (by rw [h2.size, h.size]) h3
  · rw [if_neg c]
    exact key b h rfl (by omega)

theorem addSub_Size (g : Nat → Char) {b : Buf} {t : List Char} (h : Holds b t) (s : List Char) (o l : Nat) (hm : ¬ b.size + l ≤ maxSize) :
    addSub g b s o l = .Size := by
  have := h.len
  unfold addSub
  dsimp only
  rw [if_pos (by omega), resize_Size g b l hm]

theorem addString_eq (g : Nat → Char) (b : Buf) (x : List Char) : addString g b x = addSub g b x 0 x.length := rfl

theorem addChar_eq (g : Nat → Char) {b : Buf} {t : List Char} (h : Holds b t) (c : Char) :
    (b.size + 1 ≤ maxSize → ∃ b', addChar g b c = .ok b' ∧ Holds b' (t ++ [c])) ∧ (¬ b.size + 1 ≤ maxSize → addChar g b c = .Size) := by
  have key : ∀ b' : Buf, Holds b' t → b'.size < b'.elts.length →
      ∃ b'', (match update b'.elts b'.size c with | some e => Res.ok { b' with elts := e, size := b'.size + 1 } | none => .undef) = .ok b'' ∧ Holds b'' (t ++ [c]) := by
    intro b' h' hl
    unfold update
    rw [if_pos hl]
    refine ⟨_, rfl, ?_⟩
    have := add_core (x := [c]) h' (by simp only [List.length_singleton]; omega)
    have e : b'.elts.set b'.size c = b'.elts.take b'.size ++ [c] ++ b'.elts.drop (b'.size + 1) := by
      rw [List.set_eq_take_append_cons_drop, if_pos hl]; simp
    rw [e]; exact this
  have hf := h.fits
  have hl := h.len
  unfold addChar
  constructor
  · intro hm
    by_cases e : b.size = b.elts.length
    · rw [if_pos e]
      obtain ⟨b', h1, h2, h3⟩ := resize_ok g h 1 hm
      rw [h1]
      exact key b' h2 (by rw [h2.size, ← h.size]; omega)
    · rw [if_neg e]
      exact key b h (by omega)
  · intro hm
    rw [if_pos (by omega), resize_Size g b 1 hm]

theorem step_ok (g : Nat → Char) {b : Buf} {t : List Char} (h : Holds b t) (o : Op) (hv : Valid o) :
    ∃ b', step g b o = some (b', (spec t o).2) ∧ Holds b' (spec t o).1 := by
  have hs := h.size
  cases o with
  | clear =>
    exact ⟨_, rfl, ⟨rfl, h.len, h.pos, h.init, by simp [clear], by simp [clear, spec]⟩⟩
  | reset =>
    have hl : (create g b.initial).length = b.initial := by simp [create]
    refine ⟨_, rfl, ⟨rfl, ?_, ?_, h.init, by simp [reset], by simp [reset, spec]⟩⟩
    · simp only [reset, hl]; exact h.init.2
    · simp only [reset, hl]; exact h.init.1
  | addChar c =>
    obtain ⟨k1, k2⟩ := addChar_eq g h c
    simp only [step, spec]
    by_cases e : b.size + 1 ≤ maxSize
    · obtain ⟨b', h1, h2⟩ := k1 e
      rw [h1, if_pos (by omega)]; exact ⟨b', rfl, h2⟩
    · rw [k2 e, if_neg (by omega)]; exact ⟨b, rfl, h⟩
  | addString x =>
    simp only [step, spec, addString_eq]
    by_cases e : b.size + x.length ≤ maxSize
    · obtain ⟨b', h1, h2⟩ := addSub_ok g h x 0 x.length (by omega) e
      rw [h1, if_pos (by omega)]; exact ⟨b', rfl, by simpa using h2⟩
    · rw [addSub_Size g h _ _ _ e, if_neg (by omega)]; exact ⟨b, rfl, h⟩
  | addSubString s o l =>
    simp only [step, spec]
    by_cases e : b.size + l ≤ maxSize
    · obtain ⟨b', h1, h2⟩ := addSub_ok g h s o l hv e
      rw [h1, if_pos (by omega)]; exact ⟨b', rfl, h2⟩
    · rw [addSub_Size g h _ _ _ e, if_neg (by omega)]; exact ⟨b, rfl, h⟩

theorem run_ok (os : List (Op × (Nat → Char))) : ∀ {b : Buf} {t : List Char}, Holds b t → (∀ o ∈ os, Valid o.1) →
    ∃ b', run b os = some (b', (specRun t (os.map Prod.fst)).2) ∧ Holds b' (specRun t (os.map Prod.fst)).1 := by
  induction os with
  | nil => intro b t h _; exact ⟨b, rfl, h⟩
  | cons o os ih =>
    intro b t h hv
    obtain ⟨b1, e1, h1⟩ := step_ok o.2 h o.1 (hv o (by simp))
    obtain ⟨b2, e2, h2⟩ := ih h1 (fun o' ho => hv o' (by simp [ho]))
    refine ⟨b2, ?_, h2⟩
    simp only [run, List.map_cons, specRun]
    rw [e1]
    simp only [Option.bind_eq_bind, Option.bind_some]
    rw [e2]
    rfl

/-- C45: from a new buffer, every sequence of operations is defined (all accesses within bounds, all loops end), whatever memory
contains, raises Size exactly when the text would be longer than `String.maxSize`, and then `contents` and `size` give the text. -/
theorem C45_buffer (g0 : Nat → Char) (n : Int) (hn : 0 < n ∧ n ≤ maxSize) (os : List (Op × (Nat → Char))) (hv : ∀ o ∈ os, Valid o.1) :
    ∃ b b', new g0 n = some b ∧ run b os = some (b', (specRun [] (os.map Prod.fst)).2) ∧ b'.size = (specRun [] (os.map Prod.fst)).1.length ∧
      ∀ g, contents g b' = some (specRun [] (os.map Prod.fst)).1 := by
  have h0 : Holds ⟨create g0 n.toNat, 0, n.toNat⟩ [] := by
    have hl : (create g0 n.toNat).length = n.toNat := by simp [create]
    refine ⟨rfl, ?_, ?_, ⟨?_, ?_⟩, by simp, by simp⟩ <;> dsimp only <;> omega
  obtain ⟨b', h1, h2⟩ := run_ok os h0 hv
  refine ⟨_, b', by unfold new; rw [if_pos ⟨hn.1, hn.2⟩], h1, h2.size, ?_⟩
  intro g
  have hl : (create g b'.size).length = b'.size := by simp [create]
  have hf := h2.fits
  unfold contents
  rw [blit_ok (by omega) (by omega)]
  simp only [List.take_zero, List.nil_append, List.drop_zero, Nat.zero_add]
  rw [h2.text, List.drop_of_length_le (by omega), List.append_nil]

/-- C45: `new` raises Size exactly for sizes that are not between 1 and `String.maxSize` -/
theorem C45_new (g : Nat → Char) (n : Int) : new g n = none ↔ n ≤ 0 ∨ n > maxSize := by
  unfold new
  split <;> simp <;> omega

example : ∀ o ∈ ([(Op.addString "abc".toList, fun _ => 'x'), (.addSubString "hello".toList 1 3, fun _ => 'y'), (.addChar 'z', fun _ => 'w')] : List (Op × (Nat → Char))), Valid o.1 := by
  simp [Valid]

example : specRun [] [.addString "abc".toList, .addSubString "hello".toList 1 3, .addChar 'z'] = ("abcellz".toList, [true, true, true]) := by decide

end Mosml.Lib.Buffer
