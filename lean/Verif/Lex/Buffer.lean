import Verif.Lex.Props

/-!
C53: src/mosmllib/Lexing.sml and src/runtime/lexing.c: the buffer of a lexer, and the functions that mosmllex emits, running on it.  The function given to
`createLexer` is the sequence of the character lists its calls store (at most 1024 characters each; the empty list is the value 0, the end of input).
Numbers are unbounded.
-/
namespace Mosml.Lex

/-- Lexing.sml:5-13; `calls` counts the calls of the reading function -/
structure Lexbuf where
  buffer : List Nat
  absPos : Int
  start : Int
  curr : Int
  last : Int
  lastAction : Option Nat
  calls : Nat
deriving DecidableEq, Repr

/-- the result of `get_next_char`: a character, the exception of Lexing.sml:53, or an access outside the buffer -/
inductive Next where
  | ok (c : Nat) (b : Lexbuf)
  | tooLong
  | undef
deriving DecidableEq, Repr

/-- Lexing.sml:43-44: the characters that the call has put into `lexAuxBuffer` -/
def chunk (rd : Nat → List Nat) (k : Nat) : List Nat := match rd k with
  | [] => [0]
  | cs => cs

/-- Lexing.sml:40-56: the buffer moves left by `n`; `none` when it raises Fail -/
def lexRefill (rd : Nat → List Nat) (b : Lexbuf) : Option Lexbuf :=
  let cs := chunk rd b.calls
  let n := cs.length
  let b := { b with buffer := b.buffer.drop n ++ cs, absPos := b.absPos + n, curr := b.curr - n, start := b.start - n, last := b.last - n, calls := b.calls + 1 }
  if b.start < 0 then none else some b

/-- lexing.c:33-34: `Byte_u` at the position -/
def readByte (b : Lexbuf) : Next :=
  if b.curr < 0 then .undef
  else match b.buffer[b.curr.toNat]? with
    | none => .undef
    | some c => .ok c { b with curr := b.curr + 1 }

/-- lexing.c:18-35 with the refill function of `createLexer`; the position is compared as an unsigned number -/
def nextChar (rd : Nat → List Nat) (b : Lexbuf) : Next :=
  if b.curr < 0 ∨ b.curr ≥ b.buffer.length then
    match lexRefill rd b with
    | none => .tooLong
    | some b => readByte b
  else readByte b

/-- lexing.c:18-35 with the refill function of `createLexerString`, Lexing.sml:65 -/
def nextCharString (b : Lexbuf) : Next :=
  if b.curr < 0 ∨ b.curr ≥ b.buffer.length then readByte { b with curr := b.curr - 1 } else readByte b

/-- Lexing.sml:60-62; `garbage` is what `create_string_` returns -/
def createLexer (garbage : List Nat) : Lexbuf :=
  { buffer := garbage, absPos := -2048, start := 2048, curr := 2048, last := 2048, lastAction := none, calls := 0 }

/-- Lexing.sml:64-67 -/
def createLexerString (s : List Nat) : Lexbuf :=
  { buffer := s ++ [0], absPos := 0, start := 0, curr := 0, last := 0, lastAction := none, calls := 0 }

/-- Lexing.sml:69-76 -/
def getLexeme (b : Lexbuf) : Option (List Nat) :=
  if 0 ≤ b.start ∧ b.start ≤ b.curr ∧ b.curr ≤ b.buffer.length then some ((b.buffer.drop b.start.toNat).take (b.curr - b.start).toNat) else none

/-- Lexing.sml:87-93 -/
def getLexemeStart (b : Lexbuf) : Int := b.absPos + b.start
def getLexemeEnd (b : Lexbuf) : Int := b.absPos + b.curr

/-- how a call of an entry point ends -/
inductive Ended where
  | action (n : Nat)
  | illegal
  | tooLong
  | broken
  | running
deriving DecidableEq, Repr

/-- Output.sml:175-182 -/
def rememberBuf (rem : Option Nat) (b : Lexbuf) : Lexbuf := match rem with
  | none => b
  | some n => { b with last := b.curr, lastAction := some n }

/-- Output.sml:67-75 and 147-184, Lexing.sml:82-85: the function `state_i` on a buffer -/
def runBuf (V : List Automaton) (next : Lexbuf → Next) : Nat → Nat → Lexbuf → Ended × Lexbuf
  | 0, _, b => (.running, b)
  | fuel + 1, i, b => match V[i]? with
    | none => (.broken, b)
    | some (.perform _) => (.broken, b)
    | some (.shift rem moves) =>
      let b := rememberBuf rem b
      match next b with
      | .tooLong => (.tooLong, b)
      | .undef => (.broken, b)
      | .ok c b => match moves[c]? with
        | none => (.broken, b)
        | some .backtrack =>
          let b := { b with curr := b.last }
          match b.lastAction with
          | none => (.illegal, b)
          | some n => (.action n, b)
        | some (.goto d) => match V[d]? with
          | none => (.broken, b)
          | some (.perform n) => (.action n, b)
          | some (.shift _ _) => runBuf V next fuel d b

/-- Output.sml:188-202 -/
def callEntry (V : List Automaton) (next : Lexbuf → Next) (fuel i : Nat) (b : Lexbuf) : Ended × Lexbuf :=
  runBuf V next fuel i { b with lastAction := none, start := b.curr }

/-! ### the stream -/

/-- all characters that the first `n` calls deliver -/
def delivered (rd : Nat → List Nat) : Nat → List Nat
  | 0 => []
  | n + 1 => delivered rd n ++ chunk rd n

/-- the stream a lexer reads: what the calls deliver, with one NUL for each end of input -/
def stream (rd : Nat → List Nat) (i : Nat) : Nat := ((delivered rd (i + 1))[i]?).getD 0

theorem chunk_pos (rd : Nat → List Nat) (k : Nat) : 1 ≤ (chunk rd k).length := by
  unfold chunk; split <;> simp_all [Nat.one_le_iff_ne_zero]

theorem delivered_length (rd : Nat → List Nat) (n : Nat) : n ≤ (delivered rd n).length := by
  induction n with
  | zero => simp
  | succ n ih => have := chunk_pos rd n; simp only [delivered, List.length_append]; omega

theorem delivered_mono (rd : Nat → List Nat) (n k i : Nat) (h : i < (delivered rd n).length) : (delivered rd (n + k))[i]? = (delivered rd n)[i]? := by
  induction k with
  | zero => rfl
  | succ k ih =>
    rw [← Nat.add_assoc, delivered, List.getElem?_append_left, ih]
    have hlt : i < (delivered rd n).length := h
    by_contra hc
    rw [List.getElem?_eq_none (by omega), List.getElem?_eq_getElem hlt] at ih
    simp at ih

theorem stream_delivered (rd : Nat → List Nat) (n i : Nat) (h : i < (delivered rd n).length) : (delivered rd n)[i]? = some (stream rd i) := by
  unfold stream
  have h1 : i < (delivered rd (i + 1)).length := by have := delivered_length rd (i + 1); omega
  have : (delivered rd n)[i]? = (delivered rd (i + 1))[i]? := by
    rcases le_total n (i + 1) with hl | hl
    · obtain ⟨k, hk⟩ := Nat.exists_eq_add_of_le hl
      rw [hk, delivered_mono rd n k i h]
    · obtain ⟨k, hk⟩ := Nat.exists_eq_add_of_le hl
      rw [hk, delivered_mono rd (i + 1) k i h1]
  rw [this, List.getElem?_eq_getElem h1]; rfl

/-- for a reading function that delivers the content in non-empty pieces and then signals the end, the stream is the content followed by NULs -/
theorem stream_content (rd : Nat → List Nat) (content : List Nat) (m : Nat) (h1 : ((List.range m).map rd).flatten = content) (h2 : ∀ k < m, rd k ≠ [])
    (h3 : ∀ k, m ≤ k → rd k = []) (i : Nat) : stream rd i = content.getD i 0 := by
  have del : ∀ n ≤ m, delivered rd n = ((List.range n).map rd).flatten := by
    intro n
    induction n with
    | zero => simp [delivered]
    | succ n ih =>
      intro hn
      have : chunk rd n = rd n := by
        have hne := h2 n (by omega)
        unfold chunk
        split
        · rename_i h0; exact absurd h0 hne
        · rfl
      rw [delivered, ih (by omega), this, List.range_succ]
      simp
  have del2 : ∀ k, delivered rd (m + k) = content ++ List.replicate k 0 := by
    intro k
    induction k with
    | zero => rw [Nat.add_zero, del m le_rfl, h1]; simp
    | succ k ih =>
      have : chunk rd (m + k) = [0] := by unfold chunk; rw [h3 (m + k) (by omega)]
      rw [← Nat.add_assoc, delivered, ih, this, List.append_assoc, List.replicate_succ']
  have hlen : i < (delivered rd (m + (i + 1))).length := by rw [del2]; simp; omega
  have := stream_delivered rd (m + (i + 1)) i hlen
  rw [del2] at this
  rw [List.getElem?_append] at this
  split at this
  · rename_i h; rw [List.getD_eq_getElem?_getD, this]; rfl
  · rename_i h
    rw [List.getElem?_replicate] at this
    split at this
    · rw [List.getD_eq_getElem?_getD, List.getElem?_eq_none (by omega)]
      exact (Option.some.inj this).symm
    · simp at this

/-! ### the buffer of createLexer -/

/-- the buffer holds the last characters delivered -/
structure BufOk (rd : Nat → List Nat) (b : Lexbuf) : Prop where
  len : b.buffer.length = 2048
  abs : b.absPos = ((delivered rd b.calls).length : Int) - 2048
  cont : ∀ i : Nat, i < 2048 → 0 ≤ b.absPos + i → b.buffer[i]? = some (stream rd (b.absPos + i).toNat)

theorem createLexer_ok (rd : Nat → List Nat) (garbage : List Nat) (h : garbage.length = 2048) : BufOk rd (createLexer garbage) :=
  ⟨h, by simp [createLexer, delivered], fun i hi h => by simp only [createLexer] at h; omega⟩

theorem readByte_ok (rd : Nat → List Nat) (b : Lexbuf) (ok : BufOk rd b) (h1 : 0 ≤ b.curr) (h2 : b.curr < 2048) (h3 : 0 ≤ b.absPos + b.curr) :
    readByte b = .ok (stream rd (b.absPos + b.curr).toNat) { b with curr := b.curr + 1 } := by
  have h := ok.cont b.curr.toNat (by omega) (by omega)
  have e : ((b.curr.toNat : Nat) : Int) = b.curr := by omega
  rw [e] at h
  have hn : ¬ b.curr < 0 := by omega
  simp only [readByte, hn, if_false, h]

theorem refill_ok (rd : Nat → List Nat) (hrd : ∀ k, (rd k).length ≤ 1024) (b : Lexbuf) (ok : BufOk rd b) :
    let n := (chunk rd b.calls).length
    let b' : Lexbuf := { b with buffer := b.buffer.drop n ++ chunk rd b.calls, absPos := b.absPos + n, curr := b.curr - n, start := b.start - n, last := b.last - n, calls := b.calls + 1 }
    (1 ≤ n ∧ n ≤ 1024) ∧ BufOk rd b' := by
  have hn : (chunk rd b.calls).length ≤ 1024 := by
    unfold chunk; split
    · simp
    · exact hrd _
  have hp := chunk_pos rd b.calls
  refine ⟨⟨hp, hn⟩, ?_, ?_, ?_⟩
  · simp [ok.len]; omega
  · have := ok.abs
    simp only [delivered, List.length_append]
    push_cast; omega
  · intro i hi h
    simp only at h ⊢
    rw [List.getElem?_append]
    have hl : (b.buffer.drop (chunk rd b.calls).length).length = 2048 - (chunk rd b.calls).length := by simp [ok.len]
    split
    · rename_i hlt
      rw [hl] at hlt
      rw [List.getElem?_drop]
      have := ok.cont ((chunk rd b.calls).length + i) (by omega) (by push_cast; omega)
      rw [this]
      congr 2
      push_cast; omega
    · rename_i hlt
      rw [hl] at hlt ⊢
      have ha := ok.abs
      -- the character is in the new chunk
      have e : (delivered rd (b.calls + 1))[(b.absPos + (chunk rd b.calls).length + i).toNat]? = (chunk rd b.calls)[i - (2048 - (chunk rd b.calls).length)]? := by
        rw [delivered, List.getElem?_append_right (by omega)]
        congr 1
        omega
      rw [← e]
      refine stream_delivered rd _ _ ?_
      simp only [delivered, List.length_append]
      omega

/-- `get_next_char` delivers the character of the stream and keeps the positions in the stream, or the token has more than 1024 characters -/
theorem nextChar_ok (rd : Nat → List Nat) (hrd : ∀ k, (rd k).length ≤ 1024) (b : Lexbuf) (ok : BufOk rd b) (h1 : 0 ≤ b.curr) (h2 : b.curr ≤ 2048)
    (h3 : 0 ≤ b.absPos + b.curr) (h4 : 0 ≤ b.start) :
    (∃ b', nextChar rd b = .ok (stream rd (b.absPos + b.curr).toNat) b' ∧ BufOk rd b' ∧ 0 ≤ b'.curr ∧ b'.curr ≤ 2048 ∧ 0 ≤ b'.start ∧
      b'.absPos + b'.curr = b.absPos + b.curr + 1 ∧ b'.absPos + b'.start = b.absPos + b.start ∧ b'.absPos + b'.last = b.absPos + b.last ∧ b'.lastAction = b.lastAction) ∨
    (nextChar rd b = .tooLong ∧ 1024 < b.curr - b.start) := by
  unfold nextChar
  by_cases hc : b.curr = 2048
  · have hlen := ok.len
    have hcond : b.curr < 0 ∨ b.curr ≥ b.buffer.length := .inr (by omega)
    simp only [hcond, if_true]
    obtain ⟨⟨n1, n2⟩, ok'⟩ := refill_ok rd hrd b ok
    unfold lexRefill
    by_cases hs : b.start - (chunk rd b.calls).length < 0
    · right
      simp only [hs, if_true, true_and]
      omega
    · left
      simp only [hs, if_false]
      have hr := readByte_ok rd _ ok' (by simp only; omega) (by simp only; omega) (by simp only; omega)
      have e : b.absPos + ↑(chunk rd b.calls).length + (b.curr - ↑(chunk rd b.calls).length) = b.absPos + b.curr := by omega
      simp only [e] at hr
      rw [hr]
      refine ⟨_, rfl, ⟨ok'.len, ok'.abs, ok'.cont⟩, ?_, ?_, ?_, ?_, ?_, ?_, rfl⟩ <;> simp only <;> omega
  · left
    have hlen := ok.len
    have hcond : ¬ (b.curr < 0 ∨ b.curr ≥ b.buffer.length) := by omega
    simp only [hcond, if_false]
    rw [readByte_ok rd b ok h1 (by omega) h3]
    refine ⟨_, rfl, ⟨ok.len, ok.abs, ok.cont⟩, ?_, ?_, ?_, ?_, ?_, ?_, rfl⟩ <;> simp only <;> omega

/-- the buffer while a token that starts at `a0` is read, `pos` characters further -/
structure Mid (rd : Nat → List Nat) (a0 pos : Nat) (last : Option (Nat × Nat)) (b : Lexbuf) : Prop where
  ok : BufOk rd b
  c0 : 0 ≤ b.curr
  c1 : b.curr ≤ 2048
  s0 : 0 ≤ b.start
  start : b.absPos + b.start = a0
  curr : b.absPos + b.curr = a0 + pos
  last : match last with
    | none => b.lastAction = none
    | some (n, p) => b.lastAction = some n ∧ b.absPos + b.last = a0 + p ∧ p ≤ pos

/-- the state of the buffer in an action: the token is the part of the stream from `a0` of the length `len` -/
structure Token' (rd : Nat → List Nat) (a0 len : Nat) (b : Lexbuf) : Prop where
  ok : BufOk rd b
  c0 : 0 ≤ b.curr
  c1 : b.curr ≤ 2048
  s0 : 0 ≤ b.start
  start : b.absPos + b.start = a0
  curr : b.absPos + b.curr = a0 + len

theorem remember_mid {rd : Nat → List Nat} {a0 pos : Nat} {last : Option (Nat × Nat)} {b : Lexbuf} (m : Mid rd a0 pos last b) (rem : Option Nat) :
    Mid rd a0 pos (remember rem pos last) (rememberBuf rem b) := by
  cases rem with
  | none => exact m
  | some n => exact ⟨⟨m.ok.len, m.ok.abs, m.ok.cont⟩, m.c0, m.c1, m.s0, m.start, m.curr, rfl, m.curr, le_rfl⟩

theorem runBuf_ok (V : List Automaton) (rd : Nat → List Nat) (hrd : ∀ k, (rd k).length ≤ 1024) (a0 fuel i pos : Nat) (last : Option (Nat × Nat)) (b : Lexbuf)
    (m : Mid rd a0 pos last b) :
    let r := runBuf V (nextChar rd) fuel i b
    match r.1 with
    | .action n => ∃ len, runState V (fun k => stream rd (a0 + k)) fuel i pos last = .action n len ∧ Token' rd a0 len r.2
    | .illegal => runState V (fun k => stream rd (a0 + k)) fuel i pos last = .illegal
    | .broken => runState V (fun k => stream rd (a0 + k)) fuel i pos last = .broken
    | .running => runState V (fun k => stream rd (a0 + k)) fuel i pos last = .running
    | .tooLong => ∃ d, 1024 < pos + d ∧ runState V (fun k => stream rd (a0 + k)) d i pos last = .running := by
  induction fuel generalizing i pos last b with
  | zero => exact rfl
  | succ fuel ih =>
    simp only [runBuf, runState]
    cases hV : V[i]? with
    | none => exact rfl
    | some a =>
      cases a with
      | perform n => exact rfl
      | shift rem moves =>
        have m' := remember_mid m rem
        simp only
        have ms := m'.start
        have mc := m'.curr
        rcases nextChar_ok rd hrd (rememberBuf rem b) m'.ok m'.c0 m'.c1 (by omega) m'.s0 with ⟨b', e, ok', h1, h2, h3, h4, h5, h6, h7⟩ | ⟨e, h⟩
        · have ech : stream rd ((rememberBuf rem b).absPos + (rememberBuf rem b).curr).toNat = stream rd (a0 + pos) := by
            congr 1; omega
          rw [ech] at e
          simp only [e]
          cases hm : moves[stream rd (a0 + pos)]? with
          | none => exact rfl
          | some mv =>
            cases mv with
            | backtrack =>
              simp only
              have ml := m'.last
              cases hl : remember rem pos last with
              | none =>
                rw [hl] at ml
                simp only at ml
                rw [h7, ml]
              | some x =>
                obtain ⟨n, p⟩ := x
                rw [hl] at ml
                simp only at ml
                rw [h7, ml.1]
                refine ⟨p, rfl, ⟨⟨ok'.len, ok'.abs, ok'.cont⟩, ?_, ?_, h3, ?_, ?_⟩⟩ <;> simp only <;> omega
            | goto d =>
              simp only
              cases hd : V[d]? with
              | none => exact rfl
              | some a' =>
                cases a' with
                | perform n =>
                  refine ⟨pos + 1, rfl, ⟨ok', h1, h2, h3, ?_, ?_⟩⟩
                  · show b'.absPos + b'.start = _; omega
                  · show b'.absPos + b'.curr = _; push_cast; omega
                | shift rem' moves' =>
                  have m2 : Mid rd a0 (pos + 1) (remember rem pos last) b' := by
                    refine ⟨ok', h1, h2, h3, by omega, by push_cast; omega, ?_⟩
                    have ml := m'.last
                    cases hl : remember rem pos last with
                    | none => rw [hl] at ml; simp only at ml ⊢; rw [h7, ml]
                    | some x =>
                      obtain ⟨n, p⟩ := x
                      rw [hl] at ml
                      simp only at ml ⊢
                      exact ⟨by rw [h7, ml.1], by omega, by omega⟩
                  have := ih d (pos + 1) _ b' m2
                  simp only at this ⊢
                  cases hr : (runBuf V (nextChar rd) fuel d b').1 with
                  | action n => rw [hr] at this; exact this
                  | illegal => rw [hr] at this; exact this
                  | broken => rw [hr] at this; exact this
                  | running => rw [hr] at this; exact this
                  | tooLong =>
                    rw [hr] at this
                    obtain ⟨k, k1, k2⟩ := this
                    refine ⟨k + 1, by omega, ?_⟩
                    simp only [runState, hV, hm, hd]
                    exact k2
        · simp only [e]
          exact ⟨0, by omega, rfl⟩

theorem lexeme_of_token (rd : Nat → List Nat) (a0 len : Nat) (b : Lexbuf) (t : Token' rd a0 len b) :
    getLexeme b = some ((List.range len).map (fun i => stream rd (a0 + i))) := by
  have h1 := t.start
  have h2 := t.curr
  have h3 := t.c1
  have h4 := t.s0
  have hl := t.ok.len
  have hc : 0 ≤ b.start ∧ b.start ≤ b.curr ∧ b.curr ≤ b.buffer.length := ⟨h4, by omega, by omega⟩
  unfold getLexeme
  rw [if_pos hc]
  congr 1
  have e : (b.curr - b.start).toNat = len := by omega
  rw [e]
  apply List.ext_getElem?
  intro i
  rw [List.getElem?_take]
  split
  · rename_i hi
    rw [List.getElem?_drop, List.getElem?_map, List.getElem?_range hi, t.ok.cont _ (by omega) (by omega)]
    simp only [Option.map_some]
    congr 2; omega
  · rename_i hi
    rw [List.getElem?_eq_none]
    simp; omega

/-! ### the buffer of createLexerString -/

/-- the characters of a string and then NULs -/
def stringStream (s : List Nat) (i : Nat) : Nat := s.getD i 0

structure MidS (s : List Nat) (a0 pos : Nat) (last : Option (Nat × Nat)) (b : Lexbuf) : Prop where
  buf : b.buffer = s ++ [0]
  abs : b.absPos = 0
  start : b.start = (min a0 (s.length + 1) : Nat)
  curr : b.curr = (min (a0 + pos) (s.length + 1) : Nat)
  last : match last with
    | none => b.lastAction = none
    | some (n, p) => b.lastAction = some n ∧ b.last = (min (a0 + p) (s.length + 1) : Nat)

theorem nextCharString_ok (s : List Nat) (b : Lexbuf) (p : Nat) (hb : b.buffer = s ++ [0]) (hc : b.curr = (min p (s.length + 1) : Nat)) :
    nextCharString b = .ok (stringStream s p) { b with curr := (min (p + 1) (s.length + 1) : Nat) } := by
  unfold nextCharString
  have hl : b.buffer.length = s.length + 1 := by simp [hb]
  by_cases h : p ≤ s.length
  · have h1 : ¬ (b.curr < 0 ∨ b.curr ≥ b.buffer.length) := by omega
    rw [if_neg h1]
    unfold readByte
    have h2 : ¬ b.curr < 0 := by omega
    have h3 : b.curr.toNat = p := by omega
    have h4 : (s ++ [0])[p]? = some (stringStream s p) := by
      unfold stringStream
      rw [List.getElem?_append, List.getD_eq_getElem?_getD]
      split
      · rename_i hlt; rw [List.getElem?_eq_getElem hlt]; rfl
      · have : p = s.length := by omega
        subst this; simp
    rw [if_neg h2, h3, hb, h4]
    simp only
    congr 2
    omega
  · have h1 : b.curr < 0 ∨ b.curr ≥ b.buffer.length := by omega
    rw [if_pos h1]
    unfold readByte
    have h2 : ¬ b.curr - 1 < 0 := by omega
    have h3 : (b.curr - 1).toNat = s.length := by omega
    have h4 : (s ++ [0])[s.length]? = some (stringStream s p) := by
      unfold stringStream
      rw [List.getD_eq_getElem?_getD, List.getElem?_eq_none (by omega : s.length ≤ p)]; simp
    simp only [if_neg h2, h3, hb, h4]
    congr 2
    omega

theorem runBuf_string (V : List Automaton) (s : List Nat) (a0 fuel i pos : Nat) (last : Option (Nat × Nat)) (b : Lexbuf) (m : MidS s a0 pos last b) :
    let r := runBuf V nextCharString fuel i b
    match r.1 with
    | .action n => ∃ len, runState V (fun k => stringStream s (a0 + k)) fuel i pos last = .action n len ∧
        r.2.buffer = s ++ [0] ∧ r.2.absPos = 0 ∧ r.2.start = (min a0 (s.length + 1) : Nat) ∧ r.2.curr = (min (a0 + len) (s.length + 1) : Nat)
    | .illegal => runState V (fun k => stringStream s (a0 + k)) fuel i pos last = .illegal
    | .broken => runState V (fun k => stringStream s (a0 + k)) fuel i pos last = .broken
    | .running => runState V (fun k => stringStream s (a0 + k)) fuel i pos last = .running
    | .tooLong => False := by
  induction fuel generalizing i pos last b with
  | zero => exact rfl
  | succ fuel ih =>
    simp only [runBuf, runState]
    cases hV : V[i]? with
    | none => exact rfl
    | some a =>
      cases a with
      | perform n => exact rfl
      | shift rem moves =>
        have m' : MidS s a0 pos (remember rem pos last) (rememberBuf rem b) := by
          cases rem with
          | none => exact m
          | some n => exact ⟨m.buf, m.abs, m.start, m.curr, rfl, m.curr⟩
        simp only
        rw [nextCharString_ok s _ (a0 + pos) m'.buf m'.curr]
        simp only
        cases hm : moves[stringStream s (a0 + pos)]? with
        | none => exact rfl
        | some mv =>
          cases mv with
          | backtrack =>
            simp only
            have ml := m'.last
            cases hl : remember rem pos last with
            | none => rw [hl] at ml; simp only at ml; rw [ml]
            | some x =>
              obtain ⟨n, p⟩ := x
              rw [hl] at ml
              simp only at ml
              rw [ml.1]
              exact ⟨p, rfl, m'.buf, m'.abs, m'.start, ml.2⟩
          | goto d =>
            simp only
            cases hd : V[d]? with
            | none => exact rfl
            | some a' =>
              cases a' with
              | perform n => exact ⟨pos + 1, rfl, m'.buf, m'.abs, m'.start, rfl⟩
              | shift rem' moves' =>
                have m2 : MidS s a0 (pos + 1) (remember rem pos last) { rememberBuf rem b with curr := (min (a0 + pos + 1) (s.length + 1) : Nat) } :=
                  ⟨m'.buf, m'.abs, m'.start, rfl, m'.last⟩
                have := ih d (pos + 1) _ _ m2
                simp only at this ⊢
                cases hr : (runBuf V nextCharString fuel d { rememberBuf rem b with curr := (min (a0 + pos + 1) (s.length + 1) : Nat) }).1 with
                | action n => rw [hr] at this; exact this
                | illegal => rw [hr] at this; exact this
                | broken => rw [hr] at this; exact this
                | running => rw [hr] at this; exact this
                | tooLong => rw [hr] at this; exact this

end Mosml.Lex
