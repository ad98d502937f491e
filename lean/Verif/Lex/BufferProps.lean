import Verif.Lex.Buffer

/-!
C53: the theorems.  A lexer made by mosmllex, running on a buffer made by `createLexer` or `createLexerString`, takes the tokens off the characters that the
reading function delivers, one after the other.
-/
namespace Mosml.Lex

/-- between two tokens: the next character that the lexer reads is number `a` of the stream -/
structure Ready (rd : Nat → List Nat) (a : Nat) (b : Lexbuf) : Prop where
  ok : BufOk rd b
  c0 : 0 ≤ b.curr
  c1 : b.curr ≤ 2048
  pos : b.absPos + b.curr = a

/-- between two tokens of a string -/
structure ReadyS (s : List Nat) (a : Nat) (b : Lexbuf) : Prop where
  buf : b.buffer = s ++ [0]
  abs : b.absPos = 0
  pos : b.curr = (min a (s.length + 1) : Nat)

/-- a lexer that has just been made is at the first character; whatever the reading function returns, the stream is what it delivers, then NULs -/
theorem C53_create (rd : Nat → List Nat) (garbage : List Nat) (h : garbage.length = 2048) : Ready rd 0 (createLexer garbage) :=
  ⟨createLexer_ok rd garbage h, by simp [createLexer], by simp [createLexer], by simp [createLexer]⟩

/-- a reading function that cuts the text into any non-empty pieces and then reports the end makes the text, followed by NULs, the stream -/
theorem C53_stream (rd : Nat → List Nat) (content : List Nat) (m : Nat) (h1 : ((List.range m).map rd).flatten = content) (h2 : ∀ k < m, rd k ≠ [])
    (h3 : ∀ k, m ≤ k → rd k = []) (i : Nat) : stream rd i = content.getD i 0 := stream_content rd content m h1 h2 h3 i

theorem mid_of_ready {rd : Nat → List Nat} {a : Nat} {b : Lexbuf} (h : Ready rd a b) : Mid rd a 0 none { b with lastAction := none, start := b.curr } :=
  ⟨⟨h.ok.len, h.ok.abs, h.ok.cont⟩, h.c0, h.c1, h.c0, h.pos, h.pos, rfl⟩

/-- an entry point called between two tokens takes the longest match at this place of the stream and runs the first case that has this match; the lexeme is
the match, its positions are those in the stream, and the lexer is then behind the token.  The exception `token too long` means that more than 1024 characters
were read. -/
theorem C53_token (ld : List (List Regexp)) (hc : ∀ cases ∈ ld, ∀ e ∈ cases, CharsOk e) (few : (ld.map List.length).sum ≤ 32767)
    (gen : Nat) (is : List Nat) (V : List Automaton) (hg : makeDfa gen ld = some (some (is, V)))
    (j : Nat) (cases : List Regexp) (hj : ld[j]? = some cases) (hne : ∃ c w, Accepts cases (c :: w))
    (rd : Nat → List Nat) (hrd : ∀ k, (rd k).length ≤ 1024) (hch : ∀ i, stream rd i < 256) (a : Nat) (b : Lexbuf) (hb : Ready rd a b) :
    ∃ i, is[j]? = some i ∧ ∀ fuel r b', callEntry V (nextChar rd) fuel i b = (r, b') →
      (∀ n, r = .action n → ∃ k len, n = actionNumber ld j k ∧ LongestFirst cases (fun x => stream rd (a + x)) k len ∧
        getLexeme b' = some (prefixOf (fun x => stream rd (a + x)) len) ∧ getLexemeStart b' = a ∧ getLexemeEnd b' = a + len ∧ Ready rd (a + len) b') ∧
      (r = .illegal → ∀ len, ¬ Accepts cases (prefixOf (fun x => stream rd (a + x)) len)) ∧
      (r = .tooLong → (∀ cases ∈ ld, ∀ e ∈ cases, NoEmptyClass e) → ∃ w, Accepts cases (prefixOf (fun x => stream rd (a + x)) 1025 ++ w)) ∧
      r ≠ .broken := by
  obtain ⟨i, h1, h2⟩ := entry_ok ld hc few gen is V hg j cases hj hne (fun x => stream rd (a + x)) (fun x => hch _)
  refine ⟨i, h1, fun fuel r b' hr => ?_⟩
  have run := runBuf_ok V rd hrd a fuel i 0 none _ (mid_of_ready hb)
  have hr' : runBuf V (nextChar rd) fuel i { b with lastAction := none, start := b.curr } = (r, b') := hr
  simp only [hr'] at run
  refine ⟨fun n e => ?_, fun e => ?_, fun e ne => ?_, fun e => ?_⟩
  · subst e
    obtain ⟨len, e1, t⟩ := run
    have := h2 fuel
    unfold runEntry at this
    rw [e1] at this
    obtain ⟨k, e2, lf⟩ := this
    exact ⟨k, len, e2, lf, lexeme_of_token rd a len b' t, t.start, t.curr, t.ok, t.c0, t.c1, by rw [t.curr]; push_cast; rfl⟩
  · subst e
    have := h2 fuel
    unfold runEntry at this
    simp only at run
    rw [run] at this
    exact this
  · subst e
    obtain ⟨d, hd, e1⟩ := run
    have := h2 d
    unfold runEntry at this
    rw [e1] at this
    exact this ne 1025 (by omega)
  · subst e
    have := h2 fuel
    unfold runEntry at this
    simp only at run
    rw [run] at this
    exact this

/-- if it is settled after at most 1024 characters what the token is, then the entry point gives this token -/
theorem C53_answers (ld : List (List Regexp)) (hc : ∀ cases ∈ ld, ∀ e ∈ cases, CharsOk e) (ne : ∀ cases ∈ ld, ∀ e ∈ cases, NoEmptyClass e)
    (few : (ld.map List.length).sum ≤ 32767) (gen : Nat) (is : List Nat) (V : List Automaton) (hg : makeDfa gen ld = some (some (is, V)))
    (j : Nat) (cases : List Regexp) (hj : ld[j]? = some cases) (hne : ∃ c w, Accepts cases (c :: w))
    (rd : Nat → List Nat) (hrd : ∀ k, (rd k).length ≤ 1024) (hch : ∀ i, stream rd i < 256) (a : Nat) (b : Lexbuf) (hb : Ready rd a b)
    (m : Nat) (hm : ∀ w, ¬ Accepts cases (prefixOf (fun x => stream rd (a + x)) m ++ w)) (hm' : m ≤ 1024) :
    ∃ i, is[j]? = some i ∧ ∀ fuel, m ≤ fuel →
      (∀ k len, LongestFirst cases (fun x => stream rd (a + x)) k len → (callEntry V (nextChar rd) fuel i b).1 = .action (actionNumber ld j k)) ∧
      ((∀ len, ¬ Accepts cases (prefixOf (fun x => stream rd (a + x)) len)) → (callEntry V (nextChar rd) fuel i b).1 = .illegal) := by
  obtain ⟨i, h1, h2⟩ := C48_answers ld hc ne few gen is V hg j cases hj hne (fun x => stream rd (a + x)) (fun x => hch _) m hm
  obtain ⟨i', h1', h2'⟩ := entry_ok ld hc few gen is V hg j cases hj hne (fun x => stream rd (a + x)) (fun x => hch _)
  rw [h1] at h1'; cases h1'
  refine ⟨i, h1, fun fuel hf => ?_⟩
  have run := runBuf_ok V rd hrd a fuel i 0 none _ (mid_of_ready hb)
  have h := h2 fuel hf
  unfold callEntry
  unfold runEntry at h
  simp only at run
  cases hr : (runBuf V (nextChar rd) fuel i { b with lastAction := none, start := b.curr }).1 with
  | action n =>
    rw [hr] at run
    obtain ⟨len, e1, -⟩ := run
    rw [e1] at h
    refine ⟨fun k len' hl => ?_, fun hno => ?_⟩
    · have := h.1 k len' hl; injection this with e; rw [e]
    · simp at h; exact absurd (h.2) (by push Not; exact hno)
  | illegal =>
    rw [hr] at run
    simp only at run
    rw [run] at h
    exact ⟨fun k len hl => by have := h.1 k len hl; simp at this, fun _ => rfl⟩
  | broken =>
    rw [hr] at run
    have := h2' fuel
    unfold runEntry at this
    simp only at run
    rw [run] at this
    exact this.elim
  | running =>
    rw [hr] at run
    have := h2' fuel
    unfold runEntry at this
    simp only at run
    rw [run] at this
    obtain ⟨w, hw⟩ := this ne m hf
    exact (hm w hw).elim
  | tooLong =>
    rw [hr] at run
    obtain ⟨d, hd, e1⟩ := run
    have := h2' d
    unfold runEntry at this
    rw [e1] at this
    obtain ⟨w, hw⟩ := this ne m (by omega)
    exact (hm w hw).elim

/-- the bound 1024 is the right one: when the reading function delivers 1024, 1 and again 1024 characters, a token is refused after 1025 characters -/
theorem C53_too_long (garbage : List Nat) (h : garbage.length = 2048) (rd : Nat → List Nat) (h0 : (rd 0).length = 1024) (h1 : (rd 1).length = 1)
    (h2 : (rd 2).length = 1024) :
    ∃ b1 b2, lexRefill rd { createLexer garbage with lastAction := none, start := 2048 } = some b1 ∧ lexRefill rd { b1 with curr := 2048 } = some b2 ∧
      nextChar rd { b2 with curr := 2048 } = .tooLong ∧ (2048 : Int) - b2.start = 1025 := by
  have c0 : (chunk rd 0).length = 1024 := by unfold chunk; split <;> simp_all
  have c1 : (chunk rd 1).length = 1 := by unfold chunk; split <;> simp_all
  have c2 : (chunk rd 2).length = 1024 := by unfold chunk; split <;> simp_all
  have e1 : ∃ b1, lexRefill rd { createLexer garbage with lastAction := none, start := 2048 } = some b1 ∧ b1.start = 1024 ∧ b1.calls = 1 ∧ b1.buffer.length = 2048 := by
    refine ⟨{ buffer := garbage.drop 1024 ++ chunk rd 0, absPos := -1024, start := 1024, curr := 1024, last := 1024, lastAction := none, calls := 1 }, ?_, rfl, rfl, ?_⟩
    · simp [lexRefill, createLexer, c0]
    · simp only [List.length_append, List.length_drop, c0, h]
  obtain ⟨b1, e1, s1, n1, l1⟩ := e1
  have e2 : ∃ b2, lexRefill rd { b1 with curr := 2048 } = some b2 ∧ b2.start = 1023 ∧ b2.calls = 2 ∧ b2.buffer.length = 2048 := by
    refine ⟨{ buffer := b1.buffer.drop 1 ++ chunk rd 1, absPos := b1.absPos + 1, start := 1023, curr := 2047, last := b1.last - 1, lastAction := b1.lastAction, calls := 2 }, ?_,
      rfl, rfl, ?_⟩
    · simp [lexRefill, c1, s1, n1]
    · simp only [List.length_append, List.length_drop, c1, l1]
  obtain ⟨b2, e2, s2, n2, l2⟩ := e2
  refine ⟨b1, b2, e1, e2, ?_, by omega⟩
  simp [nextChar, lexRefill, c2, s2, n2, l2]

/-- a lexer on a string -/
theorem C53_string (ld : List (List Regexp)) (hc : ∀ cases ∈ ld, ∀ e ∈ cases, CharsOk e) (few : (ld.map List.length).sum ≤ 32767)
    (gen : Nat) (is : List Nat) (V : List Automaton) (hg : makeDfa gen ld = some (some (is, V)))
    (j : Nat) (cases : List Regexp) (hj : ld[j]? = some cases) (hne : ∃ c w, Accepts cases (c :: w)) (s : List Nat) (hs : ∀ c ∈ s, c < 256) :
    ReadyS s 0 (createLexerString s) ∧ ∃ i, is[j]? = some i ∧ ∀ a b, ReadyS s a b → ∀ fuel r b', callEntry V nextCharString fuel i b = (r, b') →
      (∀ n, r = .action n → ∃ k len, n = actionNumber ld j k ∧ LongestFirst cases (fun x => stringStream s (a + x)) k len ∧ ReadyS s (a + len) b' ∧
        (a + len ≤ s.length + 1 →
          getLexeme b' = some (prefixOf (fun x => stringStream s (a + x)) len) ∧ getLexemeStart b' = a ∧ getLexemeEnd b' = a + len)) ∧
      (r = .illegal → ∀ len, ¬ Accepts cases (prefixOf (fun x => stringStream s (a + x)) len)) ∧
      r ≠ .tooLong ∧ r ≠ .broken := by
  have hch : ∀ i, stringStream s i < 256 := fun i => by
    unfold stringStream
    rw [List.getD_eq_getElem?_getD]
    cases h : s[i]? with
    | none => simp
    | some c => exact hs c (List.mem_of_getElem? h)
  refine ⟨⟨rfl, rfl, by simp [createLexerString]⟩, ?_⟩
  obtain ⟨i, h1, -⟩ := entry_ok ld hc few gen is V hg j cases hj hne (fun x => stringStream s (0 + x)) (fun x => hch _)
  refine ⟨i, h1, fun a b hb fuel r b' hr => ?_⟩
  obtain ⟨i', h1', h2⟩ := entry_ok ld hc few gen is V hg j cases hj hne (fun x => stringStream s (a + x)) (fun x => hch _)
  rw [h1] at h1'; cases h1'
  have run := runBuf_string V s a fuel i 0 none { b with lastAction := none, start := b.curr } ⟨hb.buf, hb.abs, hb.pos, hb.pos, rfl⟩
  have hr' : runBuf V nextCharString fuel i { b with lastAction := none, start := b.curr } = (r, b') := hr
  simp only [hr'] at run
  have h2 := h2 fuel
  unfold runEntry at h2
  refine ⟨fun n e => ?_, fun e => ?_, fun e => ?_, fun e => ?_⟩
  · subst e
    obtain ⟨len, e1, t1, t2, t3, t4⟩ := run
    rw [e1] at h2
    obtain ⟨k, e2, lf⟩ := h2
    refine ⟨k, len, e2, lf, ⟨t1, t2, t4⟩, fun hl => ?_⟩
    have s1 : b'.start = a := by omega
    have s2 : b'.curr = a + len := by omega
    refine ⟨?_, by unfold getLexemeStart; omega, by unfold getLexemeEnd; omega⟩
    unfold getLexeme
    have hlen : b'.buffer.length = s.length + 1 := by simp [t1]
    rw [if_pos ⟨by omega, by omega, by omega⟩]
    congr 1
    have e : (b'.curr - b'.start).toNat = len := by omega
    have e' : b'.start.toNat = a := by omega
    rw [e, e', t1]
    apply List.ext_getElem?
    intro x
    rw [List.getElem?_take]
    split
    · rename_i hx
      rw [List.getElem?_drop, prefixOf, List.getElem?_map, List.getElem?_range hx]
      simp only [Option.map_some]
      unfold stringStream
      rw [List.getD_eq_getElem?_getD, List.getElem?_append]
      split
      · rename_i hlt; rw [List.getElem?_eq_getElem hlt]; rfl
      · have : a + x = s.length := by omega
        rw [this]; simp
    · rename_i hx
      rw [List.getElem?_eq_none]
      simp [prefixOf]; omega
  · subst e; simp only at run; rw [run] at h2; exact h2
  · subst e; exact run
  · subst e; simp only at run; rw [run] at h2; exact h2

/-- a token that reaches two characters past the end of the string: the lexeme is shorter than the match -/
theorem C53_string_violation : ∃ (ld : List (List Regexp)) (V : List Automaton) (i : Nat) (b : Lexbuf), ld = [[.sequence (.characters [0]) (.characters [0])]] ∧
    makeDfa 10 ld = some (some ([i], V)) ∧ callEntry V nextCharString 5 i (createLexerString []) = (.action 0, b) ∧
    LongestFirst [.sequence (.characters [0]) (.characters [0])] (stringStream []) 0 2 ∧ getLexeme b = some [0] := by
  have h : ∃ i V, makeDfa 10 [[.sequence (.characters [0]) (.characters [0])]] = some (some ([i], V)) ∧
      (callEntry V nextCharString 5 i (createLexerString [])).1 = .action 0 ∧ getLexeme (callEntry V nextCharString 5 i (createLexerString [])).2 = some [0] := by
    have : (match makeDfa 10 [[.sequence (.characters [0]) (.characters [0])]] with
      | some (some ([i], V)) => decide ((callEntry V nextCharString 5 i (createLexerString [])).1 = .action 0) &&
          decide (getLexeme (callEntry V nextCharString 5 i (createLexerString [])).2 = some [0])
      | _ => false) = true := by decide +kernel
    split at this
    · rename_i i V e
      simp only [Bool.and_eq_true, decide_eq_true_eq] at this
      exact ⟨i, V, e, this.1, this.2⟩
    · simp at this
  obtain ⟨i, V, h1, h2, h3⟩ := h
  refine ⟨_, V, i, _, rfl, h1, Prod.ext h2 rfl, ⟨⟨⟨_, rfl, ⟨[0], [0], rfl, ⟨0, by simp, rfl⟩, ⟨0, by simp, rfl⟩⟩⟩, by omega⟩, ?_⟩, h3⟩
  rintro len hl ⟨e, he, m⟩
  rw [List.mem_singleton] at he
  subst he
  obtain ⟨w1, w2, e, ⟨c1, -, rfl⟩, ⟨c2, -, rfl⟩⟩ := m
  have := congrArg List.length e
  simp [prefixOf] at this
  omega

/-! ### examples: the lexer of C48 on a text delivered in two pieces -/

def exRd : Nat → List Nat := fun k => if k = 0 then [97] else if k = 1 then [98, 99] else []

example : (∀ k, (exRd k).length ≤ 1024) ∧ (∀ i, stream exRd i < 256) ∧ ((List.range 2).map exRd).flatten = [97, 98, 99] ∧ Ready exRd 0 (createLexer (List.replicate 2048 0)) := by
  refine ⟨fun k => by unfold exRd; split_ifs <;> simp, fun i => ?_, by decide, C53_create _ _ (by rw [List.length_replicate])⟩
  rw [C53_stream exRd [97, 98, 99] 2 (by decide) (fun k hk => by rcases k with _ | _ | k <;> [decide; decide; omega]) (fun k hk => by unfold exRd; rw [if_neg (by omega), if_neg (by omega)])]
  rcases i with _ | _ | _ | i <;> simp

/-- the token `ab`, cut in two by the reading function, and then `c` with the other entry point -/
example : (match makeDfa 20 exLex with
    | some (some ([i, i'], V)) =>
      let (r, b) := callEntry V (nextChar exRd) 5 i (createLexer (List.replicate 2048 0))
      let (r', b') := callEntry V (nextChar exRd) 5 i' b
      decide (r = .action (actionNumber exLex 0 1)) && decide (getLexeme b = some [97, 98]) && decide (getLexemeEnd b = 2) &&
      decide (r' = .action (actionNumber exLex 1 0)) && decide (getLexeme b' = some [99]) && decide (getLexemeStart b' = 2)
    | _ => false) = true := by decide +kernel

end Mosml.Lex
