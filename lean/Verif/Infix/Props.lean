import Verif.Infix.Lemmas

namespace Mosml.Infix

variable {O I : Type} {asId : O → Option I} {status : I → Status}

/-- C49: the result is the tree over the given sequence in which no operand needs parentheses; there is a result exactly if there is such a tree. -/
theorem C49_infix (objs : List O) (t : Tree O I) : resolveInfix asId status objs = .ok t ↔ Reads asId status t objs ∧ Right status t := by
  constructor
  · intro h
    obtain ⟨root, h⟩ := process_sound objs [] .void [] [] t .nil h
    exact ⟨h.reads, h.right⟩
  · rintro ⟨h1, h2⟩
    obtain ⟨sp, so, _, h3, h4⟩ := (PT.make h1 h2).run
    have h5 := h4 [] [] .void [] (by simp) (by simp)
    rw [List.append_nil] at h5
    unfold resolveInfix
    rw [h5]
    simp only [process]
    rw [h3]
    rfl

/-- C49: the tree is unique. -/
theorem C49_unique {objs : List O} {t t' : Tree O I} (h : Reads asId status t objs ∧ Right status t) (h' : Reads asId status t' objs ∧ Right status t') : t = t' := by
  have a := (C49_infix objs t).2 h
  rw [(C49_infix objs t').2 h'] at a
  cases a; rfl

/-- C49: only sequences of operands separated by single operators have a result; such a sequence is rejected only because operators of equal precedence but
different associativity meet, and then no right tree exists. -/
theorem C49_errors (objs : List O) :
    ((∃ t, resolveInfix asId status objs = .ok t) → WellFormed asId status objs) ∧
    (WellFormed asId status objs → (∃ t, resolveInfix asId status objs = .ok t) ∨
      resolveInfix asId status objs = .error .mixedAssociativity ∧ ¬ ∃ t, Reads asId status t objs ∧ Right status t) := by
  constructor
  · rintro ⟨t, h⟩
    exact ((C49_infix objs t).1 h).1.wellFormed
  · intro h
    rcases (process_enough objs h).1 [] .void [] (by simp) rfl with h1 | h1
    · exact .inl h1
    · refine .inr ⟨h1, ?_⟩
      rintro ⟨t, ht⟩
      have := (C49_infix objs t).2 ht
      unfold resolveInfix at this
      rw [h1] at this
      cases this

/-! ### an example: `f x + 2 * y :: z` with the usual fixities, characters as objects -/

def exStatus (c : Char) : Status := if c = '+' then .infixL 6 else if c = '*' then .infixL 7 else if c = ':' then .infixR 5 else if c = '@' then .infixR 6 else .nonfix

example : resolveInfix some exStatus "fx+2*y:z".toList =
    .ok (.applyId ':' (.applyId '+' (.applyObj (.leaf 'f') (.leaf 'x')) (.applyId '*' (.leaf '2') (.leaf 'y'))) (.leaf 'z')) := by
  simp [resolveInfix, process, exStatus, flushHigher, assocLeft, apply, flushAll]

example : resolveInfix some exStatus "a+b@c".toList = .error .mixedAssociativity := by
  simp [resolveInfix, process, exStatus, flushHigher, assocLeft]

example : resolveInfix some exStatus "a+*b".toList = .error .wrongInfix := by
  simp [resolveInfix, process, exStatus, flushHigher, assocLeft, apply, flushAll]

example : WellFormed some exStatus "a+b@c".toList :=
  .operator (i := '+') (n := 6) (b := true) rfl rfl (.operator (i := '@') (n := 6) (b := false) rfl rfl (.last rfl))

end Mosml.Infix
