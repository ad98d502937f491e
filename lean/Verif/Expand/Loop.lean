import Verif.Expand.Operands

/-!
# The two loops of expand.c
-/

namespace Mosml.Expand

open Mosml.Emit

/-- Words taken by the instruction at position `p`. -/
def size1 (code : List Nat) (p : Nat) : Option Nat :=
  (code[p]?).bind fun op => (operands mapCases op).bind fun os =>
  (sizes os (code.drop (p + 1))).map fun s => 1 + s.2

structure Step (code : List Nat) (p : Nat) (raws : List Raw) (p' w : Nat) (op : Nat)
    (os : List Opd) (k : Nat) : Prop where
  byte : code[p]? = some op
  mapc : operands mapCases op = some os
  expc : operands expCases op = some os
  next : p' = p + 1 + k
  le : p' ≤ code.length
  size : sizes os (code.drop (p + 1)) = some (k, w)
  write : ∀ real : List Int, real.length = code.length →
    (∀ a ∈ raws, ∀ l ∈ a.labels, Inside code.length l) →
    ∃ ws, words real (p + 1) os (code.drop (p + 1)) = some (ws, k) ∧ ws.length = w ∧
      ∀ q rest, tdecode1 q (.instr op :: (ws ++ rest)) =
        some (raws.map (Op.move (tgt real)), q + 1 + w, rest)

theorem step_info {code : List Nat} {p : Nat} {raws : List Raw} {p' : Nat} {bs' : List Nat}
    (h : decode1 p (code.drop p) = some (raws, p', bs')) :
    bs' = code.drop p' ∧ ∃ op os k w, Step code p raws p' w op os k := by
  have hp : p < code.length := by
    by_contra hc
    rw [List.drop_eq_nil_of_le (Nat.le_of_not_lt hc)] at h
    simp [decode1] at h
  rw [List.drop_eq_getElem_cons hp] at h
  simp only [decode1, Option.bind_eq_some_iff, Option.map_eq_some_iff, Prod.mk.injEq] at h
  obtain ⟨e, he, ⟨x, k, r⟩, hr, h1, h2, h3⟩ := h
  simp only at h1 h2 h3
  subst h3
  have hmem : e ∈ table := List.mem_of_getElem? he
  obtain ⟨os, o1, o2, o3⟩ := agree he
  obtain ⟨w, g⟩ := goodAll (real := []) o3 hr
  have hlen := g.len
  rw [List.length_drop] at hlen
  refine ⟨?_, code[p], os, k, w, List.getElem?_eq_getElem hp, o1, o2, h2.symm, by omega, g.size, ?_⟩
  · rw [g.rest, List.drop_drop, h2]
  · intro real hreal hin
    obtain ⟨w', g'⟩ := goodAll (real := real) o3 hr
    have hw : w' = w := by
      have := g'.size
      rw [g.size] at this
      simp only [Option.some.injEq, Prod.mk.injEq] at this
      omega
    subst hw
    have hx : ∀ l ∈ x.labels, Inside real.length l := by
      rw [hreal]
      rcases ops_labels e hmem with hn | hs
      · rw [readArgs_nolabels hn hr]; simp
      · obtain ⟨a, ha, hl⟩ := hs x.nums x.labels x.slots
        rw [h1] at ha
        intro l hl'
        exact hin a ha l (by rw [hl]; exact hl')
    obtain ⟨ws, a1, a2, a3⟩ := g'.write hx
    refine ⟨ws, a1, a2, ?_⟩
    intro q rest
    simp only [tdecode1, he, Option.bind_some, a3, Option.map_some]
    rw [← h1, ← ops_move (tgt real) e hmem]
    rfl

/-- From position `p` in the bytecode and index `q` in the threaded code, instruction by
instruction, position `i` and index `j` are reached. -/
inductive Reach (code : List Nat) : Nat → Nat → Nat → Nat → Prop where
  | refl (p q : Nat) : Reach code p q p q
  | step {p q p' w i j : Nat} {raws : List Raw} {bs' : List Nat} :
      decode1 p (code.drop p) = some (raws, p', bs') → size1 code p = some w →
      Reach code p' (q + w) i j → Reach code p q i j

theorem Reach.le {code : List Nat} {p q i j : Nat} (h : Reach code p q i j) : p ≤ i ∧ q ≤ j := by
  induction h with
  | refl => exact ⟨Nat.le_refl _, Nat.le_refl _⟩
  | step hd _ _ ih =>
      obtain ⟨_, _, _, _, _, s⟩ := step_info hd
      have := s.next
      omega

theorem Reach.trans {code : List Nat} {p q i j i' j' : Nat} (h : Reach code p q i j)
    (h' : Reach code i j i' j') : Reach code p q i' j' := by
  induction h with
  | refl => exact h'
  | step hd hs _ ih => exact .step hd hs (ih h')

theorem Step.size1 {code : List Nat} {p p' w op k : Nat} {raws : List Raw} {os : List Opd}
    (s : Step code p raws p' w op os k) : size1 code p = some (1 + w) := by
  simp only [Expand.size1, s.byte, Option.bind_some, s.mapc, s.size, Option.map_some]

theorem reach_cases {code : List Nat} {p q i j p' w : Nat} {raws : List Raw} {bs' : List Nat}
    (h : Reach code p q i j) (hd : decode1 p (code.drop p) = some (raws, p', bs'))
    (hw : size1 code p = some w) : (i = p ∧ j = q) ∨ Reach code p' (q + w) i j := by
  cases h with
  | refl => exact .inl ⟨rfl, rfl⟩
  | step hd' hw' h' =>
      rw [hd] at hd'
      rw [hw] at hw'
      cases hd'
      cases hw'
      exact .inr h'

theorem mapLoop_ok {code : List Nat} {p e : Nat} {bs cs : List Nat} {raws : List Raw}
    (h : Decodes p bs raws e cs) : bs = code.drop p → e = code.length → cs = [] →
    ∀ (fuel q : Nat) (m : List Int), code.length < fuel + p → m.length = code.length →
    ∃ n m', mapLoop code fuel p q m = some (n, m') ∧ m'.length = code.length ∧
      (∀ i < p, m'[i]? = m[i]?) ∧ Reach code p q code.length n ∧
      ∀ i j, Reach code p q i j → (i < code.length → m'[i]? = some (j : Int)) ∧
        (i = code.length → j = n) := by
  induction h with
  | nil p bs =>
      intro hb he hc fuel q m hf hm
      subst he
      obtain ⟨f, rfl⟩ : ∃ f, fuel = f + 1 := ⟨fuel - 1, by omega⟩
      refine ⟨q, m, ?_, hm, fun _ _ => rfl, .refl _ _, ?_⟩
      · simp only [mapLoop, List.getElem?_eq_none (Nat.le_refl _)]
      · intro i j hr
        cases hr with
        | refl => exact ⟨fun h => absurd h (Nat.lt_irrefl _), fun _ => rfl⟩
        | step hd _ _ => rw [List.drop_length] at hd; simp [decode1] at hd
  | @step p p' e bs bs' cs xs ys hd _ ih =>
      intro hb he hc fuel q m hf hm
      subst hb
      obtain ⟨hb', op, os, k, w, s⟩ := step_info hd
      have hn := s.next
      have hle := s.le
      obtain ⟨f, rfl⟩ : ∃ f, fuel = f + 1 := ⟨fuel - 1, by omega⟩
      obtain ⟨n, m', h1, h2, h3, h4, h5⟩ := ih hb' he hc f (q + (1 + w)) (m.set p (q : Int))
        (by omega) (by rw [List.length_set]; exact hm)
      refine ⟨n, m', ?_, h2, ?_, .step hd s.size1 h4, ?_⟩
      · simp only [mapLoop, s.byte, s.mapc, Option.bind_some, s.size]
        rw [← hn, Nat.add_assoc q 1 w]
        exact h1
      · intro i hi
        rw [h3 i (by omega), List.getElem?_set_ne (by omega)]
      · intro i j hr
        rcases reach_cases hr hd s.size1 with ⟨rfl, rfl⟩ | hr'
        · refine ⟨fun _ => ?_, fun hi => ?_⟩
          · rw [h3 i (by omega), List.getElem?_set_self (by rw [hm]; omega)]
          · omega
        · exact h5 i j hr'

theorem expLoop_ok {code : List Nat} {p e : Nat} {bs cs : List Nat} {raws : List Raw}
    {real : List Int} {n : Nat} (hreal : real.length = code.length)
    (h : Decodes p bs raws e cs) : bs = code.drop p → e = code.length → cs = [] →
    (∀ a ∈ raws, ∀ l ∈ a.labels, Inside code.length l) →
    ∀ (fuel : Nat) (done : List Word), code.length < fuel + p →
    Reach code p done.length code.length n →
    ∃ ws, expLoop code n real fuel p done = some (done ++ ws) ∧ done.length + ws.length = n ∧
      ∀ i j, Reach code p done.length i j → ∀ ops i' bs'',
        decode1 i (code.drop i) = some (ops, i', bs'') →
        ∃ j', Reach code i j i' j' ∧
          tdecode1 j ((done ++ ws).drop j) =
            some (ops.map (Op.move (tgt real)), j', (done ++ ws).drop j') := by
  induction h with
  | nil p bs =>
      intro hb he hc hin fuel done hf hr
      subst he
      obtain ⟨f, rfl⟩ : ∃ f, fuel = f + 1 := ⟨fuel - 1, by omega⟩
      refine ⟨[], ?_, ?_, ?_⟩
      · simp only [expLoop, List.getElem?_eq_none (Nat.le_refl _), List.append_nil]
      · cases hr with
        | refl => simp
        | step hd _ _ => rw [List.drop_length] at hd; simp [decode1] at hd
      · intro i j hr ops i' bs'' hd'
        cases hr with
        | refl => rw [List.drop_length] at hd'; simp [decode1] at hd'
        | step hd _ _ => rw [List.drop_length] at hd; simp [decode1] at hd
  | @step p p' e bs bs' cs xs ys hd _ ih =>
      intro hb he hc hin fuel done hf hr
      subst hb
      obtain ⟨hb', op, os, k, w, s⟩ := step_info hd
      have hn := s.next
      have hle := s.le
      obtain ⟨f, rfl⟩ : ∃ f, fuel = f + 1 := ⟨fuel - 1, by omega⟩
      obtain ⟨ws, a1, a2, a3⟩ := s.write real hreal
        (fun a ha => hin a (List.mem_append_left _ ha))
      have hr' : Reach code p' (done ++ .instr op :: ws).length code.length n := by
        rcases reach_cases hr hd s.size1 with ⟨h1, _⟩ | hr'
        · omega
        · have : (done ++ .instr op :: ws).length = done.length + (1 + w) := by
            simp only [List.length_append, List.length_cons, a2]; omega
          rw [this]; exact hr'
      obtain ⟨ws', b1, b2, b3⟩ := ih hb' he hc (fun a ha => hin a (List.mem_append_right _ ha))
        f (done ++ .instr op :: ws) (by omega) hr'
      have e1 : done ++ .instr op :: ws ++ ws' = done ++ (.instr op :: ws ++ ws') := by simp
      refine ⟨.instr op :: ws ++ ws', ?_, ?_, ?_⟩
      · simp only [expLoop, s.byte, s.expc, Option.bind_some, a1]
        rw [if_pos, ← hn, b1, e1]
        simp only [List.length_append, List.length_cons] at b2
        omega
      · simp only [List.length_append, List.length_cons] at b2 ⊢
        omega
      · intro i j hr1 ops i' bs'' hd'
        rcases reach_cases hr1 hd s.size1 with ⟨rfl, rfl⟩ | hr2
        · rw [hd] at hd'
          cases hd'
          refine ⟨done.length + (1 + w), .step hd s.size1 (.refl _ _), ?_⟩
          rw [List.drop_left, List.cons_append, a3]
          have : (done ++ .instr op :: (ws ++ ws')).drop (done.length + (1 + w)) = ws' := by
            have e2 : done ++ .instr op :: (ws ++ ws') = (done ++ .instr op :: ws) ++ ws' := by simp
            rw [e2]
            apply List.drop_left'
            simp only [List.length_append, List.length_cons, a2]; omega
          rw [this, Nat.add_assoc]
        · have hl : (done ++ .instr op :: ws).length = done.length + (1 + w) := by
            simp only [List.length_append, List.length_cons, a2]; omega
          rw [← e1]
          exact b3 i j (by rw [hl]; exact hr2) ops i' bs'' hd'

end Mosml.Expand
