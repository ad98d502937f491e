import Verif.Cond.DecideDirect

/-!
# C58: case analysis on integers and constructors

The decision code generated for a `case` on integer, word or character constants, or on
the constructors of a datatype, enters the clause of the value, and gets to the label of
match failure when there is no such clause.
-/

namespace Mosml.Cond

variable {α : Type}

/-- For clauses with distinct keys, the code of the decision tree, put in front of any
code `C`, enters with `n` in accu the clause for `n`, with the jump `br` behind it; and
arrives at the label `sf` if there is no clause for `n`.  Nothing else can happen.
`k` is the last label used before. -/
theorem C58_decision_code (clauses : List (Int × α)) (nd : (clauses.map (·.1)).Nodup) (t : DTree α)
    (ht : compileNBranch clauses = some t) (sf k : Nat) (br : I α) (C : Code α) (hsf : sf ≤ k)
    (hbr : ∀ l, br ≠ .label l) (hC : (labels C).Nodup) (hCk : ∀ l ∈ labels C, l ≤ k) (n : Int) :
    (∃ r, Go (compDec sf br t C k).1 sf (compDec sf br t C k).1 n r) ∧
    ∀ r, Go (compDec sf br t C k).1 sf (compDec sf br t C k).1 n r →
      (∀ a, (n, a) ∈ clauses → ∃ D, r = .enter a (br :: D)) ∧ ((∀ a, (n, a) ∉ clauses) → r = .failed) := by
  have hbr' : NoLabel br := by cases br <;> first | trivial | exact absurd rfl (hbr _)
  have hF := (Fresh.compDec sf br hbr' t C k).2 hC hCk
  obtain ⟨r, h1, h2⟩ := (compDec_ok _ sf hF.1 br t (compileNBranch_treeOk clauses nd t ht) C k hsf).2.2
    (List.suffix_refl _) n
  refine ⟨⟨r, h2⟩, fun r' h' => ?_⟩
  obtain rfl := go_det _ _ h2 h'
  rw [compileNBranch_ok clauses nd t ht n] at h1
  constructor
  · intro a ha
    rw [(look_mem clauses nd n a).2 ha] at h1
    exact h1
  · intro hno
    cases hl : look n clauses with
    | none => rw [hl] at h1; exact h1
    | some a => exact absurd ((look_mem clauses nd n a).1 hl) (hno a)

/-- The same holds in any program in which labels are placed once and which ends with
this code, so also for the code of a `case` inside other code. -/
theorem C58_decision_code_anywhere (clauses : List (Int × α)) (nd : (clauses.map (·.1)).Nodup) (t : DTree α)
    (ht : compileNBranch clauses = some t) (sf k : Nat) (br : I α) (C pre : Code α) (hsf : sf ≤ k)
    (hP : (labels (pre ++ (compDec sf br t C k).1)).Nodup) (n : Int) (a : α) (ha : (n, a) ∈ clauses) :
    ∃ D, Go (pre ++ (compDec sf br t C k).1) sf (compDec sf br t C k).1 n (.enter a (br :: D)) := by
  obtain ⟨r, h1, h2⟩ := (compDec_ok _ sf hP br t (compileNBranch_treeOk clauses nd t ht) C k hsf).2.2
    (List.suffix_append _ _) n
  rw [compileNBranch_ok clauses nd t ht n, (look_mem clauses nd n a).2 ha] at h1
  obtain ⟨D, rfl⟩ := h1
  exact ⟨D, h2⟩

/-- The direct switch on the tags `0 … size - 1`: every tag gets to its clause, followed by
the jump `br` or, for the last clause, by the code `C1` itself; the others get to `sf`. -/
theorem C58_direct_switch (size : Nat) (clauses : List (Nat × α)) (nd : (clauses.map (·.1)).Nodup)
    (sf k : Nat) (br : I α) (C1 : Code α) (hsf : sf ≤ k) (hbr : ∀ l, br ≠ .label l)
    (hC : (labels C1).Nodup) (hCk : ∀ l ∈ labels C1, l ≤ k) (X : Code α) (k' : Nat)
    (hX : compDirect sf size br clauses C1 k = some (X, k')) (i : Nat) (hi : i < size) :
    (∃ r, Go X sf X i r) ∧
    ∀ r, Go X sf X i r →
      (∀ a, (i, a) ∈ clauses → ∃ D, r = .enter a D ∧ (D = C1 ∨ ∃ D', D = br :: D')) ∧
      ((∀ a, (i, a) ∉ clauses) → r = .failed) := by
  have hbr' : NoLabel br := by cases br <;> first | trivial | exact absurd rfl (hbr _)
  obtain ⟨q, hq, he⟩ := Option.map_eq_some_iff.1 hX
  simp only [Prod.mk.injEq] at he
  obtain ⟨rfl, rfl⟩ := he
  obtain ⟨c1, c2, c3, c4⟩ := compCase_ok sf size br C1 clauses k q hsf nd hq
  have hF := ((Fresh.compCase br hbr' C1 _ clauses k q hq).trans
    ((Fresh.dead _ _).trans (Fresh.addSwitch q.1 _ _))).2 hC hCk
  rw [c3] at hF ⊢
  have hl : q.1[i]? = some q.1[i] := List.getElem?_eq_getElem (by omega)
  generalize q.1[i] = l at hl
  have hs := addSwitch_suffix q.1 q.2.1 c3
  have huniq : ∀ a b, (i, a) ∈ clauses → (i, b) ∈ clauses → a = b := by
    intro a b ha hb
    have := List.inj_on_of_nodup_map nd ha hb rfl
    simpa using this
  have main : ∃ r, (∀ m : Int, Jump (addSwitch q.1 q.2.1) sf l m r) ∧
      (∀ a, (i, a) ∈ clauses → ∃ D, r = .enter a D ∧ (D = C1 ∨ ∃ D', D = br :: D')) ∧
      ((∀ a, (i, a) ∉ clauses) → r = .failed) := by
    rcases c4 i l hl with ⟨rfl, h2⟩ | ⟨b, D, h1, h2, h3, h4⟩
    · exact ⟨.failed, fun m => .failed m, fun a ha => absurd ha (h2 a), fun _ => rfl⟩
    · refine ⟨.enter b D, fun m => jump_label _ sf hF.1 l h2 _ (h3.trans hs) m _ (.act b _ m), ?_, ?_⟩
      · intro a ha
        obtain rfl := huniq b a h1 ha
        exact ⟨D, rfl, h4⟩
      · intro hno; exact absurd h1 (hno b)
  obtain ⟨r, r1, r2⟩ := main
  have hg := addSwitch_go _ sf hF.1 q.1 q.2.1 c3 (List.suffix_refl _) i l hl r r1
  refine ⟨⟨r, hg⟩, fun r' h' => ?_⟩
  obtain rfl := go_det _ _ hg h'
  exact r2

/-- Jump tables of decision code have at most 255 entries, so they pass the check
`checkBranches` of the emission (Emitcode.sml:26-27, 168-175). -/
theorem C58_tables_fit (clauses : List (Int × α)) (nd : (clauses.map (·.1)).Nodup) (t : DTree α)
    (ht : compileNBranch clauses = some t) (sf k : Nat) (br : I α) (C : Code α) (hbr : ∀ ls, br ≠ .switch ls)
    (ls : List Nat) (h : .switch ls ∈ (compDec sf br t C k).1) : .switch ls ∈ C ∨ ls.length ≤ 255 :=
  Tables.compDec sf br hbr t (compileNBranch_treeOk clauses nd t ht) C k (fun _ h => Or.inl h) ls h

/-- The decision tree is found when any two keys are less than 2^62 apart. -/
theorem C58_compiles_partial (clauses : List (Int × α))
    (h : ∀ c ∈ clauses, ∀ d ∈ clauses, c.1 - d.1 < 2 ^ 62) : ∃ t, compileNBranch clauses = some t := by
  obtain ⟨ps, hps⟩ := partition_some (sort clauses) (by
    intro i hi j hj
    have e1 := keyAt_eq (sort clauses) i _ (List.getElem?_eq_getElem hi)
    have e2 := keyAt_eq (sort clauses) j _ (List.getElem?_eq_getElem hj)
    have m1 : (sort clauses)[i] ∈ clauses := (sort_perm clauses).mem_iff.1 (List.getElem_mem hi)
    have m2 : (sort clauses)[j] ∈ clauses := (sort_perm clauses).mem_iff.1 (List.getElem_mem hj)
    have h1 := h _ m1 _ m2
    have h2 := h _ m2 _ m1
    rw [← e1, ← e2] at h1 h2
    exact subInt_some (by omega) h1) (sort clauses).length 0
  exact ⟨_, by rw [compileNBranch, hps, Option.map_some]⟩

/-- Otherwise the compiler may die of Overflow on a legal program: the two patterns
`~4611686018427387904` and `1` in one match. -/
theorem C58_overflow_violation (a b : α) :
    compileNBranch [(-4611686018427387904, a), (1, b)] = none := by
  have e1 : sort [(-4611686018427387904, a), (1, b)] = [(-4611686018427387904, a), (1, b)] := by
    simp [sort, initList, mergeAll]
  simp [compileNBranch, e1, partition, findStop, keyAt, subInt]

/-! ## Examples -/

/-- Three clauses, two of them close: two segments. -/
example : ∃ t, compileNBranch [(100000, 'c'), (1, 'a'), (3, 'b')] = some t :=
  C58_compiles_partial _ (by decide)

example (t : DTree Char) (ht : compileNBranch [(100000, 'c'), (1, 'a'), (3, 'b')] = some t) (r : Res Char)
    (h : Go (compDec 7 (.branch 8) t [.label 8, .other false 0] 8).1 7
      (compDec 7 (.branch 8) t [.label 8, .other false 0] 8).1 2 r) : r = .failed :=
  ((C58_decision_code _ (by decide) t ht 7 8 (.branch 8) [.label 8, .other false 0] (by decide)
    (by intro l; simp) (by decide) (by decide) 2).2 r h).2 (by
      intro a ha
      simp at ha)

example (t : DTree Char) (ht : compileNBranch [(100000, 'c'), (1, 'a'), (3, 'b')] = some t) (r : Res Char)
    (h : Go (compDec 7 (.branch 8) t [.label 8, .other false 0] 8).1 7
      (compDec 7 (.branch 8) t [.label 8, .other false 0] 8).1 3 r) : ∃ D, r = .enter 'b' (.branch 8 :: D) :=
  ((C58_decision_code _ (by decide) t ht 7 8 (.branch 8) [.label 8, .other false 0] (by decide)
    (by intro l; simp) (by decide) (by decide) 3).2 r h).1 'b' (by simp)

/-- A direct switch with three of four tags. -/
example : (compDirect 7 4 (.branch 8) [(2, 'c'), (0, 'a'), (3, 'd')] [.label 8, .other false 0] 8).map (·.1) =
    some [.switch [10, 7, 11, 9], .label 11, .act 'c', .branch 8, .label 10, .act 'a', .branch 8,
      .label 9, .act 'd', .label 8, .other false 0] := by decide +kernel

end Mosml.Cond
