import Verif.Yacc.Mkpar

namespace Mosml.Yacc.Mkpar
open Mosml.Yacc.Pack (Action Code)

/-! ### the list of actions -/

/-- the order of the list: by symbol, a shift before reductions, and these by the number of their rule -/
def Le (p q : Action) : Prop :=
  p.symbol < q.symbol ∨ p.symbol = q.symbol ∧ (p.code = .shift ∨ q.code = .reduce ∧ p.number ≤ q.number)

theorem addLoop3_perm (a : Action) : ∀ as, (addLoop3 a as).Perm (a :: as)
  | [] => List.Perm.refl _
  | p :: ps => by
    unfold addLoop3
    split
    · exact ((addLoop3_perm a ps).cons p).trans (List.Perm.swap a p ps)
    · exact List.Perm.refl _

theorem addLoop2_perm (a : Action) : ∀ as, (addLoop2 a as).Perm (a :: as)
  | [] => List.Perm.refl _
  | p :: ps => by
    unfold addLoop2
    split
    · exact ((addLoop2_perm a ps).cons p).trans (List.Perm.swap a p ps)
    · exact addLoop3_perm a _

theorem addReduce_perm (a : Action) : ∀ as, (addReduce a as).Perm (a :: as)
  | [] => List.Perm.refl _
  | p :: ps => by
    unfold addReduce
    split
    · exact ((addReduce_perm a ps).cons p).trans (List.Perm.swap a p ps)
    · exact addLoop2_perm a _

theorem code_cases (p : Action) : p.code = .shift ∨ p.code = .reduce := by cases h : p.code <;> simp

theorem addLoop3_sorted (a : Action) (ha : a.code = .reduce) : ∀ as, as.Pairwise Le →
    (∀ p ∈ as, a.symbol ≤ p.symbol ∧ (p.symbol = a.symbol → p.code = .reduce)) → (addLoop3 a as).Pairwise Le
  | [], _, _ => by simp [addLoop3]
  | p :: ps, h, hs => by
    rw [List.pairwise_cons] at h
    unfold addLoop3
    split
    · rename_i c
      rw [List.pairwise_cons]
      refine ⟨?_, addLoop3_sorted a ha ps h.2 fun q hq => hs q (by simp [hq])⟩
      intro q hq
      rcases List.mem_cons.1 ((addLoop3_perm a ps).mem_iff.1 hq) with rfl | hq
      · exact .inr ⟨c.1, .inr ⟨ha, by omega⟩⟩
      · exact h.1 q hq
    · rename_i c
      rw [List.pairwise_cons]
      have hp := hs p (by simp)
      have key : Le a p := by
        rcases Nat.lt_or_ge a.symbol p.symbol with x | x
        · exact .inl x
        · have e : p.symbol = a.symbol := by omega
          refine .inr ⟨e.symm, .inr ⟨hp.2 e, ?_⟩⟩
          by_contra hn
          exact c ⟨e, hp.2 e, by omega⟩
      refine ⟨?_, List.pairwise_cons.2 h⟩
      intro q hq
      rcases List.mem_cons.1 hq with rfl | hq
      · exact key
      · have hq' := hs q (by simp [hq])
        rcases Nat.lt_or_ge a.symbol q.symbol with x | x
        · exact .inl x
        · have e : q.symbol = a.symbol := by omega
          refine .inr ⟨e.symm, .inr ⟨hq'.2 e, ?_⟩⟩
          rcases key with k | ⟨k1, k2⟩
          · have := h.1 q hq
            rcases this with t | t <;> omega
          · have := h.1 q hq
            rcases k2 with k2 | k2
            · rw [ha] at k2; cases k2
            · rcases this with t | ⟨_, t⟩
              · omega
              · rcases t with t | t
                · rw [t] at k2; cases k2.1
                · omega

theorem addLoop2_sorted (a : Action) (ha : a.code = .reduce) : ∀ as, as.Pairwise Le → (∀ p ∈ as, a.symbol ≤ p.symbol) →
    (addLoop2 a as).Pairwise Le
  | [], _, _ => by simp [addLoop2]
  | p :: ps, h, hs => by
    have h' := List.pairwise_cons.1 h
    unfold addLoop2
    split
    · rename_i c
      rw [List.pairwise_cons]
      refine ⟨?_, addLoop2_sorted a ha ps h'.2 fun q hq => hs q (by simp [hq])⟩
      intro q hq
      rcases List.mem_cons.1 ((addLoop2_perm a ps).mem_iff.1 hq) with rfl | hq
      · exact .inr ⟨c.1, .inl c.2⟩
      · exact h'.1 q hq
    · rename_i c
      refine addLoop3_sorted a ha _ h ?_
      intro q hq
      refine ⟨hs q hq, ?_⟩
      intro e
      rcases List.mem_cons.1 hq with rfl | hq
      · rcases code_cases q with k | k
        · exact absurd ⟨e, k⟩ c
        · exact k
      · have hp := hs p (by simp)
        rcases h'.1 q hq with t | ⟨t1, t2⟩
        · omega
        · rcases t2 with t2 | t2
          · exact absurd ⟨by omega, t2⟩ c
          · exact t2.1

theorem addReduce_sorted (a : Action) (ha : a.code = .reduce) : ∀ as, as.Pairwise Le → (addReduce a as).Pairwise Le
  | [], _ => by simp [addReduce]
  | p :: ps, h => by
    have h' := List.pairwise_cons.1 h
    unfold addReduce
    split
    · rename_i c
      rw [List.pairwise_cons]
      refine ⟨?_, addReduce_sorted a ha ps h'.2⟩
      intro q hq
      rcases List.mem_cons.1 ((addReduce_perm a ps).mem_iff.1 hq) with rfl | hq
      · exact .inl c
      · exact h'.1 q hq
    · rename_i c
      refine addLoop2_sorted a ha _ h ?_
      intro q hq
      rcases List.mem_cons.1 hq with rfl | hq
      · omega
      · rcases h'.1 q hq with t | t <;> omega

/-- the reduction by the rule `r` on the token `j` -/
def red (rprec rassoc : Nat → Int) (r j : Nat) : Action := { symbol := j, number := r, prec := rprec r, code := .reduce, assoc := rassoc r }

theorem addRule_spec (rprec rassoc : Nat → Int) (r : Nat) (row : Nat → Bool) : ∀ (n : Nat) (as : List Action), as.Pairwise Le →
    (addRule rprec rassoc r row n as).Pairwise Le ∧
    ∀ a, a ∈ addRule rprec rassoc r row n as ↔ a ∈ as ∨ ∃ j < n, row j = true ∧ a = red rprec rassoc r j
  | 0, as, h => by simp [addRule, h]
  | n + 1, as, h => by
    simp only [addRule]
    by_cases hr : row n = true
    · rw [if_pos hr]
      obtain ⟨x, y⟩ := addRule_spec rprec rassoc r row n _ (addReduce_sorted (red rprec rassoc r n) rfl as h)
      refine ⟨x, ?_⟩
      intro a
      refine (y a).trans ?_
      rw [(addReduce_perm _ as).mem_iff, List.mem_cons]
      constructor
      · rintro ((e | e) | ⟨j, a1, a2⟩)
        · exact .inr ⟨n, by omega, hr, e⟩
        · exact .inl e
        · exact .inr ⟨j, by omega, a2⟩
      · rintro (e | ⟨j, a1, a2, a3⟩)
        · exact .inl (.inr e)
        · by_cases e : j = n
          · subst e; exact .inl (.inl a3)
          · exact .inr ⟨j, by omega, a2, a3⟩
    · rw [if_neg hr]
      obtain ⟨x, y⟩ := addRule_spec rprec rassoc r row n as h
      refine ⟨x, ?_⟩
      intro a
      rw [y]
      constructor
      · rintro (e | ⟨j, a1, a2⟩)
        · exact .inl e
        · exact .inr ⟨j, by omega, a2⟩
      · rintro (e | ⟨j, a1, a2, a3⟩)
        · exact .inl e
        · by_cases e : j = n
          · subst e; exact absurd a2 hr
          · exact .inr ⟨j, by omega, a2, a3⟩

/-- C52: the list of actions of a state holds one shift for every transition on a token and one reduction for every rule and look-ahead, sorted by
token, with the shift first and the reductions in the order of the grammar.  The transitions of a state are sorted by symbol (lr0.c:256-285). -/
theorem C52_actions (startSymbol ntokens : Nat) (acc : Nat → Nat) (prec assoc rprec rassoc : Nat → Int) (shifts : List Nat)
    (las : List (Nat × (Nat → Bool))) (hs : shifts.Pairwise fun a b => acc a < acc b) :
    let as := addReductions rprec rassoc ntokens las (getShifts startSymbol acc prec assoc shifts)
    as.Pairwise Le ∧ (∀ a ∈ as, a.suppressed = 0) ∧
    (∀ x k, (∃ a ∈ as, a.code = .shift ∧ a.symbol = x ∧ a.number = k) ↔ x < startSymbol ∧ ∃ q ∈ shifts, acc q = x ∧ k = (q : Int)) ∧
    (∀ x k, (∃ a ∈ as, a.code = .reduce ∧ a.symbol = x ∧ a.number = k) ↔ x < ntokens ∧ ∃ la ∈ las, la.2 x = true ∧ k = (la.1 : Int)) := by
  intro as
  have gen : ∀ (las : List (Nat × (Nat → Bool))) (bs : List Action), bs.Pairwise Le →
      (addReductions rprec rassoc ntokens las bs).Pairwise Le ∧
      ∀ a, a ∈ addReductions rprec rassoc ntokens las bs ↔ a ∈ bs ∨ ∃ la ∈ las, ∃ j < ntokens, la.2 j = true ∧ a = red rprec rassoc la.1 j := by
    intro las
    induction las with
    | nil => intro bs h; simp [addReductions, h]
    | cons la las ih =>
      intro bs h
      obtain ⟨r, row⟩ := la
      obtain ⟨x, y⟩ := addRule_spec rprec rassoc r row ntokens bs h
      obtain ⟨x2, y2⟩ := ih _ x
      refine ⟨x2, ?_⟩
      intro a
      refine (y2 a).trans ?_
      rw [y]
      simp only [List.mem_cons, exists_eq_or_imp, or_assoc]
  have hg : (getShifts startSymbol acc prec assoc shifts).Pairwise Le := by
    unfold getShifts
    rw [List.pairwise_map]
    refine List.Pairwise.imp ?_ (hs.filter _)
    intro a b h
    exact .inl h
  obtain ⟨x, y⟩ := gen las _ hg
  have hm : ∀ a, a ∈ getShifts startSymbol acc prec assoc shifts ↔ ∃ q ∈ shifts, acc q < startSymbol ∧
      a = { symbol := acc q, number := q, prec := prec (acc q), code := .shift, assoc := assoc (acc q) } := by
    intro a
    simp only [getShifts, List.mem_map, List.mem_filter, decide_eq_true_eq]
    constructor
    · rintro ⟨q, ⟨h1, h2⟩, rfl⟩; exact ⟨q, h1, h2, rfl⟩
    · rintro ⟨q, h1, h2, rfl⟩; exact ⟨q, ⟨h1, h2⟩, rfl⟩
  refine ⟨x, ?_, ?_, ?_⟩
  · intro a ha
    rcases (y a).1 ha with h | ⟨la, _, j, _, _, rfl⟩
    · obtain ⟨q, _, _, rfl⟩ := (hm a).1 h
      rfl
    · rfl
  · intro t k
    constructor
    · rintro ⟨a, ha, h1, h2, h3⟩
      rcases (y a).1 ha with h | ⟨la, _, j, _, _, rfl⟩
      · obtain ⟨q, h4, h5, rfl⟩ := (hm a).1 h
        exact ⟨h2 ▸ h5, q, h4, h2, h3.symm⟩
      · cases h1
    · rintro ⟨h1, q, h2, h3, h4⟩
      exact ⟨_, (y _).2 (.inl ((hm _).2 ⟨q, h2, h3 ▸ h1, rfl⟩)), rfl, h3, h4.symm⟩
  · intro t k
    constructor
    · rintro ⟨a, ha, h1, h2, h3⟩
      rcases (y a).1 ha with h | ⟨la, h4, j, h5, h6, rfl⟩
      · obtain ⟨q, h4, h5, rfl⟩ := (hm a).1 h
        cases h1
      · have e : j = t := h2
        subst e
        exact ⟨h5, la, h4, h6, h3.symm⟩
    · rintro ⟨h1, la, h2, h3, h4⟩
      exact ⟨_, (y _).2 (.inr ⟨la, h2, t, h1, h3, rfl⟩), rfl, rfl, h4.symm⟩

/-! ### conflicts -/

theorem step_symbol (final : Bool) (pref p : Action) : (step final pref p).1.symbol = pref.symbol ∧ (step final pref p).2.1.symbol = p.symbol := by
  unfold step
  repeat' split
  all_goals exact ⟨rfl, rfl⟩

theorem step_same (final : Bool) (pref p : Action) : { (step final pref p).1 with suppressed := 0 } = { pref with suppressed := 0 } ∧
    { (step final pref p).2.1 with suppressed := 0 } = { p with suppressed := 0 } := by
  unfold step
  repeat' split
  all_goals exact ⟨rfl, rfl⟩

theorem step_switch (final : Bool) (pref p : Action) :
    ((step final pref p).2.2.1 = true → (step final pref p).1.suppressed ≠ 0 ∧ (step final pref p).2.1 = p) ∧
    ((step final pref p).2.2.1 = false → (step final pref p).2.1.suppressed ≠ 0) := by
  unfold step
  repeat' split
  all_goals simp

theorem removeLoop_unique (final : Bool) : ∀ (rest acc : List Action) (pref : Action) (mid : List Action) (sr rr : Nat),
    (∀ a ∈ mid, a.suppressed ≠ 0) → (∀ a ∈ acc, a.symbol ≤ pref.symbol ∧ (a.suppressed = 0 → a.symbol < pref.symbol)) →
    (acc.filter (fun a => a.suppressed = 0)).Pairwise (fun a b => b.symbol < a.symbol) →
    (∀ p ∈ rest, pref.symbol ≤ p.symbol) → rest.Pairwise (fun a b => a.symbol ≤ b.symbol) → (∀ a ∈ mid, a.symbol ≤ pref.symbol) →
    ((removeLoop final acc pref mid sr rr rest).1.filter (fun a => a.suppressed = 0)).Pairwise (fun a b => a.symbol < b.symbol)
  | [], acc, pref, mid, sr, rr, h1, h2, h3, h4, h5, h6 => by
    simp only [removeLoop, List.filter_reverse, List.pairwise_reverse, List.filter_append]
    have : mid.filter (fun a => a.suppressed = 0) = [] := by
      rw [List.filter_eq_nil_iff]; intro a ha; simpa using h1 a ha
    rw [this, List.nil_append, List.filter_cons]
    split
    · rw [List.pairwise_cons]
      refine ⟨?_, h3⟩
      intro a ha
      rw [List.mem_filter, decide_eq_true_eq] at ha
      exact (h2 a ha.1).2 ha.2
    · exact h3
  | p :: ps, acc, pref, mid, sr, rr, h1, h2, h3, h4, h5, h6 => by
    have hm : mid.filter (fun a => a.suppressed = 0) = [] := by
      rw [List.filter_eq_nil_iff]; intro a ha; simpa using h1 a ha
    rw [List.pairwise_cons] at h5
    have h4p := h4 p (by simp)
    have h4' : ∀ q ∈ ps, pref.symbol ≤ q.symbol := fun q hq => h4 q (by simp [hq])
    simp only [removeLoop]
    split
    · rename_i c
      refine removeLoop_unique final ps _ p [] sr rr (by simp) ?_ ?_ h5.1 h5.2 (by simp)
      · intro a ha
        rcases List.mem_append.1 ha with ha | ha
        · exact ⟨by have := h6 a ha; omega, fun e => absurd e (h1 a ha)⟩
        · rcases List.mem_cons.1 ha with rfl | ha
          · exact ⟨h4p, fun _ => by omega⟩
          · have := h2 a ha
            exact ⟨by omega, fun e => by have := this.2 e; omega⟩
      · rw [List.filter_append, hm, List.nil_append, List.filter_cons]
        split
        · rw [List.pairwise_cons]
          refine ⟨?_, h3⟩
          intro a ha
          rw [List.mem_filter, decide_eq_true_eq] at ha
          exact (h2 a ha.1).2 ha.2
        · exact h3
    · rename_i c
      have c : p.symbol = pref.symbol := by simpa using c
      have e1 := (step_symbol final pref p).1
      have e2 := (step_symbol final pref p).2
      split
      · rename_i sw
        obtain ⟨s1, s2⟩ := (step_switch final pref p).1 sw
        rw [s2]
        refine removeLoop_unique final ps _ p [] _ _ (by simp) ?_ ?_ (fun q hq => by have := h4' q hq; omega) h5.2 (by simp)
        · intro a ha
          rcases List.mem_append.1 ha with ha | ha
          · exact ⟨by have := h6 a ha; omega, fun e => absurd e (h1 a ha)⟩
          · rcases List.mem_cons.1 ha with rfl | ha
            · exact ⟨by omega, fun e => absurd e s1⟩
            · have := h2 a ha
              exact ⟨by omega, fun e => by have := this.2 e; omega⟩
        · rw [List.filter_append, hm, List.nil_append, List.filter_cons, if_neg (by simpa using s1)]
          exact h3
      · rename_i sw
        have s1 := (step_switch final pref p).2 (by simpa using sw)
        refine removeLoop_unique final ps acc _ _ _ _ ?_ (by rw [e1]; exact h2) h3 (by rw [e1]; exact h4') h5.2 ?_
        · intro a ha
          rcases List.mem_cons.1 ha with rfl | ha
          · exact s1
          · exact h1 a ha
        · intro a ha
          rw [e1]
          rcases List.mem_cons.1 ha with rfl | ha
          · omega
          · exact h6 a ha

theorem removeLoop_same (final : Bool) : ∀ (rest acc : List Action) (pref : Action) (mid : List Action) (sr rr : Nat),
    (removeLoop final acc pref mid sr rr rest).1.map (fun a => { a with suppressed := 0 }) =
      ((mid ++ pref :: acc).reverse ++ rest).map (fun a => { a with suppressed := 0 })
  | [], acc, pref, mid, sr, rr => by simp [removeLoop]
  | p :: ps, acc, pref, mid, sr, rr => by
    simp only [removeLoop]
    obtain ⟨e1, e2⟩ := step_same final pref p
    split
    · rw [removeLoop_same final ps]
      simp
    · split
      · rw [removeLoop_same final ps]
        simp only [List.nil_append, List.reverse_cons, List.reverse_append, List.append_assoc, List.map_append, List.map_cons, List.map_nil, e1, e2,
          List.cons_append]
      · rw [removeLoop_same final ps]
        simp only [List.cons_append, List.reverse_cons, List.reverse_append, List.append_assoc, List.map_append, List.map_cons, List.map_nil, e1, e2,
          List.nil_append]

/-- C52: `remove_conflicts` leaves at most one action for every token, and changes nothing but the marks -/
theorem C52_unique (final : Bool) (row : List Action) (hs : row.Pairwise Le) :
    ((removeConflicts final row).1.filter (fun a => a.suppressed = 0)).Pairwise (fun a b => a.symbol < b.symbol) ∧
    (removeConflicts final row).1.map (fun a => { a with suppressed := 0 }) = row.map (fun a => { a with suppressed := 0 }) := by
  cases row with
  | nil => simp [removeConflicts]
  | cons p ps =>
    have hs' : (p :: ps).Pairwise (fun a b => a.symbol ≤ b.symbol) := hs.imp fun {a b} h => by rcases h with h | h <;> omega
    rw [List.pairwise_cons] at hs'
    exact ⟨removeLoop_unique final ps [] p [] 0 0 (by simp) (by simp) (by simp) hs'.1 hs'.2 (by simp), removeLoop_same final ps [] p [] 0 0⟩

/-- what `removeLoop` has done before has no influence -/
theorem removeLoop_acc (final : Bool) : ∀ (rest acc : List Action) (pref : Action) (mid : List Action) (sr rr : Nat),
    removeLoop final acc pref mid sr rr rest =
      (acc.reverse ++ (removeLoop final [] pref mid 0 0 rest).1, sr + (removeLoop final [] pref mid 0 0 rest).2.1,
        rr + (removeLoop final [] pref mid 0 0 rest).2.2)
  | [], acc, pref, mid, sr, rr => by simp [removeLoop]
  | p :: ps, acc, pref, mid, sr, rr => by
    simp only [removeLoop]
    split
    · rw [removeLoop_acc final ps (mid ++ pref :: acc), removeLoop_acc final ps (mid ++ [pref])]
      simp
    · split
      · rw [removeLoop_acc final ps (mid ++ _ :: acc), removeLoop_acc final ps (mid ++ [_])]
        simp only [Prod.mk.injEq]
        refine ⟨by simp, by omega, by omega⟩
      · rw [removeLoop_acc final ps acc, removeLoop_acc final ps [] _ _ (0 + _) (0 + _)]
        simp only [Prod.mk.injEq]
        refine ⟨by simp, by simp; omega, by simp; omega⟩

/-- tokens are dealt with one by one -/
theorem removeLoop_append (final : Bool) (q : Action) (bs : List Action) : ∀ (rest : List Action) (pref : Action) (mid : List Action),
    (∀ p ∈ rest, p.symbol ≠ q.symbol) → pref.symbol ≠ q.symbol →
    removeLoop final [] pref mid 0 0 (rest ++ q :: bs) =
      ((removeLoop final [] pref mid 0 0 rest).1 ++ (removeConflicts final (q :: bs)).1,
        (removeLoop final [] pref mid 0 0 rest).2.1 + (removeConflicts final (q :: bs)).2.1,
        (removeLoop final [] pref mid 0 0 rest).2.2 + (removeConflicts final (q :: bs)).2.2)
  | [], pref, mid, _, hp => by
    simp only [List.nil_append, removeLoop, removeConflicts]
    rw [if_pos (Ne.symm hp), removeLoop_acc]
  | p :: ps, pref, mid, h, hp => by
    have h0 := h p (by simp)
    have h' : ∀ p ∈ ps, p.symbol ≠ q.symbol := fun p hp => h p (by simp [hp])
    simp only [List.cons_append, removeLoop]
    have e1 := (step_symbol final pref p).1
    have e2 := (step_symbol final pref p).2
    split
    · rw [removeLoop_acc, removeLoop_append final q bs ps p [] h' h0, removeLoop_acc final ps (mid ++ [pref])]
      simp [Nat.add_assoc]
    · split
      · rw [removeLoop_acc, removeLoop_append final q bs ps _ [] h' (by rw [e2]; exact h0), removeLoop_acc final ps (mid ++ [_])]
        simp [Nat.add_assoc]
      · rw [removeLoop_acc, removeLoop_append final q bs ps _ _ h' (by rw [e1]; exact hp), removeLoop_acc final ps [] _ _ (0 + _) (0 + _)]
        simp [Nat.add_assoc]

theorem removeConflicts_append (final : Bool) (as bs : List Action) (h : ∀ a ∈ as, ∀ b ∈ bs, a.symbol ≠ b.symbol) :
    removeConflicts final (as ++ bs) = ((removeConflicts final as).1 ++ (removeConflicts final bs).1,
      (removeConflicts final as).2.1 + (removeConflicts final bs).2.1, (removeConflicts final as).2.2 + (removeConflicts final bs).2.2) := by
  cases bs with
  | nil => simp [removeConflicts]
  | cons q bs =>
    cases as with
    | nil => simp [removeConflicts]
    | cons p ps =>
      rw [List.cons_append]
      exact removeLoop_append final q bs ps p [] (fun a ha => h a (by simp [ha]) q (by simp)) (h p (by simp) q (by simp))

/-- C52: a shift against a reduction, where at most one of them is left: with precedences, the higher one wins and equal ones go by associativity, neither
being left for %nonassoc; otherwise the shift wins and a conflict is counted.  `a` and `b` are the actions on smaller and on greater tokens. -/
theorem C52_shift_reduce (final : Bool) (as bs : List Action) (s r : Action) (hs : s.code = .shift) (hsr : s.symbol = r.symbol)
    (hf : ¬ (final = true ∧ s.symbol = 0)) (ha : ∀ a ∈ as, a.symbol < s.symbol) (hb : ∀ b ∈ bs, s.symbol < b.symbol) :
    ∃ m n, let R := removeConflicts final (as ++ s :: r :: bs)
      R.1 = (removeConflicts final as).1 ++ { s with suppressed := m } :: { r with suppressed := n } :: (removeConflicts final bs).1 ∧
      (s.suppressed = 0 → (m = 0 ↔ s.prec ≤ 0 ∨ r.prec ≤ 0 ∨ r.prec < s.prec ∨ s.prec = r.prec ∧ s.assoc = RIGHT)) ∧
      (r.suppressed = 0 → (n = 0 ↔ 0 < s.prec ∧ 0 < r.prec ∧ (s.prec < r.prec ∨ s.prec = r.prec ∧ s.assoc = LEFT))) ∧
      R.2.1 = (removeConflicts final as).2.1 + (removeConflicts final bs).2.1 + (if 0 < s.prec ∧ 0 < r.prec then 0 else 1) ∧
      R.2.2 = (removeConflicts final as).2.2 + (removeConflicts final bs).2.2 := by
  have e1 := removeConflicts_append final as (s :: r :: bs) (by
    intro a h b hb'
    have := ha a h
    rcases List.mem_cons.1 hb' with rfl | hb'
    · omega
    rcases List.mem_cons.1 hb' with rfl | hb'
    · omega
    · have := hb b hb'; omega)
  have e2 := removeConflicts_append final [s, r] bs (by
    intro a h b hb'
    have := hb b hb'
    simp only [List.mem_cons, List.not_mem_nil, or_false] at h
    rcases h with rfl | rfl <;> omega)
  rw [List.cons_append, List.cons_append, List.nil_append] at e2
  have key : ∃ m n, removeConflicts final [s, r] = ([{ s with suppressed := m }, { r with suppressed := n }], (if 0 < s.prec ∧ 0 < r.prec then 0 else 1), 0) ∧
      (s.suppressed = 0 → (m = 0 ↔ s.prec ≤ 0 ∨ r.prec ≤ 0 ∨ r.prec < s.prec ∨ s.prec = r.prec ∧ s.assoc = RIGHT)) ∧
      (r.suppressed = 0 → (n = 0 ↔ 0 < s.prec ∧ 0 < r.prec ∧ (s.prec < r.prec ∨ s.prec = r.prec ∧ s.assoc = LEFT))) := by
    have st : removeConflicts final [s, r] =
        ([(step final s r).1, (step final s r).2.1], (step final s r).2.2.2.1, (step final s r).2.2.2.2) := by
      simp only [removeConflicts, removeLoop]
      rw [if_neg (by simp [hsr])]
      split <;> simp
    rw [st]
    unfold step
    rw [if_neg hf, if_pos hs]
    by_cases c1 : 0 < s.prec ∧ 0 < r.prec
    · rw [if_pos c1, if_pos c1]
      by_cases c2 : s.prec < r.prec
      · rw [if_pos c2]
        exact ⟨2, r.suppressed, rfl, fun _ => by omega, fun h => by omega⟩
      rw [if_neg c2]
      by_cases c3 : s.prec > r.prec
      · rw [if_pos c3]
        exact ⟨s.suppressed, 2, rfl, fun h => by omega, fun _ => by omega⟩
      rw [if_neg c3]
      by_cases c4 : s.assoc = LEFT
      · rw [if_pos c4]
        have c5 : s.assoc ≠ RIGHT := by rw [c4]; decide
        exact ⟨2, r.suppressed, rfl, fun _ => by omega, fun h => by omega⟩
      rw [if_neg c4]
      by_cases c5 : s.assoc = RIGHT
      · rw [if_pos c5]
        exact ⟨s.suppressed, 2, rfl, fun h => by omega, fun _ => by omega⟩
      rw [if_neg c5]
      exact ⟨2, 2, rfl, fun h => by omega, fun _ => by omega⟩
    · rw [if_neg c1, if_neg c1]
      exact ⟨s.suppressed, 1, rfl, fun h => by omega, fun _ => by omega⟩
  obtain ⟨m, n, k1, k2, k3⟩ := key
  refine ⟨m, n, ?_, k2, k3, ?_, ?_⟩
  · rw [e1, e2, k1]; simp
  · rw [e1, e2, k1]; simp; omega
  · rw [e1, e2, k1]; simp

/-- C52: two reductions: the rule with the higher precedence wins when both have one; otherwise, and with equal ones, the earlier rule wins and a
conflict is counted -/
theorem C52_reduce_reduce (final : Bool) (as bs : List Action) (s r : Action) (hs : s.code = .reduce) (hsr : s.symbol = r.symbol)
    (hf : ¬ (final = true ∧ s.symbol = 0)) (ha : ∀ a ∈ as, a.symbol < s.symbol) (hb : ∀ b ∈ bs, s.symbol < b.symbol) :
    ∃ m n, let R := removeConflicts final (as ++ s :: r :: bs)
      R.1 = (removeConflicts final as).1 ++ { s with suppressed := m } :: { r with suppressed := n } :: (removeConflicts final bs).1 ∧
      (s.suppressed = 0 → (m = 0 ↔ ¬ (0 < s.prec ∧ s.prec < r.prec))) ∧
      (r.suppressed = 0 → (n = 0 ↔ 0 < s.prec ∧ s.prec < r.prec)) ∧
      R.2.1 = (removeConflicts final as).2.1 + (removeConflicts final bs).2.1 ∧
      R.2.2 = (removeConflicts final as).2.2 + (removeConflicts final bs).2.2 + (if 0 < s.prec ∧ 0 < r.prec ∧ s.prec ≠ r.prec then 0 else 1) := by
  have e1 := removeConflicts_append final as (s :: r :: bs) (by
    intro a h b hb'
    have := ha a h
    rcases List.mem_cons.1 hb' with rfl | hb'
    · omega
    rcases List.mem_cons.1 hb' with rfl | hb'
    · omega
    · have := hb b hb'; omega)
  have e2 := removeConflicts_append final [s, r] bs (by
    intro a h b hb'
    have := hb b hb'
    simp only [List.mem_cons, List.not_mem_nil, or_false] at h
    rcases h with rfl | rfl <;> omega)
  rw [List.cons_append, List.cons_append, List.nil_append] at e2
  have key : ∃ m n, removeConflicts final [s, r] =
        ([{ s with suppressed := m }, { r with suppressed := n }], 0, (if 0 < s.prec ∧ 0 < r.prec ∧ s.prec ≠ r.prec then 0 else 1)) ∧
      (s.suppressed = 0 → (m = 0 ↔ ¬ (0 < s.prec ∧ s.prec < r.prec))) ∧
      (r.suppressed = 0 → (n = 0 ↔ 0 < s.prec ∧ s.prec < r.prec)) := by
    have st : removeConflicts final [s, r] =
        ([(step final s r).1, (step final s r).2.1], (step final s r).2.2.2.1, (step final s r).2.2.2.2) := by
      simp only [removeConflicts, removeLoop]
      rw [if_neg (by simp [hsr])]
      split <;> simp
    rw [st]
    unfold step
    rw [if_neg hf, if_neg (by rw [hs]; decide)]
    by_cases c1 : 0 < s.prec ∧ 0 < r.prec
    · rw [if_pos c1]
      by_cases c2 : s.prec < r.prec
      · rw [if_pos c2, if_pos (by omega)]
        exact ⟨2, r.suppressed, rfl, fun _ => by omega, fun h => by omega⟩
      rw [if_neg c2]
      by_cases c3 : s.prec > r.prec
      · rw [if_pos c3, if_pos (by omega)]
        exact ⟨s.suppressed, 2, rfl, fun h => by omega, fun _ => by omega⟩
      rw [if_neg c3, if_neg (by omega)]
      exact ⟨s.suppressed, 1, rfl, fun h => by omega, fun _ => by omega⟩
    · rw [if_neg c1, if_neg (by omega)]
      exact ⟨s.suppressed, 1, rfl, fun h => by omega, fun _ => by omega⟩
  obtain ⟨m, n, k1, k2, k3⟩ := key
  refine ⟨m, n, ?_, k2, k3, ?_, ?_⟩
  · rw [e1, e2, k1]; simp
  · rw [e1, e2, k1]; simp
  · rw [e1, e2, k1]; simp; omega

theorem soleLoop_spec : ∀ (ps : List Action) (count : Nat) (r k : Int), soleLoop ps count r = k → k ≠ 0 → (∀ p ∈ ps, 0 < p.number) → 0 ≤ r →
    (∀ p ∈ ps, p.code = .reduce ∧ (p.suppressed = 0 → p.number = k)) ∧ (0 < r → r = k)
  | [], count, r, k, h, hk, _, _ => by
    simp only [soleLoop] at h
    split at h
    · exact absurd h.symm hk
    · simp [h]
  | p :: ps, count, r, k, h, hk, hn, hr => by
    have hp := hn p (by simp)
    unfold soleLoop at h
    split at h
    · exact absurd h.symm hk
    rename_i c
    have c' : p.code = .reduce := (code_cases p).resolve_left c
    split at h
    · split at h
      · exact absurd h.symm hk
      rename_i c2 c3
      obtain ⟨a, b⟩ := soleLoop_spec ps _ _ k h hk (fun q hq => hn q (by simp [hq])) (by omega)
      have b := b hp
      refine ⟨?_, by omega⟩
      intro q hq
      rcases List.mem_cons.1 hq with rfl | hq
      · exact ⟨c', fun _ => b⟩
      · exact a q hq
    · rename_i c2
      obtain ⟨a, b⟩ := soleLoop_spec ps _ _ k h hk (fun q hq => hn q (by simp [hq])) hr
      refine ⟨?_, b⟩
      intro q hq
      rcases List.mem_cons.1 hq with rfl | hq
      · exact ⟨c', fun e => absurd e c2⟩
      · exact a q hq

/-- C52: a state reduces without looking at the token only if nothing but that reduction is left of its actions, not even a suppressed shift -/
theorem C52_default (ps : List Action) (hn : ∀ p ∈ ps, 0 < p.number) (hd : soleReduction ps ≠ 0) :
    ∀ p ∈ ps, p.code = .reduce ∧ (p.suppressed = 0 → p.number = soleReduction ps) :=
  (soleLoop_spec ps 0 0 _ rfl hd hn (le_refl _)).1

/-! ### examples: `1 + 2 . + 3` with %left, and a dangling else -/

def plusShift : Action := { symbol := 3, number := 7, prec := 1, code := .shift, assoc := LEFT }
def plusReduce : Action := { symbol := 3, number := 4, prec := 1, code := .reduce, assoc := LEFT }

example : (removeConflicts false [plusShift, plusReduce]).1.map Action.suppressed = [2, 0] := by decide
example : removeConflicts false [{ plusShift with prec := 0 }, plusReduce] = ([{ plusShift with prec := 0 }, { plusReduce with suppressed := 1 }], 1, 0) := by
  decide
example : [plusShift, plusReduce].Pairwise Le := by
  simp [Le, plusShift, plusReduce]
example : soleReduction [plusReduce, { plusReduce with symbol := 4 }] = 4 := by decide
example : [3, 5].Pairwise fun a b => (fun k => k) a < (fun k => k) b := by decide

end Mosml.Yacc.Mkpar
