import Verif.Lex.Exec
import Verif.Lex.Output

/-!
C48.
-/
namespace Mosml.Lex

/-- the generator ends and raises nothing, whatever the definition -/
theorem C48_generates (ld : List (List Regexp)) (hc : ∀ cases ∈ ld, ∀ e ∈ cases, CharsOk e) :
    ∃ fuel is V, makeDfa fuel ld = some (some (is, V)) ∧ is.length = ld.length ∧ ∀ k, makeDfa (fuel + k) ld = some (some (is, V)) := by
  obtain ⟨is, V, h, b⟩ := makeDfa_ok ld hc (2 ^ (classes ld + actions ld) + 1) (by omega)
  exact ⟨_, is, V, h, b.len, fun k => makeDfa_mono _ k ld _ h⟩

theorem firstCase_iff (ld : List (List Regexp)) (j : Nat) (cases : List Regexp) (w : List Nat) (A : Nat → Prop)
    (hA : ∀ a, A a ↔ ∃ k e, cases[k]? = some e ∧ a = actionNumber ld j k ∧ Matches e w) (n : Nat) (h : A n ∧ ∀ a, A a → n ≤ a) :
    ∃ k, n = actionNumber ld j k ∧ FirstCase cases w k := by
  obtain ⟨k, e, h1, h2, h3⟩ := (hA n).1 h.1
  refine ⟨k, h2, ⟨e, h1, h3⟩, fun k' hk' e' he' m => ?_⟩
  have := h.2 (actionNumber ld j k') ((hA _).2 ⟨k', e', he', rfl, m⟩)
  rw [h2] at this
  simp only [actionNumber] at this
  omega

/-- the two directions of the meaning of a run of an entry point -/
theorem entry_ok (ld : List (List Regexp)) (hc : ∀ cases ∈ ld, ∀ e ∈ cases, CharsOk e) (few : (ld.map List.length).sum ≤ 32767)
    (gen : Nat) (is : List Nat) (V : List Automaton) (hg : makeDfa gen ld = some (some (is, V)))
    (j : Nat) (cases : List Regexp) (hj : ld[j]? = some cases) (hne : ∃ c w, Accepts cases (c :: w)) (inp : Nat → Nat) (hinp : ∀ i, inp i < 256) :
    ∃ i, is[j]? = some i ∧ ∀ fuel, match runEntry V inp fuel i with
      | .action n len => ∃ k, n = actionNumber ld j k ∧ LongestFirst cases inp k len
      | .illegal => ∀ len, ¬ Accepts cases (prefixOf inp len)
      | .broken => False
      | .running => (∀ cases ∈ ld, ∀ e ∈ cases, NoEmptyClass e) → ∀ m ≤ fuel, ∃ w, Accepts cases (prefixOf inp m ++ w) := by
  have L := encodeLexdef_ok ld
  obtain ⟨⟨M, v, hA, hX, hO, hI⟩, -⟩ := built_of_makeDfa ld hc gen is V hg
  have ok := hA few
  have hjl : j < (encodeLexdef ld).1.length := by rw [L.len]; exact (List.getElem?_eq_some_iff.1 hj).1
  obtain ⟨d, hd⟩ : ∃ d, (encodeLexdef ld).1[j]? = some d := ⟨_, List.getElem?_eq_getElem hjl⟩
  have hdm := List.mem_of_getElem? hd
  obtain ⟨i, h1, h2⟩ := hI j d hd
  have acc : ∀ w a, Acc (encodeLexdef ld).2.2.reverse v (firstpos d) w a ↔ ∃ k e, cases[k]? = some e ∧ a = actionNumber ld j k ∧ Matches e w := by
    intro w a
    exact L.run [] j cases d hj hd v (hX d hdm) w a
  have acc' : ∀ w, Accepts cases w ↔ ∃ a, Acc (encodeLexdef ld).2.2.reverse v (firstpos d) w a := by
    intro w
    constructor
    · rintro ⟨e, he, m⟩
      obtain ⟨k, hk, rfl⟩ := List.mem_iff_getElem.1 he
      exact ⟨_, (acc w _).2 ⟨k, _, List.getElem?_eq_getElem hk, rfl, m⟩⟩
    · rintro ⟨a, ha⟩
      obtain ⟨k, e, hk, -, m⟩ := (acc w a).1 ha
      exact ⟨e, List.mem_of_getElem? hk, m⟩
  have hS : (splitTransSet (firstpos d)).2 ≠ [] := by
    obtain ⟨c, w, hcw⟩ := hne
    obtain ⟨a, ha⟩ := (acc' _).1 hcw
    rw [acc_cons] at ha
    obtain ⟨t, ⟨p, hp, -⟩, -⟩ := ha
    exact List.ne_nil_of_mem (((splitTransSet_spec _).1 p).2 hp)
  refine ⟨i, h1, fun fuel => ?_⟩
  have r := runState_ok ok inp hinp fuel i 0 none (firstpos d) h2 hS
  unfold runEntry
  cases hr : runState V inp fuel i 0 none with
  | broken => rw [hr] at r; exact r
  | illegal =>
    rw [hr] at r
    intro len hl
    obtain ⟨a, ha⟩ := (acc' _).1 hl
    rw [← word_prefix] at ha
    exact r.2 len a ha
  | action n p =>
    rw [hr] at r
    rcases r with ⟨k, rfl, hb, hlong⟩ | ⟨h3, -⟩
    · rw [Nat.zero_add]
      rw [word_prefix] at hb
      obtain ⟨q, hq1, hq2⟩ := firstCase_iff ld j cases _ _ (acc (prefixOf inp k)) n hb
      refine ⟨q, hq1, hq2, fun len' hl ha => ?_⟩
      obtain ⟨a, ha⟩ := (acc' _).1 ha
      rw [← word_prefix] at ha
      exact hlong len' hl a ha
    · simp at h3
  | running =>
    rw [hr] at r
    intro ne m hm
    obtain ⟨t, ht⟩ := r m hm
    have prod : ∃ w a, Run (encodeLexdef ld).2.2.reverse v t w a := by
      cases t with
      | toAction a => exact ⟨[], a, .act a⟩
      | onChars p =>
        have occ : ∀ (w : List Nat) (S : List Trans), (∀ t ∈ S, ∃ d ∈ (encodeLexdef ld).1, OccT d t) → ∀ t, Reach (encodeLexdef ld).2.2.reverse v w S t →
            ∃ d ∈ (encodeLexdef ld).1, OccT d t := by
          intro w
          induction w with
          | nil => exact fun S h t ht => h t ht
          | cons c w ih =>
            rintro S h t ⟨S', h1, h2⟩
            refine ih S' (fun u hu => ?_) t h2
            obtain ⟨p, -, cl, -, -, hat⟩ := (h1 u).1 hu
            exact hO p u hat
        obtain ⟨d', hd', ho⟩ := occ _ _ (fun t ht => ⟨d, hdm, occT_of_firstpos _ _ ht⟩) _ ht
        exact L.prod ne [] d' hd' v (hX d' hd') p ho
    obtain ⟨w, a, hrun⟩ := prod
    refine ⟨w, (acc' _).2 ⟨a, ?_⟩⟩
    rw [← word_prefix]
    exact acc_of_reach _ _ _ _ _ _ _ ht hrun

/-- the action chosen is that of the first case among the longest matches, the lexeme is that match, and an illegal symbol is reported only if nothing matches;
for every definition with at most 32767 actions and every rule that matches some non-empty word -/
theorem C48_longest_first (ld : List (List Regexp)) (hc : ∀ cases ∈ ld, ∀ e ∈ cases, CharsOk e) (few : (ld.map List.length).sum ≤ 32767)
    (gen : Nat) (is : List Nat) (V : List Automaton) (hg : makeDfa gen ld = some (some (is, V)))
    (j : Nat) (cases : List Regexp) (hj : ld[j]? = some cases) (hne : ∃ c w, Accepts cases (c :: w)) (inp : Nat → Nat) (hinp : ∀ i, inp i < 256) :
    ∃ i, is[j]? = some i ∧ ∀ fuel,
      (∀ n len, runEntry V inp fuel i = .action n len → ∃ k, n = actionNumber ld j k ∧ LongestFirst cases inp k len) ∧
      (runEntry V inp fuel i = .illegal → ∀ len, ¬ Accepts cases (prefixOf inp len)) ∧
      runEntry V inp fuel i ≠ .broken := by
  obtain ⟨i, h1, h2⟩ := entry_ok ld hc few gen is V hg j cases hj hne inp hinp
  refine ⟨i, h1, fun fuel => ⟨fun n len h => ?_, fun h => ?_, fun h => ?_⟩⟩
  · have := h2 fuel; rw [h] at this; exact this
  · have := h2 fuel; rw [h] at this; exact this
  · have := h2 fuel; rw [h] at this; exact this

/-- when there are no empty character classes, the lexer answers as soon as the input read cannot be continued to a match: it then runs the first case of the
longest match, if there is one, and reports an illegal symbol otherwise -/
theorem C48_answers (ld : List (List Regexp)) (hc : ∀ cases ∈ ld, ∀ e ∈ cases, CharsOk e) (ne : ∀ cases ∈ ld, ∀ e ∈ cases, NoEmptyClass e)
    (few : (ld.map List.length).sum ≤ 32767) (gen : Nat) (is : List Nat) (V : List Automaton) (hg : makeDfa gen ld = some (some (is, V)))
    (j : Nat) (cases : List Regexp) (hj : ld[j]? = some cases) (hne : ∃ c w, Accepts cases (c :: w)) (inp : Nat → Nat) (hinp : ∀ i, inp i < 256)
    (m : Nat) (hm : ∀ w, ¬ Accepts cases (prefixOf inp m ++ w)) :
    ∃ i, is[j]? = some i ∧ ∀ fuel, m ≤ fuel →
      (∀ k len, LongestFirst cases inp k len → runEntry V inp fuel i = .action (actionNumber ld j k) len) ∧
      ((∀ len, ¬ Accepts cases (prefixOf inp len)) → runEntry V inp fuel i = .illegal) := by
  obtain ⟨i, h1, h2⟩ := entry_ok ld hc few gen is V hg j cases hj hne inp hinp
  refine ⟨i, h1, fun fuel hf => ?_⟩
  have h := h2 fuel
  have accOf : ∀ k len, LongestFirst cases inp k len → Accepts cases (prefixOf inp len) := fun k len hl => by
    obtain ⟨e, h1, h2⟩ := hl.1.1
    exact ⟨e, List.mem_of_getElem? h1, h2⟩
  cases hr : runEntry V inp fuel i with
  | broken => rw [hr] at h; exact h.elim
  | running =>
    rw [hr] at h
    obtain ⟨w, hw⟩ := h ne m hf
    exact (hm w hw).elim
  | illegal =>
    rw [hr] at h
    exact ⟨fun k len hl => (h len (accOf k len hl)).elim, fun _ => rfl⟩
  | action n len =>
    rw [hr] at h
    obtain ⟨k, h3, h4⟩ := h
    refine ⟨fun k' len' hl => ?_, fun hno => (hno len (accOf k len h4)).elim⟩
    have e1 : len = len' := by
      rcases lt_trichotomy len len' with h5 | h5 | h5
      · exact (h4.2 len' h5 (accOf _ _ hl)).elim
      · exact h5
      · exact (hl.2 len h5 (accOf _ _ h4)).elim
    subst e1
    have e2 : k = k' := by
      obtain ⟨⟨e, h5, h6⟩, h7⟩ := h4.1
      obtain ⟨⟨e', h8, h9⟩, h10⟩ := hl.1
      rcases lt_trichotomy k k' with h11 | h11 | h11
      · exact (h10 k h11 e h5 h6).elim
      · exact h11
      · exact (h7 k' h11 e' h8 h9).elim
    subst e2
    rw [h3]

/-- the tests emitted for a state send each character along its move, in whatever order the moves are sorted -/
theorem C48_dispatch (moves : List Move) (env rest : List (Move × List Nat)) (default : Move) (pl : List Nat) (hs : env.Perm (enumerate moves 0 []))
    (he : env = (default, pl) :: rest) (c : Nat) (hc : c < moves.length) : moves[c]? = some (dispatch (unzipInterv rest) default c) := by
  have ok := enumerate_ok moves
  have mem : ∀ m c, (∃ pl, (m, pl) ∈ env ∧ c ∈ pl) ↔ moves[c]? = some m := fun m c => by
    rw [← ok.mem]; exact ⟨fun ⟨pl, h1, h2⟩ => ⟨pl, hs.mem_iff.1 h1, h2⟩, fun ⟨pl, h1, h2⟩ => ⟨pl, hs.mem_iff.2 h1, h2⟩⟩
  rcases dispatch_covers (unzipInterv rest) default c with h | ⟨h1, h2⟩
  · obtain ⟨pl', h3, h4⟩ := (covers_unzip _ _ _).1 h
    exact (mem _ _).1 ⟨pl', by simp [he, h3], h4⟩
  · rw [h1]
    obtain ⟨pl', h3, h4⟩ := (mem moves[c] c).2 (List.getElem?_eq_getElem hc)
    rw [he] at h3
    rcases List.mem_cons.1 h3 with h5 | h5
    · rw [List.getElem?_eq_getElem hc]; cases h5; rfl
    · exact (h2 _ ((covers_unzip _ _ _).2 ⟨pl', h5, h4⟩)).elim

/-- a rule that matches only the empty word: the entry point calls `state_0`, which is not emitted -/
theorem C48_entry_violation : ∃ (ld : List (List Regexp)) (V : List Automaton) (i : Nat), makeDfa 2 ld = some (some ([i], V)) ∧
    ld = [[.epsilon]] ∧ LongestFirst [.epsilon] (fun _ => 0) 0 0 ∧ runEntry V (fun _ => 0) 1 i = .broken := by
  refine ⟨[[.epsilon]], [.perform 0], 0, by decide +kernel, rfl, ⟨⟨⟨.epsilon, rfl, rfl⟩, by omega⟩, ?_⟩, rfl⟩
  rintro len h ⟨e, he, m⟩
  rw [List.mem_singleton] at he
  subst he
  have : (prefixOf (fun _ => 0) len).length = 0 := by rw [show prefixOf (fun _ => 0) len = [] from m]; rfl
  simp [prefixOf] at this
  omega

/-! ### a concrete lexer: rule 0 has the cases `a` and `(a|b) (a|b)*`, rule 1 the case `c` -/

def exCases : List Regexp := [.characters [97], .sequence (.characters [97, 98]) (.repetition (.characters [97, 98]))]
def exLex : List (List Regexp) := [exCases, [.characters [99]]]
def exInp : Nat → Nat := fun i => if i = 0 then 97 else if i = 1 then 98 else 0

example : (∀ cases ∈ exLex, ∀ e ∈ cases, CharsOk e) ∧ (∀ cases ∈ exLex, ∀ e ∈ cases, NoEmptyClass e) ∧ (exLex.map List.length).sum ≤ 32767 ∧
    exLex[0]? = some exCases ∧ (∃ c w, Accepts exCases (c :: w)) ∧ (∀ i, exInp i < 256) := by
  refine ⟨by simp [exLex, exCases, CharsOk], by simp [exLex, exCases, NoEmptyClass], by decide, rfl, ⟨97, [], _, List.mem_cons_self, 97, by simp, rfl⟩, fun i => ?_⟩
  unfold exInp; split_ifs <;> omega

/-- after three characters nothing can match any more -/
example (w : List Nat) : ¬ Accepts exCases (prefixOf exInp 3 ++ w) := by
  have star : ∀ u, StarOf (Matches (.characters [97, 98])) u → ∀ c ∈ u, c ≠ 0 := by
    intro u hu
    induction hu with
    | nil => simp
    | cons h _ ih =>
      obtain ⟨d, hd, rfl⟩ := h
      intro c hc
      rcases List.mem_append.1 hc with h | h
      · simp only [List.mem_singleton] at h; subst h
        simp only [List.mem_cons, List.not_mem_nil, or_false] at hd
        omega
      · exact ih c h
  rintro ⟨e, he, m⟩
  simp only [exCases, List.mem_cons, List.not_mem_nil, or_false] at he
  have hp : prefixOf exInp 3 = [97, 98, 0] := by decide
  rw [hp] at m
  rcases he with rfl | rfl
  · obtain ⟨c, -, h⟩ := m; simp at h
  · obtain ⟨w1, w2, h, ⟨c, -, rfl⟩, h2⟩ := m
    simp only [List.cons_append, List.nil_append, List.cons.injEq] at h
    exact star w2 h2 0 (by rw [← h.2]; simp) rfl

/-- the lexer takes the second case on `ab` (action 2: the rule after has one action) and the first on `a` -/
example : (match makeDfa 20 exLex with
    | some (some ([i, _], V)) => decide (runEntry V exInp 5 i = .action (actionNumber exLex 0 1) 2) &&
        decide (runEntry V (fun i => if i = 0 then 97 else 0) 5 i = .action (actionNumber exLex 0 0) 1) && decide (runEntry V (fun _ => 0) 5 i = .illegal)
    | _ => false) = true := by decide +kernel

example : (enumerate [.goto 1, .backtrack, .goto 1] 0 []).Perm [(.goto 1, [2, 0]), (.backtrack, [1])] := by decide

end Mosml.Lex
