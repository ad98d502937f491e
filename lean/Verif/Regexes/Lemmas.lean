import Verif.Regexes.Spec

namespace Mosml.Regexes

theorem suffix_text {s : Str} {i : Nat} : (suffix s i).text = s.drop i := by
  unfold suffix Sus.text
  dsimp only
  rw [List.take_of_length_le]
  rw [List.length_drop]

theorem suffix_zero (s : Str) : suffix s 0 = all s := rfl

theorem reg_cases (m : Engine) (e : Flags) {s : Str} {i : Nat} (hi : i ≤ s.length) :
    regexecSus m e (suffix s i) = none ∨ ∃ j n v, regexecSus m e (suffix s i) = some (⟨s, j, n⟩ :: v) ∧ i ≤ j ∧ j + n ≤ s.length := by
  unfold regexecSus
  rw [suffix_text]
  cases h : m.run e (s.drop i) with
  | none => exact Or.inl rfl
  | some regs =>
    right
    obtain ⟨so, eo, t, rfl, h1, h2⟩ := m.match0 e _ _ h
    rw [List.length_drop] at h2
    refine ⟨i + so, eo - so, (t.take (countGroups (suffix s i).len so t)).map (groupSus (suffix s i)), ?_, by omega, by omega⟩
    have hc : countGroups (suffix s i).len 0 (some (so, eo) :: t) = countGroups (suffix s i).len so t + 1 := by
      rw [countGroups, if_pos]
      exact ⟨Nat.zero_le _, h1, h2⟩
    dsimp only
    rw [hc, List.take_succ_cons, List.map_cons]
    rfl

section
variable {M : Type → Type} [Monad M] [LawfulMonad M] (raise : ∀ α, Exn → M α)

theorem vsub_head (u : Sus) (v : List Sus) : vsub raise (u :: v) 0 = pure u := rfl

omit [LawfulMonad M] in
theorem leftsus_ok {s : Str} {i j n : Nat} (h1 : i ≤ j) (h2 : j + n ≤ s.length) :
    leftsus raise (suffix s i) ⟨s, j, n⟩ = pure ⟨s, i, j - i⟩ := by
  unfold leftsus suffix
  dsimp only
  rw [if_pos ⟨rfl, h1, by omega⟩, if_pos (by omega)]

omit [LawfulMonad M] in
theorem right_ok {s : Str} {j n : Nat} (h2 : j + n ≤ s.length) : right raise s ⟨s, j, n⟩ = pure (suffix s (j + n)) := by
  unfold right suffix
  dsimp only
  rw [if_pos rfl, if_pos h2]

end

theorem empty_iff {s : Str} {i j n : Nat} (h : i ≤ j) : (isEmpty ⟨s, i, j - i⟩ && isEmpty ⟨s, j, n⟩) = decide (j + n = i) := by
  unfold isEmpty
  dsimp only
  rw [← Bool.decide_and]
  congr 1
  simp only [eq_iff_iff]
  omega

/-- every position has a decomposition -/
theorem cut_exists (m : Engine) (e : Flags) (s : Str) : ∀ k i, i ≤ s.length → s.length - i ≤ k → ∃ ps last, Cut m e s i ps last := by
  intro k
  induction k with
  | zero =>
    intro i hi hk
    rcases reg_cases m e hi with h | ⟨j, n, v, h, h1, h2⟩
    · exact ⟨_, _, .done h⟩
    · have : j = i := by omega
      have : n = 0 := by omega
      subst j; subst n
      exact ⟨_, _, .stuck h⟩
  | succ k ih =>
    intro i hi hk
    rcases reg_cases m e hi with h | ⟨j, n, v, h, h1, h2⟩
    · exact ⟨_, _, .done h⟩
    · by_cases hp : i < j + n
      · obtain ⟨ps, last, hc⟩ := ih (j + n) h2 (by omega)
        exact ⟨_, _, .step h hp hc⟩
      · have : j = i := by omega
        have : n = 0 := by omega
        subst j; subst n
        exact ⟨_, _, .stuck h⟩

theorem cut_unique {m : Engine} {e : Flags} {s : Str} {i : Nat} {ps ps' : List (Sus × List Sus)} {last last' : Option Sus}
    (h : Cut m e s i ps last) (h' : Cut m e s i ps' last') : ps = ps' ∧ last = last' := by
  induction h generalizing ps' last' with
  | done h =>
    cases h' with
    | done => exact ⟨rfl, rfl⟩
    | step h2 => rw [h] at h2; cases h2
    | stuck h2 => rw [h] at h2; cases h2
  | step h hp hc ih =>
    cases h' with
    | done h2 => rw [h] at h2; cases h2
    | step h2 hp2 hc2 =>
      rw [h] at h2
      cases h2
      obtain ⟨rfl, rfl⟩ := ih hc2
      exact ⟨rfl, rfl⟩
    | stuck h2 => rw [h] at h2; cases h2; omega
  | stuck h =>
    cases h' with
    | done h2 => rw [h] at h2; cases h2
    | step h2 hp2 hc2 => rw [h] at h2; cases h2; omega
    | stuck h2 => rw [h] at h2; cases h2; exact ⟨rfl, rfl⟩

/-- the pieces make up the string -/
theorem cut_whole {m : Engine} {e : Flags} {s : Str} {i : Nat} {ps : List (Sus × List Sus)} {last : Option Sus}
    (h : Cut m e s i ps last) (hi : i ≤ s.length) (z : Sus) (hz : last = some z) : whole ps ++ z.text = s.drop i := by
  induction h with
  | done h => cases hz; simp [whole, suffix_text]
  | step h hp hc ih =>
    next i j n v ps last =>
    rcases reg_cases m e hi with h' | ⟨j', n', v', h', h1, h2⟩
    · rw [h] at h'; cases h'
    · rw [h] at h'
      cases h'
      have := ih h2 hz
      have e1 : whole ((⟨s, i, j - i⟩, ⟨s, j, n⟩ :: v) :: ps) = (s.drop i).take (j - i) ++ ((s.drop j).take n ++ whole ps) := by
        simp [whole, Sus.text]
      rw [e1, List.append_assoc, List.append_assoc, this]
      have e2 : s.drop (j + n) = (s.drop j).drop n := by rw [List.drop_drop]
      have e3 : s.drop j = (s.drop i).drop (j - i) := by rw [List.drop_drop]; congr 1; omega
      rw [e2, List.take_append_drop, e3, List.take_append_drop]
  | stuck h => cases hz

variable {M : Type → Type} [Monad M] [LawfulMonad M] (raise : ∀ α, Exn → M α)

theorem fold_cut {β : Type} {m : Engine} (fa : Sus → β → M β) (fb : List Sus → β → M β) {s : Str} {i : Nat}
    {ps : List (Sus × List Sus)} {last : Option Sus} (h : Cut m ⟨false, false⟩ s i ps last) (hi : i ≤ s.length) :
    ∀ f res, s.length - i < f → foldH raise m fa fb s f (suffix s i) res = (do
      let r ← ps.foldlM (fun r p => do let r ← fa p.1 r; fb p.2 r) res
      match last with
      | some z => fa z r
      | none => raise _ .regex) := by
  induction h with
  | done h =>
    intro f res hf
    obtain ⟨f, rfl⟩ := Nat.exists_eq_add_one_of_ne_zero (by omega : f ≠ 0)
    simp only [foldH, h]
    simp
  | step h hp hc ih =>
    next i j n v ps last =>
    intro f res hf
    rcases reg_cases m ⟨false, false⟩ hi with h' | ⟨j', n', v', h', h1, h2⟩
    · rw [h] at h'; cases h'
    rw [h] at h'
    cases h'
    obtain ⟨f, rfl⟩ := Nat.exists_eq_add_one_of_ne_zero (by omega : f ≠ 0)
    have hne : decide (j + n = i) = false := by simp; omega
    simp only [foldH, h, vsub_head, leftsus_ok raise h1 h2, empty_iff h1, right_ok raise h2, pure_bind, hne, Bool.false_eq_true, if_false,
      List.foldlM_cons, bind_assoc]
    congr 1; funext r1
    congr 1; funext r2
    exact ih h2 f r2 (by omega)
  | stuck h =>
    next i v =>
    intro f res hf
    obtain ⟨f, rfl⟩ := Nat.exists_eq_add_one_of_ne_zero (by omega : f ≠ 0)
    have hl := leftsus_ok raise (s := s) (i := i) (j := i) (n := 0) le_rfl hi
    have he := empty_iff (s := s) (i := i) (j := i) (n := 0) le_rfl
    rw [Nat.sub_self] at hl he
    simp only [foldH, h, vsub_head, hl, he, pure_bind, Nat.add_zero, decide_true, if_true, List.foldlM_cons, List.foldlM_nil, bind_assoc,
      bind_pure]

theorem map_cut {β : Type} {m : Engine} (g : List Sus → M β) {s : Str} {i : Nat}
    {ps : List (Sus × List Sus)} {last : Option Sus} (h : Cut m ⟨false, false⟩ s i ps last) (hi : i ≤ s.length) :
    ∀ f res, s.length - i < f → mapH raise m g s f (suffix s i) res = (do
      let r ← ps.foldlM (fun r p => do let y ← g p.2; pure (y :: r)) res
      match last with
      | some _ => pure r.reverse
      | none => raise _ .regex) := by
  induction h with
  | done h =>
    intro f res hf
    obtain ⟨f, rfl⟩ := Nat.exists_eq_add_one_of_ne_zero (by omega : f ≠ 0)
    simp only [mapH, h]
    simp
  | step h hp hc ih =>
    next i j n v ps last =>
    intro f res hf
    rcases reg_cases m ⟨false, false⟩ hi with h' | ⟨j', n', v', h', h1, h2⟩
    · rw [h] at h'; cases h'
    rw [h] at h'
    cases h'
    obtain ⟨f, rfl⟩ := Nat.exists_eq_add_one_of_ne_zero (by omega : f ≠ 0)
    have hne : decide (j + n = i) = false := by simp; omega
    simp only [mapH, h, vsub_head, leftsus_ok raise h1 h2, empty_iff h1, right_ok raise h2, pure_bind, hne, Bool.false_eq_true, if_false,
      List.foldlM_cons, bind_assoc]
    congr 1; funext y
    exact ih h2 f (y :: res) (by omega)
  | stuck h =>
    next i v =>
    intro f res hf
    obtain ⟨f, rfl⟩ := Nat.exists_eq_add_one_of_ne_zero (by omega : f ≠ 0)
    have hl := leftsus_ok raise (s := s) (i := i) (j := i) (n := 0) le_rfl hi
    have he := empty_iff (s := s) (i := i) (j := i) (n := 0) le_rfl
    rw [Nat.sub_self] at hl he
    simp only [mapH, h, vsub_head, hl, he, pure_bind, Nat.add_zero, decide_true, if_true, List.foldlM_cons, List.foldlM_nil, bind_assoc]

theorem app_cut {m : Engine} (g : List Sus → M Unit) {s : Str} {i : Nat}
    {ps : List (Sus × List Sus)} {last : Option Sus} (h : Cut m ⟨false, false⟩ s i ps last) (hi : i ≤ s.length) :
    ∀ f, s.length - i < f → appH raise m g s f (suffix s i) = (do
      ps.foldlM (fun _ p => g p.2) ()
      match last with
      | some _ => pure ()
      | none => raise _ .regex) := by
  induction h with
  | done h =>
    intro f hf
    obtain ⟨f, rfl⟩ := Nat.exists_eq_add_one_of_ne_zero (by omega : f ≠ 0)
    simp only [appH, h]
    simp
  | step h hp hc ih =>
    next i j n v ps last =>
    intro f hf
    rcases reg_cases m ⟨false, false⟩ hi with h' | ⟨j', n', v', h', h1, h2⟩
    · rw [h] at h'; cases h'
    rw [h] at h'
    cases h'
    obtain ⟨f, rfl⟩ := Nat.exists_eq_add_one_of_ne_zero (by omega : f ≠ 0)
    have hne : decide (j + n = i) = false := by simp; omega
    simp only [appH, h, vsub_head, leftsus_ok raise h1 h2, empty_iff h1, right_ok raise h2, pure_bind, hne, Bool.false_eq_true, if_false,
      List.foldlM_cons, bind_assoc]
    congr 1; funext y
    exact ih h2 f (by omega)
  | stuck h =>
    next i v =>
    intro f hf
    obtain ⟨f, rfl⟩ := Nat.exists_eq_add_one_of_ne_zero (by omega : f ≠ 0)
    have hl := leftsus_ok raise (s := s) (i := i) (j := i) (n := 0) le_rfl hi
    have he := empty_iff (s := s) (i := i) (j := i) (n := 0) le_rfl
    rw [Nat.sub_self] at hl he
    simp only [appH, h, vsub_head, hl, he, pure_bind, Nat.add_zero, decide_true, if_true, List.foldlM_cons, List.foldlM_nil, bind_assoc]

theorem split_cut {m : Engine} (add : Sus → List Sus → List Sus) {s : Str} {i : Nat}
    {ps : List (Sus × List Sus)} {last : Option Sus} (h : Cut m ⟨true, true⟩ s i ps last) (hi : i ≤ s.length) :
    ∀ f res, s.length - i < f → splitH raise m add s f (suffix s i) res =
      match (generalizing := false) last with
      | some z => pure (add z (ps.foldl (fun r p => add p.1 r) res)).reverse
      | none => raise _ .regex := by
  induction h with
  | done h =>
    intro f res hf
    obtain ⟨f, rfl⟩ := Nat.exists_eq_add_one_of_ne_zero (by omega : f ≠ 0)
    simp only [splitH, h]
    simp
  | step h hp hc ih =>
    next i j n v ps last =>
    intro f res hf
    rcases reg_cases m ⟨true, true⟩ hi with h' | ⟨j', n', v', h', h1, h2⟩
    · rw [h] at h'; cases h'
    rw [h] at h'
    cases h'
    obtain ⟨f, rfl⟩ := Nat.exists_eq_add_one_of_ne_zero (by omega : f ≠ 0)
    have hne : decide (j + n = i) = false := by simp; omega
    simp only [splitH, h, vsub_head, leftsus_ok raise h1 h2, empty_iff h1, right_ok raise h2, pure_bind, hne, Bool.false_eq_true, if_false,
      List.foldl_cons]
    exact ih h2 f _ (by omega)
  | stuck h =>
    next i v =>
    intro f res hf
    obtain ⟨f, rfl⟩ := Nat.exists_eq_add_one_of_ne_zero (by omega : f ≠ 0)
    have hl := leftsus_ok raise (s := s) (i := i) (j := i) (n := 0) le_rfl hi
    have he := empty_iff (s := s) (i := i) (j := i) (n := 0) le_rfl
    rw [Nat.sub_self] at hl he
    simp only [splitH, h, vsub_head, hl, he, pure_bind, Nat.add_zero, decide_true, if_true]

theorem replace_cut {m : Engine} (repl : List (Replacer M)) {s : Str} {i : Nat}
    {ps : List (Sus × List Sus)} {last : Option Sus} (h : Cut m ⟨false, false⟩ s i ps last) (hi : i ≤ s.length) :
    ∀ f res, s.length - i < f → replaceH raise m repl s f (suffix s i) res = (do
      let r ← ps.foldlM (fun r p => applyreplacer raise p.2 repl (p.1 :: r)) res
      match last with
      | some z => pure (concat (z :: r).reverse)
      | none => raise _ .regex) := by
  induction h with
  | done h =>
    intro f res hf
    obtain ⟨f, rfl⟩ := Nat.exists_eq_add_one_of_ne_zero (by omega : f ≠ 0)
    simp only [replaceH, h]
    simp
  | step h hp hc ih =>
    next i j n v ps last =>
    intro f res hf
    rcases reg_cases m ⟨false, false⟩ hi with h' | ⟨j', n', v', h', h1, h2⟩
    · rw [h] at h'; cases h'
    rw [h] at h'
    cases h'
    obtain ⟨f, rfl⟩ := Nat.exists_eq_add_one_of_ne_zero (by omega : f ≠ 0)
    have hne : decide (j + n = i) = false := by simp; omega
    simp only [replaceH, h, vsub_head, leftsus_ok raise h1 h2, empty_iff h1, right_ok raise h2, pure_bind, hne, Bool.false_eq_true, if_false,
      List.foldlM_cons, bind_assoc]
    congr 1; funext r
    exact ih h2 f r (by omega)
  | stuck h =>
    next i v =>
    intro f res hf
    obtain ⟨f, rfl⟩ := Nat.exists_eq_add_one_of_ne_zero (by omega : f ≠ 0)
    have hl := leftsus_ok raise (s := s) (i := i) (j := i) (n := 0) le_rfl hi
    have he := empty_iff (s := s) (i := i) (j := i) (n := 0) le_rfl
    rw [Nat.sub_self] at hl he
    simp only [replaceH, h, vsub_head, hl, he, pure_bind, Nat.add_zero, decide_true, if_true, List.foldlM_cons, List.foldlM_nil, bind_assoc]

/-- what the replacers produce does not depend on what was produced before -/
theorem applyreplacer_acc (suss : List Sus) : ∀ (repl : List (Replacer M)) (res : List Sus),
    applyreplacer raise suss repl res = (do let r ← applyreplacer raise suss repl []; pure (r ++ res)) := by
  intro repl
  induction repl with
  | nil => intro res; simp [applyreplacer]
  | cons r rest ih =>
    intro res
    cases r with
    | str s =>
      simp only [applyreplacer]
      rw [ih (all s :: res), ih [all s]]
      simp
    | sus i =>
      simp only [applyreplacer, bind_assoc]
      congr 1; funext u
      rw [ih (u :: res), ih [u]]
      simp
    | tr f i =>
      simp only [applyreplacer, bind_assoc]
      congr 1; funext u
      congr 1; funext t
      rw [ih (all t :: res), ih [all t]]
      simp
    | trs f =>
      simp only [applyreplacer, bind_assoc]
      congr 1; funext t
      rw [ih (all t :: res), ih [all t]]
      simp

end Mosml.Regexes
