import Verif.Regexes.Lemmas

/-! C74: regular expressions: match vectors and the functions that take strings apart. -/
namespace Mosml.Regexes

/-- the groups start in the order of their numbers -/
def Ordered (regs : Regs) : Prop := regs.Pairwise fun a b => ∀ p q, a = some p → b = some q → p.1 ≤ q.1

theorem countGroups_all {n : Nat} : ∀ (regs : Regs) (last : Nat), (∀ so eo, some (so, eo) ∈ regs → last ≤ so ∧ so ≤ eo ∧ eo ≤ n) →
    Ordered regs → countGroups n last regs = regs.length := by
  intro regs
  induction regs with
  | nil => intro _ _ _; rfl
  | cons r regs ih =>
    intro last hr ho
    rw [Ordered, List.pairwise_cons] at ho
    cases r with
    | none =>
      rw [countGroups, ih last (fun so eo h => hr so eo (List.mem_cons_of_mem _ h)) ho.2, List.length_cons]
    | some p =>
      obtain ⟨so, eo⟩ := p
      rw [countGroups, if_pos (hr so eo (List.mem_cons_self)), ih so _ ho.2, List.length_cons]
      intro so' eo' h
      have := hr so' eo' (List.mem_cons_of_mem _ h)
      exact ⟨ho.1 _ h _ _ rfl rfl, this.2⟩

/-! ## Theorems -/

/-- C74: `regnexec` returns the match and all groups, when the groups start in the order of their numbers: a group that takes part
in the match is the part of the text that its register says, and another one is empty. -/
theorem C74_groups_partial (m : Engine) (e : Flags) (u : Sus) (hu : u.start + u.len ≤ u.base.length) {regs : Regs}
    (hr : m.run e u.text = some regs) (hin : ∀ so eo, some (so, eo) ∈ regs → so ≤ eo ∧ eo ≤ u.len) (ho : Ordered regs) :
    ∃ v, regexecSus m e u = some v ∧ v.length = regs.length ∧ (∀ x ∈ v, x.base = u.base) ∧
      (∀ (i so eo : Nat), regs[i]? = some (some (so, eo)) → v[i]?.map Sus.text = some ((u.text.drop so).take (eo - so))) ∧
      (∀ i : Nat, regs[i]? = some none → v[i]? = some (⟨u.base, 0, 0⟩ : Sus)) := by
  have hc := countGroups_all (n := u.len) regs 0 (fun so eo h => ⟨Nat.zero_le _, hin so eo h⟩) ho
  refine ⟨regs.map (groupSus u), ?_, by simp, ?_, ?_, ?_⟩
  · unfold regexecSus
    rw [hr]
    dsimp only
    rw [hc, List.take_length]
  · intro x hx
    rw [List.mem_map] at hx
    obtain ⟨r, -, rfl⟩ := hx
    cases r <;> rfl
  · intro i so eo h
    rw [List.getElem?_map, h]
    have h2 := hin so eo (List.mem_of_getElem? h)
    simp only [Option.map_some, groupSus, Sus.text, Option.some.injEq]
    rw [List.drop_take, List.drop_drop, List.take_take]
    congr 1
    omega
  · intro i h
    rw [List.getElem?_map, h]
    rfl

/-- C74: `regnexec` fails exactly when the engine finds no match. -/
theorem C74_none (m : Engine) (e : Flags) (u : Sus) : regexecSus m e u = none ↔ m.run e u.text = none := by
  unfold regexecSus
  cases m.run e u.text <;> simp

/-- C74: every string has exactly one decomposition by the matches from left to right. -/
theorem C74_decomposition (m : Engine) (e : Flags) (s : Str) :
    ∃ ps last, Cut m e s 0 ps last ∧ ∀ ps' last', Cut m e s 0 ps' last' → ps' = ps ∧ last' = last := by
  obtain ⟨ps, last, h⟩ := cut_exists m e s s.length 0 (Nat.zero_le _) (by omega)
  exact ⟨ps, last, h, fun ps' last' h' => cut_unique h' h⟩

/-- C74: the fields and matches, one after the other, are the string. -/
theorem C74_concatenation {m : Engine} {e : Flags} {s : Str} {ps : List (Sus × List Sus)} {z : Sus}
    (h : Cut m e s 0 ps (some z)) : whole ps ++ z.text = s := by
  have := cut_whole h (Nat.zero_le _) z rfl
  simpa using this

variable {M : Type → Type} [Monad M] [LawfulMonad M] (raise : ∀ α, Exn → M α)

/-- C74: `fold` applies its functions to the fields and match vectors from left to right, and raises Regex if it is stuck. -/
theorem C74_fold {β : Type} {m : Engine} (fa : Sus → β → M β) (fb : List Sus → β → M β) (e : β) {s : Str}
    {ps : List (Sus × List Sus)} {last : Option Sus} (h : Cut m ⟨false, false⟩ s 0 ps last) :
    fold raise m fa fb e s = (do
      let r ← ps.foldlM (fun r p => do let r ← fa p.1 r; fb p.2 r) e
      match last with
      | some z => fa z r
      | none => raise _ .regex) :=
  fold_cut raise fa fb h (Nat.zero_le _) _ e (by omega)

/-- C74: the documented equation for `map`.  `hr` says that raising an exception skips what follows. -/
theorem C74_map (hr : ∀ α β e (k : α → M β), (raise α e >>= k) = raise β e) {β : Type} (m : Engine) (g : List Sus → M β) (s : Str) :
    map raise m g s = (do
      let r ← fold raise m (fun _ r => pure r) (fun v r => do let y ← g v; pure (y :: r)) [] s
      pure r.reverse) := by
  obtain ⟨ps, last, h, -⟩ := C74_decomposition m ⟨false, false⟩ s
  have h1 := map_cut raise g h (Nat.zero_le _) (s.length + 1) [] (by omega)
  rw [C74_fold raise _ _ _ h]
  refine h1.trans ?_
  simp only [pure_bind, bind_assoc]
  congr 1; funext r
  cases last with
  | some z => simp
  | none => exact (hr _ _ _ _).symm

/-- C74: the documented equation for `app`. -/
theorem C74_app (m : Engine) (g : List Sus → M Unit) (s : Str) :
    app raise m g s = fold raise m (fun _ _ => pure ()) (fun v _ => g v) () s := by
  obtain ⟨ps, last, h, -⟩ := C74_decomposition m ⟨false, false⟩ s
  have h1 := app_cut raise g h (Nat.zero_le _) (s.length + 1) (by omega)
  rw [C74_fold raise _ _ _ h]
  refine h1.trans ?_
  simp only [pure_bind]
  cases last <;> rfl

/-- C74: `fields` returns the fields of the decomposition with Notbol and Noteol, or raises Regex. -/
theorem C74_fields {m : Engine} {s : Str} {ps : List (Sus × List Sus)} {last : Option Sus} (h : Cut m ⟨true, true⟩ s 0 ps last) :
    fields raise m s = match (generalizing := false) last with
      | some z => pure (ps.map Prod.fst ++ [z])
      | none => raise _ .regex := by
  have h1 := split_cut raise (fun u res => u :: res) h (Nat.zero_le _) (s.length + 1) [] (by omega)
  refine h1.trans ?_
  cases last with
  | none => rfl
  | some z =>
    have : ∀ (ps : List (Sus × List Sus)) (r : List Sus), ps.foldl (fun r p => p.1 :: r) r = (ps.map Prod.fst).reverse ++ r := by
      intro ps
      induction ps with
      | nil => intro r; rfl
      | cons p ps ih => intro r; rw [List.foldl_cons, ih]; simp
    simp only [this]
    simp

/-- C74: `tokens` returns the fields that are not empty, as documented. -/
theorem C74_tokens {m : Engine} {s : Str} {ps : List (Sus × List Sus)} {last : Option Sus} (h : Cut m ⟨true, true⟩ s 0 ps last) :
    tokens raise m s = match (generalizing := false) last with
      | some z => pure ((ps.map Prod.fst ++ [z]).filter fun u => u.len ≠ 0)
      | none => raise _ .regex := by
  have h1 := split_cut raise (fun u res => if isEmpty u then res else u :: res) h (Nat.zero_le _) (s.length + 1) [] (by omega)
  refine h1.trans ?_
  cases last with
  | none => rfl
  | some z =>
    have : ∀ (ps : List (Sus × List Sus)) (r : List Sus), ps.foldl (fun r p => if isEmpty p.1 = true then r else p.1 :: r) r =
        ((ps.map Prod.fst).filter fun u => u.len ≠ 0).reverse ++ r := by
      intro ps
      induction ps with
      | nil => intro r; rfl
      | cons p ps ih =>
        intro r
        rw [List.foldl_cons, ih]
        by_cases hp : p.1.len = 0
        · simp [isEmpty, hp]
        · simp [isEmpty, hp]
    simp only [this]
    by_cases hz : z.len = 0 <;> simp [isEmpty, hz]

/-- the replacement of one match, computed from left to right -/
def replacement (v : List Sus) (repl : List (Replacer M)) : M (List Str) := repl.mapM fun
  | .str s => pure s
  | .sus i => do let u ← vsub raise v i; pure u.text
  | .tr f i => do let u ← vsub raise v i; f u.text
  | .trs f => f v

theorem applyreplacer_texts (v : List Sus) : ∀ (repl : List (Replacer M)),
    (do let r ← applyreplacer raise v repl []; pure (concat r.reverse)) = (do let ts ← replacement raise v repl; pure ts.flatten) := by
  have hall : ∀ t : Str, (all t).text = t := by
    intro t; simp [all, Sus.text]
  intro repl
  induction repl with
  | nil => simp [applyreplacer, replacement, concat]
  | cons r rest ih =>
    have key : ∀ u : Sus, (do let r ← applyreplacer raise v rest [u]; pure (concat r.reverse)) =
        (do let ts ← replacement raise v rest; pure (u.text ++ ts.flatten)) := by
      intro u
      rw [applyreplacer_acc]
      have : (do let ts ← replacement raise v rest; pure (u.text ++ ts.flatten)) =
          (do let t ← (do let ts ← replacement raise v rest; pure ts.flatten); pure (u.text ++ t)) := by simp
      rw [this, ← ih]
      simp [concat]
    cases r with
    | str s =>
      simp only [applyreplacer]
      rw [key, hall]
      simp [replacement]
    | sus i =>
      simp only [applyreplacer, bind_assoc, key]
      simp [replacement]
    | tr f i =>
      simp only [applyreplacer, bind_assoc, key, hall]
      simp [replacement]
    | trs f =>
      simp only [applyreplacer, bind_assoc, key, hall]
      simp [replacement]

/-- C74: `replace` leaves the fields and replaces each match, applying the replacers from left to right, or raises Regex. -/
theorem C74_replace {m : Engine} (repl : List (Replacer M)) {s : Str} {ps : List (Sus × List Sus)} {last : Option Sus}
    (h : Cut m ⟨false, false⟩ s 0 ps last) :
    replace raise m repl s = (do
      let t ← ps.foldlM (fun t p => do let ts ← replacement raise p.2 repl; pure (t ++ p.1.text ++ ts.flatten)) []
      match last with
      | some z => pure (t ++ z.text)
      | none => raise _ .regex) := by
  have h1 := replace_cut raise repl h (Nat.zero_le _) (s.length + 1) [] (by omega)
  refine h1.trans ?_
  have key : ∀ (ps : List (Sus × List Sus)) (res : List Sus) (K : Str → M Str),
      (do let r ← ps.foldlM (fun r (p : Sus × List Sus) => applyreplacer raise p.2 repl (p.1 :: r)) res; K (concat r.reverse)) =
      (do let t ← ps.foldlM (fun t (p : Sus × List Sus) => do let ts ← replacement raise p.2 repl; pure (t ++ p.1.text ++ ts.flatten)) (concat res.reverse)
          K t) := by
    intro ps
    induction ps with
    | nil => intro res K; simp
    | cons p ps ih =>
      intro res K
      simp only [List.foldlM_cons, bind_assoc, pure_bind]
      have e1 : (do
          let r ← applyreplacer raise p.2 repl (p.1 :: res)
          let r ← ps.foldlM (fun r (p : Sus × List Sus) => applyreplacer raise p.2 repl (p.1 :: r)) r
          K (concat r.reverse)) =
        (do
          let c ← (do let r ← applyreplacer raise p.2 repl []; pure (concat r.reverse))
          let t ← ps.foldlM (fun t (p : Sus × List Sus) => do let ts ← replacement raise p.2 repl; pure (t ++ p.1.text ++ ts.flatten))
            (concat res.reverse ++ p.1.text ++ c)
          K t) := by
        rw [applyreplacer_acc]
        simp only [bind_assoc, pure_bind, ih]
        congr 1; funext r
        congr 2
        simp [concat]
      rw [e1, applyreplacer_texts]
      simp
  cases last with
  | some z =>
    have := key ps [] (fun t => pure (t ++ z.text))
    have e0 : concat ([] : List Sus).reverse = [] := rfl
    rw [e0] at this
    dsimp only
    rw [← this]
    congr 1; funext r
    simp [concat]
  | none =>
    have := key ps [] (fun _ => raise _ .regex)
    exact this

/-- C74: the documented equation for `substitute`. -/
theorem C74_substitute (hr : ∀ α β e (k : α → M β), (raise α e >>= k) = raise β e) (m : Engine) (f : Str → M Str) (s : Str) :
    substitute raise m f s = (do
      let r ← fold raise m (fun a r => pure (a :: r))
        (fun v r => do let u ← vsub raise v 0; let y ← f u.text; pure (all y :: r)) [] s
      pure (concat r.reverse)) := by
  obtain ⟨ps, last, h, -⟩ := C74_decomposition m ⟨false, false⟩ s
  have h1 := replace_cut raise [.tr f 0] h (Nat.zero_le _) (s.length + 1) [] (by omega)
  rw [C74_fold raise _ _ _ h]
  refine h1.trans ?_
  simp only [applyreplacer, pure_bind, bind_assoc]
  congr 1; funext r
  cases last with
  | some z => simp
  | none => exact (hr _ _ _ _).symm

/-- C74: replacing every match by itself gives the string back. -/
theorem C74_identity {m : Engine} {s : Str} {ps : List (Sus × List Sus)} {z : Sus} (h : Cut m ⟨false, false⟩ s 0 ps (some z)) :
    replace raise m [.sus 0] s = pure s := by
  rw [C74_replace raise _ h]
  have hcat := C74_concatenation h
  have hne : ∀ p ∈ ps, ∃ u v, p.2 = u :: v := by
    clear hcat
    generalize hq : some z = last at h
    generalize hi : 0 = i at h
    clear hq hi
    induction h with
    | done => intro p hp; cases hp
    | step _ _ _ ih =>
      intro p hp
      rw [List.mem_cons] at hp
      rcases hp with rfl | hp
      · exact ⟨_, _, rfl⟩
      · exact ih p hp
    | stuck =>
      intro p hp
      rw [List.mem_singleton] at hp
      subst hp
      exact ⟨_, _, rfl⟩
  have : ∀ (ps : List (Sus × List Sus)) (t : Str), (∀ p ∈ ps, ∃ u v, p.2 = u :: v) →
      (ps.foldlM (fun t (p : Sus × List Sus) => do let ts ← replacement raise p.2 [.sus 0]; pure (t ++ p.1.text ++ ts.flatten)) t : M Str) = pure (t ++ whole ps) := by
    intro ps
    induction ps with
    | nil => intro t _; simp [whole]
    | cons p ps ih =>
      intro t hne
      obtain ⟨u, v, hv⟩ := hne p (List.mem_cons_self)
      rw [List.foldlM_cons]
      have e : replacement raise p.2 [.sus 0] = pure [u.text] := by
        simp [replacement, hv, vsub_head]
      rw [e, pure_bind, pure_bind, ih _ (fun q hq => hne q (List.mem_cons_of_mem _ hq))]
      simp [whole, hv]
  rw [this ps [] hne]
  simp [hcat]

/-- C74: `replace1` replaces the first match only. -/
theorem C74_replace1 (m : Engine) (repl : List (Replacer M)) (s : Str) :
    (regexec m ⟨false, false⟩ s = none ∧ replace1 raise m repl s = pure s) ∨
    ∃ j n v, regexec m ⟨false, false⟩ s = some (⟨s, j, n⟩ :: v) ∧ j + n ≤ s.length ∧
      replace1 raise m repl s = (do let ts ← replacement raise (⟨s, j, n⟩ :: v) repl; pure (s.take j ++ ts.flatten ++ s.drop (j + n))) := by
  unfold regexec replace1
  rcases reg_cases m ⟨false, false⟩ (Nat.zero_le s.length) with h | ⟨j, n, v, h, h1, h2⟩
  · left
    rw [suffix_zero] at h
    exact ⟨h, by rw [h]⟩
  · right
    rw [suffix_zero] at h
    refine ⟨j, n, v, h, h2, ?_⟩
    rw [h]
    have hl := leftsus_ok raise (s := s) (i := 0) (j := j) (n := n) (Nat.zero_le _) h2
    rw [suffix_zero] at hl
    simp only [vsub_head, hl, right_ok raise h2, pure_bind]
    have e : (do let ts ← replacement raise (⟨s, j, n⟩ :: v) repl; pure (s.take j ++ ts.flatten ++ s.drop (j + n))) =
        (do let t ← (do let ts ← replacement raise (⟨s, j, n⟩ :: v) repl; pure ts.flatten); pure (s.take j ++ t ++ s.drop (j + n))) := by simp
    rw [e, ← applyreplacer_texts]
    simp only [bind_assoc, pure_bind]
    congr 1; funext r
    congr 1
    have hs : (suffix s (j + n)).text = s.drop (j + n) := suffix_text
    simp [concat, hs]
    simp [Sus.text]

/-- C74: no function raises Regex unless the expression matches an empty string at the head or directly after a match. -/
theorem C74_progress {m : Engine} {e : Flags} {s : Str} (hne : ∀ i v, i ≤ s.length → regexecSus m e (suffix s i) ≠ some (⟨s, i, 0⟩ :: v)) :
    ∃ ps z, Cut m e s 0 ps (some z) := by
  obtain ⟨ps, last, h, -⟩ := C74_decomposition m e s
  cases last with
  | some z => exact ⟨ps, z, h⟩
  | none =>
    exfalso
    have : ∀ i ps last, Cut m e s i ps last → i ≤ s.length → last = none → False := by
      intro i ps last h
      induction h with
      | done => intro _ h; cases h
      | step h hp hc ih =>
        intro hi hl
        rcases reg_cases m e hi with h' | ⟨j', n', v', h', h1, h2⟩
        · rw [h] at h'; cases h'
        · rw [h] at h'; cases h'; exact ih h2 hl
      | stuck h => intro hi _; exact hne _ _ hi h
    exact this 0 ps none h (Nat.zero_le _) rfl

/-! ## The sentences of Regex.sig that do not hold -/

/-- an engine for the expression `^a` -/
def caretA : Engine where
  run e s := if e.notbol then none else match s with
    | 97 :: _ => some [some (0, 1)]
    | _ => none
  match0 e s regs h := by
    split at h
    · cases h
    · split at h
      · cases h; exact ⟨0, 1, [], rfl, by omega, by simp⟩
      · cases h

abbrev X := Except Exn
def rs (α : Type) (e : Exn) : X α := .error e

/-- C74: `^` should match at the beginning of the string only, but `replace` replaces more than the first a of "aab" by x, since
each search starts anew behind the previous match. -/
theorem C74_caret_violation : replace rs caretA [.str [120]] [97, 97, 98] = .ok [120, 120, 98] ∧
    map rs caretA (fun v => pure (v.map Sus.start)) [97, 97, 98] = .ok [[0], [1]] := by
  refine ⟨?_, ?_⟩ <;> decide +kernel

/-- C74: the documented equation `fields regex s = List.rev (fold regex (op ::, #2) [] s)` does not hold, since only `fields` sets
Notbol and Noteol. -/
theorem C74_fields_violation : fields rs caretA [97, 98] = .ok [⟨[97, 98], 0, 2⟩] ∧
    fold rs caretA (fun a r => pure (a :: r)) (fun _ r => pure r) [] [97, 98] = .ok [⟨[97, 98], 1, 1⟩, ⟨[97, 98], 0, 0⟩] := by
  refine ⟨?_, ?_⟩ <;> decide +kernel

/-- an engine that finds, for `((a)|(b))*` and "ab", the whole string, the group 1 last matching b, the group 2 matching a, and the
group 3 matching b; as Regex.sig says, "the last (rightmost) one matched" -/
def altStar : Engine where
  run _ s := if s = [97, 98] then some [some (0, 2), some (1, 2), some (0, 1), some (1, 2)] else none
  match0 e s regs h := by
    split at h
    · next hs => cases h; exact ⟨0, 2, _, rfl, by omega, by rw [hs]; simp⟩
    · cases h

/-- C74: the match vector ends before the first group that starts to the left of the previous one: groups 2 and 3 are missing. -/
theorem C74_groups_violation : regexec altStar ⟨false, false⟩ [97, 98] = some [⟨[97, 98], 0, 2⟩, ⟨[97, 98], 1, 1⟩] ∧
    replace1 rs altStar [.sus 3] [97, 98] = .error .subscript := by
  refine ⟨?_, ?_⟩ <;> decide +kernel

/-! ## Examples -/

/-- an engine for `b` -/
def justB : Engine where
  run _ s := if 98 ∈ s then some [some (s.findIdx (· = 98), s.findIdx (· = 98) + 1)] else none
  match0 e s regs h := by
    split at h
    · next hs =>
      cases h
      refine ⟨_, _, [], rfl, by omega, ?_⟩
      have : s.findIdx (fun x => decide (x = 98)) < s.length := List.findIdx_lt_length_of_exists ⟨98, hs, by simp⟩
      omega
    · cases h

example : replace rs justB [.str [120, 120], .sus 0] [97, 98, 99, 98] = .ok [97, 120, 120, 98, 99, 120, 120, 98] := by decide +kernel
example : fields rs justB [98, 97, 98, 98, 99] = .ok [⟨[98, 97, 98, 98, 99], 0, 0⟩, ⟨[98, 97, 98, 98, 99], 1, 1⟩,
    ⟨[98, 97, 98, 98, 99], 3, 0⟩, ⟨[98, 97, 98, 98, 99], 4, 1⟩] := by decide +kernel
example : tokens rs justB [98, 97, 98, 98, 99] = .ok [⟨[98, 97, 98, 98, 99], 1, 1⟩, ⟨[98, 97, 98, 98, 99], 4, 1⟩] := by decide +kernel
example : Cut justB ⟨false, false⟩ [97, 98] 0 [(⟨[97, 98], 0, 1⟩, [⟨[97, 98], 1, 1⟩])] (some ⟨[97, 98], 2, 0⟩) :=
  .step (v := []) (j := 1) (n := 1) (by decide) (by omega) (.done (by decide))
example : Ordered [some (0, 2), none, some (1, 2)] := by unfold Ordered; simp; omega
example : ∀ α β e (k : α → X β), (rs α e >>= k) = rs β e := fun _ _ _ _ => rfl

end Mosml.Regexes
