import Verif.Lib.PathLemmas

/-! C46: properties of src/mosmllib/Path.mlp (Unix) -/
namespace Mosml.Lib.Path

open Substring (splitFields splitFields_ne)

/-! ### mkRelative -/

theorem fold_parentize (a : List Str) : ∀ d, (parentize a).foldl walk1 d = d.drop a.length := by
  induction a with
  | nil => intro d; rfl
  | cons x a ih => intro d; rw [parentize, List.foldl_cons, ih]; simp [walk1]

/-- the walk from the end of `a2` along `relArcs` ends where the walk along `a1` ends; both start at `base` -/
theorem relArcs_names (arcs1 : List Str) (a1 a2 : List Str) (hs : a1 <:+ arcs1) (hn : ∀ a ∈ a2, Name a) : ∀ base : List Str,
    (relArcs arcs1 a1 a2).foldl walk1 (a2.reverse ++ base) = a1.foldl walk1 base := by
  fun_induction relArcs arcs1 a1 a2 with
  | case1 => intro base; simp [walk1]
  | case2 a1 h => intro base; rfl
  | case3 a2 h =>
    intro base
    rw [fold_parentize]
    have : a2.length = a2.reverse.length := by simp
    rw [this, List.drop_left]; rfl
  | case4 a1r a11 a2r ih =>
    intro base
    have ha := hn a11 (by simp)
    have := ih (List.IsSuffix.trans (List.suffix_cons _ _) hs) (fun x hx => hn x (by simp [hx])) (a11 :: base)
    rw [List.foldl_cons, List.reverse_cons, List.append_assoc]
    have e : walk1 base a11 = a11 :: base := by simp [walk1, ha.1, ha.2.1, ha.2.2.1]
    rw [e, ← this]; rfl
  | case5 a11 a1r a21 a2r hne =>
    intro base
    rw [List.foldl_append, fold_parentize]
    have : (a21 :: a2r).length = (a21 :: a2r).reverse.length := by simp
    rw [this, List.drop_left]
    by_cases c : arcs1 = [[]]
    · rw [if_pos c]
      subst c
      have : a11 :: a1r = [[]] := by
        have hl := hs.length_le
        simp at hl
        subst hl
        exact hs.eq_of_length rfl
      rw [this]; simp [walk1]
    · rw [if_neg c]

theorem relArcs_good {arcs1 a1 a2 : List Str} (hs : a1 <:+ arcs1) (hg : Good arcs1) : Good (relArcs arcs1 a1 a2) := by
  have hp : ∀ l, Good (parentize l) := by
    intro l
    induction l with
    | nil => intro a ha; cases ha
    | cons x l ih => intro a ha; rcases List.mem_cons.1 ha with rfl | h; · simp
                     exact ih a h
  have hsub : ∀ l, l <:+ arcs1 → Good l := fun l hl a ha => hg a (hl.subset ha)
  fun_induction relArcs arcs1 a1 a2 with
  | case1 => intro a ha; simp at ha; subst ha; simp
  | case2 a1 h => exact hsub _ hs
  | case3 a2 h => exact hp _
  | case4 a11 a1r a2r ih => exact ih (List.IsSuffix.trans (List.suffix_cons _ _) hs)
  | case5 a11 a1r a21 a2r hne =>
    intro a ha
    rcases List.mem_append.1 ha with h | h
    · exact hp _ a h
    · by_cases c : arcs1 = [[]]
      · rw [if_pos c] at h; cases h
      · rw [if_neg c] at h; exact hsub _ hs a h

theorem relArcs_head (arcs1 a1 a2 : List Str) : (relArcs arcs1 a1 a2).head? = some [] ↔ ∃ r, a1 = a2 ++ [] :: r := by
  fun_induction relArcs arcs1 a1 a2 with
  | case1 => simp
  | case2 a1 h => cases a1 with
    | nil => simp
    | cons a r => simp
  | case3 a2 h => cases a2 with
    | nil => exact absurd rfl h
    | cons a r => simp [parentize]
  | case4 a11 a1r a2r ih => rw [ih]; simp
  | case5 a11 a1r a21 a2r hne =>
    simp only [parentize, List.cons_append, List.head?_cons, List.cons.injEq]
    constructor
    · intro h; simp at h
    · rintro ⟨r, h, _⟩; exact absurd h hne

theorem mkRelative_spec (p1 p2 : Str) (h1 : isAbsolute p1 = true) (h2 : isAbsolute p2 = true) :
    ∃ s2, mkCanonical p2 = .ok s2 ∧
    ((∃ s, mkRelative p1 p2 = .ok s ∧ isAbsolute s = false ∧ denote (denote [] p2) s = denote [] p1) ∨
     (mkRelative p1 p2 = .error .Path ∧ ∃ r, (fromString p1).arcs = (fromString s2).arcs ++ [] :: r)) := by
  obtain ⟨k, names, s2, hn, hk, hc, hs, hd⟩ := mkCanonical_spec p2
  have hw := fromString_wf p1
  rw [h2] at hs hk hd
  have hk0 := hk rfl
  subst hk0
  rw [isAbsolute_eq] at h1
  rcases hq : fromString p1 with ⟨b, v, arcs⟩
  rw [hq] at hw h1
  obtain ⟨hv, hg, ha, hr⟩ := hw
  dsimp only at hv hg ha hr h1
  subst hv h1
  refine ⟨s2, hc, ?_⟩
  have hmk : mkRelative p1 p2 = toString ⟨false, [], relArcs arcs arcs (canonArcs true 0 names)⟩ := by
    unfold mkRelative
    rw [hc]
    show (if !(fromString s2).isAbs then _ else _) = _
    rw [hs, hq]
    simp
  have hwalk : (relArcs arcs arcs (canonArcs true 0 names)).foldl walk1 (denote [] p2) = arcs.foldl walk1 [] := by
    have hdn : denote [] p2 = names.reverse := by rw [hd []]; simp
    rw [hdn]
    by_cases c : names = []
    · subst c
      have : canonArcs true 0 [] = [[]] := rfl
      rw [this]
      cases arcs with
      | nil => simp [relArcs, parentize, walk1]
      | cons a1 ar =>
        unfold relArcs
        by_cases c : a1 = []
        · rw [if_pos c]
          subst c
          cases ar with
          | nil => simp [relArcs, walk1]
          | cons b ar => simp [relArcs, walk1]
        · rw [if_neg c, if_neg (by simp [c])]
          simp [parentize, walk1]
    · have : canonArcs true 0 names = names := by unfold canonArcs; rw [if_neg (by simp [c])]; rfl
      rw [this]
      have := relArcs_names arcs arcs names List.suffix_rfl hn []
      rwa [List.append_nil] at this
  by_cases c : ∃ r, arcs = canonArcs true 0 names ++ [] :: r
  · right
    refine ⟨?_, by rw [hs]; exact c⟩
    rw [hmk]
    have := (relArcs_head arcs arcs (canonArcs true 0 names)).2 c
    cases e : relArcs arcs arcs (canonArcs true 0 names) with
    | nil => rw [e] at this; cases this
    | cons a r =>
      rw [e] at this
      simp only [List.head?_cons, Option.some.injEq] at this
      rw [toString_rel, if_pos this]
  · left
    have hwf : WF ⟨false, [], relArcs arcs arcs (canonArcs true 0 names)⟩ :=
      ⟨rfl, relArcs_good List.suffix_rfl hg, by simp, fun _ e => c ((relArcs_head _ _ _).1 e)⟩
    obtain ⟨s, e1, e2⟩ := toString_wf hwf
    refine ⟨s, by rw [hmk, e1], by rw [isAbsolute_eq, e2], ?_⟩
    rw [denote_eq _ s, e2, denote_eq _ p1, hq]
    exact hwalk

/-! ### splitDirFile -/

theorem J_concat (f : List Str) (hf : f ≠ []) (a : Str) : J (f ++ [a]) = J f ++ '/' :: a := by
  induction f with
  | nil => exact absurd rfl hf
  | cons x f ih =>
    cases f with
    | nil => rfl
    | cons y f => rw [List.cons_append, J_cons _ _ (by simp), ih (by simp), J_cons x _ (by simp)]; simp

theorem isAbs_noslash {a : Str} (h : '/' ∉ a) : isAbsolute a = false := by
  cases e : isAbsolute a with
  | false => rfl
  | true =>
    rw [isAbsolute_head] at e
    cases a with
    | nil => cases e
    | cons c a => simp at e; subst e; simp at h

theorem splitDirFile_spec (p : Str) : ∃ dir file, splitDirFile p = .ok (dir, file) ∧ '/' ∉ file ∧ isAbsolute dir = isAbsolute p ∧
    (∀ cwd, denote (denote cwd dir) file = denote cwd p) ∧ (¬ ['/', '/'] <:+: p → concat dir file = .ok p) := by
  have hw := fromString_wf p
  have hts := toString_fromString p
  have hde : ∀ cwd, denote cwd p = D (fromString p) cwd := fun cwd => denote_eq cwd p
  have hab : isAbsolute p = (fromString p).isAbs := isAbsolute_eq p
  rcases hq : fromString p with ⟨b, v, arcs⟩
  rw [hq] at hw hts hde hab
  obtain ⟨hv, hg, ha, hr⟩ := hw
  dsimp only at hv hg ha hr hab
  subst hv
  unfold splitDirFile
  rw [hq]
  dsimp only
  rcases List.eq_nil_or_concat arcs with rfl | ⟨f, a, rfl⟩
  · -- the empty path
    cases b with
    | true => exact absurd rfl (ha rfl)
    | false =>
      have hp : p = [] := by cases hts; rfl
      subst hp
      exact ⟨[], [], rfl, by simp, rfl, fun cwd => rfl, fun _ => rfl⟩
  · simp only [List.concat_eq_append] at *
    have hga : '/' ∉ a := hg a (by simp)
    have hgf : Good f := fun x hx => hg x (by simp [hx])
    simp only [List.reverse_append, List.reverse_cons, List.reverse_nil, List.nil_append, List.singleton_append, List.reverse_reverse]
    have hda : ∀ d, denote d a = walk1 d a := by
      intro d
      rw [denote_rel _ _ (by intro e; have := (isAbsolute_head a).2 e; rw [isAbs_noslash hga] at this; cases this), SF_single a hga]; rfl
    by_cases hf : f = []
    · subst hf
      cases b with
      | true =>
        have hp : p = '/' :: a := by
          have := toString_abs a []
          rw [List.nil_append] at hts
          rw [this] at hts; cases hts; rfl
        refine ⟨['/'], a, rfl, hga, by rw [hab]; rfl, fun cwd => ?_, fun _ => ?_⟩
        · rw [hda, hde]; rfl
        · rw [concat_root a (isAbs_noslash hga), hp]
      | false =>
        have hne : a ≠ [] := by intro e; exact hr rfl (by simp [e])
        have hp : p = a := by
          have := toString_rel a []
          rw [List.nil_append, this, if_neg hne] at hts; cases hts; rfl
        refine ⟨[], a, rfl, hga, by rw [hab]; rfl, fun cwd => ?_, fun _ => ?_⟩
        · rw [hda, hde]; rfl
        · rw [concat_nil a (isAbs_noslash hga), hp]
    · have hwf : WF ⟨b, [], f⟩ := by
        refine ⟨rfl, hgf, fun _ => hf, fun hb e => hr hb ?_⟩
        dsimp only at e
        cases f with
        | nil => exact absurd rfl hf
        | cons x f => simpa using e
      obtain ⟨dir, e1, e2⟩ := toString_wf hwf
      rw [e1]
      refine ⟨dir, a, rfl, hga, by rw [isAbsolute_eq, e2, hab], fun cwd => ?_, ?_⟩
      · rw [hda, hde, denote_eq, e2]
        simp [D, List.foldl_append]
      · intro hnd
        have hJf := J_concat f hf a
        cases f with
        | nil => exact absurd rfl hf
        | cons x f =>
          cases b with
          | true =>
            rw [toString_abs] at e1
            cases e1
            rw [List.cons_append, toString_abs, ← List.cons_append, hJf] at hts
            cases hts
            cases e : J (x :: f) with
            | nil =>
              rw [e] at hnd
              exact absurd ⟨[], a, by simp⟩ hnd
            | cons c w =>
              rw [concat_absp c w a (isAbs_noslash hga)]
              rcases stripslash_cases (c :: w) with ⟨y, e3, _⟩ | ⟨_, e3⟩
              · exfalso
                apply hnd
                rw [e, e3]
                exact ⟨'/' :: y, a, by simp⟩
              · rw [e3]
          | false =>
            have hne : x ≠ [] := by intro e; exact hr rfl (by simp [e])
            rw [toString_rel, if_neg hne] at e1
            cases e1
            rw [List.cons_append, toString_rel, if_neg hne, ← List.cons_append, hJf] at hts
            cases hts
            have hh := J_head x f hne
            cases e : J (x :: f) with
            | nil => rw [e] at hh; cases x with
              | nil => exact absurd rfl hne
              | cons _ _ => cases hh
            | cons c w =>
              have hc : c ≠ '/' := by
                rw [e] at hh
                cases x with
                | nil => exact absurd rfl hne
                | cons d x =>
                  simp at hh; subst hh
                  intro hcc; exact hg (c :: x) (by simp) (by simp [hcc])
              rw [concat_rel c w a (isAbs_noslash hga) hc]
              rcases stripslash_cases (c :: w) with ⟨y, e3, _⟩ | ⟨_, e3⟩
              · exfalso
                apply hnd
                rw [e, e3]
                exact ⟨y, a, by simp⟩
              · rw [e3]

theorem concat_append (d x y s : Str) (hx : isAbsolute x = false) (hxy : isAbsolute (x ++ y) = false) (h : concat d x = .ok s) : concat d (x ++ y) = .ok (s ++ y) := by
  cases d with
  | nil => rw [concat_nil _ hx] at h; cases h; exact concat_nil _ hxy
  | cons c w =>
    by_cases hc : c = '/'
    · subst hc
      cases w with
      | nil => rw [concat_root _ hx] at h; cases h; rw [concat_root _ hxy]; rfl
      | cons c w => rw [concat_absp c w _ hx] at h; cases h; rw [concat_absp c w _ hxy]; simp
    · rw [concat_rel c w _ hx hc] at h; cases h; rw [concat_rel c w _ hxy hc]; simp

theorem splitrDot_spec (file : Str) : (splitrDot file).1 ++ (splitrDot file).2 = file ∧ '.' ∉ (splitrDot file).2 ∧
    ((splitrDot file).1 ≠ [] → (splitrDot file).1 = (splitrDot file).1.dropLast ++ ['.']) := by
  unfold splitrDot
  dsimp only
  have h1 : file = (file.reverse.dropWhile (fun c => c != '.')).reverse ++ (file.reverse.takeWhile (fun c => c != '.')).reverse := by
    rw [← List.reverse_append, List.takeWhile_append_dropWhile, List.reverse_reverse]
  have hT : file.take (file.length - (file.reverse.takeWhile (fun c => c != '.')).reverse.length) = (file.reverse.dropWhile (fun c => c != '.')).reverse := by
    have hl := congrArg List.length h1
    rw [List.length_append] at hl
    have : file.length - (file.reverse.takeWhile (fun c => c != '.')).reverse.length = (file.reverse.dropWhile (fun c => c != '.')).reverse.length := by omega
    rw [this]
    conv_lhs => rw [h1]
    simp
  rw [hT]
  refine ⟨h1.symm, ?_, ?_⟩
  · intro h
    rw [List.mem_reverse] at h
    have : ∀ l : Str, '.' ∉ l.takeWhile (fun c => c != '.') := by
      intro l
      induction l with
      | nil => simp
      | cons c l ih =>
        rw [List.takeWhile_cons]
        by_cases hc : c = '.'
        · simp [hc]
        · simp [hc, ih]; exact fun e => hc e.symm
    exact this _ h
  · intro hne
    cases e : file.reverse.dropWhile (fun c => c != '.') with
    | nil => rw [e] at hne; exact absurd rfl hne
    | cons c w =>
      have : (c != '.') = false := by
        have := List.head_dropWhile_not (l := file.reverse) (fun c => c != '.') (by rw [e]; simp)
        simp only [e, List.head_cons] at this
        exact this
      simp only [bne_eq_false_iff_eq] at this
      subst this
      simp

theorem mem_splitrDot {c : Char} {file : Str} (h : c ∈ (splitrDot file).1) : c ∈ file := by
  have := (splitrDot_spec file).1
  rw [← this]; simp [h]

/-! ### properties -/

/-- C46: `toString (fromString p) = p` -/
theorem C46_toString_fromString (p : Str) : toString (fromString p) = .ok p := toString_fromString p

/-- C46: `toString` raises Path exactly for a volume name that is not empty or a relative path with an empty first arc; otherwise
`fromString` gives the argument back if no arc contains a slash, except that an absolute path must have an arc. -/
theorem C46_fromString_toString_partial (q : P) :
    (toString q = .error .Path ↔ q.vol ≠ [] ∨ (q.isAbs = false ∧ q.arcs.head? = some [])) ∧
    ∀ s, toString q = .ok s → (∀ a ∈ q.arcs, '/' ∉ a) → ¬ (q.isAbs = true ∧ q.arcs = []) → fromString s = q := by
  obtain ⟨b, v, arcs⟩ := q
  have herr : toString ⟨b, v, arcs⟩ = .error .Path ↔ v ≠ [] ∨ (b = false ∧ arcs.head? = some []) := by
    by_cases hv : v = []
    · subst hv
      cases b with
      | true => cases arcs with
        | nil => simp [toString_abs_nil]
        | cons a r => simp [toString_abs]
      | false => cases arcs with
        | nil => simp [toString_rel_nil]
        | cons a r =>
          rw [toString_rel]
          by_cases c : a = [] <;> simp [c]
    · have : validVolume v = false := by simpa [validVolume] using hv
      simp [toString, this, hv]
  refine ⟨herr, fun s hs hg hne => ?_⟩
  have hnot : ¬ (v ≠ [] ∨ (b = false ∧ arcs.head? = some [])) := by rw [← herr, hs]; simp
  have hv : v = [] := by by_contra h; exact hnot (.inl h)
  have hwf : WF ⟨b, v, arcs⟩ := ⟨hv, hg, fun hb e => hne ⟨hb, e⟩, fun hb e => hnot (.inr ⟨hb, e⟩)⟩
  obtain ⟨s', e1, e2⟩ := toString_wf hwf
  rw [hs] at e1; cases e1; exact e2

/-- Path.sig claims `fromString (toString p) = p` when no exception is raised; an absolute path without arcs is a counterexample. -/
theorem C46_fromString_toString_violation : ∃ q s, toString q = .ok s ∧ (∀ a ∈ q.arcs, '/' ∉ a) ∧ fromString s ≠ q :=
  ⟨⟨true, [], []⟩, ['/'], rfl, by simp, by decide⟩

/-- C46: `mkCanonical` raises no exception and is idempotent; its result is absolute if and only if its argument is, and leads to the same
place from every directory. -/
theorem C46_mkCanonical (p : Str) : ∃ q, mkCanonical p = .ok q ∧ mkCanonical q = .ok q ∧ isAbsolute q = isAbsolute p ∧ ∀ cwd, denote cwd q = denote cwd p := by
  obtain ⟨k, names, s, hn, hk, hc, hs, hd⟩ := mkCanonical_spec p
  refine ⟨s, hc, mkCanonical_of hn hk hs, by rw [isAbsolute_eq, hs], fun cwd => ?_⟩
  rw [hd, denote_eq, hs, canon_D hn hk]

/-- C46: a canonical path is `/` or `.` or has only proper names as arcs, after some parent arcs if it is relative. -/
theorem C46_canonical_form (p q : Str) (h : mkCanonical p = .ok q) :
    q = ['/'] ∨ q = ['.'] ∨ ∃ k names, (∀ a ∈ names, Name a) ∧ (isAbsolute p = true → k = 0) ∧ List.replicate k parentArc ++ names ≠ [] ∧
      q = (if isAbsolute p then ['/'] else []) ++ List.intercalate ['/'] (List.replicate k parentArc ++ names) := by
  obtain ⟨k, names, s, hn, hk, hc, hs, hd⟩ := mkCanonical_spec p
  rw [h] at hc; cases hc
  have hts := toString_fromString q
  have hJ : ∀ l : List Str, J l = List.intercalate ['/'] l := by
    intro l
    induction l with
    | nil => rfl
    | cons a r ih =>
      cases r with
      | nil => simp [J, List.intercalate]
      | cons b r =>
        rw [J, ih]
        simp [List.intercalate]
  rw [hs] at hts
  generalize isAbsolute p = b at hts hk hs hd ⊢
  by_cases c : k = 0 ∧ names = []
  · have : canonArcs b k names = if b then [[]] else [['.']] := by unfold canonArcs; rw [if_pos c]
    rw [this] at hts
    cases b
    · right; left; cases hts; rfl
    · left; cases hts; rfl
  · right; right
    have : canonArcs b k names = List.replicate k parentArc ++ names := by unfold canonArcs; rw [if_neg c]
    have hwf := canon_wf (b := b) hn hk
    rw [this] at hts hwf
    have hne : List.replicate k parentArc ++ names ≠ [] := by intro e; simp at e; exact c ⟨e.1, e.2⟩
    refine ⟨k, names, hn, hk, hne, ?_⟩
    rw [← hJ]
    cases e : List.replicate k parentArc ++ names with
    | nil => exact absurd e hne
    | cons a r =>
      rw [e] at hts hwf
      cases b with
      | true => rw [toString_abs] at hts; cases hts; rfl
      | false =>
        have : a ≠ [] := by intro ea; exact hwf.rel rfl (by simp [ea])
        rw [toString_rel, if_neg this] at hts; cases hts; rfl

/-- C46: canonical forms decide equivalence: two paths have the same canonical form if and only if both are absolute or both relative
and they lead to the same place from every directory. -/
theorem C46_canonical_complete (p q : Str) : mkCanonical p = mkCanonical q ↔
    isAbsolute p = isAbsolute q ∧ ∀ cwd, (∀ a ∈ cwd, Name a) → denote cwd p = denote cwd q := by
  obtain ⟨k, names, s, hn, hk, hc, hs, hd⟩ := mkCanonical_spec p
  obtain ⟨k', names', s', hn', hk', hc', hs', hd'⟩ := mkCanonical_spec q
  rw [hc, hc']
  constructor
  · intro e
    cases e
    rw [hs] at hs'
    have hb : isAbsolute p = isAbsolute q := by injection hs'
    refine ⟨hb, fun cwd _ => ?_⟩
    rw [hd, hd', ← canon_D hn hk, ← canon_D hn' hk', hs']
  · rintro ⟨hb, hall⟩
    have hkn : k = k' ∧ names = names' := by
      -- a name that is in neither list
      obtain ⟨z, hz, hz1, hz2⟩ : ∃ z : Str, Name z ∧ z ∉ names ∧ z ∉ names' := by
        have hlen : ∀ l : List Str, ∃ n, ∀ a ∈ l, a.length < n := by
          intro l
          induction l with
          | nil => exact ⟨0, by simp⟩
          | cons a l ih =>
            obtain ⟨n, h⟩ := ih
            refine ⟨n + a.length + 1, fun x hx => ?_⟩
            rcases List.mem_cons.1 hx with rfl | hx
            · omega
            · have := h x hx; omega
        obtain ⟨n, h⟩ := hlen (names ++ names')
        refine ⟨List.replicate (n + 3) 'x', ⟨?_, ?_, ?_, ?_⟩, ?_, ?_⟩
        · simp
        · intro e; have := congrArg List.length e; simp at this
        · intro e; have := congrArg List.length e; simp at this
        · intro e; have := List.eq_of_mem_replicate e; cases this
        · intro e; have := h _ (List.mem_append.2 (.inl e)); simp at this
        · intro e; have := h _ (List.mem_append.2 (.inr e)); simp at this
      have hcwd := hall (List.replicate (k + k') z) (by intro a ha; rw [List.eq_of_mem_replicate ha]; exact hz)
      rw [hd, hd', ← hb] at hcwd
      cases hbb : isAbsolute p with
      | true =>
        rw [hbb] at hcwd hk
        rw [← hb, hbb] at hk'
        refine ⟨by rw [hk rfl, hk' rfl], ?_⟩
        simpa using hcwd
      | false =>
        rw [hbb] at hcwd
        simp only [Bool.false_eq_true, if_false, List.drop_replicate] at hcwd
        have e1 : k + k' - k = k' := by omega
        have e2 : k + k' - k' = k := by omega
        rw [e1, e2] at hcwd
        have hc1 := congrArg (List.count z) hcwd
        rw [List.count_append, List.count_append, List.count_eq_zero_of_not_mem (l := names.reverse) (by simpa using hz1), List.count_eq_zero_of_not_mem (l := names'.reverse) (by simpa using hz2)] at hc1
        simp at hc1
        refine ⟨hc1.symm, ?_⟩
        subst hc1
        have := List.append_cancel_right hcwd
        simpa using this
    have : fromString s = fromString s' := by rw [hs, hs', hb, hkn.1, hkn.2]
    have t1 := toString_fromString s
    have t2 := toString_fromString s'
    rw [this, t2] at t1
    injection t1 with t1
    rw [t1]

/-- C46: `getParent p` denotes the parent of what `p` denotes; it raises no exception -/
theorem C46_getParent (p : Str) : ∃ q, getParent p = .ok q ∧ isAbsolute q = isAbsolute p ∧ ∀ cwd, denote cwd q = (denote cwd p).tail := getParent_spec p

/-- C46: `getParent p = p` if and only if `p` is a root -/
theorem C46_getParent_root (p : Str) : getParent p = .ok p ↔ isRoot p = true := getParent_fix p

/-- C46: `concat (p1, p2)` raises Path exactly if `p2` is absolute; it leads where `p2` leads from where `p1` leads -/
theorem C46_concat (p1 p2 : Str) : if isAbsolute p2 then concat p1 p2 = .error .Path
    else ∃ q, concat p1 p2 = .ok q ∧ isAbsolute q = isAbsolute p1 ∧ ∀ cwd, denote cwd q = denote (denote cwd p1) p2 := by
  by_cases h : isAbsolute p2 = true
  · rw [if_pos h]; exact concat_abs p1 p2 h
  · rw [if_neg h]; exact concat_spec p1 p2 (by simpa using h)

/-- C46: `mkAbsolute {path = p1, relativeTo = p2}` -/
theorem C46_mkAbsolute (p1 p2 : Str) : if isAbsolute p2 then ∃ q, mkAbsolute p1 p2 = .ok q ∧ isAbsolute q = true ∧ ∀ cwd, denote cwd q = denote (denote [] p2) p1
    else mkAbsolute p1 p2 = .error .Path := by
  by_cases h : isAbsolute p2 = true
  · rw [if_pos h]
    have hd2 : ∀ cwd, denote cwd p2 = denote [] p2 := by
      intro cwd; rw [denote_eq, denote_eq]; rw [isAbsolute_eq] at h; simp [D, h]
    by_cases h1 : isAbsolute p1 = true
    · refine ⟨p1, by simp [mkAbsolute, isRelative, h, h1], h1, fun cwd => ?_⟩
      rw [denote_eq, denote_eq]; rw [isAbsolute_eq] at h1; simp [D, h1]
    · obtain ⟨s, e1, e2, e3⟩ := concat_spec p2 p1 (by simpa using h1)
      obtain ⟨q, f1, f2, f3, f4⟩ := C46_mkCanonical s
      refine ⟨q, ?_, by rw [f3, e2, h], fun cwd => ?_⟩
      · have hr : isRelative p2 = false := by simp [isRelative, h]
        unfold mkAbsolute
        rw [hr, if_neg (by simp), if_neg h1, e1]
        exact f1
      · rw [f4, e3, hd2]
  · rw [if_neg h]
    have : isRelative p2 = true := by simp [isRelative, h]
    simp [mkAbsolute, this]

/-- C46: `mkRelative {path = p1, relativeTo = p2}`, where `p1`, if absolute, is `/` or has no empty arcs (no `//` and no `/` at the end):
Path is raised exactly when `p2` is relative, and the result leads from `p2` to `p1`. -/
theorem C46_mkRelative_partial (p1 p2 : Str) (hp : p1 = ['/'] ∨ ¬ ['/', '/'] <:+: p1 ∧ p1.getLast? ≠ some '/') :
    if isAbsolute p2 then ∃ q, mkRelative p1 p2 = .ok q ∧ isAbsolute q = false ∧ (isAbsolute p1 = false → q = p1) ∧
      (isAbsolute p1 = true → denote (denote [] p2) q = denote [] p1)
    else mkRelative p1 p2 = .error .Path := by
  obtain ⟨k, names, s2, hn, hk, hc, hs, hd⟩ := mkCanonical_spec p2
  by_cases h2 : isAbsolute p2 = true
  · rw [if_pos h2]
    by_cases h1 : isAbsolute p1 = true
    · obtain ⟨s2', e1, h⟩ := mkRelative_spec p1 p2 h1 h2
      rw [hc] at e1; cases e1
      rcases h with ⟨s, e2, e3, e4⟩ | ⟨_, r, e3⟩
      · exact ⟨s, e2, e3, by rw [h1]; simp, fun _ => e4⟩
      · exfalso
        rw [hs] at e3
        rw [h2] at e3 hk
        have := hk rfl
        subst this
        -- p1 is '/' :: w, and its arcs have an empty arc after a first one
        cases p1 with
        | nil => simp [isAbsolute, splitabsvolrest] at h1
        | cons c w =>
          have hcc : c = '/' := by rw [isAbsolute_head] at h1; simpa using h1
          subst hcc
          rw [fromString_abs] at e3
          dsimp only at e3
          have hcn : canonArcs true 0 names ≠ [] := by
            intro e; exact (canon_wf (b := true) (k := 0) hn (fun _ => rfl)).abs rfl e
          have hw : w = J (canonArcs true 0 names ++ [] :: r) := by rw [← e3, J_SF]
          have hJ2 : ∀ l : List Str, l ≠ [] → J (l ++ [] :: r) = J l ++ '/' :: J ([] :: r) := by
            intro l hl
            induction l with
            | nil => exact absurd rfl hl
            | cons a l ih =>
              cases l with
              | nil => simp [J]
              | cons b l => rw [List.cons_append, J_cons _ _ (by simp), ih (by simp), J_cons a _ (by simp)]; simp
          rw [hJ2 _ hcn] at hw
          rcases hp with hp | ⟨hp1, hp2⟩
          · simp only [List.cons.injEq, true_and] at hp
            rw [hp] at hw
            simp at hw
          · cases r with
            | nil => apply hp2; rw [hw, ← List.cons_append]; simp only [J]; rw [List.getLast?_append]; rfl
            | cons y r =>
              apply hp1
              rw [hw]
              exact ⟨'/' :: J (canonArcs true 0 names), J (y :: r), by simp [J]⟩
    · refine ⟨p1, ?_, by simpa using h1, fun _ => rfl, fun h => absurd h h1⟩
      unfold mkRelative
      rw [hc]
      show (if !(fromString s2).isAbs then _ else _) = _
      rw [hs, h2, ← isAbsolute_eq]
      simp [h1]
  · rw [if_neg h2]
    unfold mkRelative
    rw [hc]
    show (if !(fromString s2).isAbs then _ else _) = _
    rw [hs]
    simp [h2]

/-- Path.sig says that `mkRelative` raises Path only if `p2` is not absolute or the roots differ; it raises Path for
`mkRelative {path = "/a/", relativeTo = "/a"}`. -/
theorem C46_mkRelative_violation : ∃ p1 p2, isAbsolute p1 = true ∧ isAbsolute p2 = true ∧ mkRelative p1 p2 = .error .Path :=
  ⟨"/a/".toList, "/a".toList, by decide, by decide, by decide⟩

/-- C46: `splitDirFile` raises no exception, its file part is an arc, and the two parts lead to where the path leads; joining them gives
the path back if the path contains no double slash. -/
theorem C46_splitDirFile (p : Str) : ∃ dir file, splitDirFile p = .ok (dir, file) ∧ '/' ∉ file ∧ isAbsolute dir = isAbsolute p ∧
    (∀ cwd, denote (denote cwd dir) file = denote cwd p) ∧ (¬ ['/', '/'] <:+: p → joinDirFile dir file = .ok p) := splitDirFile_spec p

/-- C46: `joinBaseExt` is a left inverse of `splitBaseExt` on paths without double slashes; an extension is not empty and contains neither
a dot nor a slash. -/
theorem C46_splitBaseExt_partial (p : Str) : ∃ base ext, splitBaseExt p = .ok (base, ext) ∧ (∀ e, ext = some e → e ≠ [] ∧ '.' ∉ e ∧ '/' ∉ e) ∧
    (¬ ['/', '/'] <:+: p → joinBaseExt base ext = p) := by
  obtain ⟨dir, file, e1, e2, e3, e4, e5⟩ := splitDirFile_spec p
  obtain ⟨d1, d2, d3⟩ := splitrDot_spec file
  unfold splitBaseExt
  rw [e1]
  show ∃ base ext, (if (splitrDot file).2 = [] ∨ (splitrDot file).1 = [] ∨ (splitrDot file).1.length = 1 then _ else _) = _ ∧ _
  by_cases c : (splitrDot file).2 = [] ∨ (splitrDot file).1 = [] ∨ (splitrDot file).1.length = 1
  · rw [if_pos c]
    exact ⟨p, none, rfl, by simp, fun _ => rfl⟩
  · rw [if_neg c]
    simp only [not_or] at c
    have hns : '/' ∉ (splitrDot file).1.dropLast := fun h => e2 (mem_splitrDot (List.dropLast_subset _ h))
    obtain ⟨s, f1, f2, f3⟩ := concat_spec dir (splitrDot file).1.dropLast (isAbs_noslash hns)
    refine ⟨s, some (splitrDot file).2, ?_, ?_, ?_⟩
    · show (concat dir (splitrDot file).1.dropLast).bind _ = _; rw [f1]; rfl
    · intro e he
      cases he
      refine ⟨c.1, d2, fun h => e2 ?_⟩
      rw [← d1]; simp [h]
    · intro hnd
      have hj := e5 hnd
      have hfile : (splitrDot file).1.dropLast ++ (['.'] ++ (splitrDot file).2) = file := by
        rw [← List.append_assoc, ← d3 c.2.1, d1]
      have := concat_append dir (splitrDot file).1.dropLast (['.'] ++ (splitrDot file).2) s (isAbs_noslash hns) (by rw [hfile]; exact isAbs_noslash e2) f1
      rw [hfile, hj] at this
      cases this
      simp [joinBaseExt, c.1]

/-- Path.sig claims `joinBaseExt (splitBaseExt s) = s`; "a//b.c" is a counterexample -/
theorem C46_splitBaseExt_violation : ∃ p base ext, splitBaseExt p = .ok (base, ext) ∧ joinBaseExt base ext ≠ p :=
  ⟨"a//b.c".toList, "a/b".toList, some "c".toList, by decide, by decide⟩

/-- Path.sig says that InvalidArc is raised if an arc is invalid; on Unix no arc is, but `fromUnixPath` and `toUnixPath` raise it for every
path that is not empty: the test in `invalidArc` is the wrong way round. -/
theorem C46_unixPath_violation (p : Str) (hp : p ≠ []) : fromUnixPath p = .error .InvalidArc ∧ toUnixPath p = .error .InvalidArc := by
  have key : (do (fromString p).arcs.forM invalidArc; toString (fromString p) : Except Exn Str) = .error .InvalidArc := by
    have hg := (fromString_wf p).good
    cases e : (fromString p).arcs with
    | nil =>
      exfalso
      cases p with
      | nil => exact hp rfl
      | cons c w =>
        by_cases hc : c = '/'
        · subst hc; rw [fromString_abs] at e; exact splitFields_ne _ _ e
        · rw [fromString_rel c w hc] at e; exact splitFields_ne _ _ e
    | cons a r =>
      have ha : '/' ∉ a := hg a (by rw [e]; simp)
      have : invalidArc a = .error .InvalidArc := by
        unfold invalidArc
        rw [if_neg]
        simp only [List.any_eq_true, not_exists, not_and]
        intro c hc; rw [noslash ha c hc]; simp
      show ((a :: r).forM invalidArc).bind _ = _
      have : (a :: r).forM invalidArc = (.error .InvalidArc : Except Exn PUnit) := by
        show (invalidArc a).bind _ = _
        rw [this]; rfl
      rw [this]; rfl
  exact ⟨key, key⟩

example : mkCanonical "/a/./b//../c/".toList = .ok "/a/c".toList ∧ mkCanonical "a/../../b".toList = .ok "../b".toList ∧
    mkRelative "/a/b/c".toList "/a/d".toList = .ok "../b/c".toList ∧ getParent "a/b".toList = .ok "a".toList ∧
    mkAbsolute "../x".toList "/u/v".toList = .ok "/u/x".toList ∧ splitBaseExt "d/e.f/a.b.c".toList = .ok ("d/e.f/a.b".toList, some "c".toList) := by decide

example : ¬ ['/', '/'] <:+: "/a/b.c".toList ∧ "/a/b.c".toList.getLast? ≠ some '/' := by decide

end Mosml.Lib.Path
