import Verif.Lib.Path

/-! Lemmas for C46 -/
namespace Mosml.Lib.Path

open Substring (splitFields splitFields_ne splitFields_append isFields_eq IsFields)

abbrev SF := splitFields isslash

/-- arcs joined with slashes -/
def J : List Str → Str
  | [] => []
  | [a] => a
  | a :: b :: r => a ++ '/' :: J (b :: r)

def Good (arcs : List Str) : Prop := ∀ a ∈ arcs, '/' ∉ a

theorem isslash_iff {c : Char} : isslash c = true ↔ c = '/' := by simp [isslash]

theorem noslash {a : Str} (h : '/' ∉ a) : ∀ c ∈ a, isslash c = false := by
  intro c hc
  simp only [isslash, beq_eq_false_iff_ne]
  rintro rfl; exact h hc

theorem SF_nil : SF [] = [[]] := rfl
theorem SF_slash (w : Str) : SF ('/' :: w) = [] :: SF w := by simp [SF, splitFields, isslash]

theorem SF_cons_append (a w : Str) (h : '/' ∉ a) : SF (a ++ '/' :: w) = a :: SF w := by
  have := splitFields_append isslash a ('/' :: w) (noslash h)
  rw [SF, this]
  have e := SF_slash w
  rw [SF] at e; rw [e]; simp

theorem SF_single (a : Str) (h : '/' ∉ a) : SF a = [a] := by
  have := splitFields_append isslash a [] (noslash h)
  rw [List.append_nil] at this
  rw [SF, this]; simp [splitFields]

theorem SF_J {arcs : List Str} (h : Good arcs) (hn : arcs ≠ []) : SF (J arcs) = arcs := by
  induction arcs with
  | nil => exact absurd rfl hn
  | cons a r ih =>
    cases r with
    | nil => exact SF_single a (h a (by simp))
    | cons b r =>
      rw [J, SF_cons_append _ _ (h a (by simp)), ih (fun x hx => h x (by simp [hx])) (by simp)]

theorem J_cons (a : Str) (r : List Str) (hr : r ≠ []) : J (a :: r) = a ++ '/' :: J r := by
  cases r with
  | nil => exact absurd rfl hr
  | cons b r => rfl

theorem SF_cons (c : Char) (w : Str) (hc : c ≠ '/') : ∃ f fs, SF w = f :: fs ∧ SF (c :: w) = (c :: f) :: fs := by
  cases e : SF w with
  | nil => exact absurd e (splitFields_ne _ _)
  | cons f fs =>
    refine ⟨f, fs, rfl, ?_⟩
    have : isslash c = false := by simp [isslash, hc]
    simp only [SF] at e ⊢
    simp [splitFields, this, e]

theorem J_SF (w : Str) : J (SF w) = w := by
  induction w with
  | nil => rfl
  | cons c w ih =>
    by_cases hc : c = '/'
    · subst hc
      rw [SF_slash, J_cons _ _ (splitFields_ne _ _), ih]; rfl
    · obtain ⟨f, fs, e1, e2⟩ := SF_cons c w hc
      rw [e2]
      rw [e1] at ih
      cases fs with
      | nil => simp only [J] at ih ⊢; rw [ih]
      | cons g gs => simp only [J] at ih ⊢; rw [← ih]; rfl

theorem SF_good (w : Str) : Good (SF w) := by
  induction w with
  | nil => intro a ha; simp [SF, splitFields] at ha; simp [ha]
  | cons c w ih =>
    by_cases hc : c = '/'
    · subst hc
      rw [SF_slash]
      intro a ha
      rcases List.mem_cons.1 ha with rfl | h
      · simp
      · exact ih a h
    · obtain ⟨f, fs, e1, e2⟩ := SF_cons c w hc
      rw [e2]
      intro a ha
      rcases List.mem_cons.1 ha with rfl | h
      · have := ih f (by rw [e1]; simp)
        simp only [List.mem_cons, not_or]; exact ⟨fun e => hc e.symm, this⟩
      · exact ih a (by rw [e1]; simp [h])

theorem SF_app (x y : Str) : SF (x ++ '/' :: y) = SF x ++ SF y := by
  induction x with
  | nil => rw [List.nil_append, SF_slash]; rfl
  | cons c x ih =>
    by_cases hc : c = '/'
    · subst hc
      rw [List.cons_append, SF_slash, SF_slash, ih]; rfl
    · obtain ⟨f, fs, e1, e2⟩ := SF_cons c (x ++ '/' :: y) hc
      obtain ⟨g, gs, e3, e4⟩ := SF_cons c x hc
      rw [List.cons_append, e2, e4]
      rw [ih, e3] at e1
      simp only [List.cons_append, List.cons.injEq] at e1
      rw [← e1.1, ← e1.2]; rfl

theorem h_eq (ar : List Str) : ∀ res, (h ar res).reverse.flatten = res.reverse.flatten ++ (ar.map ('/' :: ·)).flatten := by
  induction ar with
  | nil => intro res; simp [h]
  | cons a ar ih => intro res; rw [h, ih]; simp

theorem J_eq (a : Str) (r : List Str) : J (a :: r) = a ++ (r.map ('/' :: ·)).flatten := by
  induction r generalizing a with
  | nil => simp [J]
  | cons b r ih => rw [J, ih]; simp

theorem toString_abs (a : Str) (r : List Str) : toString ⟨true, [], a :: r⟩ = .ok ('/' :: J (a :: r)) := by
  show (if validVolume [] then _ else _) = _
  simp only [validVolume, BEq.rfl, if_true]
  rw [h_eq, J_eq]; simp

theorem toString_rel (a : Str) (r : List Str) : toString ⟨false, [], a :: r⟩ = if a = [] then .error .Path else .ok (J (a :: r)) := by
  show (if validVolume [] then _ else _) = _
  simp only [validVolume, BEq.rfl, if_true]
  by_cases c : a = []
  · simp only [c, if_true]
  · simp only [c, if_false]
    rw [List.flatten_cons, h_eq, J_eq]; simp

theorem toString_rel_nil : toString ⟨false, [], []⟩ = .ok [] := rfl
theorem toString_abs_nil : toString ⟨true, [], []⟩ = .ok ['/'] := rfl

theorem fromString_abs (w : Str) : fromString ('/' :: w) = ⟨true, [], SF w⟩ := rfl

theorem fromString_rel (c : Char) (w : Str) (hc : c ≠ '/') : fromString (c :: w) = ⟨false, [], SF (c :: w)⟩ := by
  have : isslash c = false := by simp [isslash, hc]
  unfold fromString splitabsvolrest
  simp [this]

structure WF (q : P) : Prop where
  vol : q.vol = []
  good : Good q.arcs
  abs : q.isAbs = true → q.arcs ≠ []
  rel : q.isAbs = false → q.arcs.head? ≠ some []

theorem fromString_wf (p : Str) : WF (fromString p) := by
  cases p with
  | nil => exact ⟨rfl, (by intro a ha; cases ha), (by intro h; cases h), by intro _; simp [fromString, splitabsvolrest]⟩
  | cons c w =>
    by_cases hc : c = '/'
    · subst hc
      rw [fromString_abs]
      exact ⟨rfl, SF_good w, fun _ => splitFields_ne _ _, (by intro h; cases h)⟩
    · rw [fromString_rel c w hc]
      refine ⟨rfl, SF_good _, (by intro h; cases h), fun _ => ?_⟩
      obtain ⟨f, fs, e1, e2⟩ := SF_cons c w hc
      rw [e2]; simp

theorem toString_fromString (p : Str) : toString (fromString p) = .ok p := by
  cases p with
  | nil => rfl
  | cons c w =>
    by_cases hc : c = '/'
    · subst hc
      rw [fromString_abs]
      have := J_SF w
      cases e : SF w with
      | nil => exact absurd e (splitFields_ne _ _)
      | cons a r => rw [toString_abs, ← e, this]
    · rw [fromString_rel c w hc]
      have := J_SF (c :: w)
      obtain ⟨f, fs, e1, e2⟩ := SF_cons c w hc
      rw [e2] at this ⊢
      rw [toString_rel, if_neg (by simp), this]

theorem J_head (a : Str) (r : List Str) (ha : a ≠ []) : (J (a :: r)).head? = a.head? := by
  rw [J_eq]; cases a with
  | nil => exact absurd rfl ha
  | cons c a => rfl

theorem toString_wf {q : P} (hq : WF q) : ∃ s, toString q = .ok s ∧ fromString s = q := by
  obtain ⟨b, v, arcs⟩ := q
  obtain ⟨hv, hg, ha, hr⟩ := hq
  dsimp only at hv hg ha hr
  subst hv
  cases b with
  | true =>
    cases arcs with
    | nil => exact absurd rfl (ha rfl)
    | cons a r => exact ⟨_, toString_abs a r, by rw [fromString_abs, SF_J hg (by simp)]⟩
  | false =>
    cases arcs with
    | nil => exact ⟨[], rfl, rfl⟩
    | cons a r =>
      have hne : a ≠ [] := by intro e; exact hr rfl (by rw [e]; rfl)
      refine ⟨_, by rw [toString_rel, if_neg hne], ?_⟩
      have hh := J_head a r hne
      cases a with
      | nil => exact absurd rfl hne
      | cons c a =>
        cases e : J ((c :: a) :: r) with
        | nil => rw [e] at hh; cases hh
        | cons c' w =>
          rw [e] at hh
          simp only [List.head?_cons, Option.some.injEq] at hh
          subst hh
          rw [fromString_rel c' w (by intro e; exact hg (c' :: a) (by simp) (by simp [e])), ← e, SF_J hg (by simp)]

/-- what the parsed form denotes -/
def D (q : P) (cwd : List Str) : List Str := q.arcs.foldl walk1 (if q.isAbs then [] else cwd)

theorem denote_abs (cwd : List Str) (w : Str) : denote cwd ('/' :: w) = (SF w).foldl walk1 [] := by
  unfold denote
  have : splitFields (fun x => x == '/') ('/' :: w) = [] :: SF w := SF_slash w
  rw [this]; simp [walk1]

theorem denote_rel (cwd : List Str) (p : Str) (hp : p.head? ≠ some '/') : denote cwd p = (SF p).foldl walk1 cwd := by
  unfold denote
  rw [if_neg hp]; rfl

theorem denote_eq (cwd : List Str) (p : Str) : denote cwd p = D (fromString p) cwd := by
  cases p with
  | nil => rfl
  | cons c w =>
    by_cases hc : c = '/'
    · subst hc; rw [denote_abs, fromString_abs]; rfl
    · rw [denote_rel _ _ (by simp [hc]), fromString_rel c w hc]; rfl

theorem isAbsolute_eq (p : Str) : isAbsolute p = (fromString p).isAbs := by
  cases p with
  | nil => rfl
  | cons c w =>
    by_cases hc : c = '/'
    · subst hc; rfl
    · rw [fromString_rel c w hc]; simp [isAbsolute, splitabsvolrest, isslash, hc]

theorem isAbsolute_head (p : Str) : isAbsolute p = true ↔ p.head? = some '/' := by
  cases p with
  | nil => simp [isAbsolute, splitabsvolrest]
  | cons c w => by_cases hc : c = '/' <;> simp [isAbsolute, splitabsvolrest, isslash, hc]

/-! ### getParent -/

theorem getpar_spec {b : Bool} {arcs : List Str} (hg : Good arcs) (hr : b = false → arcs.head? ≠ some []) (base : List Str) (hb : b = true → base = []) :
    ((getpar b arcs.reverse).reverse).foldl walk1 base = (arcs.foldl walk1 base).tail ∧ Good (getpar b arcs.reverse).reverse ∧
    (b = false → (getpar b arcs.reverse).reverse.head? ≠ some []) := by
  rcases List.eq_nil_or_concat arcs with rfl | ⟨init, last, rfl⟩
  · simp [getpar, walk1, Good]
  · have hgi : Good init := fun a ha => hg a (by simp [ha])
    have hdd : ∀ l : List Str, Good l → Good (l ++ [parentArc]) := by
      intro l hl a ha
      rcases List.mem_append.1 ha with h | h
      · exact hl a h
      · simp at h; subst h; simp
    have hri : b = false → init ≠ [] → init.head? ≠ some [] := by
      intro hbf hi he
      cases init with
      | nil => exact hi rfl
      | cons a init => exact hr hbf (by simpa using he)
    have hhd : ∀ l : List Str, (l = [] ∨ l.head? ≠ some []) → (l ++ [parentArc]).head? ≠ some [] := by
      intro l hl
      cases l with
      | nil => simp
      | cons a l => simpa using hl
    simp only [List.concat_eq_append, List.foldl_append, List.foldl_cons, List.foldl_nil, List.reverse_append, List.reverse_cons, List.reverse_nil, List.nil_append, List.singleton_append, getpar]
    have hor : b = false → init = [] ∨ init.head? ≠ some [] := by
      intro hbf; by_cases hi : init = []
      · exact .inl hi
      · exact .inr (hri hbf hi)
    by_cases c1 : last = []
    · by_cases c2 : init = []
      · subst c1 c2
        cases b with
        | true => simp [walk1, hb rfl, Good]
        | false => exact absurd rfl (hr rfl)
      · have c2' : ¬ init.reverse = [] := by simpa using c2
        simp only [c1, c2', and_false, if_false, if_true, List.reverse_cons, List.reverse_reverse, List.foldl_append]
        exact ⟨by simp [walk1], hdd _ hgi, fun hbf => hhd _ (hor hbf)⟩
    · simp only [c1, false_and, if_false]
      by_cases c3 : last = ['.']
      · simp only [c3, if_true, List.reverse_cons, List.reverse_reverse, List.foldl_append]
        exact ⟨by simp [walk1], hdd _ hgi, fun hbf => hhd _ (hor hbf)⟩
      · simp only [c3, if_false]
        by_cases c4 : last = ['.', '.']
        · simp only [c4, if_true, List.reverse_cons, List.reverse_reverse, List.foldl_append]
          refine ⟨by simp [walk1], hdd _ (hdd _ hgi), fun hbf => hhd _ (.inr (hhd _ (hor hbf)))⟩
        · simp only [c4, if_false, List.reverse_reverse]
          refine ⟨by simp [walk1, c1, c3, c4], hgi, fun hbf => ?_⟩
          rcases hor hbf with h | h
          · rw [h]; simp
          · exact h

theorem getParent_spec (p : Str) : ∃ s, getParent p = .ok s ∧ isAbsolute s = isAbsolute p ∧ ∀ cwd, denote cwd s = (denote cwd p).tail := by
  have hw := fromString_wf p
  rcases hq : fromString p with ⟨b, v, arcs⟩
  rw [hq] at hw
  obtain ⟨hv, hg, ha, hr⟩ := hw
  dsimp only at hv hg ha hr
  subst hv
  simp only [isAbsolute_eq, denote_eq, hq]
  unfold getParent
  rw [hq]
  dsimp only
  have key := fun base hb => getpar_spec (b := b) hg hr base hb
  cases e : (getpar b arcs.reverse).reverse with
  | nil =>
    dsimp only
    rw [e] at key
    cases b with
    | true =>
      refine ⟨['/'], rfl, rfl, fun cwd => ?_⟩
      have := (key [] (fun _ => rfl)).1
      simp only [List.foldl_nil] at this
      simp only [D, if_true]
      rw [← this]; rfl
    | false =>
      refine ⟨['.'], rfl, rfl, fun cwd => ?_⟩
      have := (key cwd (by simp)).1
      simp only [List.foldl_nil] at this
      simp only [D, Bool.false_eq_true, if_false]
      rw [← this]; rfl
  | cons a r =>
    dsimp only
    rw [e] at key
    have hwf : WF ⟨b, [], a :: r⟩ := ⟨rfl, (key [] (fun _ => rfl)).2.1, fun _ => by simp, fun hb => (key [] (fun _ => rfl)).2.2 hb⟩
    obtain ⟨s, e1, e2⟩ := toString_wf hwf
    refine ⟨s, e1, by rw [e2], fun cwd => ?_⟩
    rw [e2]
    cases b with
    | true => exact (key [] (fun _ => rfl)).1
    | false => exact (key cwd (by simp)).1

theorem getpar_ne {b : Bool} {arcs : List Str} (hne : ¬ (b = true ∧ arcs = [[]])) : (getpar b arcs.reverse).reverse ≠ arcs := by
  intro h
  rcases List.eq_nil_or_concat arcs with rfl | ⟨init, last, rfl⟩
  · simp [getpar] at h
  · simp only [List.concat_eq_append, List.reverse_append, List.reverse_cons, List.reverse_nil, List.nil_append, List.singleton_append, getpar] at h
    have hl := congrArg List.length h
    split at h
    · rename_i c
      obtain ⟨c1, c2⟩ := c
      have c2 : init = [] := by simpa using c2
      subst c1 c2
      cases b with
      | true => exact hne ⟨rfl, rfl⟩
      | false => simp at h
    · split at h
      · rename_i c; simp [c] at h
      · split at h
        · rename_i c; simp [c] at h
        · split at h
          · have := congrArg List.length h; simp at this
          · have := congrArg List.length h; simp at this

theorem getParent_fix (p : Str) : getParent p = .ok p ↔ isRoot p = true := by
  have hroot : isRoot p = true ↔ p = ['/'] := by
    cases p with
    | nil => simp [isRoot, splitabsvolrest]
    | cons c w =>
      by_cases hc : c = '/'
      · subst hc; cases w <;> simp [isRoot, splitabsvolrest, isslash]
      · simp [isRoot, splitabsvolrest, isslash, hc]
  rw [hroot]
  constructor
  · intro hp
    have hw := fromString_wf p
    have hts := toString_fromString p
    rcases hq : fromString p with ⟨b, v, arcs⟩
    rw [hq] at hw hts
    obtain ⟨hv, hg, ha, hr⟩ := hw
    dsimp only at hv hg ha hr
    subst hv
    unfold getParent at hp
    rw [hq] at hp
    dsimp only at hp
    by_cases hne : b = true ∧ arcs = [[]]
    · obtain ⟨rfl, rfl⟩ := hne
      cases hts; rfl
    · have h1 := getpar_ne hne
      exfalso
      cases e : (getpar b arcs.reverse).reverse with
      | nil =>
        rw [e] at hp h1
        dsimp only at hp
        cases b with
        | true =>
          have : p = ['/'] := by cases hp; rfl
          subst this
          have : fromString ['/'] = ⟨true, [], [[]]⟩ := rfl
          rw [this] at hq; cases hq
          exact hne ⟨rfl, rfl⟩
        | false =>
          have : p = ['.'] := by cases hp; rfl
          subst this
          have : fromString ['.'] = ⟨false, [], [['.']]⟩ := rfl
          rw [this] at hq; cases hq
          simp [getpar] at e
      | cons a r =>
        have key := getpar_spec (b := b) hg hr [] (fun _ => rfl)
        rw [e] at hp h1 key
        dsimp only at hp
        have hwf : WF ⟨b, [], a :: r⟩ := ⟨rfl, key.2.1, fun _ => by simp, key.2.2⟩
        obtain ⟨s, e1, e2⟩ := toString_wf hwf
        rw [e1] at hp
        cases hp
        rw [hq] at e2
        cases e2
        exact h1 rfl
  · rintro rfl; rfl

/-! ### concat -/

theorem stripslash_cases (w : Str) : (∃ x, w = x ++ ['/'] ∧ stripslash w = x) ∨ (w.getLast? ≠ some '/' ∧ stripslash w = w) := by
  rcases List.eq_nil_or_concat w with rfl | ⟨x, c, rfl⟩
  · right; simp [stripslash]
  · by_cases hc : c = '/'
    · left; subst hc; exact ⟨x, by simp, by simp [stripslash, isslash]⟩
    · right; refine ⟨by simp [hc], by simp [stripslash, isslash, hc]⟩

theorem walk_nil (d : List Str) : walk1 d [] = d := by simp [walk1]

theorem strip_fold (w : Str) (d : List Str) : (SF (stripslash w)).foldl walk1 d = (SF w).foldl walk1 d := by
  rcases stripslash_cases w with ⟨x, rfl, e⟩ | ⟨_, e⟩
  · rw [e]
    have : SF (x ++ ['/']) = SF x ++ [[]] := SF_app x []
    rw [this, List.foldl_append]; simp [walk_nil]
  · rw [e]

theorem concat_abs (p1 p2 : Str) (h : isAbsolute p2 = true) : concat p1 p2 = .error .Path := by
  unfold concat; rw [if_pos h]

theorem concat_nil (p2 : Str) (h : isAbsolute p2 = false) : concat [] p2 = .ok p2 := by
  unfold concat; simp [h, splitabsvolrest]

theorem concat_rel (c : Char) (w p2 : Str) (h : isAbsolute p2 = false) (hc : c ≠ '/') : concat (c :: w) p2 = .ok (stripslash (c :: w) ++ '/' :: p2) := by
  have : isslash c = false := by simp [isslash, hc]
  unfold concat splitabsvolrest; simp [h, this]

theorem concat_root (p2 : Str) (h : isAbsolute p2 = false) : concat ['/'] p2 = .ok ('/' :: p2) := by
  unfold concat; simp [h, splitabsvolrest, isslash]

theorem concat_absp (c : Char) (w p2 : Str) (h : isAbsolute p2 = false) : concat ('/' :: c :: w) p2 = .ok ('/' :: (stripslash (c :: w) ++ '/' :: p2)) := by
  unfold concat; simp [h, splitabsvolrest, isslash]

theorem strip_head (c : Char) (w : Str) (hc : c ≠ '/') (y : Str) : (stripslash (c :: w) ++ y).head? = some c := by
  rcases stripslash_cases (c :: w) with ⟨x, e1, e⟩ | ⟨_, e⟩
  · rw [e]
    cases x with
    | nil => simp at e1; exact absurd e1.1 hc
    | cons d x => simp at e1; simp [e1.1]
  · rw [e]; rfl

theorem concat_spec (p1 p2 : Str) (h : isAbsolute p2 = false) :
    ∃ s, concat p1 p2 = .ok s ∧ isAbsolute s = isAbsolute p1 ∧ ∀ cwd, denote cwd s = denote (denote cwd p1) p2 := by
  have h2 : p2.head? ≠ some '/' := by
    intro e; rw [(isAbsolute_head p2).2 e] at h; cases h
  cases p1 with
  | nil => exact ⟨p2, concat_nil p2 h, by rw [h]; rfl, fun _ => rfl⟩
  | cons c w =>
    by_cases hc : c = '/'
    · subst hc
      cases w with
      | nil =>
        refine ⟨_, concat_root p2 h, rfl, fun cwd => ?_⟩
        rw [denote_abs, denote_abs, denote_rel _ _ h2]; rfl
      | cons c w =>
        refine ⟨_, concat_absp c w p2 h, rfl, fun cwd => ?_⟩
        rw [denote_abs, denote_abs, denote_rel _ _ h2, SF_app, List.foldl_append, strip_fold]
    · refine ⟨_, concat_rel c w p2 h hc, ?_, fun cwd => ?_⟩
      · have e1 : isAbsolute (c :: w) = false := by simp [isAbsolute, splitabsvolrest, isslash, hc]
        rw [e1]
        cases e : isAbsolute (stripslash (c :: w) ++ '/' :: p2) with
        | false => rfl
        | true =>
          rw [isAbsolute_head, strip_head c w hc] at e
          simp at e; exact absurd e hc
      · rw [denote_rel _ _ (by rw [strip_head c w hc]; simpa using hc), denote_rel _ _ h2, denote_rel _ (c :: w) (by simpa using hc), SF_app, List.foldl_append, strip_fold]

/-! ### mkCanonical -/

/-- a proper name -/
def Name (a : Str) : Prop := a ≠ [] ∧ a ≠ ['.'] ∧ a ≠ ['.', '.'] ∧ '/' ∉ a

/-- the arcs of a canonical path -/
def canonArcs (b : Bool) (k : Nat) (names : List Str) : List Str :=
  if k = 0 ∧ names = [] then (if b then [[]] else [['.']]) else List.replicate k parentArc ++ names

theorem reduce_spec (b : Bool) (arcs : List Str) (hg : Good arcs) : ∀ (k : Nat) (names : List Str), (∀ a ∈ names, Name a) → (b = true → k = 0) →
    ∃ k' names', reduce b arcs (names.reverse ++ List.replicate k parentArc) = (canonArcs b k' names').reverse ∧ (∀ a ∈ names', Name a) ∧ (b = true → k' = 0) ∧
      ∀ base : List Str, (b = true → base = []) → names'.reverse ++ base.drop k' = arcs.foldl walk1 (names.reverse ++ base.drop k) := by
  induction arcs with
  | nil =>
    intro k names hn hk
    refine ⟨k, names, ?_, hn, hk, fun base _ => rfl⟩
    unfold canonArcs
    by_cases c : k = 0 ∧ names = []
    · rw [if_pos c, c.1, c.2]
      cases b <;> rfl
    · rw [if_neg c]
      cases e : names.reverse ++ List.replicate k parentArc with
      | nil => simp at e; exact absurd ⟨e.2, e.1⟩ c
      | cons x xs =>
        unfold reduce
        rw [← e]; simp
  | cons a ar ih =>
    intro k names hn hk
    have ih := ih (fun x hx => hg x (by simp [hx]))
    rw [reduce.eq_def]
    dsimp only
    by_cases c1 : a = []
    · rw [if_pos c1]
      obtain ⟨k', n', h1, h2, h3, h4⟩ := ih k names hn hk
      exact ⟨k', n', h1, h2, h3, fun base hb => by rw [h4 base hb, List.foldl_cons, c1, walk_nil]⟩
    · rw [if_neg c1]
      by_cases c2 : a = ['.']
      · rw [if_pos c2]
        obtain ⟨k', n', h1, h2, h3, h4⟩ := ih k names hn hk
        exact ⟨k', n', h1, h2, h3, fun base hb => by rw [h4 base hb, List.foldl_cons, c2]; simp [walk1]⟩
      · rw [if_neg c2]
        by_cases c3 : a = ['.', '.']
        · rw [if_pos c3]
          rcases List.eq_nil_or_concat names with rfl | ⟨init, last, rfl⟩
          · cases k with
            | zero =>
              cases b with
              | true =>
                obtain ⟨k', n', h1, h2, h3, h4⟩ := ih 0 [] (by simp) (by simp)
                refine ⟨k', n', by simpa [backup] using h1, h2, h3, fun base hb => ?_⟩
                rw [h4 base hb, hb rfl, List.foldl_cons, c3]; simp [walk1]
              | false =>
                obtain ⟨k', n', h1, h2, h3, h4⟩ := ih 1 [] (by simp) (by simp)
                refine ⟨k', n', by simpa [backup] using h1, h2, h3, fun base hb => ?_⟩
                rw [h4 base hb, List.foldl_cons, c3]; simp [walk1]
            | succ k =>
              have hb : b = false := by cases b with
                | true => exact absurd (hk rfl) (by omega)
                | false => rfl
              subst hb
              obtain ⟨k', n', h1, h2, h3, h4⟩ := ih (k + 2) [] (by simp) (by simp)
              refine ⟨k', n', ?_, h2, h3, fun base hb => ?_⟩
              · simpa [backup, List.replicate_succ] using h1
              · rw [h4 base hb, List.foldl_cons, c3]; simp [walk1]
          · have hl := hn last (by simp)
            obtain ⟨k', n', h1, h2, h3, h4⟩ := ih k init (fun x hx => hn x (by simp [hx])) hk
            refine ⟨k', n', ?_, h2, h3, fun base hb => ?_⟩
            · simpa [backup, hl.2.2.1] using h1
            · rw [h4 base hb, List.foldl_cons, c3]; simp [walk1]
        · rw [if_neg c3]
          obtain ⟨k', n', h1, h2, h3, h4⟩ := ih k (names ++ [a])
            (by intro x hx
                rcases List.mem_append.1 hx with h | h
                · exact hn x h
                · simp at h; subst h; exact ⟨c1, c2, c3, hg x (by simp)⟩) hk
          refine ⟨k', n', by simpa using h1, h2, h3, fun base hb => ?_⟩
          rw [h4 base hb, List.foldl_cons]; simp [walk1, c1, c2, c3]

theorem canon_wf {b : Bool} {k : Nat} {names : List Str} (hn : ∀ a ∈ names, Name a) (hk : b = true → k = 0) : WF ⟨b, [], canonArcs b k names⟩ := by
  unfold canonArcs
  by_cases c : k = 0 ∧ names = []
  · rw [if_pos c]
    cases b
    · exact ⟨rfl, by intro a ha; simp at ha; subst ha; simp, by simp, by simp⟩
    · exact ⟨rfl, by intro a ha; simp at ha; subst ha; simp, by simp, by simp⟩
  · rw [if_neg c]
    refine ⟨rfl, ?_, ?_, ?_⟩
    · intro a ha
      rcases List.mem_append.1 ha with h | h
      · have := List.eq_of_mem_replicate h; subst this; simp
      · exact (hn a h).2.2.2
    · intro _ e; simp at e; exact c ⟨e.1, e.2⟩
    · intro _ e
      dsimp only at e
      cases k with
      | zero => cases names with
        | nil => exact c ⟨rfl, rfl⟩
        | cons x xs => simp at e; exact (hn x (by simp)).1 e
      | succ k => simp [List.replicate_succ] at e

theorem fold_names (names : List Str) (hn : ∀ a ∈ names, Name a) : ∀ d, names.foldl walk1 d = names.reverse ++ d := by
  induction names with
  | nil => intro d; rfl
  | cons a names ih =>
    intro d
    have ha := hn a (by simp)
    rw [List.foldl_cons, ih (fun x hx => hn x (by simp [hx]))]
    simp [walk1, ha.1, ha.2.1, ha.2.2.1]

theorem fold_parents (k : Nat) : ∀ d, (List.replicate k parentArc).foldl walk1 d = d.drop k := by
  induction k with
  | zero => intro d; rfl
  | succ k ih => intro d; rw [List.replicate_succ, List.foldl_cons, ih]; simp [walk1]

theorem canon_D {b : Bool} {k : Nat} {names : List Str} (hn : ∀ a ∈ names, Name a) (hk : b = true → k = 0) (cwd : List Str) :
    D ⟨b, [], canonArcs b k names⟩ cwd = names.reverse ++ (if b then [] else cwd).drop k := by
  unfold D canonArcs
  dsimp only
  by_cases c : k = 0 ∧ names = []
  · rw [if_pos c, c.1, c.2]
    cases b <;> simp [walk1]
  · rw [if_neg c, List.foldl_append, fold_parents, fold_names names hn]

theorem reduce_canon {b : Bool} {k : Nat} {names : List Str} (hn : ∀ a ∈ names, Name a) (hk : b = true → k = 0) :
    reduce b (canonArcs b k names) [] = (canonArcs b k names).reverse := by
  have pushes : ∀ (ns : List Str) (res : List Str), (∀ a ∈ ns, Name a) → ns.reverse ++ res ≠ [] → reduce b ns res = ns.reverse ++ res := by
    intro ns
    induction ns with
    | nil => intro res _ hne; cases res with
      | nil => exact absurd rfl hne
      | cons x xs => simp [reduce]
    | cons a ns ih =>
      intro res h hne
      have ha := h a (by simp)
      rw [reduce.eq_def]
      simp only [ha.1, ha.2.1, ha.2.2.1, if_false]
      rw [ih _ (fun x hx => h x (by simp [hx])) (by simp)]
      simp
  have ups : ∀ (j i : Nat) (ns : List Str), b = false → reduce b (List.replicate j parentArc ++ ns) (List.replicate i parentArc) = reduce b ns (List.replicate (i + j) parentArc) := by
    intro j
    induction j with
    | zero => intro i ns _; simp
    | succ j ih =>
      intro i ns hb
      rw [List.replicate_succ, List.cons_append, reduce.eq_def]
      simp only [parentArc, List.cons_ne_nil, if_false, if_true]
      rw [if_neg (by decide)]
      have : backup b (List.replicate i ['.', '.']) = List.replicate (i + 1) ['.', '.'] := by
        cases i with
        | zero => simp [backup, hb]
        | succ i => simp [List.replicate_succ, backup]
      rw [this, ih (i + 1) ns hb]
      congr 2; omega
  unfold canonArcs
  by_cases c : k = 0 ∧ names = []
  · rw [if_pos c]
    cases b <;> simp [reduce]
  · rw [if_neg c]
    cases hb : b with
    | true =>
      have := hk hb
      subst this
      rw [List.replicate_zero, List.nil_append, ← hb, pushes names [] hn (by simp; intro e; exact c ⟨rfl, e⟩)]
      simp
    | false =>
      have := ups k 0 names hb
      simp only [List.replicate_zero, Nat.zero_add] at this
      rw [← hb, this, pushes names _ hn (by simp; intro e; exact fun e2 => c ⟨e2, e⟩)]
      simp

/-- what `mkCanonical` computes -/
theorem mkCanonical_spec (p : Str) : ∃ k names s, (∀ a ∈ names, Name a) ∧ (isAbsolute p = true → k = 0) ∧ mkCanonical p = .ok s ∧
    fromString s = ⟨isAbsolute p, [], canonArcs (isAbsolute p) k names⟩ ∧ (∀ cwd, denote cwd p = names.reverse ++ (if isAbsolute p then [] else cwd).drop k) := by
  have hw := fromString_wf p
  rcases hq : fromString p with ⟨b, v, arcs⟩
  rw [hq] at hw
  obtain ⟨hv, hg, ha, hr⟩ := hw
  dsimp only at hv hg ha hr
  subst hv
  obtain ⟨k, names, h1, h2, h3, h4⟩ := reduce_spec b arcs hg 0 [] (by simp) (by simp)
  simp only [List.reverse_nil, List.replicate_zero, List.append_nil, List.nil_append, List.drop_zero] at h1 h4
  obtain ⟨s, e1, e2⟩ := toString_wf (canon_wf (b := b) h2 h3)
  simp only [isAbsolute_eq, hq]
  refine ⟨k, names, s, h2, h3, ?_, e2, fun cwd => ?_⟩
  · unfold mkCanonical
    rw [hq]
    dsimp only
    rw [h1, List.reverse_reverse]; exact e1
  · rw [denote_eq, hq, h4 _ (by intro hb; simp [hb])]; rfl

theorem mkCanonical_of {s : Str} {b : Bool} {k : Nat} {names : List Str} (hn : ∀ a ∈ names, Name a) (hk : b = true → k = 0)
    (hs : fromString s = ⟨b, [], canonArcs b k names⟩) : mkCanonical s = .ok s := by
  unfold mkCanonical
  rw [hs]
  dsimp only
  rw [reduce_canon hn hk, List.reverse_reverse, ← hs]
  exact toString_fromString s

end Mosml.Lib.Path
