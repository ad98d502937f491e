import Verif.Heap.MajorInv

namespace Mosml.Major

/-! ### The mark phase -/

theorem mark_inv {s : St} (hp : s.phase = .mark) (roots : ∀ a, .old a ∈ s.roots → Prot s a)
    (young : ∀ y o a, s.young y = some o → o.tag < noScan → .old a ∈ o.fields → Prot s a)
    (black : ∀ a o c, s.old a = some o → o.color = .black → o.tag < noScan → .old c ∈ o.fields → Prot s c)
    (weakTag : ∀ y o, s.young y = some o → o.tag ≠ noScan)
    (exist : ∀ a o c, s.old a = some o → o.tag ≤ noScan → .old c ∈ o.fields → s.old c ≠ none)
    (weak : ∀ a o c, s.old a = some o → o.tag = noScan → o.color = .black → a ∉ s.weaks → .old c ∈ o.fields → Prot s c)
    (weaks : ∀ a ∈ s.weaks, ∃ o, s.old a = some o ∧ o.tag = noScan ∧ o.color = .black)
    (start : ∀ a, s.old a ≠ none → s.heapStart ≤ a) (grayOk : GrayOk s) : Inv s where
  roots := fun a h => (live_mark hp a).mpr (roots a h)
  young := fun y o a h1 h2 h3 => (live_mark hp a).mpr (young y o a h1 h2 h3)
  fields := by
    intro a o c hl h1 h2 h3
    rw [live_mark hp] at hl ⊢
    by_cases hb : o.color = .black
    · exact black a o c h1 hb h2 h3
    · exact .edge hl h1 hb h2 h3
  weakTag := weakTag
  exist := fun _ => exist
  weak := fun a o c _ h1 h2 h3 h4 h5 => (live_mark hp c).mpr (weak a o c h1 h2 (h3 hp) h4 h5)
  weaks := weaks
  weaks0 := fun h => by rw [hp] at h; exact absurd h (by simp)
  start := start
  grayOk := fun _ => grayOk
  noGray := fun h => absurd hp h
  low := fun h => absurd hp h

/-- the invariant of the mark phase, read back -/
structure MarkInv (s : St) : Prop where
  roots : ∀ a, .old a ∈ s.roots → Prot s a
  young : ∀ y o a, s.young y = some o → o.tag < noScan → .old a ∈ o.fields → Prot s a
  black : ∀ a o c, s.old a = some o → o.color = .black → o.tag < noScan → .old c ∈ o.fields → Prot s c
  weakTag : ∀ y o, s.young y = some o → o.tag ≠ noScan
  exist : ∀ a o c, s.old a = some o → o.tag ≤ noScan → .old c ∈ o.fields → s.old c ≠ none
  weak : ∀ a o c, s.old a = some o → o.tag = noScan → o.color = .black → a ∉ s.weaks → .old c ∈ o.fields → Prot s c
  weaks : ∀ a ∈ s.weaks, ∃ o, s.old a = some o ∧ o.tag = noScan ∧ o.color = .black
  start : ∀ a, s.old a ≠ none → s.heapStart ≤ a
  grayOk : GrayOk s

theorem Inv.toMark {s : St} (i : Inv s) (hp : s.phase = .mark) : MarkInv s where
  roots := fun a h => (live_mark hp a).mp (i.roots a h)
  young := fun y o a h1 h2 h3 => (live_mark hp a).mp (i.young y o a h1 h2 h3)
  black := fun a o c h1 h2 h3 h4 => (live_mark hp c).mp
    (i.fields a o c ((live_mark hp a).mpr (.base h1 (by rw [h2]; simp))) h1 h3 h4)
  weakTag := i.weakTag
  exist := i.exist (by rw [hp]; simp)
  weak := fun a o c h1 h2 h3 h4 h5 => (live_mark hp c).mp
    (i.weak a o c ((live_mark hp a).mpr (.base h1 (by rw [h3]; simp))) h1 h2 (fun _ => h3) h4 h5)
  weaks := i.weaks
  start := i.start
  grayOk := i.grayOk hp

theorem MarkInv.toInv {s : St} (i : MarkInv s) (hp : s.phase = .mark) : Inv s :=
  mark_inv hp i.roots i.young i.black i.weakTag i.exist i.weak i.weaks i.start i.grayOk

/-- darkening keeps blocks protected -/
theorem Dark.prot {s s' : St} (h : Dark s s') {a : Nat} (p : Prot s a) : Prot s' a := by
  induction p with
  | base h1 h2 => exact .base (h.nonwhite h1 h2) h2
  | edge _ h1 h2 h3 h4 ih =>
    obtain ⟨o', e1, e2, e3, e4⟩ := h.forth h1
    exact .edge ih e1 (e4 h2) (by omega) (by rw [e3]; exact h4)

theorem Dark.markInv {s s' : St} (h : Dark s s') (i : MarkInv s) : MarkInv s' where
  roots := by rw [h.roots]; exact fun a ha => h.prot (i.roots a ha)
  young := by rw [h.young]; exact fun y o a h1 h2 h3 => h.prot (i.young y o a h1 h2 h3)
  black := by
    intro a o' c h1 h2 h3 h4
    obtain ⟨o, e1, e2, e3, _, e5⟩ := h.back h1
    obtain rfl := e5 h2
    exact h.prot (i.black a _ c e1 h2 h3 h4)
  weakTag := by rw [h.young]; exact i.weakTag
  exist := by
    intro a o' c h1 h2 h3
    obtain ⟨o, e1, e2, e3, _⟩ := h.back h1
    rw [Ne, h.none_iff]
    exact i.exist a o c e1 (by omega) (by rw [← e3]; exact h3)
  weak := by
    intro a o' c h1 h2 h3 h4 h5
    obtain ⟨o, e1, e2, e3, _, e5⟩ := h.back h1
    obtain rfl := e5 h3
    rw [h.weaks] at h4
    exact h.prot (i.weak a _ c e1 h2 h3 h4 h5)
  weaks := by
    rw [h.weaks]
    intro a ha
    obtain ⟨o, h1, h2, h3⟩ := i.weaks a ha
    exact ⟨o, h.nonwhite h1 (by rw [h3]; simp), h2, h3⟩
  start := by
    intro a ha
    rw [h.heapStart]
    exact i.start a (fun e => ha ((h.none_iff a).mpr e))
  grayOk := h.grayOk i.grayOk

/-- the block popped is not in the rest -/
theorem pop_gray {s : St} {a : Nat} {rest : List Nat} (g : GrayOk s) (hg : s.gray = a :: rest) :
    GrayOk (setColor { s with gray := rest } a .black) := by
  have hnd := g.nodup
  rw [hg] at hnd
  obtain ⟨hna, hnr⟩ := List.nodup_cons.mp hnd
  refine ⟨?_, hnr, ?_⟩
  · intro x hx
    have e : x ≠ a := by rintro rfl; exact hna hx
    show ∃ o, updF s.old a _ x = some o ∧ _
    rw [updF_ne _ _ e]
    exact g.gray x (by rw [hg]; exact List.mem_cons_of_mem _ hx)
  · intro x o h1 h2
    have h1' : updF s.old a ((s.old a).map (fun o => { o with color := .black })) x = some o := h1
    by_cases e : x = a
    · subst e
      rw [updF_same] at h1'
      obtain ⟨o', _, e2⟩ := Option.map_eq_some_iff.mp h1'
      rw [← e2] at h2
      exact absurd h2 (by simp)
    · rw [updF_ne _ _ e] at h1'
      rcases g.all x o h1' h2 with h | h
      · left
        rw [hg] at h
        rcases List.mem_cons.mp h with h | h
        · exact absurd h e
        · exact h
      · right; exact h

theorem inv_pop {s : St} {a : Nat} {rest : List Nat} (i : Inv s) (hp : s.phase = .mark) (hg : s.gray = a :: rest) :
    Inv (markPop s a rest) := by
  have m := i.toMark hp
  obtain ⟨o, ho, hoc⟩ := m.grayOk.gray a (by rw [hg]; exact List.mem_cons_self)
  unfold markPop
  simp only [ho]
  generalize hs1 : setColor { s with gray := rest } a .black = s1
  have hold : s1.old = updF s.old a (some { o with color := .black }) := by
    rw [← hs1]
    show updF s.old a ((s.old a).map _) = _
    rw [ho]; rfl
  have hg1 : GrayOk s1 := by rw [← hs1]; exact pop_gray m.grayOk hg
  have hsame : s1.roots = s.roots ∧ s1.young = s.young ∧ s1.weaks = s.weaks ∧ s1.heapStart = s.heapStart ∧ s1.phase = s.phase := by
    rw [← hs1]; exact ⟨rfl, rfl, rfl, rfl, rfl⟩
  obtain ⟨e1, e2, e3, e4, e5⟩ := hsame
  -- a state like `s1` but for colours, where the children of `a` are not white if `a` is scanned
  have key : ∀ t : St, t.phase = .mark → t.roots = s.roots → t.young = s.young → t.heapStart = s.heapStart → GrayOk t →
      (∀ x, t.old x = s1.old x ∨ ∃ o, s1.old x = some o ∧ o.color = .white ∧ t.old x = some { o with color := .gray }) →
      (o.tag < noScan → ∀ c, .old c ∈ o.fields → ∃ oc, t.old c = some oc ∧ oc.color ≠ .white) →
      (t.weaks = s.weaks ∧ o.tag ≠ noScan ∨ t.weaks = a :: s.weaks ∧ o.tag = noScan) → Inv t := by
    intro t tp tr ty th tg told tkids tw
    -- blocks other than `a`
    have hne : ∀ x, x ≠ a → t.old x = s.old x ∨ ∃ o, s.old x = some o ∧ o.color = .white ∧ t.old x = some { o with color := .gray } := by
      intro x hx
      have := told x
      rwa [hold, updF_ne _ _ hx] at this
    have ha : t.old a = some { o with color := .black } := by
      rcases told a with e | ⟨o', d1, d2, _⟩
      · rw [e, hold, updF_same]
      · rw [hold, updF_same] at d1
        obtain rfl := Option.some.inj d1
        exact absurd d2 (by simp)
    have hprot : ∀ x, Prot s x → Prot t x := by
      intro x p
      induction p with
      | @base x o' h1 h2 =>
        by_cases hx : x = a
        · subst hx; exact .base ha (by simp)
        · rcases hne x hx with e | ⟨o2, d1, d2, _⟩
          · exact .base (by rw [e]; exact h1) h2
          · rw [h1] at d1
            obtain rfl := Option.some.inj d1
            exact absurd d2 h2
      | @edge x o' c _ h1 h2 h3 h4 ih =>
        by_cases hx : x = a
        · subst hx
          rw [ho] at h1
          obtain rfl := Option.some.inj h1
          obtain ⟨oc, k1, k2⟩ := tkids h3 c h4
          exact .base k1 k2
        · rcases hne x hx with e | ⟨o2, d1, d2, d3⟩
          · exact .edge ih (by rw [e]; exact h1) h2 h3 h4
          · rw [h1] at d1
            obtain rfl := Option.some.inj d1
            exact .edge ih d3 (by simp) h3 h4
    have hback : ∀ x o', t.old x = some o' → ∃ o2, s.old x = some o2 ∧ o'.tag = o2.tag ∧ o'.fields = o2.fields ∧
        (x ≠ a → o'.color = .black → o2.color = .black) := by
      intro x o' h1
      by_cases hx : x = a
      · subst hx
        rw [ha] at h1
        obtain rfl := Option.some.inj h1
        exact ⟨o, ho, rfl, rfl, fun h => absurd rfl h⟩
      · rcases hne x hx with e | ⟨o2, d1, d2, d3⟩
        · exact ⟨o', by rw [← e]; exact h1, rfl, rfl, fun _ h => h⟩
        · rw [d3] at h1
          obtain rfl := Option.some.inj h1
          exact ⟨o2, d1, rfl, rfl, fun _ h => absurd h (by simp)⟩
    have hnone : ∀ x, t.old x = none → s.old x = none := by
      intro x hx
      by_cases e : x = a
      · subst e; rw [ha] at hx; exact absurd hx (by simp)
      · rcases hne x e with h | ⟨_, _, _, d3⟩
        · rw [← h]; exact hx
        · rw [d3] at hx; exact absurd hx (by simp)
    refine mark_inv tp ?_ ?_ ?_ ?_ ?_ ?_ ?_ ?_ tg
    · rw [tr]; exact fun x hx => hprot x (m.roots x hx)
    · rw [ty]; exact fun y o x h1 h2 h3 => hprot x (m.young y o x h1 h2 h3)
    · intro x o' c h1 h2 h3 h4
      obtain ⟨o2, d1, d2, d3, d4⟩ := hback x o' h1
      by_cases hx : x = a
      · subst hx
        rw [ho] at d1
        obtain rfl := Option.some.inj d1
        obtain ⟨oc, k1, k2⟩ := tkids (by omega) c (by rw [← d3]; exact h4)
        exact .base k1 k2
      · exact hprot c (m.black x o2 c d1 (d4 hx h2) (by omega) (by rw [← d3]; exact h4))
    · rw [ty]; exact m.weakTag
    · intro x o' c h1 h2 h3 h4
      obtain ⟨o2, d1, d2, d3, _⟩ := hback x o' h1
      exact m.exist x o2 c d1 (by omega) (by rw [← d3]; exact h3) (hnone c h4)
    · intro x o' c h1 h2 h3 h4 h5
      obtain ⟨o2, d1, d2, d3, d4⟩ := hback x o' h1
      by_cases hx : x = a
      · subst hx
        rw [ho] at d1
        obtain rfl := Option.some.inj d1
        rcases tw with ⟨_, w2⟩ | ⟨w1, _⟩
        · omega
        · rw [w1] at h4; exact absurd List.mem_cons_self h4
      · refine hprot c (m.weak x o2 c d1 (by omega) (d4 hx h3) ?_ (by rw [← d3]; exact h5))
        rcases tw with ⟨w1, _⟩ | ⟨w1, _⟩
        · rw [w1] at h4; exact h4
        · rw [w1] at h4; exact fun h => h4 (List.mem_cons_of_mem _ h)
    · intro x hx
      have hold' : ∀ x ∈ s.weaks, ∃ o, t.old x = some o ∧ o.tag = noScan ∧ o.color = .black := by
        intro x hx
        obtain ⟨o2, d1, d2, d3⟩ := m.weaks x hx
        by_cases e : x = a
        · subst e
          rw [ho] at d1
          obtain rfl := Option.some.inj d1
          rw [hoc] at d3; exact absurd d3 (by simp)
        · rcases hne x e with h | ⟨o3, f1, f2, _⟩
          · exact ⟨o2, by rw [h]; exact d1, d2, d3⟩
          · rw [d1] at f1
            obtain rfl := Option.some.inj f1
            rw [d3] at f2; exact absurd f2 (by simp)
      rcases tw with ⟨w1, _⟩ | ⟨w1, w2⟩
      · rw [w1] at hx; exact hold' x hx
      · rw [w1] at hx
        rcases List.mem_cons.mp hx with rfl | hx
        · exact ⟨_, ha, w2, rfl⟩
        · exact hold' x hx
    · intro x hx
      rw [th]
      exact m.start x (fun e => by
        have : t.old x = none := by
          by_cases ea : x = a
          · subst ea; rw [ho] at e; exact absurd e (by simp)
          · rcases hne x ea with h | ⟨o2, d1, _⟩
            · rw [h]; exact e
            · rw [e] at d1; exact absurd d1 (by simp)
        exact hx this)
  by_cases ht : o.tag < noScan
  · rw [if_pos ht]
    have d := foldl_dark o.fields.reverse s1
    refine key _ (by rw [d.phase, e5, hp]) (by rw [d.roots, e1]) (by rw [d.young, e2]) (by rw [d.heapStart, e4]) (d.grayOk hg1) d.old ?_
      (Or.inl ⟨by rw [d.weaks, e3], by omega⟩)
    intro _ c hc
    refine foldl_nonwhite _ s1 c (List.mem_reverse.mpr hc) ?_
    rw [hold]
    by_cases e : c = a
    · subst e; rw [updF_same]; simp
    · rw [updF_ne _ _ e]; exact m.exist a o c ho (by omega) hc
  · rw [if_neg ht]
    by_cases hw : o.tag = noScan
    · rw [if_pos hw]
      refine key _ (by show s1.phase = _; rw [e5, hp]) e1 e2 e4 ⟨hg1.gray, hg1.nodup, hg1.all⟩ (fun x => Or.inl rfl) (fun h => absurd h ht)
        (Or.inr ⟨by show a :: s1.weaks = _; rw [e3], hw⟩)
    · rw [if_neg hw]
      exact key _ (by rw [e5, hp]) e1 e2 e4 hg1 (fun x => Or.inl rfl) (fun h => absurd h ht) (Or.inl ⟨e3, hw⟩)

/-- changes of the marking state only -/
theorem markInv_of {s t : St} (m : MarkInv s) (h1 : t.old = s.old) (h2 : t.young = s.young) (h3 : t.roots = s.roots) (h4 : t.weaks = s.weaks)
    (h5 : t.heapStart = s.heapStart) (g : GrayOk t) : MarkInv t := by
  have hprot : ∀ a, Prot s a → Prot t a := by
    intro a p
    induction p with
    | base k1 k2 => exact .base (by rw [h1]; exact k1) k2
    | edge _ k1 k2 k3 k4 ih => exact .edge ih (by rw [h1]; exact k1) k2 k3 k4
  exact
    { roots := by rw [h3]; exact fun a ha => hprot a (m.roots a ha)
      young := by rw [h2]; exact fun y o a k1 k2 k3 => hprot a (m.young y o a k1 k2 k3)
      black := by rw [h1]; exact fun a o c k1 k2 k3 k4 => hprot c (m.black a o c k1 k2 k3 k4)
      weakTag := by rw [h2]; exact m.weakTag
      exist := by rw [h1]; exact m.exist
      weak := by rw [h1, h4]; exact fun a o c k1 k2 k3 k4 k5 => hprot c (m.weak a o c k1 k2 k3 k4 k5)
      weaks := by rw [h1, h4]; exact m.weaks
      start := by rw [h1, h5]; exact m.start
      grayOk := g }

theorem inv_walk {s : St} {m e : Nat} (i : Inv s) (hp : s.phase = .mark) (hg : s.gray = []) (hm : s.markhp = some m) (hme : m < e)
    (hgap : ∀ x, m < x → x < e → s.old x = none) : Inv (markWalk s m e) := by
  have mi := i.toMark hp
  have g := mi.grayOk
  have hall : ∀ a o, s.old a = some o → o.color = .gray → a = m ∨ e ≤ a ∨ s.isPure = false := by
    intro a o h1 h2
    rcases g.all a o h1 h2 with h | ⟨m', h, h'⟩ | h
    · rw [hg] at h; simp at h
    · rw [hm] at h
      obtain rfl := Option.some.inj h
      by_cases ea : a = m
      · exact Or.inl ea
      · right; left
        by_contra hlt
        rw [hgap a (by omega) (by omega)] at h1
        exact absurd h1 (by simp)
    · exact Or.inr (Or.inr h)
  have nogray : ∀ o, s.old m = some o → o.color ≠ .gray → Inv { s with markhp := some e } := by
    intro o ho hc
    refine MarkInv.toInv (markInv_of mi rfl rfl rfl rfl rfl ?_) hp
    refine ⟨g.gray, g.nodup, ?_⟩
    intro a o' h1 h2
    rcases hall a o' h1 h2 with rfl | h | h
    · have h1' : s.old a = some o' := h1
      rw [ho] at h1'
      obtain rfl := Option.some.inj h1'
      exact absurd h2 hc
    · exact Or.inr (Or.inl ⟨e, rfl, h⟩)
    · exact Or.inr (Or.inr h)
  unfold markWalk
  cases ho : s.old m with
  | none =>
    refine MarkInv.toInv (markInv_of mi rfl rfl rfl rfl rfl ?_) hp
    refine ⟨g.gray, g.nodup, ?_⟩
    intro a o' h1 h2
    rcases hall a o' h1 h2 with rfl | h | h
    · have h1' : s.old a = some o' := h1
      rw [ho] at h1'; exact absurd h1' (by simp)
    · exact Or.inr (Or.inl ⟨e, rfl, h⟩)
    · exact Or.inr (Or.inr h)
  | some o =>
    by_cases hc : o.color = .gray
    · simp only [hc, if_true]
      refine MarkInv.toInv (markInv_of mi rfl rfl rfl rfl rfl ?_) hp
      refine ⟨?_, ?_, ?_⟩
      · intro a ha
        have ha' : a ∈ m :: s.gray := ha
        rw [hg] at ha'
        obtain rfl := List.mem_singleton.mp ha'
        exact ⟨o, ho, hc⟩
      · show (m :: s.gray).Nodup
        rw [hg]; simp
      · intro a o' h1 h2
        rcases hall a o' h1 h2 with rfl | h | h
        · left; exact List.mem_cons_self
        · exact Or.inr (Or.inl ⟨e, rfl, h⟩)
        · exact Or.inr (Or.inr h)
    · simp only [hc, if_false]
      exact nogray o ho hc

theorem inv_walkEnd {s : St} {m : Nat} (i : Inv s) (hp : s.phase = .mark) (hm : s.markhp = some m)
    (hend : ∀ x, m ≤ x → s.old x = none) : Inv { s with markhp := none } := by
  have mi := i.toMark hp
  refine MarkInv.toInv (markInv_of mi rfl rfl rfl rfl rfl ⟨mi.grayOk.gray, mi.grayOk.nodup, ?_⟩) hp
  intro a o h1 h2
  rcases mi.grayOk.all a o h1 h2 with h | ⟨m', h, h'⟩ | h
  · exact Or.inl h
  · rw [hm] at h
    obtain rfl := Option.some.inj h
    have h1' : s.old a = some o := h1
    rw [hend a h'] at h1'; exact absurd h1' (by simp)
  · exact Or.inr (Or.inr h)

theorem inv_restart {s : St} (i : Inv s) (hp : s.phase = .mark) : Inv (markRestart s) := by
  have mi := i.toMark hp
  refine MarkInv.toInv (markInv_of mi rfl rfl rfl rfl rfl ⟨mi.grayOk.gray, mi.grayOk.nodup, ?_⟩) hp
  intro a o h1 h2
  have h1' : s.old a = some o := h1
  exact Or.inr (Or.inl ⟨s.heapStart, rfl, mi.start a (by rw [h1']; simp)⟩)

/-- when nothing is gray, what is protected is black -/
theorem prot_black {s : St} (hng : ∀ a o, s.old a = some o → o.color ≠ .gray) (hex : ∀ a o c, s.old a = some o → o.tag ≤ noScan → .old c ∈ o.fields → s.old c ≠ none)
    {a : Nat} (p : Prot s a) : ∃ o, s.old a = some o ∧ o.color = .black := by
  have hb : ∀ a o, s.old a = some o → o.color ≠ .white → o.color = .black := by
    intro a o h1 h2
    cases hc : o.color with
    | white => exact absurd hc h2
    | gray => exact absurd hc (hng a o h1)
    | black => rfl
  induction p with
  | base h1 h2 => exact ⟨_, h1, hb _ _ h1 h2⟩
  | edge _ h1 h2 h3 h4 ih =>
    obtain ⟨o, k1, k2⟩ := ih
    rw [h1] at k1
    obtain rfl := Option.some.inj k1
    exact absurd k2 h2

theorem inv_finish {s : St} (i : Inv s) (hp : s.phase = .mark) (hg : s.gray = []) (hm : s.markhp = none) (hpu : s.isPure = true) :
    Inv (markFinish s) := by
  have mi := i.toMark hp
  have hng : ∀ a o, s.old a = some o → o.color ≠ .gray := by
    intro a o h1 h2
    rcases mi.grayOk.all a o h1 h2 with h | ⟨m', h, _⟩ | h
    · rw [hg] at h; simp at h
    · rw [hm] at h; exact absurd h (by simp)
    · rw [hpu] at h; exact absurd h (by simp)
  have hph : (markFinish s).phase ≠ .mark := by simp [markFinish]
  have hlive : ∀ a, Prot s a → Live (markFinish s) a := by
    intro a p
    rw [live_other hph]
    obtain ⟨o, h1, h2⟩ := prot_black hng mi.exist p
    exact ⟨o, h1, Or.inl (by rw [h2]; simp)⟩
  have hlive2 : ∀ a o, Live (markFinish s) a → s.old a = some o → o.color = .black := by
    intro a o hl ho
    rw [live_other hph] at hl
    obtain ⟨o', h1, h2⟩ := hl
    have h1' : s.old a = some o' := h1
    rw [ho] at h1'
    obtain rfl := Option.some.inj h1'
    have hnw : o.color ≠ .white := by
      rcases h2 with h2 | h2
      · exact h2
      · have := mi.start a (by rw [ho]; simp)
        have h2' : a < s.heapStart := h2
        omega
    cases hc : o.color with
    | white => exact absurd hc hnw
    | gray => exact absurd hc (hng a o ho)
    | black => rfl
  refine ⟨fun a h => hlive a (mi.roots a h), fun y o a h1 h2 h3 => hlive a (mi.young y o a h1 h2 h3), ?_, mi.weakTag, fun _ => mi.exist, ?_,
    mi.weaks, fun h => absurd h (by simp [markFinish]), mi.start, fun h => absurd h hph, fun _ => ⟨hg, hpu, hm, hng⟩, ?_⟩
  · intro a o c hl h1 h2 h3
    exact hlive c (mi.black a o c h1 (hlive2 a o hl h1) h2 h3)
  · intro a o c hl h1 h2 h3 h4 h5
    exact hlive c (mi.weak a o c h1 h2 (hlive2 a o hl h1) h4 h5)
  · intro _ a o h1 h2
    have h1' : s.old a = some o := h1
    have := mi.start a (by rw [h1']; simp)
    have h2' : a < s.heapStart := h2
    omega

end Mosml.Major
