import Verif.Heap.MajorSteps2

namespace Mosml.Major

/-! ### The program -/

/-- only roots and young blocks change -/
theorem inv_mutate {s t : St} (i : Inv s) (e1 : t.old = s.old) (e2 : t.phase = s.phase) (e3 : t.sweepHp = s.sweepHp) (e4 : t.weaks = s.weaks)
    (e5 : t.heapStart = s.heapStart) (e6 : t.gray = s.gray) (e7 : t.isPure = s.isPure) (e8 : t.markhp = s.markhp)
    (hr : ∀ a, .old a ∈ t.roots → Live s a) (hy : ∀ y o a, t.young y = some o → o.tag < noScan → .old a ∈ o.fields → Live s a)
    (hw : ∀ y o, t.young y = some o → o.tag ≠ noScan) : Inv t := by
  have hl : ∀ a, Live s a → Live t a := live_congr e1 e2 e3
  have hl' : ∀ a, Live t a → Live s a := live_congr e1.symm e2.symm e3.symm
  refine ⟨fun a h => hl a (hr a h), fun y o a h1 h2 h3 => hl a (hy y o a h1 h2 h3), ?_, hw, ?_, ?_, ?_, ?_, ?_, ?_, ?_, ?_⟩
  · rw [e1]; exact fun a o c h1 h2 h3 h4 => hl c (i.fields a o c (hl' a h1) h2 h3 h4)
  · rw [e1, e2]; exact i.exist
  · rw [e1, e2, e4]; exact fun a o c h1 h2 h3 h4 h5 h6 => hl c (i.weak a o c (hl' a h1) h2 h3 h4 h5 h6)
  · rw [e1, e4]; exact i.weaks
  · rw [e2, e4]; exact i.weaks0
  · rw [e1, e5]; exact i.start
  · rw [e2]
    intro h
    have g := i.grayOk h
    exact ⟨by rw [e1, e6]; exact g.gray, by rw [e6]; exact g.nodup, by rw [e1, e6, e7, e8]; exact g.all⟩
  · rw [e1, e2, e6, e7, e8]; exact i.noGray
  · rw [e1, e2, e3]; exact i.low

theorem inv_roots {s : St} {rs : List Val} (i : Inv s) (h : ∀ v ∈ rs, InHand s v) : Inv { s with roots := rs } :=
  inv_mutate i rfl rfl rfl rfl rfl rfl rfl rfl (fun _ ha => i.inHand (h _ ha)) i.young i.weakTag

theorem inv_allocYoung {s : St} {y tag : Nat} {fs : List Val} (i : Inv s) (ht : tag ≠ noScan) (h : ∀ v ∈ fs, InHand s v) :
    Inv { s with young := updF s.young y (some ⟨tag, fs⟩), roots := .young y :: s.roots } := by
  refine inv_mutate i rfl rfl rfl rfl rfl rfl rfl rfl ?_ ?_ ?_
  · intro a ha
    rcases List.mem_cons.mp ha with e | ha
    · exact absurd e (by simp)
    · exact i.roots a ha
  · intro x o a h1 h2 h3
    have h1' : updF s.young y (some ⟨tag, fs⟩) x = some o := h1
    by_cases e : x = y
    · subst e
      rw [updF_same] at h1'
      obtain rfl := Option.some.inj h1'
      exact i.inHand (h _ h3)
    · rw [updF_ne _ _ e] at h1'; exact i.young x o a h1' h2 h3
  · intro x o h1
    have h1' : updF s.young y (some ⟨tag, fs⟩) x = some o := h1
    by_cases e : x = y
    · subst e
      rw [updF_same] at h1'
      obtain rfl := Option.some.inj h1'
      exact ht
    · rw [updF_ne _ _ e] at h1'; exact i.weakTag x o h1'

theorem inv_modifyYoung {s : St} {y k : Nat} {v : Val} {o : YObj} (i : Inv s) (ho : s.young y = some o) (h : InHand s v) :
    Inv { s with young := updF s.young y (some { o with fields := o.fields.set k v }) } := by
  refine inv_mutate i rfl rfl rfl rfl rfl rfl rfl rfl i.roots ?_ ?_
  · intro x o' a h1 h2 h3
    have h1' : updF s.young y (some { o with fields := o.fields.set k v }) x = some o' := h1
    by_cases e : x = y
    · subst e
      rw [updF_same] at h1'
      obtain rfl := Option.some.inj h1'
      rcases List.mem_or_eq_of_mem_set h3 with h3 | h3
      · exact i.young x o a ho h2 h3
      · exact i.inHand (h3 ▸ h)
    · rw [updF_ne _ _ e] at h1'; exact i.young x o' a h1' h2 h3
  · intro x o' h1
    have h1' : updF s.young y (some { o with fields := o.fields.set k v }) x = some o' := h1
    by_cases e : x = y
    · subst e
      rw [updF_same] at h1'
      obtain rfl := Option.some.inj h1'
      exact i.weakTag x o ho
    · rw [updF_ne _ _ e] at h1'; exact i.weakTag x o' h1'

/-! ### New blocks of the major heap, and the minor collection -/

/-- `t` has the blocks of `s`, with some fields renamed, and new ones with the colour `alloc_shr` gives them -/
structure Ext (s t : St) (f : Nat → Option Nat) : Prop where
  old : ∀ a o, s.old a = some o → ∃ fs, t.old a = some { o with fields := fs } ∧
    (o.tag ≤ noScan → fs = o.fields.map (image f))
  new : ∀ a o, t.old a = some o → s.old a = none → o.color = allocColor s a ∧
    (o.tag ≤ noScan → ∀ c, .old c ∈ o.fields → Live s c ∨ ∃ y, f y = some c)
  fNew : ∀ y a, f y = some a → s.old a = none ∧ t.old a ≠ none
  roots : ∀ c, .old c ∈ t.roots → Live s c ∨ (s.old c = none ∧ t.old c ≠ none)
  young : ∀ y o c, t.young y = some o → o.tag < noScan → .old c ∈ o.fields → Live s c
  weakTag : ∀ y o, t.young y = some o → o.tag ≠ noScan
  start : ∀ a, t.old a ≠ none → t.heapStart ≤ a
  phase : t.phase = s.phase
  gray : t.gray = s.gray
  isPure : t.isPure = s.isPure
  markhp : t.markhp = s.markhp
  sweepHp : t.sweepHp = s.sweepHp
  weaks : t.weaks = s.weaks

theorem mem_image {f : Nat → Option Nat} {fs : List Val} {c : Nat} (h : .old c ∈ fs.map (image f)) :
    .old c ∈ fs ∨ ∃ y, .young y ∈ fs ∧ f y = some c := by
  obtain ⟨v, hv, e⟩ := List.mem_map.mp h
  cases v with
  | old a => left; simp only [image] at e; rw [← e]; exact hv
  | young y =>
    right
    cases hf : f y with
    | none => simp [image, hf] at e
    | some a =>
      simp only [image, hf] at e
      exact ⟨y, hv, by rw [hf]; simpa using e⟩
  | imm n => simp [image] at e
  | ext n => simp [image] at e

theorem image_mem {f : Nat → Option Nat} {fs : List Val} {c : Nat} (h : .old c ∈ fs) : .old c ∈ fs.map (image f) :=
  List.mem_map.mpr ⟨.old c, h, rfl⟩

theorem Ext.isNone {s t : St} {f : Nat → Option Nat} (x : Ext s t f) {a : Nat} (h : t.old a = none) : s.old a = none := by
  by_contra hc
  obtain ⟨o, ho⟩ := Option.ne_none_iff_exists'.mp hc
  obtain ⟨fs, h1, _⟩ := x.old a o ho
  rw [h] at h1; exact absurd h1 (by simp)

theorem Ext.inv {s t : St} {f : Nat → Option Nat} (x : Ext s t f) (i : Inv s) : Inv t := by
  -- new blocks are live
  have hnew : ∀ a, s.old a = none → t.old a ≠ none → Live t a := by
    intro a h1 h2
    obtain ⟨o, ho⟩ := Option.ne_none_iff_exists'.mp h2
    have hc := (x.new a o ho h1).1
    unfold allocColor at hc
    by_cases hp : s.phase = .mark
    · rw [live_mark (x.phase.trans hp)]
      rw [if_pos (Or.inl hp)] at hc
      exact .base ho (by rw [hc]; simp)
    · rw [live_other (by rw [x.phase]; exact hp), x.sweepHp]
      refine ⟨o, ho, ?_⟩
      by_cases hs : s.sweepHp ≤ a
      · left; rw [if_pos (Or.inr hs)] at hc; rw [hc]; simp
      · right; omega
  have hold : ∀ a, Live s a → Live t a := by
    intro a l
    by_cases hp : s.phase = .mark
    · rw [live_mark hp] at l
      rw [live_mark (x.phase.trans hp)]
      induction l with
      | base h1 h2 =>
        obtain ⟨fs, k1, _⟩ := x.old _ _ h1
        exact .base k1 h2
      | edge _ h1 h2 h3 h4 ih =>
        obtain ⟨fs, k1, k2⟩ := x.old _ _ h1
        refine .edge ih k1 h2 h3 ?_
        show _ ∈ fs
        rw [k2 (by omega)]
        exact image_mem h4
    · rw [live_other hp] at l
      rw [live_other (by rw [x.phase]; exact hp), x.sweepHp]
      obtain ⟨o, h1, h2⟩ := l
      obtain ⟨fs, k1, _⟩ := x.old _ _ h1
      exact ⟨_, k1, h2⟩
  have hmoved : ∀ y a, f y = some a → Live t a := fun y a h => hnew a (x.fNew y a h).1 (x.fNew y a h).2
  -- what a block of `t` was
  have hback : ∀ a o', t.old a = some o' → s.old a ≠ none → ∃ o, s.old a = some o ∧ o'.tag = o.tag ∧ o'.color = o.color ∧
      (o.tag ≤ noScan → ∀ c, .old c ∈ o'.fields → .old c ∈ o.fields ∨ ∃ y, f y = some c) := by
    intro a o' h1 h2
    obtain ⟨o, ho⟩ := Option.ne_none_iff_exists'.mp h2
    obtain ⟨fs, k1, k2⟩ := x.old a o ho
    rw [h1] at k1
    obtain rfl := Option.some.inj k1
    refine ⟨o, ho, rfl, rfl, ?_⟩
    intro ht c hc
    have hc' : .old c ∈ fs := hc
    rw [k2 ht] at hc'
    rcases mem_image hc' with h | ⟨y, _, h⟩
    · exact Or.inl h
    · exact Or.inr ⟨y, h⟩
  have hroots : ∀ a, .old a ∈ t.roots → Live t a := by
    intro a ha
    rcases x.roots a ha with h | ⟨h1, h2⟩
    · exact hold a h
    · exact hnew a h1 h2
  have hyoung : ∀ y o a, t.young y = some o → o.tag < noScan → .old a ∈ o.fields → Live t a :=
    fun y o a h1 h2 h3 => hold a (x.young y o a h1 h2 h3)
  have hnewf : ∀ a o c, t.old a = some o → s.old a = Option.none → o.tag ≤ noScan → .old c ∈ o.fields → Live t c := by
    intro a o c h1 h2 h3 h4
    rcases (x.new a o h1 h2).2 h3 c h4 with h | ⟨y, h⟩
    · exact hold c h
    · exact hmoved y c h
  have hweaks : ∀ a ∈ t.weaks, ∃ o, t.old a = some o ∧ o.tag = noScan ∧ o.color = .black := by
    rw [x.weaks]
    intro a ha
    obtain ⟨o, h1, h2, h3⟩ := i.weaks a ha
    obtain ⟨fs, k1, _⟩ := x.old a o h1
    exact ⟨_, k1, h2, h3⟩
  have hexist : s.phase ≠ .sweep → ∀ a o c, t.old a = some o → o.tag ≤ noScan → .old c ∈ o.fields → t.old c ≠ Option.none := by
    intro hp a o' c h1 h2 h3 h4
    by_cases ha : s.old a = Option.none
    · rcases (x.new a o' h1 ha).2 h2 c h3 with h | ⟨y, h⟩
      · exact i.live_exists h (x.isNone h4)
      · exact (x.fNew y c h).2 h4
    · obtain ⟨o, k1, k2, _, k4⟩ := hback a o' h1 ha
      rcases k4 (by omega) c h3 with h | ⟨y, h⟩
      · exact i.exist hp a o c k1 (by omega) h (x.isNone h4)
      · exact (x.fNew y c h).2 h4
  by_cases hp : s.phase = .mark
  · have m := i.toMark hp
    have tp := x.phase.trans hp
    have toProt : ∀ a, Live t a → Prot t a := fun a h => (live_mark tp a).mp h
    have ofProt : ∀ a, Prot s a → Live s a := fun a h => (live_mark hp a).mpr h
    refine mark_inv tp (fun a h => toProt a (hroots a h)) (fun y o a h1 h2 h3 => toProt a (hyoung y o a h1 h2 h3)) ?_ x.weakTag
      (hexist (by rw [hp]; simp)) ?_ hweaks x.start ?_
    · intro a o' c h1 h2 h3 h4
      by_cases ha : s.old a = Option.none
      · exact toProt c (hnewf a o' c h1 ha (by omega) h4)
      · obtain ⟨o, k1, k2, k3, k4⟩ := hback a o' h1 ha
        rcases k4 (by omega) c h4 with h | ⟨y, h⟩
        · exact toProt c (hold c (ofProt c (m.black a o c k1 (by rw [← k3]; exact h2) (by omega) h)))
        · exact toProt c (hmoved y c h)
    · intro a o' c h1 h2 h3 h4 h5
      rw [x.weaks] at h4
      by_cases ha : s.old a = Option.none
      · exact toProt c (hnewf a o' c h1 ha (by omega) h5)
      · obtain ⟨o, k1, k2, k3, k4⟩ := hback a o' h1 ha
        rcases k4 (by omega) c h5 with h | ⟨y, h⟩
        · exact toProt c (hold c (ofProt c (m.weak a o c k1 (by omega) (by rw [← k3]; exact h3) h4 h)))
        · exact toProt c (hmoved y c h)
    · have g := m.grayOk
      refine ⟨?_, by rw [x.gray]; exact g.nodup, ?_⟩
      · rw [x.gray]
        intro a ha
        obtain ⟨o, h1, h2⟩ := g.gray a ha
        obtain ⟨fs, k1, _⟩ := x.old a o h1
        exact ⟨_, k1, h2⟩
      · rw [x.gray, x.isPure, x.markhp]
        intro a o' h1 h2
        by_cases ha : s.old a = Option.none
        · have := (x.new a o' h1 ha).1
          unfold allocColor at this
          rw [if_pos (Or.inl hp), h2] at this
          exact absurd this (by simp)
        · obtain ⟨o, k1, _, k3, _⟩ := hback a o' h1 ha
          exact g.all a o k1 (by rw [← k3]; exact h2)
  · have tp : t.phase ≠ .mark := by rw [x.phase]; exact hp
    obtain ⟨g1, g2, g0, g3⟩ := i.noGray hp
    have hl2 : ∀ a, s.old a ≠ Option.none → Live t a → Live s a := by
      intro a ha l
      rw [live_other tp, x.sweepHp] at l
      rw [live_other hp]
      obtain ⟨o', h1, h2⟩ := l
      obtain ⟨o, k1, _, k3, _⟩ := hback a o' h1 ha
      exact ⟨o, k1, by rw [← k3]; exact h2⟩
    refine ⟨hroots, hyoung, ?_, x.weakTag, ?_, ?_, hweaks, ?_, x.start, fun h => absurd h tp, ?_, ?_⟩
    · intro a o' c hl h1 h2 h3
      by_cases ha : s.old a = Option.none
      · exact hnewf a o' c h1 ha (by omega) h3
      · obtain ⟨o, k1, k2, _, k4⟩ := hback a o' h1 ha
        rcases k4 (by omega) c h3 with h | ⟨y, h⟩
        · exact hold c (i.fields a o c (hl2 a ha hl) k1 (by omega) h)
        · exact hmoved y c h
    · rw [x.phase]; exact hexist
    · intro a o' c hl h1 h2 _ h4 h5
      rw [x.weaks] at h4
      by_cases ha : s.old a = Option.none
      · exact hnewf a o' c h1 ha (by omega) h5
      · obtain ⟨o, k1, k2, _, k4⟩ := hback a o' h1 ha
        rcases k4 (by omega) c h5 with h | ⟨y, h⟩
        · exact hold c (i.weak a o c (hl2 a ha hl) k1 (by omega) (fun h => absurd h hp) h4 h)
        · exact hmoved y c h
    · rw [x.phase, x.weaks]; exact i.weaks0
    · intro _
      rw [x.gray, x.isPure, x.markhp]
      refine ⟨g1, g2, g0, ?_⟩
      intro a o' h1 h2
      by_cases ha : s.old a = Option.none
      · have := (x.new a o' h1 ha).1
        unfold allocColor at this
        rw [h2] at this
        split at this <;> exact absurd this (by simp)
      · obtain ⟨o, k1, _, k3, _⟩ := hback a o' h1 ha
        exact g3 a o k1 (by rw [← k3]; exact h2)
    · intro _ a o' h1 h2
      rw [x.sweepHp] at h2
      by_cases ha : s.old a = Option.none
      · have := (x.new a o' h1 ha).1
        unfold allocColor at this
        rw [this, if_neg]
        rintro (h | h)
        · exact hp h
        · omega
      · obtain ⟨o, k1, _, k3, _⟩ := hback a o' h1 ha
        rw [k3]; exact i.low hp a o k1 h2

theorem image_none (v : Val) : image (fun _ => none) v = v := by cases v <;> rfl

theorem inv_minor {s s' : St} {f : Nat → Option Nat} (i : Inv s) (m : Minor s f s') : Inv s' := by
  obtain ⟨p1, p2, _, _, p3, p4, p5, p6⟩ := m.same
  refine Ext.inv (f := f) (s := s) ⟨?_, ?_, ?_, ?_, ?_, ?_, m.start.2, p1, p2, p3, p4, p5, p6⟩ i
  · intro a o h
    obtain ⟨fs, k1, _, k3⟩ := m.old a o h
    exact ⟨fs, k1, fun h => (k3 h).1⟩
  · intro a o h1 h2
    rcases m.only a (by rw [h1]; simp) with h | ⟨y, hy⟩
    · exact absurd h2 h
    · obtain ⟨_, b, fs, k1, k2, k3, k4⟩ := m.new y a hy
      rw [h1] at k2
      obtain rfl := Option.some.inj k2
      refine ⟨rfl, ?_⟩
      intro ht c hc
      have ht' : b.tag < noScan := by
        have h1 := i.weakTag y b k1
        have h2 : b.tag ≤ noScan := ht
        omega
      have hc' : .old c ∈ fs := hc
      rw [(k4 ht').1] at hc'
      rcases mem_image hc' with h | ⟨y', _, h⟩
      · exact Or.inl (i.young y b c k1 ht' h)
      · exact Or.inr ⟨y', h⟩
  · intro y a h
    obtain ⟨h1, b, fs, _, k2, _⟩ := m.new y a h
    exact ⟨h1, by rw [k2]; simp⟩
  · intro c hc
    rw [m.roots] at hc
    rcases mem_image hc with h | ⟨y, _, h⟩
    · exact Or.inl (i.roots c h)
    · obtain ⟨h1, b, fs, _, k2, _⟩ := m.new y c h
      exact Or.inr ⟨h1, by rw [k2]; simp⟩
  · intro y o c h; rw [m.young y] at h; exact absurd h (by simp)
  · intro y o h; rw [m.young y] at h; exact absurd h (by simp)

theorem inv_allocOld {s : St} {a tag start : Nat} {fs : List Val} (i : Inv s) (ha : s.old a = none) (h1 : start ≤ s.heapStart) (h2 : start ≤ a)
    (hf : ∀ v ∈ fs, InHand s v) : Inv { allocOld s a tag fs start with roots := .old a :: s.roots } := by
  have hold : (allocOld s a tag fs start).old = updF s.old a (some ⟨allocColor s a, tag, fs⟩) := rfl
  refine Ext.inv (f := fun _ => none) (s := s) ⟨?_, ?_, ?_, ?_, i.young, i.weakTag, ?_, rfl, rfl, rfl, rfl, rfl, rfl⟩ i
  · intro x o hx
    have e : x ≠ a := by rintro rfl; rw [ha] at hx; exact absurd hx (by simp)
    refine ⟨o.fields, ?_, fun _ => ?_⟩
    · show updF s.old a _ x = _
      rw [updF_ne _ _ e, hx]
    · rw [show (image fun _ => none) = id from funext image_none, List.map_id]
  · intro x o hx hn
    have hx' : updF s.old a (some ⟨allocColor s a, tag, fs⟩) x = some o := hx
    by_cases e : x = a
    · subst e
      rw [updF_same] at hx'
      obtain rfl := Option.some.inj hx'
      exact ⟨rfl, fun _ c hc => Or.inl (i.inHand (hf _ hc))⟩
    · rw [updF_ne _ _ e, hn] at hx'; exact absurd hx' (by simp)
  · intro y b hb; exact absurd hb (by simp)
  · intro c hc
    rcases List.mem_cons.mp hc with e | hc
    · right
      have : c = a := by simpa using e
      subst this
      refine ⟨ha, ?_⟩
      show updF s.old c _ c ≠ none
      rw [updF_same]; simp
    · exact Or.inl (i.roots c hc)
  · intro x hx
    have hx' : updF s.old a (some ⟨allocColor s a, tag, fs⟩) x ≠ none := hx
    show start ≤ x
    by_cases e : x = a
    · rw [e]; exact h2
    · rw [updF_ne _ _ e] at hx'
      exact Nat.le_trans h1 (i.start x hx')

/-! ### Assignment -/

theorem inv_modify {s : St} {a k : Nat} {v : Val} {o : Obj} (i : Inv s) (hl : Live s a) (ho : s.old a = some o) (ht : o.tag ≤ noScan)
    (hv : InHand s v) : Inv (modify s a k v) := by
  unfold modify
  simp only [ho]
  have hvl : ∀ c, v = .old c → Live s c := by rintro c rfl; exact i.inHand hv
  generalize hs1 : ({ s with old := updF s.old a (some { o with fields := o.fields.set k v }) } : St) = s1
  have hold : s1.old = updF s.old a (some { o with fields := o.fields.set k v }) := by rw [← hs1]
  have hrest : s1.young = s.young ∧ s1.roots = s.roots ∧ s1.phase = s.phase ∧ s1.gray = s.gray ∧ s1.isPure = s.isPure ∧ s1.markhp = s.markhp ∧
      s1.heapStart = s.heapStart ∧ s1.sweepHp = s.sweepHp ∧ s1.weaks = s.weaks := by rw [← hs1]; exact ⟨rfl, rfl, rfl, rfl, rfl, rfl, rfl, rfl, rfl⟩
  obtain ⟨r1, r2, r3, r4, r5, r6, r7, r8, r9⟩ := hrest
  have hback : ∀ x o', s1.old x = some o' → ∃ o2, s.old x = some o2 ∧ o'.tag = o2.tag ∧ o'.color = o2.color ∧
      ∀ c, .old c ∈ o'.fields → .old c ∈ o2.fields ∨ v = .old c := by
    intro x o' h
    rw [hold] at h
    by_cases e : x = a
    · subst e
      rw [updF_same] at h
      obtain rfl := Option.some.inj h
      refine ⟨o, ho, rfl, rfl, fun c hc => ?_⟩
      rcases List.mem_or_eq_of_mem_set hc with hc | hc
      · exact Or.inl hc
      · exact Or.inr hc.symm
    · rw [updF_ne _ _ e] at h
      exact ⟨o', h, rfl, rfl, fun c hc => Or.inl hc⟩
  have hnone : ∀ x, s1.old x = none ↔ s.old x = none := by
    intro x
    rw [hold]
    by_cases e : x = a
    · subst e; rw [updF_same, ho]; simp
    · rw [updF_ne _ _ e]
  have hexist : s.phase ≠ .sweep → ∀ x o' c, s1.old x = some o' → o'.tag ≤ noScan → .old c ∈ o'.fields → s1.old c ≠ none := by
    intro hp x o' c h1 h2 h3
    rw [Ne, hnone]
    obtain ⟨o2, k1, k2, _, k4⟩ := hback x o' h1
    rcases k4 c h3 with h | h
    · exact i.exist hp x o2 c k1 (by omega) h
    · exact i.live_exists (hvl c h)
  have hweaks : ∀ x ∈ s1.weaks, ∃ o, s1.old x = some o ∧ o.tag = noScan ∧ o.color = .black := by
    rw [r9]
    intro x hx
    obtain ⟨o2, h1, h2, h3⟩ := i.weaks x hx
    rw [hold]
    by_cases e : x = a
    · subst e
      rw [ho] at h1
      obtain rfl := Option.some.inj h1
      exact ⟨_, updF_same _ _ _, h2, h3⟩
    · rw [updF_ne _ _ e]; exact ⟨o2, h1, h2, h3⟩
  have hstart : ∀ x, s1.old x ≠ none → s1.heapStart ≤ x := by
    intro x hx
    rw [r7]
    exact i.start x (fun e => hx ((hnone x).mpr e))
  by_cases hp : s.phase = .mark
  · have m := i.toMark hp
    have g := m.grayOk
    have hg1 : GrayOk s1 := by
      refine ⟨?_, by rw [r4]; exact g.nodup, ?_⟩
      · rw [r4]
        intro x hx
        obtain ⟨o2, h1, h2⟩ := g.gray x hx
        rw [hold]
        by_cases e : x = a
        · subst e
          rw [ho] at h1
          obtain rfl := Option.some.inj h1
          exact ⟨_, updF_same _ _ _, h2⟩
        · rw [updF_ne _ _ e]; exact ⟨o2, h1, h2⟩
      · rw [r4, r5, r6]
        intro x o' h1 h2
        obtain ⟨o2, k1, _, k3, _⟩ := hback x o' h1
        exact g.all x o2 k1 (by rw [← k3]; exact h2)
    -- the state after darkening, where an overwritten block is not white
    have key : ∀ t, Dark s1 t → (∀ c, o.fields[k]? = some (.old c) → ∃ oc, t.old c = some oc ∧ oc.color ≠ .white) → Inv t := by
      intro t d hw
      have hprot : ∀ x, Prot s x → Prot t x := by
        intro x p
        induction p with
        | @base x o2 h1 h2 =>
          by_cases e : x = a
          · subst e
            rw [ho] at h1
            obtain rfl := Option.some.inj h1
            have : s1.old x = some { o with fields := o.fields.set k v } := by rw [hold, updF_same]
            exact .base (d.nonwhite this h2) h2
          · have : s1.old x = some o2 := by rw [hold, updF_ne _ _ e]; exact h1
            exact .base (d.nonwhite this h2) h2
        | @edge x o2 c _ h1 h2 h3 h4 ih =>
          by_cases e : x = a
          · subst e
            rw [ho] at h1
            obtain rfl := Option.some.inj h1
            have hx : s1.old x = some { o with fields := o.fields.set k v } := by rw [hold, updF_same]
            obtain ⟨o', d1, d2, d3, d4⟩ := d.forth hx
            obtain ⟨j, hj, hjc⟩ := List.getElem_of_mem h4
            by_cases ejk : j = k
            · subst ejk
              obtain ⟨oc, w1, w2⟩ := hw c (by rw [List.getElem?_eq_getElem hj, hjc])
              exact .base w1 w2
            · refine .edge ih d1 (d4 h2) (by rw [d2]; exact h3) ?_
              rw [d3]
              show .old c ∈ o.fields.set k v
              have hlen : j < (o.fields.set k v).length := by rw [List.length_set]; exact hj
              have : (o.fields.set k v)[j]'hlen = .old c := by
                rw [List.getElem_set_ne (fun h => ejk h.symm)]; exact hjc
              rw [← this]; exact List.getElem_mem _
          · have hx : s1.old x = some o2 := by rw [hold, updF_ne _ _ e]; exact h1
            obtain ⟨o', d1, d2, d3, d4⟩ := d.forth hx
            exact .edge ih d1 (d4 h2) (by omega) (by rw [d3]; exact h4)
      have hvp : ∀ c, v = .old c → Prot t c := fun c h => hprot c ((live_mark hp c).mp (hvl c h))
      have hback2 : ∀ x o', t.old x = some o' → ∃ o2, s.old x = some o2 ∧ o'.tag = o2.tag ∧ (o'.color = .black → o2.color = .black) ∧
          ∀ c, .old c ∈ o'.fields → .old c ∈ o2.fields ∨ v = .old c := by
        intro x o' h
        obtain ⟨o1, d1, d2, d3, _, d5⟩ := d.back h
        obtain ⟨o2, k1, k2, k3, k4⟩ := hback x o1 d1
        refine ⟨o2, k1, by omega, fun h => ?_, fun c hc => k4 c (by rw [← d3]; exact hc)⟩
        rw [← k3, ← d5 h]; exact h
      refine mark_inv (by rw [d.phase, r3, hp]) ?_ ?_ ?_ ?_ ?_ ?_ ?_ ?_ (d.grayOk hg1)
      · rw [d.roots, r2]; exact fun x hx => hprot x (m.roots x hx)
      · rw [d.young, r1]; exact fun y o x h1 h2 h3 => hprot x (m.young y o x h1 h2 h3)
      · intro x o' c h1 h2 h3 h4
        obtain ⟨o2, k1, k2, k3, k4⟩ := hback2 x o' h1
        rcases k4 c h4 with h | h
        · exact hprot c (m.black x o2 c k1 (k3 h2) (by omega) h)
        · exact hvp c h
      · rw [d.young, r1]; exact m.weakTag
      · intro x o' c h1 h2 h3
        obtain ⟨o1, d1, d2, d3, _⟩ := d.back h1
        rw [Ne, d.none_iff]
        exact hexist (by rw [hp]; simp) x o1 c d1 (by omega) (by rw [← d3]; exact h3)
      · intro x o' c h1 h2 h3 h4 h5
        rw [d.weaks, r9] at h4
        obtain ⟨o2, k1, k2, k3, k4⟩ := hback2 x o' h1
        rcases k4 c h5 with h | h
        · exact hprot c (m.weak x o2 c k1 (by omega) (k3 h3) h4 h)
        · exact hvp c h
      · rw [d.weaks]
        intro x hx
        obtain ⟨o2, h1, h2, h3⟩ := hweaks x hx
        exact ⟨o2, d.nonwhite h1 (by rw [h3]; simp), h2, h3⟩
      · intro x hx
        rw [d.heapStart]
        exact hstart x (fun e => hx ((d.none_iff x).mpr e))
    cases hk : o.fields[k]? with
    | none => exact key s1 (Dark.refl s1) (fun c h => by rw [hk] at h; exact absurd h (by simp))
    | some w =>
      simp only [hp, if_true]
      refine key _ (darken_dark s1 w) ?_
      intro c hc
      rw [hk] at hc
      obtain rfl := Option.some.inj hc
      refine darken_nonwhite s1 ?_
      rw [Ne, hnone]
      exact m.exist a o c ho ht (List.mem_of_getElem? hk)
  · have hgoal : Inv s1 := by
      obtain ⟨g1, g2, g0, g3⟩ := i.noGray hp
      have tp : s1.phase ≠ .mark := by rw [r3]; exact hp
      have hlive : ∀ x, Live s1 x ↔ Live s x := by
        intro x
        rw [live_other tp, live_other hp, r8]
        constructor
        · rintro ⟨o', h1, h2⟩
          obtain ⟨o2, k1, _, k3, _⟩ := hback x o' h1
          exact ⟨o2, k1, by rw [← k3]; exact h2⟩
        · rintro ⟨o2, h1, h2⟩
          rw [hold]
          by_cases e : x = a
          · subst e
            rw [ho] at h1
            obtain rfl := Option.some.inj h1
            exact ⟨_, updF_same _ _ _, h2⟩
          · rw [updF_ne _ _ e]; exact ⟨o2, h1, h2⟩
      refine ⟨?_, ?_, ?_, ?_, ?_, ?_, hweaks, ?_, hstart, fun h => absurd h tp, ?_, ?_⟩
      · rw [r2]; exact fun x h => (hlive x).mpr (i.roots x h)
      · rw [r1]; exact fun y o x h1 h2 h3 => (hlive x).mpr (i.young y o x h1 h2 h3)
      · intro x o' c hlx h1 h2 h3
        obtain ⟨o2, k1, k2, _, k4⟩ := hback x o' h1
        rw [hlive] at hlx ⊢
        rcases k4 c h3 with h | h
        · exact i.fields x o2 c hlx k1 (by omega) h
        · exact hvl c h
      · rw [r1]; exact i.weakTag
      · rw [r3]; exact hexist
      · intro x o' c hlx h1 h2 _ h4 h5
        rw [r9] at h4
        obtain ⟨o2, k1, k2, _, k4⟩ := hback x o' h1
        rw [hlive] at hlx ⊢
        rcases k4 c h5 with h | h
        · exact i.weak x o2 c hlx k1 (by omega) (fun h => absurd h hp) h4 h
        · exact hvl c h
      · rw [r3, r9]; exact i.weaks0
      · intro _
        refine ⟨by rw [r4]; exact g1, by rw [r5]; exact g2, by rw [r6]; exact g0, ?_⟩
        intro x o' h
        obtain ⟨o2, k1, _, k3, _⟩ := hback x o' h
        rw [k3]; exact g3 x o2 k1
      · intro _ x o' h1 h2
        rw [r8] at h2
        obtain ⟨o2, k1, _, k3, _⟩ := hback x o' h1
        rw [k3]; exact i.low hp x o2 k1 h2
    cases hk : o.fields[k]? with
    | none => exact hgoal
    | some w => simp only [hp, if_false]; exact hgoal

/-! ### Reading a weak pointer -/

theorem inv_weakSub {s : St} {a k : Nat} {v : Val} {o : Obj} (i : Inv s) (hl : Live s a) (ho : s.old a = some o) (ht : o.tag = noScan)
    (hk : o.fields[k]? = some v) (hd : isDead s v = false) : Inv (weakSub s v) := by
  have hmem := List.mem_of_getElem? hk
  by_cases hp : s.phase = .mark
  · have m := i.toMark hp
    have d := darken_dark s v
    have m' := d.markInv m
    have i' : Inv (darken s v) := m'.toInv (by rw [d.phase, hp])
    unfold weakSub
    simp only [hp, if_true]
    refine inv_mutate i' rfl rfl rfl rfl rfl rfl rfl rfl ?_ i'.young i'.weakTag
    intro c hc
    rcases List.mem_cons.mp hc with e | hc
    · subst e
      rw [live_mark (by rw [d.phase, hp])]
      obtain ⟨oc, k1, k2⟩ := darken_nonwhite s (m.exist a o c ho (by omega) hmem)
      exact .base k1 k2
    · exact i'.roots c hc
  · unfold weakSub
    simp only [hp, if_false]
    refine inv_mutate i rfl rfl rfl rfl rfl rfl rfl rfl ?_ i.young i.weakTag
    intro c hc
    rcases List.mem_cons.mp hc with e | hc
    · subst e
      by_cases hs : s.phase = .sweep
      · exact i.weak a o c hl ho ht (fun h => absurd h hp) (by rw [i.weaks0 hs]; simp) hmem
      · have hwk : s.phase = .weak := by
          cases h : s.phase with
          | mark => exact absurd h hp
          | weak => rfl
          | sweep => exact absurd h hs
        have hx := i.exist hs a o c ho (by omega) hmem
        obtain ⟨oc, hoc⟩ := Option.ne_none_iff_exists'.mp hx
        rw [live_other hp]
        refine ⟨oc, hoc, Or.inl ?_⟩
        intro hcw
        have := (isWhite_some hoc).mpr hcw
        simp [isDead, hwk, this] at hd
    · exact i.roots c hc

theorem inv_step {s s' : St} {l : Option Nat} (i : Inv s) (st : Step s l s') : Inv s' := by
  cases st with
  | collect st =>
    cases st with
    | pop h1 h2 => exact inv_pop i h1 h2
    | walk h1 h2 h3 h4 h5 => exact inv_walk i h1 h2 h3 h4 h5
    | walkEnd h1 h2 h3 h4 => exact inv_walkEnd i h1 h3 h4
    | restart h1 h2 h3 h4 => exact inv_restart i h1
    | finish h1 h2 h3 h4 => exact inv_finish i h1 h2 h3 h4
    | weak h => exact inv_weak i h
    | sweep h1 h2 h3 => exact inv_sweep i h1 h2 h3
    | start h1 h2 h3 => exact inv_start i h1 h2 h3
  | minor h => exact inv_minor i h
  | allocOld h1 h2 h3 h4 => exact inv_allocOld i h1 h2 h3 h4
  | allocYoung h1 h2 h3 => exact inv_allocYoung i h2 h3
  | modify h1 h2 h3 h4 => exact inv_modify i (i.preach h1 _ rfl) h2 h3 h4
  | modifyYoung h1 h2 h3 => exact inv_modifyYoung i h2 h3
  | roots h => exact inv_roots i h
  | weakSub h1 h2 h3 h4 h5 => exact inv_weakSub i (i.preach h1 _ rfl) h2 h3 h4 h5

theorem inv_init (start size : Nat) (luck : List Overflow) : Inv (init start size luck) := by
  refine mark_inv rfl ?_ ?_ ?_ ?_ ?_ ?_ ?_ ?_ ⟨?_, ?_, ?_⟩ <;> simp [init]

theorem reach_inv {s : St} (h : Reach s) : Inv s := by
  induction h with
  | init start size luck => exact inv_init start size luck
  | step _ st ih => exact inv_step ih st

end Mosml.Major
