import Verif.Heap.MinorLemmas

namespace Mosml.Minor

/-- after a block has been allocated for the young block `y`, and `p` set to it -/
structure Begun (Y : Nat → Option Blk) (s : St) (f : Nat → Option Nat) (p : Slot) (y r : Nat) (nb : Blk) (s1 : St)
    (f1 : Nat → Option Nat) : Prop where
  inv : Inv Y s1 f1
  f1 : f1 = updF f y (some r)
  here : s1.old r = some nb
  was : s.old r = none
  roots : ∀ i, .root i ≠ p → s1.roots i = s.roots i
  frame : ∀ a b, s.old a = some b → ∃ b', s1.old a = some b' ∧ b'.tag = b.tag ∧ b'.words.length = b.words.length ∧
    ∀ k, .field a k ≠ p → b'.words[k]? = b.words[k]?
  slot : load s1 p = some (.old r)
  only : ∀ a, a ≠ r → s.old a = none → s1.old a = none

theorem begin {Y s f p y b r nb} (i : Inv Y s f) (hp : load s p ≠ none) (hy : Y y = some b) (hf : f y = none)
    (hr : s.old r = none) :
    Begun Y s f p y r nb
      { store { s with old := updF s.old r (some nb) } p (.old r) with
        young := updF s.young y (some ⟨b.tag, true, b.words.set 0 (.old r)⟩) }
      (updF f y (some r)) := by
  have hpr : ∀ k, .field r k ≠ p := by
    rintro k rfl
    simp [load, hr] at hp
  have hpl : load { s with old := updF s.old r (some nb) } p ≠ none := by
    cases p with
    | root j => simp [load]
    | field a k =>
      have : a ≠ r := by rintro rfl; exact hpr k rfl
      simp only [load, updF_ne _ _ this] at hp ⊢; exact hp
  refine ⟨⟨?_, ?_, ?_, ?_, ?_⟩, rfl, ?_, hr, ?_, ?_, ?_, ?_⟩
  · intro x
    show updF s.young y _ x = _
    by_cases e : x = y
    · subst e; simp [youngNow, hy]
    · rw [updF_ne _ _ e, i.young x]
      simp only [youngNow, updF_ne _ _ e]
  · intro x a hx
    by_cases e : x = y
    · subst e; rw [hy]; simp
    · rw [updF_ne _ _ e] at hx; exact i.dom x a hx
  · intro x x' a hx hx'
    by_cases e : x = y
    · by_cases e' : x' = y
      · rw [e, e']
      · rw [e, updF_same] at hx; rw [updF_ne _ _ e'] at hx'
        have : r = a := Option.some.inj hx
        exact absurd (this ▸ hr) (i.alive x' a hx')
    · rw [updF_ne _ _ e] at hx
      by_cases e' : x' = y
      · rw [e', updF_same] at hx'
        have : r = a := Option.some.inj hx'
        exact absurd (this ▸ hr) (i.alive x a hx)
      · rw [updF_ne _ _ e'] at hx'; exact i.inj x x' a hx hx'
  · intro x a hx
    show (store _ _ _).old a ≠ none
    rw [Ne, store_none]
    show updF s.old r _ a ≠ none
    by_cases e : a = r
    · subst e; simp
    · rw [updF_ne _ _ e]
      by_cases e' : x = y
      · rw [e', updF_same] at hx; exact absurd (Option.some.inj hx).symm e
      · rw [updF_ne _ _ e'] at hx; exact i.alive x a hx
  · obtain ⟨l, hl⟩ := i.fin
    refine ⟨r :: l, fun a ha => ?_⟩
    by_cases e : a = r
    · simp [e]
    · refine List.mem_cons_of_mem _ (hl a ?_)
      have ha' : updF s.old r (some nb) a ≠ none := fun h => ha ((store_none _ p _ a).mpr h)
      rwa [updF_ne _ _ e] at ha'
  · show (store _ _ _).old r = _
    rw [store_old_other _ _ _ _ hpr]
    exact updF_same _ _ _
  · intro j hj
    exact store_roots _ _ _ _ hj
  · intro a b' hb'
    have : a ≠ r := by rintro rfl; rw [hr] at hb'; exact absurd hb' (by simp)
    exact store_frame _ _ _ a b' (by show updF s.old r _ a = _; rw [updF_ne _ _ this]; exact hb')
  · have := load_store _ p (.old r) hpl
    cases p <;> exact this
  · intro a ha h
    show (store _ _ _).old a = none
    rw [store_none]
    show updF s.old r _ a = none
    rw [updF_ne _ _ ha]; exact h

/-- young blocks that have not moved, of those in `ys` -/
def left (ys : List Nat) (f : Nat → Option Nat) : Nat := (ys.filter (fun y => (f y).isNone)).length

theorem left_mono (ys : List Nat) {f f' : Nat → Option Nat} (h : ∀ y a, f y = some a → f' y = some a) : left ys f' ≤ left ys f := by
  unfold left
  induction ys with
  | nil => simp
  | cons y ys ih =>
    simp only [List.filter_cons]
    cases hf : f y with
    | none =>
      simp only [Option.isNone_none, if_true, List.length_cons]
      split
      · simp only [List.length_cons]; omega
      · omega
    | some a => simp only [h y a hf, Option.isNone_some]; exact ih

theorem left_lt (ys : List Nat) {f : Nat → Option Nat} {y r : Nat} (hy : y ∈ ys) (hf : f y = none) :
    left ys (updF f y (some r)) < left ys f := by
  have hext : ∀ x a, f x = some a → updF f y (some r) x = some a := by
    intro x a hx
    have : x ≠ y := by rintro rfl; rw [hf] at hx; exact absurd hx (by simp)
    rw [updF_ne _ _ this]; exact hx
  induction ys with
  | nil => simp at hy
  | cons x ys ih =>
    unfold left
    simp only [List.filter_cons]
    by_cases e : x = y
    · subst e
      rw [updF_same, hf]
      simp only [Option.isNone_some, Bool.false_eq_true, if_false, Option.isNone_none, if_true, List.length_cons]
      have := left_mono ys hext
      unfold left at this
      omega
    · have hy' : y ∈ ys := by
        rcases List.mem_cons.mp hy with h | h
        · exact absurd h.symm e
        · exact h
      have := ih hy'
      unfold left at this
      rw [updF_ne _ _ e]
      split
      · simp only [List.length_cons]; omega
      · omega

variable (pick : (Nat → Option Blk) → Nat)

/-- `pick` gives an unused address, whatever finitely many blocks there are -/
def Picks : Prop := ∀ h : Nat → Option Blk, (∃ l : List Nat, ∀ a, h a ≠ none → a ∈ l) → h (pick h) = none

theorem oldify_post {Y : Nat → Option Blk} (yo : YoungOk Y) (hpick : Picks pick) (ys : List Nat) (hys : ∀ y, Y y ≠ none → y ∈ ys) :
    ∀ fuel s f p v, Inv Y s f → load s p ≠ none → Valid Y v → left ys f < fuel →
      ∃ f', Post Y s f p v (oldify pick fuel s p v) f' := by
  intro fuel
  induction fuel with
  | zero => intro s f p v _ _ _ h; omega
  | succ fuel ih =>
    intro s f p v i hp hv hfuel
    cases v with
    | imm n => exact ⟨f, post_store i trivial rfl⟩
    | old a => exact ⟨f, post_store i trivial rfl⟩
    | ext a => exact ⟨f, post_store i trivial rfl⟩
    | young y =>
      have hY : Y y ≠ none := hv
      obtain ⟨b, hb⟩ := Option.ne_none_iff_exists'.mp hY
      have hyoung := i.young y
      simp only [youngNow, hb, Option.map_some] at hyoung
      have hne := yo.ne y b hb
      cases hfy : f y with
      | some a =>
        rw [hfy] at hyoung
        simp only [oldify, hyoung, if_true]
        refine ⟨f, post_store i (show f y ≠ none by rw [hfy]; simp) ?_⟩
        cases hw : b.words with
        | nil => exact absurd hw hne
        | cons w ws => simp [image, hfy]
      | none =>
        rw [hfy] at hyoung
        simp only [oldify, hyoung, Bool.false_eq_true, if_false]
        have hr := hpick s.old i.fin
        by_cases hns : noScan ≤ b.tag
        · rw [if_pos hns]
          have bg := begin (nb := ⟨b.tag, false, b.words⟩) i hp hb hfy hr
          have hst : (store { s with
              old := updF s.old (pick s.old) (some ⟨b.tag, false, b.words⟩)
              young := updF s.young y (some ⟨b.tag, true, b.words.set 0 (.old (pick s.old))⟩) } p (.old (pick s.old))) =
            { store { s with old := updF s.old (pick s.old) (some ⟨b.tag, false, b.words⟩) } p (.old (pick s.old)) with
              young := updF s.young y (some ⟨b.tag, true, b.words.set 0 (.old (pick s.old))⟩) } := by
            cases p <;> rfl
          rw [hst]
          refine ⟨updF f y (some (pick s.old)), bg.inv, ?_, bg.roots, bg.frame, ?_, ?_, ?_, ?_⟩
          · intro x a hx
            have : x ≠ y := by rintro rfl; rw [hfy] at hx; exact absurd hx (by simp)
            rw [updF_ne _ _ this]; exact hx
          · intro _
            rw [bg.slot]; simp [image]
          · show updF f y _ y ≠ none
            simp
          · intro x a h1 h2
            by_cases e : x = y
            · subst e
              rw [updF_same] at h2
              obtain rfl := Option.some.inj h2
              refine ⟨hr, b, _, hb, bg.here, rfl, ?_, fun h => by omega⟩
              simp [newWords, hns]
            · rw [updF_ne _ _ e, h1] at h2; exact absurd h2 (by simp)
          · intro a h1 h2
            by_cases e : a = pick s.old
            · exact ⟨y, hfy, by rw [updF_same, e]⟩
            · exact absurd (bg.only a e h1) h2
        · rw [if_neg hns]
          have bg := begin (nb := ⟨b.tag, false, List.replicate b.words.length (.imm 0)⟩) i hp hb hfy hr
          -- the loop over the fields
          generalize hs1 : ({ store { s with old := updF s.old (pick s.old) (some ⟨b.tag, false, List.replicate b.words.length (.imm 0)⟩) } p
              (.old (pick s.old)) with
              young := updF s.young y (some ⟨b.tag, true, b.words.set 0 (.old (pick s.old))⟩) } : St) = s1 at bg
          have hyeq : updF (store { s with old := updF s.old (pick s.old) (some ⟨b.tag, false, List.replicate b.words.length (.imm 0)⟩) } p
              (.old (pick s.old))).young y (some ⟨b.tag, true, b.words.set 0 (.old (pick s.old))⟩) =
              updF s.young y (some ⟨b.tag, true, b.words.set 0 (.old (pick s.old))⟩) := by rw [store_young]
          rw [hyeq, hs1]
          generalize hf1 : updF f y (some (pick s.old)) = f1 at bg
          generalize pick s.old = r at bg hr hf1
          have hext1 : ∀ x a, f x = some a → f1 x = some a := by
            intro x a hx
            have : x ≠ y := by rintro rfl; rw [hfy] at hx; exact absurd hx (by simp)
            rw [← hf1, updF_ne _ _ this]; exact hx
          have hleft : left ys f1 < fuel := by
            have := left_lt ys (r := r) (hys y hY) hfy
            rw [hf1] at this
            omega
          have loop : ∀ n, n ≤ b.words.length → ∃ g,
              let t := (List.range n).foldl (fun s i => oldify pick fuel s (.field r i)
                (if i = 0 then b.words.headD (.imm 0) else ((s.young y).bind (fun b => b.words[i]?)).getD (.imm 0))) s1
              Inv Y t g ∧ (∀ x a, f1 x = some a → g x = some a) ∧ (∀ j, t.roots j = s1.roots j) ∧
              (∀ a c, s1.old a = some c → ∃ c', t.old a = some c' ∧ c'.tag = c.tag ∧ c'.words.length = c.words.length ∧
                (a ≠ r → ∀ k : Nat, c'.words[k]? = c.words[k]?)) ∧
              (∃ c', t.old r = some c' ∧ ∀ k, k < n → ∃ w, b.words[k]? = some w ∧ c'.words[k]? = some (image g w) ∧ Moved g w) ∧
              (∀ x a, f1 x = none → g x = some a → s1.old a = none ∧
                ∃ c c', Y x = some c ∧ t.old a = some c' ∧ c'.tag = c.tag ∧ c'.words = newWords g c ∧
                  (c.tag < noScan → ∀ w ∈ c.words, Moved g w)) ∧
              (∀ a, s1.old a = none → t.old a ≠ none → ∃ x, f1 x = none ∧ g x = some a) := by
            intro n
            induction n with
            | zero =>
              intro _
              refine ⟨f1, bg.inv, fun _ _ h => h, fun _ => rfl, fun a c h => ⟨c, h, rfl, rfl, fun _ _ => rfl⟩, ⟨_, bg.here, fun k hk => by omega⟩, ?_, ?_⟩
              · intro x a h1 h2; rw [h1] at h2; exact absurd h2 (by simp)
              · intro a h1 h2; exact absurd h1 h2
            | succ n ihn =>
              intro hn
              obtain ⟨g, l1, l2, l3, l4, l5, l6, l7⟩ := ihn (by omega)
              rw [List.range_succ, List.foldl_append]
              generalize (List.range n).foldl (fun s i => oldify pick fuel s (.field r i)
                (if i = 0 then b.words.headD (.imm 0) else ((s.young y).bind (fun b => b.words[i]?)).getD (.imm 0))) s1 = t at l1 l3 l4 l5 l6 l7 ⊢
              simp only [List.foldl_cons, List.foldl_nil]
              have hgy : g y = some r := l2 y r (by rw [← hf1, updF_same])
              -- the value read
              have hval : (if n = 0 then b.words.headD (.imm 0) else ((t.young y).bind (fun b => b.words[n]?)).getD (.imm 0)) =
                  b.words[n]'(by omega) := by
                by_cases e : n = 0
                · subst e
                  rw [if_pos rfl, List.headD_eq_head?_getD, List.head?_eq_getElem?, List.getElem?_eq_getElem (by omega)]; rfl
                · rw [if_neg e, l1.young y]
                  have : n < b.words.length := by omega
                  have e0 : 0 ≠ n := fun h => e h.symm
                  simp only [youngNow, hb, hgy, Option.map_some, Option.bind_some]
                  rw [List.getElem?_set_ne e0, List.getElem?_eq_getElem this]; rfl
              rw [hval]
              have hload : load t (.field r n) ≠ none := by
                obtain ⟨c', e1, _, e3, _⟩ := l4 r _ bg.here
                simp only [load, e1, Option.bind_some]
                rw [List.getElem?_eq_getElem (by rw [e3]; simp; omega)]
                simp
              have hmem : b.words[n]'(by omega) ∈ b.words := List.getElem_mem _
              obtain ⟨g', q⟩ := ih t g (.field r n) (b.words[n]'(by omega)) l1 hload (yo.ok y b hb (by omega) _ hmem)
                (by have := left_mono ys l2; omega)
              generalize oldify pick fuel t (.field r n) (b.words[n]'(by omega)) = t' at q
              refine ⟨g', q.inv, fun x a h => q.ext x a (l2 x a h), ?_, ?_, ?_, ?_, ?_⟩
              · intro j; exact (q.roots j (by simp)).trans (l3 j)
              · intro a c hc
                obtain ⟨c', e1, e2, e3, e4⟩ := l4 a c hc
                obtain ⟨c2, d1, d2, d3, d4⟩ := q.frame a c' e1
                refine ⟨c2, d1, d2.trans e2, d3.trans e3, ?_⟩
                intro ha k
                rw [d4 k (by simp [ha]), e4 ha k]
              · obtain ⟨c', e1, e2⟩ := l5
                obtain ⟨c2, d1, d2, d3, d4⟩ := q.frame r c' e1
                refine ⟨c2, d1, ?_⟩
                intro k hk
                by_cases hkn : k = n
                · subst hkn
                  refine ⟨b.words[k]'(by omega), List.getElem?_eq_getElem _, ?_, q.moved⟩
                  have := q.slot hload
                  simpa only [load, d1, Option.bind_some] using this
                · obtain ⟨w, w1, w2, w3⟩ := e2 k (by omega)
                  refine ⟨w, w1, ?_, w3.ext q.ext⟩
                  rw [d4 k (by simp [hkn]), w2, image_ext q.ext w3]
              · intro x a h1 h2
                cases hgx : g x with
                | none =>
                  obtain ⟨u1, u2⟩ := q.fresh x a hgx h2
                  refine ⟨?_, u2⟩
                  by_contra hcon
                  obtain ⟨c, hc⟩ := Option.ne_none_iff_exists'.mp hcon
                  obtain ⟨c', e1, _⟩ := l4 a c hc
                  rw [u1] at e1; exact absurd e1 (by simp)
                | some a' =>
                  have e := q.ext x a' hgx
                  rw [h2] at e
                  obtain rfl := Option.some.inj e
                  obtain ⟨u1, c, c', v1, v2, v3, v4, v5⟩ := l6 x a h1 hgx
                  obtain ⟨c2, d1, d2, d3, d4⟩ := q.frame a c' v2
                  refine ⟨u1, c, c2, v1, d1, d2.trans v3, ?_, fun h w hw => (v5 h w hw).ext q.ext⟩
                  rw [newWords_ext q.ext v5, ← v4]
                  have har : a ≠ r := by
                    rintro rfl; rw [bg.here] at u1; exact absurd u1 (by simp)
                  exact List.ext_getElem? (fun k => d4 k (by simp [har]))
              · intro a h1 h2
                by_cases ht : t.old a = none
                · obtain ⟨x, x1, x2⟩ := q.only a ht h2
                  refine ⟨x, ?_, x2⟩
                  cases hfx : f1 x with
                  | none => rfl
                  | some a' => rw [l2 x a' hfx] at x1; exact absurd x1 (by simp)
                · obtain ⟨x, x1, x2⟩ := l7 a h1 ht
                  exact ⟨x, x1, q.ext x a x2⟩
          obtain ⟨g, l1, l2, l3, l4, l5, l6, l7⟩ := loop b.words.length (Nat.le_refl _)
          generalize (List.range b.words.length).foldl (fun s i => oldify pick fuel s (.field r i)
                (if i = 0 then b.words.headD (.imm 0) else ((s.young y).bind (fun b => b.words[i]?)).getD (.imm 0))) s1 = t at l1 l3 l4 l5 l6 l7 ⊢
          have hgy : g y = some r := l2 y r (by rw [← hf1, updF_same])
          refine ⟨g, l1, fun x a h => l2 x a (hext1 x a h), fun j hj => (l3 j).trans (bg.roots j hj), ?_, ?_, ?_, ?_, ?_⟩
          · intro a c hc
            obtain ⟨c', e1, e2, e3, e4⟩ := bg.frame a c hc
            obtain ⟨c2, d1, d2, d3, d4⟩ := l4 a c' e1
            refine ⟨c2, d1, d2.trans e2, d3.trans e3, ?_⟩
            intro k hk
            have : a ≠ r := by rintro rfl; rw [hr] at hc; exact absurd hc (by simp)
            rw [d4 this k, e4 k hk]
          · intro _
            have hsl := bg.slot
            have himg : image g (.young y) = .old r := by simp [image, hgy]
            rw [himg]
            cases p with
            | root j => simpa only [load, l3 j] using hsl
            | field a k =>
              have har : a ≠ r := by
                rintro rfl
                simp [load, hr] at hp
              simp only [load] at hsl ⊢
              cases hs : s1.old a with
              | none => rw [hs] at hsl; simp at hsl
              | some c =>
                obtain ⟨c2, d1, d2, d3, d4⟩ := l4 a c hs
                rw [hs] at hsl
                rw [d1]
                simpa only [Option.bind_some, d4 har k] using hsl
          · show g y ≠ none
            rw [hgy]; simp
          · intro x a h1 h2
            by_cases e : x = y
            · subst e
              rw [hgy] at h2
              obtain rfl := Option.some.inj h2
              obtain ⟨c', e1, e2⟩ := l5
              obtain ⟨c2, d1, d2, d3, d4⟩ := l4 r _ bg.here
              rw [e1] at d1
              obtain rfl := Option.some.inj d1
              refine ⟨hr, b, c', hb, e1, d2, ?_, ?_⟩
              · unfold newWords
                rw [if_neg hns]
                refine List.ext_getElem? (fun k => ?_)
                by_cases hk : k < b.words.length
                · obtain ⟨w, w1, w2, _⟩ := e2 k hk
                  rw [w2, List.getElem?_map, w1]; rfl
                · rw [List.getElem?_eq_none (by rw [d3]; simp; omega), List.getElem?_eq_none (by simp; omega)]
              · intro _ w hw
                obtain ⟨k, hk, e⟩ := List.getElem_of_mem hw
                obtain ⟨w', w1, _, w3⟩ := e2 k hk
                rw [List.getElem?_eq_getElem hk] at w1
                rw [← e, Option.some.inj w1]; exact w3
            · have hf1x : f1 x = none := by rw [← hf1, updF_ne _ _ e]; exact h1
              obtain ⟨u1, u2⟩ := l6 x a hf1x h2
              refine ⟨?_, u2⟩
              by_contra hcon
              obtain ⟨c, hc⟩ := Option.ne_none_iff_exists'.mp hcon
              obtain ⟨c', e1, _⟩ := bg.frame a c hc
              rw [u1] at e1; exact absurd e1 (by simp)
          · intro a h1 h2
            by_cases e : a = r
            · exact ⟨y, hfy, by rw [hgy, e]⟩
            · obtain ⟨x, x1, x2⟩ := l7 a (bg.only a e h1) h2
              refine ⟨x, ?_, x2⟩
              cases hfx : f x with
              | none => rfl
              | some a' => rw [hext1 x a' hfx] at x1; exact absurd x1 (by simp)

end Mosml.Minor
