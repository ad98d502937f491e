import Verif.Heap.MajorSteps3

/-! C26 and C27: the incremental major collector and weak pointers, over all interleavings. -/
namespace Mosml.Major

/-! ### C26: no reachable block is freed -/

/-- C26: whatever the interleaving, a block that the program can reach is there. -/
theorem C26_exists {s : St} (h : Reach s) (a : Nat) (hr : PReach s (.old a)) : s.old a ≠ none :=
  (reach_inv h).live_exists ((reach_inv h).preach hr a rfl)

theorem modify_none (s : St) (b k : Nat) (v : Val) (a : Nat) : (modify s b k v).old a = none → s.old a = none := by
  unfold modify
  cases ho : s.old b with
  | none => exact id
  | some o =>
    dsimp only
    have h1 : ∀ x, updF s.old b (some { o with fields := o.fields.set k v }) x = none → s.old x = none := by
      intro x hx
      by_cases e : x = b
      · subst e; rw [updF_same] at hx; exact absurd hx (by simp)
      · rwa [updF_ne _ _ e] at hx
    cases o.fields[k]? with
    | none => exact h1 a
    | some w =>
      dsimp only
      by_cases hp : s.phase = .mark
      · rw [if_pos hp]
        intro h
        exact h1 a (((darken_dark _ w).none_iff a).mp h)
      · rw [if_neg hp]; exact h1 a

/-- the collector changes colours, frees what its label says, and clears fields of weak arrays -/
theorem collector_old {s s' : St} {l : Option Nat} (st : Collector s l s') (a : Nat) (o : Obj) (ho : s.old a = some o) :
    (l = some a ∧ o.color = .white ∧ s.phase = .sweep ∧ a = s.sweepHp) ∨ ∃ o', s'.old a = some o' ∧ o'.tag = o.tag ∧
      (o'.fields = o.fields ∨ s.phase = .weak ∧ a ∈ s.weaks ∧ o'.fields = clear s o.fields) := by
  cases st with
  | @pop b rest h1 h2 =>
    right
    unfold markPop
    cases hb : s.old b with
    | none => exact ⟨o, ho, rfl, Or.inl rfl⟩
    | some ob =>
      dsimp only
      have h0 : ∃ o', (setColor { s with gray := rest } b .black).old a = some o' ∧ o'.tag = o.tag ∧ o'.fields = o.fields := by
        show ∃ o', updF s.old b _ a = some o' ∧ _
        by_cases e : a = b
        · subst e
          rw [updF_same, ho]
          exact ⟨_, rfl, rfl, rfl⟩
        · rw [updF_ne _ _ e]; exact ⟨o, ho, rfl, rfl⟩
      obtain ⟨o1, k1, k2, k3⟩ := h0
      by_cases ht : ob.tag < noScan
      · rw [if_pos ht]
        obtain ⟨o2, d1, d2, d3, _⟩ := (foldl_dark ob.fields.reverse _).forth k1
        exact ⟨o2, d1, d2.trans k2, Or.inl (d3.trans k3)⟩
      · rw [if_neg ht]
        by_cases hw : ob.tag = noScan
        · rw [if_pos hw]; exact ⟨o1, k1, k2, Or.inl k3⟩
        · rw [if_neg hw]; exact ⟨o1, k1, k2, Or.inl k3⟩
  | @walk m e h1 h2 h3 h4 h5 =>
    right
    have : (markWalk s m e).old = s.old := by
      unfold markWalk
      cases s.old m with
      | none => rfl
      | some ob => dsimp only; split <;> rfl
    rw [this]; exact ⟨o, ho, rfl, Or.inl rfl⟩
  | walkEnd h1 h2 h3 h4 => right; exact ⟨o, ho, rfl, Or.inl rfl⟩
  | restart h1 h2 h3 h4 => right; exact ⟨o, ho, rfl, Or.inl rfl⟩
  | finish h1 h2 h3 h4 => right; exact ⟨o, ho, rfl, Or.inl rfl⟩
  | weak h =>
    right
    have := (weakPhase_cleared s).old a
    have hold : (weakPhase s).old a = (s.old a).map (fun o => if a ∈ s.weaks then { o with fields := clear s o.fields } else o) := this
    rw [hold, ho]
    refine ⟨_, rfl, ?_⟩
    by_cases hw : a ∈ s.weaks
    · simp only [hw, if_true]; exact ⟨trivial, Or.inr ⟨h, trivial, trivial⟩⟩
    · simp only [hw, if_false]; exact ⟨trivial, Or.inl trivial⟩
  | @sweep e h1 h2 h3 =>
    rw [sweepAt_old]
    by_cases ha : a = s.sweepHp
    · rw [if_pos ha, ← ha]
      by_cases hw : isWhite s (.old a) = true
      · left
        exact ⟨by rw [if_pos hw], (isWhite_some ho).mp hw, h1, rfl⟩
      · right
        rw [if_neg hw, ho]
        exact ⟨_, rfl, rfl, Or.inl rfl⟩
    · right
      rw [if_neg ha]
      exact ⟨o, ho, rfl, Or.inl rfl⟩
  | start h1 h2 h3 =>
    right
    obtain ⟨o2, d1, d2, d3, _⟩ := (foldl_dark s.roots s).forth ho
    exact ⟨o2, d1, d2, Or.inl d3⟩

/-- C26: only what the label says disappears, and only the sweep removes blocks -/
theorem C26_label {s s' : St} {l : Option Nat} (st : Step s l s') (a : Nat) (h1 : s.old a ≠ none) (h2 : s'.old a = none) :
    l = some a ∧ s.phase = .sweep := by
  obtain ⟨o, ho⟩ := Option.ne_none_iff_exists'.mp h1
  cases st with
  | collect st =>
    rcases collector_old st a o ho with ⟨k1, _, k2, _⟩ | ⟨o', k, _⟩
    · exact ⟨k1, k2⟩
    · rw [h2] at k; exact absurd k (by simp)
  | minor m =>
    obtain ⟨fs, k, _⟩ := m.old a o ho
    rw [h2] at k; exact absurd k (by simp)
  | @allocOld b tag fs start k1 k2 k3 k4 =>
    have h2' : updF s.old b (some ⟨allocColor s b, tag, fs⟩) a = none := h2
    by_cases e : a = b
    · subst e; exact absurd k1 h1
    · rw [updF_ne _ _ e] at h2'; exact absurd h2' h1
  | allocYoung => exact absurd h2 h1
  | modify => exact absurd (modify_none _ _ _ _ _ h2) h1
  | modifyYoung => exact absurd h2 h1
  | roots => exact absurd h2 h1
  | @weakSub b o v k k1 k2 k3 k4 k5 =>
    refine absurd ?_ h1
    unfold weakSub at h2
    dsimp only at h2
    by_cases hp : s.phase = .mark
    · rw [if_pos hp] at h2; exact ((darken_dark s v).none_iff a).mp h2
    · rw [if_neg hp] at h2; exact h2

/-- C26: a block that is freed cannot be reached by the program. -/
theorem C26_free {s s' : St} {a : Nat} (h : Reach s) (st : Step s (some a) s') : ¬ PReach s (.old a) := by
  intro hr
  have i := reach_inv h
  have hl := i.preach hr a rfl
  obtain ⟨o, ho⟩ := Option.ne_none_iff_exists'.mp (i.live_exists hl)
  cases st with
  | collect st =>
    generalize hlab : some a = l at st
    rcases collector_old st a o ho with ⟨_, k1, k2, k3⟩ | _
    · rw [live_other (by rw [k2]; simp)] at hl
      obtain ⟨o2, j1, j2⟩ := hl
      rw [ho] at j1
      obtain rfl := Option.some.inj j1
      rcases j2 with j2 | j2
      · exact j2 k1
      · omega
    · cases st with
      | sweep h1 h2 h3 =>
        by_cases hw : isWhite s (.old s.sweepHp) = true
        · rw [if_pos hw] at hlab
          obtain rfl := Option.some.inj hlab
          rw [live_other (by rw [h1]; simp)] at hl
          obtain ⟨o2, j1, j2⟩ := hl
          rcases j2 with j2 | j2
          · exact j2 ((isWhite_some j1).mp hw)
          · omega
        · rw [if_neg hw] at hlab; exact absurd hlab (by simp)
      | _ => exact absurd hlab (by simp)

/-- C26: a step of the collector changes no tag, no size and no field, and no root, but for the fields of weak arrays. -/
theorem C26_frame {s s' : St} {l : Option Nat} (st : Collector s l s') :
    s'.roots = s.roots ∧ s'.young = s.young ∧ (∀ a, s.old a = none → s'.old a = none) ∧
    ∀ a o, s.old a = some o → l ≠ some a → ∃ o', s'.old a = some o' ∧ o'.tag = o.tag ∧ o'.fields.length = o.fields.length ∧
      (o.tag ≠ noScan → (∀ b ∈ s.weaks, ∃ ob, s.old b = some ob ∧ ob.tag = noScan) → o'.fields = o.fields) := by
  have hrest : s'.roots = s.roots ∧ s'.young = s.young ∧ (∀ a, s.old a = none → s'.old a = none) := by
    cases st with
    | @pop b rest h1 h2 =>
      unfold markPop
      cases hb : s.old b with
      | none => exact ⟨rfl, rfl, fun _ h => h⟩
      | some ob =>
        dsimp only
        have h0 : ∀ a, s.old a = none → (setColor { s with gray := rest } b .black).old a = none := by
          intro a ha
          show updF s.old b _ a = none
          by_cases e : a = b
          · subst e; rw [updF_same, ha]; rfl
          · rw [updF_ne _ _ e]; exact ha
        by_cases ht : ob.tag < noScan
        · rw [if_pos ht]
          have d := foldl_dark ob.fields.reverse (setColor { s with gray := rest } b .black)
          exact ⟨d.roots, d.young, fun a ha => (d.none_iff a).mpr (h0 a ha)⟩
        · rw [if_neg ht]
          by_cases hw : ob.tag = noScan
          · rw [if_pos hw]; exact ⟨rfl, rfl, h0⟩
          · rw [if_neg hw]; exact ⟨rfl, rfl, h0⟩
    | @walk m e h1 h2 h3 h4 h5 =>
      unfold markWalk
      cases s.old m with
      | none => exact ⟨rfl, rfl, fun _ h => h⟩
      | some ob => dsimp only; split <;> exact ⟨rfl, rfl, fun _ h => h⟩
    | walkEnd => exact ⟨rfl, rfl, fun _ h => h⟩
    | restart => exact ⟨rfl, rfl, fun _ h => h⟩
    | finish => exact ⟨rfl, rfl, fun _ h => h⟩
    | weak h =>
      have c := weakPhase_cleared s
      exact ⟨c.roots, c.young, fun a ha => by
        have : (weakPhase s).old a = _ := c.old a
        rw [this, ha]; rfl⟩
    | @sweep e h1 h2 h3 =>
      obtain ⟨r1, r2, _⟩ := sweepAt_rest s e
      refine ⟨r2, r1, fun a ha => ?_⟩
      rw [sweepAt_old, ha]
      split
      · split <;> rfl
      · rfl
    | start h1 h2 h3 =>
      have d := foldl_dark s.roots s
      exact ⟨d.roots, d.young, fun a ha => (d.none_iff a).mpr ha⟩
  refine ⟨hrest.1, hrest.2.1, hrest.2.2, ?_⟩
  intro a o ho hl
  rcases collector_old st a o ho with ⟨k, _⟩ | ⟨o', k1, k2, k3⟩
  · exact absurd k hl
  · refine ⟨o', k1, k2, ?_, ?_⟩
    · rcases k3 with k3 | ⟨_, _, k3⟩
      · rw [k3]
      · rw [k3]; simp [clear]
    · intro ht hw
      rcases k3 with k3 | ⟨_, k4, k3⟩
      · exact k3
      · obtain ⟨ob, b1, b2⟩ := hw a k4
        rw [ho] at b1
        obtain rfl := Option.some.inj b1
        exact absurd b2 ht

/-- in states that occur, `weak_arrays` has weak arrays only, so `C26_frame` applies to all other blocks -/
theorem C26_weaks {s : St} (h : Reach s) : ∀ b ∈ s.weaks, ∃ ob, s.old b = some ob ∧ ob.tag = noScan := by
  intro b hb
  obtain ⟨o, h1, h2, _⟩ := (reach_inv h).weaks b hb
  exact ⟨o, h1, h2⟩

/-! ### C26: unreachable blocks are freed -/

/-- what the program can get hold of, through weak pointers too -/
inductive WReach (s : St) : Val → Prop
  | root {v} : v ∈ s.roots → WReach s v
  | old {a o v} : WReach s (.old a) → s.old a = some o → o.tag ≤ noScan → v ∈ o.fields → WReach s v
  | young {y o v} : WReach s (.young y) → s.young y = some o → o.tag < noScan → v ∈ o.fields → WReach s v

inductive Run : St → List (Option Nat) → St → Prop
  | nil (s) : Run s [] s
  | cons {s l t ls u} : Step s l t → Run t ls u → Run s (l :: ls) u

/-- the sweep is over -/
def CycleEnd (s : St) : Prop := s.phase = .sweep ∧ (∀ x, s.sweepHp ≤ x → s.old x = none) ∧ (∀ y, s.young y = none)

/-- a set of garbage: white, and nothing outside it points into it -/
structure Garbage (s : St) (G : Nat → Prop) : Prop where
  white : ∀ x, G x → ∃ o, s.old x = some o ∧ o.color = .white ∧ (s.phase ≠ .mark → s.sweepHp ≤ x)
  roots : ∀ x, .old x ∈ s.roots → ¬ G x
  young : ∀ y o x, s.young y = some o → o.tag < noScan → .old x ∈ o.fields → ¬ G x
  fields : ∀ b o x, s.old b = some o → ¬ G b → o.tag ≤ noScan → .old x ∈ o.fields → ¬ G x

theorem Garbage.preach {s : St} {G : Nat → Prop} (g : Garbage s G) {v : Val} (h : PReach s v) : ∀ x, v = .old x → ¬ G x := by
  induction h with
  | root h => rintro x rfl; exact g.roots x h
  | old h1 h2 h3 h4 ih => rintro x rfl; exact g.fields _ _ _ h2 (ih _ rfl) (by omega) h4
  | young h1 h2 h3 h4 ih => rintro x rfl; exact g.young _ _ _ h2 h3 h4

theorem Garbage.inHand {s : St} {G : Nat → Prop} (g : Garbage s G) {x : Nat} (h : InHand s (.old x)) : ¬ G x := by
  rcases h with h | ⟨h, _⟩
  · exact g.preach h x rfl
  · exact absurd rfl (h x)

theorem darken_other (s : St) (v : Val) (x : Nat) (h : v ≠ .old x) : (darken s v).old x = s.old x := by
  cases v with
  | old a =>
    have hx : x ≠ a := by rintro rfl; exact h rfl
    cases ho : s.old a with
    | none => simp only [darken, ho]
    | some o =>
      by_cases hc : o.color = .white
      · simp only [darken, ho, hc, if_true]
        split
        · rw [show (reallocGray _).old = _ from reallocGray_old _]; exact updF_ne _ _ hx
        · exact updF_ne _ _ hx
      · simp only [darken, ho, hc, if_false]
  | _ => rfl

theorem foldl_other (vs : List Val) (x : Nat) : ∀ s : St, .old x ∉ vs → (vs.foldl darken s).old x = s.old x := by
  induction vs with
  | nil => intro s _; rfl
  | cons v vs ih =>
    intro s h
    simp only [List.mem_cons, not_or] at h
    simp only [List.foldl_cons]
    rw [ih _ h.2, darken_other s v x (fun e => h.1 e.symm)]

theorem Garbage.dark {s t : St} {G : Nat → Prop} (g : Garbage s G) (d : Dark s t) (h : ∀ x, G x → t.old x = s.old x) : Garbage t G where
  white := by
    intro x hx
    rw [h x hx, d.phase, d.sweepHp]
    exact g.white x hx
  roots := by rw [d.roots]; exact g.roots
  young := by rw [d.young]; exact g.young
  fields := by
    intro b o x h1 h2 h3 h4
    obtain ⟨o2, k1, k2, k3, _⟩ := d.back h1
    exact g.fields b o2 x k1 h2 (by omega) (by rw [← k3]; exact h4)

/-- only marking state, roots and young blocks change -/
theorem Garbage.congr {s t : St} {G : Nat → Prop} (g : Garbage s G) (h1 : t.old = s.old) (h2 : t.phase ≠ .mark → s.phase ≠ .mark ∧ t.sweepHp = s.sweepHp)
    (h3 : ∀ x, .old x ∈ t.roots → ¬ G x) (h4 : ∀ y o x, t.young y = some o → o.tag < noScan → .old x ∈ o.fields → ¬ G x) : Garbage t G where
  white := by
    intro x hx
    obtain ⟨o, k1, k2, k3⟩ := g.white x hx
    rw [h1]
    exact ⟨o, k1, k2, fun h => by rw [(h2 h).2]; exact k3 (h2 h).1⟩
  roots := h3
  young := h4
  fields := by rw [h1]; exact g.fields

theorem garbage_step {s s' : St} {l : Option Nat} {G : Nat → Prop} (i : Inv s) (g : Garbage s G) (st : Step s l s') (hne : ¬ (CycleEnd s ∧ ∃ x, G x)) :
    Garbage s' (fun x => G x ∧ l ≠ some x) := by
  -- steps without a label
  have plain : Garbage s' G → l = none → Garbage s' (fun x => G x ∧ l ≠ some x) := by
    rintro g' rfl
    have : (fun x => G x ∧ (none : Option Nat) ≠ some x) = G := by funext x; simp
    rw [this]; exact g'
  cases st with
  | collect st =>
    cases st with
    | @pop a rest h1 h2 =>
      refine plain ?_ rfl
      obtain ⟨o, ho, hoc⟩ := (i.grayOk h1).gray a (by rw [h2]; exact List.mem_cons_self)
      have haG : ¬ G a := by
        intro h
        obtain ⟨o', k1, k2, _⟩ := g.white a h
        rw [ho] at k1
        obtain rfl := Option.some.inj k1
        rw [hoc] at k2; exact absurd k2 (by simp)
      have hold : (setColor { s with gray := rest } a .black).old = updF s.old a (some { o with color := .black }) := by
        show updF s.old a ((s.old a).map _) = _
        rw [ho]; rfl
      have g1 : Garbage (setColor { s with gray := rest } a .black) G := by
        refine ⟨?_, g.roots, g.young, ?_⟩
        · intro x hx
          have e : x ≠ a := by rintro rfl; exact haG hx
          rw [hold, updF_ne _ _ e]; exact g.white x hx
        · rw [hold]
          intro b o' x k1 k2 k3 k4
          by_cases e : b = a
          · subst e
            rw [updF_same] at k1
            obtain rfl := Option.some.inj k1
            exact g.fields b o x ho k2 k3 k4
          · rw [updF_ne _ _ e] at k1; exact g.fields b o' x k1 k2 k3 k4
      unfold markPop
      simp only [ho]
      by_cases ht : o.tag < noScan
      · rw [if_pos ht]
        refine g1.dark (foldl_dark _ _) ?_
        intro x hx
        refine foldl_other _ x _ ?_
        intro hm
        exact g.fields a o x ho haG (by omega) (List.mem_reverse.mp hm) hx
      · rw [if_neg ht]
        by_cases hw : o.tag = noScan
        · rw [if_pos hw]; exact g1.congr rfl (fun h => ⟨h, rfl⟩) g1.roots g1.young
        · rw [if_neg hw]; exact g1
    | @walk m e h1 h2 h3 h4 h5 =>
      refine plain ?_ rfl
      unfold markWalk
      cases s.old m with
      | none => exact g.congr rfl (fun h => ⟨h, rfl⟩) g.roots g.young
      | some ob => dsimp only; split <;> exact g.congr rfl (fun h => ⟨h, rfl⟩) g.roots g.young
    | walkEnd => exact plain (g.congr rfl (fun h => ⟨h, rfl⟩) g.roots g.young) rfl
    | restart => exact plain (g.congr rfl (fun h => ⟨h, rfl⟩) g.roots g.young) rfl
    | finish h1 h2 h3 h4 =>
      refine plain ?_ rfl
      refine ⟨?_, g.roots, g.young, g.fields⟩
      intro x hx
      obtain ⟨o, k1, k2, _⟩ := g.white x hx
      exact ⟨o, k1, k2, fun _ => i.start x (by rw [k1]; simp)⟩
    | weak h =>
      refine plain ?_ rfl
      have c := weakPhase_cleared s
      have hold : ∀ a, (weakPhase s).old a = (s.old a).map (fun o => if a ∈ s.weaks then { o with fields := clear s o.fields } else o) := c.old
      refine ⟨?_, ?_, ?_, ?_⟩
      · intro x hx
        obtain ⟨o, k1, k2, k3⟩ := g.white x hx
        rw [hold, k1]
        have hs : (weakPhase s).sweepHp = s.sweepHp := c.sweepHp
        refine ⟨_, rfl, ?_, fun _ => by rw [hs]; exact k3 (by rw [h]; simp)⟩
        by_cases hw : x ∈ s.weaks
        · simp only [hw, if_true]; exact k2
        · simp only [hw, if_false]; exact k2
      · have : (weakPhase s).roots = s.roots := c.roots
        rw [this]; exact g.roots
      · have : (weakPhase s).young = s.young := c.young
        rw [this]; exact g.young
      · intro b o' x k1 k2 k3 k4
        rw [hold] at k1
        obtain ⟨o, j1, j2⟩ := Option.map_eq_some_iff.mp k1
        by_cases hw : b ∈ s.weaks
        · simp only [hw, if_true] at j2
          subst j2
          exact g.fields b o x j1 k2 k3 (mem_clear k4).1
        · simp only [hw, if_false] at j2
          subst j2
          exact g.fields b o x j1 k2 k3 k4
    | @sweep e h1 h2 h3 =>
      have hnm : s.phase ≠ .mark := by rw [h1]; simp
      obtain ⟨r1, r2, r3, _, _, _, r7, _⟩ := sweepAt_rest s e
      have hold := sweepAt_old s e
      generalize sweepAt s e = t at *
      -- what is still garbage lies further on
      have hG : ∀ x, G x → (if isWhite s (.old s.sweepHp) then some s.sweepHp else none) ≠ some x → x ≠ s.sweepHp ∧ e ≤ x := by
        intro x hx hl
        obtain ⟨o, k1, k2, k3⟩ := g.white x hx
        have hx2 : x ≠ s.sweepHp := by
          rintro rfl
          rw [if_pos ((isWhite_some k1).mpr k2)] at hl
          exact hl rfl
        refine ⟨hx2, ?_⟩
        have := k3 hnm
        by_contra hlt
        rw [h3 x (by omega) (by omega)] at k1
        exact absurd k1 (by simp)
      refine ⟨?_, ?_, ?_, ?_⟩
      · rintro x ⟨hx, hl⟩
        obtain ⟨e1, e2⟩ := hG x hx hl
        obtain ⟨o, k1, k2, _⟩ := g.white x hx
        rw [hold, if_neg e1, r7]
        exact ⟨o, k1, k2, fun _ => e2⟩
      · rw [r2]; exact fun x hx h => g.roots x hx h.1
      · rw [r1]; exact fun y o x k1 k2 k3 h => g.young y o x k1 k2 k3 h.1
      · intro b o' x k1 k2 k3 k4 h
        rw [hold] at k1
        by_cases hb : b = s.sweepHp
        · rw [if_pos hb] at k1
          by_cases hw : isWhite s (.old b) = true
          · rw [if_pos hw] at k1; exact absurd k1 (by simp)
          · rw [if_neg hw] at k1
            obtain ⟨o, j1, j2⟩ := Option.map_eq_some_iff.mp k1
            subst j2
            have hbG : ¬ G b := by
              intro hb2
              obtain ⟨o2, q1, q2, _⟩ := g.white b hb2
              exact hw ((isWhite_some q1).mpr q2)
            exact g.fields b o x j1 hbG k3 k4 h.1
        · rw [if_neg hb] at k1
          have hbG : ¬ G b := by
            intro hb2
            refine k2 ⟨hb2, ?_⟩
            intro hl
            split at hl
            · exact hb (Option.some.inj hl).symm
            · exact absurd hl (by simp)
          exact g.fields b o' x k1 hbG k3 k4 h.1
    | start h1 h2 h3 =>
      refine plain ?_ rfl
      have hno : ∀ x, ¬ G x := fun x hx => hne ⟨⟨h1, h2, h3⟩, x, hx⟩
      exact ⟨fun x hx => absurd hx (hno x), fun x _ => hno x, fun _ _ x _ _ _ => hno x, fun _ _ x _ _ _ _ => hno x⟩
  | @minor f s' m =>
    refine plain ?_ rfl
    obtain ⟨p1, _, _, _, _, _, p5, _⟩ := m.same
    have hf : ∀ y a, f y = some a → ¬ G a := by
      intro y a h hG
      obtain ⟨o, k1, _⟩ := g.white a hG
      rw [(m.new y a h).1] at k1
      exact absurd k1 (by simp)
    refine ⟨?_, ?_, ?_, ?_⟩
    · intro x hx
      obtain ⟨o, k1, k2, k3⟩ := g.white x hx
      obtain ⟨fs, j1, _⟩ := m.old x o k1
      rw [j1, p1, p5]
      exact ⟨_, rfl, k2, k3⟩
    · intro x hx
      rw [m.roots] at hx
      rcases mem_image hx with h | ⟨y, _, h⟩
      · exact g.roots x h
      · exact hf y x h
    · intro y o x h; rw [m.young y] at h; exact absurd h (by simp)
    · intro b o' x k1 k2 k3 k4
      by_cases hb : s.old b = none
      · rcases m.only b (by rw [k1]; simp) with h | ⟨y, hy⟩
        · exact absurd hb h
        · obtain ⟨_, c, fs, q1, q2, q3, q4⟩ := m.new y b hy
          rw [k1] at q2
          obtain rfl := Option.some.inj q2
          have ht : c.tag < noScan := by
            have h1 := i.weakTag y c q1
            have h2 : c.tag ≤ noScan := k3
            omega
          have k4' : .old x ∈ fs := k4
          rw [(q4 ht).1] at k4'
          rcases mem_image k4' with h | ⟨y', _, h⟩
          · exact g.young y c x q1 ht h
          · exact hf y' x h
      · obtain ⟨o, ho⟩ := Option.ne_none_iff_exists'.mp hb
        obtain ⟨fs, j1, _, j3⟩ := m.old b o ho
        rw [k1] at j1
        obtain rfl := Option.some.inj j1
        have k4' : .old x ∈ fs := k4
        rw [(j3 k3).1] at k4'
        rcases mem_image k4' with h | ⟨y, _, h⟩
        · exact g.fields b o x ho k2 k3 h
        · exact hf y x h
  | @allocOld a tag fs start h1 h2 h3 h4 =>
    refine plain ?_ rfl
    have haG : ¬ G a := by
      intro h
      obtain ⟨o, k1, _⟩ := g.white a h
      rw [h1] at k1; exact absurd k1 (by simp)
    refine ⟨?_, ?_, g.young, ?_⟩
    · intro x hx
      have e : x ≠ a := by rintro rfl; exact haG hx
      show ∃ o, updF s.old a _ x = some o ∧ _
      rw [updF_ne _ _ e]; exact g.white x hx
    · intro x hx
      rcases List.mem_cons.mp hx with e | hx
      · have : x = a := by simpa using e
        rw [this]; exact haG
      · exact g.roots x hx
    · intro b o' x k1 k2 k3 k4
      have k1' : updF s.old a (some ⟨allocColor s a, tag, fs⟩) b = some o' := k1
      by_cases e : b = a
      · subst e
        rw [updF_same] at k1'
        obtain rfl := Option.some.inj k1'
        exact g.inHand (h4 _ k4)
      · rw [updF_ne _ _ e] at k1'; exact g.fields b o' x k1' k2 k3 k4
  | @allocYoung y tag fs h1 h2 h3 =>
    refine plain (g.congr rfl (fun h => ⟨h, rfl⟩) ?_ ?_) rfl
    · intro x hx
      rcases List.mem_cons.mp hx with e | hx
      · exact absurd e (by simp)
      · exact g.roots x hx
    · intro z o x k1 k2 k3
      have k1' : updF s.young y (some ⟨tag, fs⟩) z = some o := k1
      by_cases e : z = y
      · subst e
        rw [updF_same] at k1'
        obtain rfl := Option.some.inj k1'
        exact g.inHand (h3 _ k3)
      · rw [updF_ne _ _ e] at k1'; exact g.young z o x k1' k2 k3
  | @modify a k v o h1 h2 h3 h4 =>
    refine plain ?_ rfl
    have haG := g.preach h1 a rfl
    unfold modify
    simp only [h2]
    have g1 : Garbage { s with old := updF s.old a (some { o with fields := o.fields.set k v }) } G := by
      refine ⟨?_, g.roots, g.young, ?_⟩
      · intro x hx
        have e : x ≠ a := by rintro rfl; exact haG hx
        show ∃ o, updF s.old a _ x = some o ∧ _
        rw [updF_ne _ _ e]; exact g.white x hx
      · intro b o' x k1 k2 k3 k4
        have k1' : updF s.old a (some { o with fields := o.fields.set k v }) b = some o' := k1
        by_cases e : b = a
        · subst e
          rw [updF_same] at k1'
          obtain rfl := Option.some.inj k1'
          rcases List.mem_or_eq_of_mem_set k4 with h | h
          · exact g.fields b o x h2 haG h3 h
          · exact g.inHand (h ▸ h4)
        · rw [updF_ne _ _ e] at k1'; exact g.fields b o' x k1' k2 k3 k4
    cases hk : o.fields[k]? with
    | none => exact g1
    | some w =>
      dsimp only
      by_cases hp : s.phase = .mark
      · rw [if_pos hp]
        refine g1.dark (darken_dark _ w) ?_
        intro x hx
        refine darken_other _ w x ?_
        rintro rfl
        exact g.fields a o x h2 haG h3 (List.mem_of_getElem? hk) hx
      · rw [if_neg hp]; exact g1
  | @modifyYoung y k v o h1 h2 h3 =>
    refine plain (g.congr rfl (fun h => ⟨h, rfl⟩) g.roots ?_) rfl
    intro z o' x k1 k2 k3
    have k1' : updF s.young y (some { o with fields := o.fields.set k v }) z = some o' := k1
    by_cases e : z = y
    · subst e
      rw [updF_same] at k1'
      obtain rfl := Option.some.inj k1'
      rcases List.mem_or_eq_of_mem_set k3 with h | h
      · exact g.young z o x h2 k2 h
      · exact g.inHand (h ▸ h3)
    · rw [updF_ne _ _ e] at k1'; exact g.young z o' x k1' k2 k3
  | roots h => exact plain (g.congr rfl (fun h => ⟨h, rfl⟩) (fun x hx => g.inHand (h _ hx)) g.young) rfl
  | @weakSub a o v k h1 h2 h3 h4 h5 =>
    refine plain ?_ rfl
    have haG := g.preach h1 a rfl
    have hv : ∀ x, v = .old x → ¬ G x := by
      rintro x rfl
      exact g.fields a o x h2 haG (by omega) (List.mem_of_getElem? h4)
    unfold weakSub
    dsimp only
    have g1 : Garbage (if s.phase = .mark then darken s v else s) G := by
      split
      · exact g.dark (darken_dark s v) (fun x hx => darken_other s v x (fun e => hv x e hx))
      · exact g
    refine g1.congr rfl (fun h => ⟨h, rfl⟩) ?_ g1.young
    intro x hx
    rcases List.mem_cons.mp hx with e | hx
    · exact hv x e.symm
    · exact g1.roots x hx

theorem garbage_run {s u : St} {ls : List (Option Nat)} (r : Run s ls u) : ∀ (G : Nat → Prop), Inv s → Garbage s G → CycleEnd u →
    ∀ a, G a → some a ∈ ls := by
  induction r with
  | nil s =>
    intro G i g hu a ha
    obtain ⟨o, k1, _, k3⟩ := g.white a ha
    rw [hu.2.1 a (k3 (by rw [hu.1]; simp))] at k1
    exact absurd k1 (by simp)
  | @cons s l t ls u st r ih =>
    intro G i g hu a ha
    by_cases hl : l = some a
    · rw [hl]; exact List.mem_cons_self
    · refine List.mem_cons_of_mem _ ?_
      by_cases hend : CycleEnd s ∧ ∃ x, G x
      · obtain ⟨⟨e1, e2, _⟩, _⟩ := hend
        obtain ⟨o, k1, _, k3⟩ := g.white a ha
        rw [e2 a (k3 (by rw [e1]; simp))] at k1
        exact absurd k1 (by simp)
      · exact ih _ (inv_step i st) (garbage_step i g st hend) hu a ⟨ha, hl⟩

/-- C26: a block that cannot be reached, not even through weak pointers, when a cycle starts, is freed by the end of that cycle. -/
theorem C26_reclaim {s u : St} {ls : List (Option Nat)} (h : Reach s) (hs : CycleEnd s) (r : Run (startCycle s) ls u) (hu : CycleEnd u) (a : Nat)
    (ha : s.old a ≠ none) (hn : ¬ WReach s (.old a)) : some a ∈ ls := by
  have i := reach_inv h
  obtain ⟨h1, h2, h3⟩ := hs
  have hnm : s.phase ≠ .mark := by rw [h1]; simp
  have d := foldl_dark s.roots s
  refine garbage_run r (fun x => s.old x ≠ none ∧ ¬ WReach s (.old x)) (inv_start i h1 h2 h3) ?_ hu a ⟨ha, hn⟩
  refine ⟨?_, ?_, ?_, ?_⟩
  · rintro x ⟨hx, hxn⟩
    obtain ⟨o, ho⟩ := Option.ne_none_iff_exists'.mp hx
    have hlow : x < s.sweepHp := by
      by_contra hlt
      exact hx (h2 x (by omega))
    refine ⟨o, ?_, i.low hnm x o ho hlow, fun h => absurd rfl h⟩
    have : (startCycle s).old x = (s.roots.foldl darken s).old x := rfl
    rw [this, foldl_other s.roots x s (fun hm => hxn (.root hm))]
    exact ho
  · intro x hx hG
    have : (startCycle s).roots = s.roots := d.roots
    rw [this] at hx
    exact hG.2 (.root hx)
  · intro y o x hy
    have : (startCycle s).young = s.young := d.young
    rw [this, h3] at hy; exact absurd hy (by simp)
  · intro b o' x k1 k2 k3 k4 hG
    obtain ⟨o, j1, j2, j3, _⟩ := d.back k1
    have hb : WReach s (.old b) := by
      by_contra hc
      exact k2 ⟨by rw [j1]; simp, hc⟩
    exact hG.2 (.old hb j1 (by omega) (by rw [← j3]; exact k4))

/-! ### C27: weak pointers -/

/-- C27: a weak pointer that is not dead, read by the program, is to a block that is there; it is then protected like any other. -/
theorem C27_get {s : St} (h : Reach s) {a k : Nat} {o : Obj} {c : Nat} (ha : PReach s (.old a)) (ho : s.old a = some o) (ht : o.tag = noScan)
    (hk : o.fields[k]? = some (.old c)) (hd : isDead s (.old c) = false) :
    s.old c ≠ none ∧ Reach (weakSub s (.old c)) ∧ PReach (weakSub s (.old c)) (.old c) := by
  have hr : Reach (weakSub s (.old c)) := .step h (.weakSub ha ho ht hk hd)
  have hp : PReach (weakSub s (.old c)) (.old c) := .root List.mem_cons_self
  refine ⟨?_, hr, hp⟩
  have := C26_exists hr c hp
  intro e
  apply this
  unfold weakSub
  dsimp only
  split
  · exact ((darken_dark s _).none_iff c).mpr e
  · exact e

/-- C27: when a block is freed, no weak array that the program can still get hold of points to it; so a weak pointer never comes to
denote another block that was given the same address. -/
theorem C27_no_dangling {s s' : St} {c : Nat} (h : Reach s) (st : Step s (some c) s') {a : Nat} {o : Obj} (ha : PReach s (.old a))
    (ho : s.old a = some o) (ht : o.tag = noScan) : .old c ∉ o.fields := by
  intro hc
  have i := reach_inv h
  have hl := i.preach ha a rfl
  -- a step that frees is a sweep
  have hsw : s.phase = .sweep ∧ isWhite s (.old c) = true ∧ c = s.sweepHp := by
    cases st with
    | collect st =>
      generalize hlab : some c = l at st
      cases st with
      | sweep h1 h2 h3 =>
        by_cases hw : isWhite s (.old s.sweepHp) = true
        · rw [if_pos hw] at hlab
          obtain rfl := Option.some.inj hlab
          exact ⟨h1, hw, rfl⟩
        · rw [if_neg hw] at hlab; exact absurd hlab (by simp)
      | _ => exact absurd hlab (by simp)
  obtain ⟨h1, h2, h3⟩ := hsw
  have hnm : s.phase ≠ .mark := by rw [h1]; simp
  have hlc := i.weak a o c hl ho ht (fun h => absurd h hnm) (by rw [i.weaks0 h1]; simp) hc
  rw [live_other hnm] at hlc
  obtain ⟨oc, k1, k2⟩ := hlc
  rcases k2 with k2 | k2
  · exact k2 ((isWhite_some k1).mp h2)
  · omega

/-- C27, partial: a weak pointer to a block that the program can reach is not reported dead — unless, in the weak phase, the block lies
below the heap as it was when marking ended (`C27_alive_violation`). -/
theorem C27_alive_partial {s : St} (h : Reach s) {c : Nat} (hc : PReach s (.old c)) (hlow : s.phase = .weak → s.sweepHp ≤ c) :
    isDead s (.old c) = false := by
  have i := reach_inv h
  have hl := i.preach hc c rfl
  by_cases hw : s.phase = .weak
  · rw [live_other (by rw [hw]; simp)] at hl
    obtain ⟨o, k1, k2⟩ := hl
    have : isWhite s (.old c) = false := by
      have := isWhite_some k1
      rcases k2 with k2 | k2
      · cases hb : isWhite s (.old c) with
        | false => rfl
        | true => exact absurd (this.mp hb) k2
      · have := hlow hw; omega
    simp [isDead, this]
  · cases hp : s.phase with
    | weak => exact absurd hp hw
    | mark => simp [isDead, hp]
    | sweep => simp [isDead, hp]

/-- C27, partial: the collector changes a weak pointer only to make it dead, and only if the program cannot reach the block any more —
with the same exception. -/
theorem C27_collector_partial {s s' : St} {l : Option Nat} (h : Reach s) (st : Collector s l s') {a : Nat} {o : Obj} (ho : s.old a = some o)
    (hl : l ≠ some a) : ∃ o', s'.old a = some o' ∧ o'.tag = o.tag ∧ o'.fields.length = o.fields.length ∧
      ∀ (k : Nat) v, o.fields[k]? = some v → o'.fields[k]? = some v ∨
        (o'.fields[k]? = some (.ext 0) ∧ ∃ c, v = .old c ∧ (PReach s (.old c) → c < s.sweepHp ∧ s.phase = .weak)) := by
  rcases collector_old st a o ho with ⟨k, _⟩ | ⟨o', k1, k2, k3⟩
  · exact absurd k hl
  · refine ⟨o', k1, k2, ?_, ?_⟩
    · rcases k3 with k3 | ⟨_, _, k3⟩
      · rw [k3]
      · rw [k3]; simp [clear]
    · intro k v hv
      rcases k3 with k3 | ⟨hp, _, k3⟩
      · left; rw [k3]; exact hv
      · rw [k3]
        unfold clear
        rw [List.getElem?_map, hv]
        by_cases hw : isWhite s v = true
        · right
          refine ⟨by simp [hw], ?_⟩
          cases v with
          | old c =>
            refine ⟨c, rfl, fun hr => ⟨?_, hp⟩⟩
            by_contra hge
            have := C27_alive_partial h hr (fun _ => by omega)
            simp [isDead, hp, hw] at this
          | _ => exact absurd hw (by simp [isWhite])
        · left; simp [hw]

/-! ### The exception, and examples

A run: a block is made at 200 and kept, then a whole cycle passes. -/

def w0 : St := init 100 10 []
def w1 : St := { allocOld w0 200 noScan [.ext 0] 100 with roots := [.old 200] }
def w2 : St := weakPhase (markFinish w1)
def w3 : St := sweepAt (sweepAt w2 200) 201
def w4 : St := markPop (startCycle w3) 200 []
def w5 : St := markFinish w4
/-- the heap grows downwards: a new chunk at 50 -/
def w6 : St := { allocOld w5 50 0 [.imm 7] 50 with roots := [.old 50, .old 200] }
def w7 : St := modify w6 200 0 (.old 50)
def w8 : St := weakPhase w7

theorem updF_out {α : Type} (f : Nat → Option α) (a : Nat) (v : Option α) (P : Nat → Prop) (h : ∀ x, P x → f x = none) (ha : ¬ P a) (x : Nat) (hx : P x) :
    updF f a v x = none := by
  by_cases e : x = a
  · subst e; exact absurd hx ha
  · rw [updF_ne _ _ e]; exact h x hx

theorem w1_reach : Reach w1 := .step (.init 100 10 []) (.allocOld rfl (by decide) (by decide) (by simp [InHand]))

theorem w1_old (x : Nat) : w1.old x = if x = 200 then some ⟨.black, noScan, [.ext 0]⟩ else none := rfl

theorem w2_reach : Reach w2 :=
  .step (.step w1_reach (.collect (.finish rfl rfl rfl rfl))) (.collect (.weak rfl))

theorem w2_old (x : Nat) : w2.old x = if x = 200 then some ⟨.black, noScan, [.ext 0]⟩ else none := rfl

theorem w3_old (x : Nat) : w3.old x = if x = 200 then some ⟨.white, noScan, [.ext 0]⟩ else none := by
  have h1 : (sweepAt w2 200).old = w2.old := by rfl
  show updF _ 200 _ x = _
  by_cases e : x = 200
  · subst e; rw [updF_same]; rfl
  · rw [updF_ne _ _ e, h1, w2_old, if_neg e, if_neg e]

theorem w3_reach : Reach w3 := by
  have h1 : Reach (sweepAt w2 200) := by
    refine .step w2_reach (.collect (.sweep rfl (by decide) ?_))
    intro x _ h
    have h : x < 200 := h
    rw [w2_old, if_neg (by omega)]
  refine .step h1 (.collect (.sweep rfl (by decide) ?_))
  intro x h h'
  have h : 200 < x := h
  omega

theorem w4_reach : Reach w4 := by
  have h : Reach (startCycle w3) := by
    refine .step w3_reach (.collect (.start rfl ?_ (fun _ => rfl)))
    intro x h
    have h : 201 ≤ x := h
    rw [w3_old, if_neg (by omega)]
  exact .step h (.collect (.pop rfl rfl))

theorem w6_reach : Reach w6 :=
  .step (.step w4_reach (.collect (.finish rfl rfl rfl rfl))) (.allocOld rfl (by decide) (by decide) (by simp [InHand]))

theorem w7_reach : Reach w7 := by
  refine .step w6_reach (.modify (o := ⟨.black, noScan, [.ext 0]⟩) (.root ?_) rfl (by decide) (Or.inl (.root ?_)))
  · decide
  · decide

theorem w7_old (x : Nat) (h : x = 50 ∨ x = 200) : w7.old x = if x = 50 then some ⟨.white, 0, [.imm 7]⟩ else some ⟨.black, noScan, [.old 50]⟩ := by
  rcases h with rfl | rfl <;> rfl

/-- C27, the exception: a weak pointer to a block the program holds, and has just made, is reported dead. -/
theorem C27_alive_violation : ∃ (s : St) (a c : Nat) (o : Obj), Reach s ∧ PReach s (.old a) ∧ s.old a = some o ∧ o.tag = noScan ∧
    o.fields[0]? = some (.old c) ∧ PReach s (.old c) ∧ isDead s (.old c) = true :=
  ⟨w7, 200, 50, _, w7_reach, .root (by decide), rfl, rfl, rfl, .root (by decide), rfl⟩

/-- C27, the exception: and the collector makes it dead for good. -/
theorem C27_collector_violation : ∃ (s s' : St) (a c : Nat) (o o' : Obj), Reach s ∧ Collector s none s' ∧ s.old a = some o ∧ o.tag = noScan ∧
    o.fields[0]? = some (.old c) ∧ s'.old a = some o' ∧ o'.fields[0]? = some (.ext 0) ∧ PReach s (.old c) ∧ PReach s' (.old c) :=
  ⟨w7, w8, 200, 50, _, _, w7_reach, .weak rfl, rfl, rfl, rfl, rfl, rfl, .root (by decide), .root (by decide)⟩

/-! A run in which a block is dropped and freed in the next cycle: the hypotheses of `C26_reclaim` and `C26_free`. -/

def g3 : St := { w3 with roots := [] }
def g4 : St := weakPhase (markFinish (startCycle g3))

theorem g3_reach : Reach g3 := .step w3_reach (.roots (by simp))

theorem g3_end : CycleEnd g3 := by
  refine ⟨rfl, ?_, fun _ => rfl⟩
  intro x h
  have h : 201 ≤ x := h
  show w3.old x = none
  rw [w3_old, if_neg (by omega)]

theorem g3_none : ∀ v, ¬ WReach g3 v := by
  intro v h
  induction h with
  | root h => exact absurd h (by simp [g3])
  | old _ _ _ _ ih => exact ih
  | young _ _ _ _ ih => exact ih

theorem g4_old (x : Nat) : g4.old x = if x = 200 then some ⟨.white, noScan, [.ext 0]⟩ else none := by
  show w3.old x = _
  exact w3_old x

example : ∃ s u ls, Reach s ∧ CycleEnd s ∧ Run (startCycle s) ls u ∧ CycleEnd u ∧ s.old 200 ≠ none ∧ ¬ WReach s (.old 200) ∧ some 200 ∈ ls := by
  have r1 : Run (sweepAt g4 200) [some 200] (sweepAt (sweepAt g4 200) 201) := by
    refine .cons (l := some 200) (.collect (.sweep (s := sweepAt g4 200) (e := 201) rfl (by decide) ?_)) (.nil _)
    intro x h h'
    have h : 200 < x := h
    omega
  have r2 : Run g4 [none, some 200] (sweepAt (sweepAt g4 200) 201) := by
    refine .cons (l := none) (.collect (.sweep (s := g4) (e := 200) rfl (by decide) ?_)) r1
    intro x _ h'
    rw [g4_old, if_neg (by omega)]
  have r3 : Run (startCycle g3) [none, none, none, some 200] (sweepAt (sweepAt g4 200) 201) :=
    .cons (.collect (.finish rfl rfl rfl rfl)) (.cons (.collect (.weak rfl)) r2)
  refine ⟨g3, _, _, g3_reach, g3_end, r3, ⟨rfl, ?_, fun _ => rfl⟩, by simp [g3, w3_old], g3_none _, by simp⟩
  intro x h
  have h : 201 ≤ x := h
  show updF (sweepAt g4 200).old 200 none x = none
  rw [updF_ne _ _ (by omega)]
  show g4.old x = none
  rw [g4_old, if_neg (by omega)]

example : ∃ s s', Reach s ∧ Step s (some 200) s' := by
  have h1 : Reach (startCycle g3) := .step g3_reach (.collect (.start g3_end.1 g3_end.2.1 g3_end.2.2))
  have h2 : Reach g4 := .step (.step h1 (.collect (.finish rfl rfl rfl rfl))) (.collect (.weak rfl))
  have h3 : Reach (sweepAt g4 200) := by
    refine .step h2 (.collect (.sweep rfl (by decide) ?_))
    intro x _ h'
    rw [g4_old, if_neg (by omega)]
  refine ⟨_, _, h3, .collect (.sweep (e := 201) rfl (by decide) ?_)⟩
  intro x h h'
  have h : 200 < x := h
  omega

/-- the hypotheses of `C26_exists` and `C27_alive_partial` -/
example : Reach w4 ∧ PReach w4 (.old 200) ∧ w4.weaks = [200] := ⟨w4_reach, .root (by decide), rfl⟩

/-- a reachable weak array with a pointer that is not dead -/
example : ∃ s o, Reach s ∧ PReach s (.old 200) ∧ s.old 200 = some o ∧ o.tag = noScan ∧ o.fields[0]? = some (.old 200) ∧
    isDead s (.old 200) = false :=
  ⟨modify w4 200 0 (.old 200), _,
    .step w4_reach (.modify (o := ⟨.black, noScan, [.ext 0]⟩) (.root (by decide)) rfl (by decide) (Or.inl (.root (by decide)))),
    .root (by decide), rfl, rfl, rfl, rfl⟩

end Mosml.Major
