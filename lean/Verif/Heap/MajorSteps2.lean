import Verif.Heap.MajorSteps

namespace Mosml.Major

/-! ### The weak phase -/

/-- the fields of a weak array after the weak phase -/
def clear (s : St) (fs : List Val) : List Val := fs.map (fun v => if isWhite s v then .ext 0 else v)

theorem clear_clear (s : St) (fs : List Val) : clear s (clear s fs) = clear s fs := by
  unfold clear
  rw [List.map_map]
  refine List.map_congr_left (fun v _ => ?_)
  dsimp only [Function.comp]
  by_cases h : isWhite s v
  · have e : isWhite s (.ext 0) = false := rfl
    simp only [h, if_true, e, Bool.false_eq_true, if_false]
  · have h' : isWhite s v = false := by simpa using h
    simp only [h', Bool.false_eq_true, if_false]

theorem weakClear_isWhite (s : St) (a : Nat) (v : Val) : isWhite (weakClear s a) v = isWhite s v := by
  cases v with
  | old x =>
    simp only [isWhite, weakClear]
    by_cases e : x = a
    · subst e
      rw [updF_same]
      cases s.old x <;> rfl
    · rw [updF_ne _ _ e]
  | _ => rfl

theorem clear_congr {s t : St} (h : ∀ v, isWhite t v = isWhite s v) (fs : List Val) : clear t fs = clear s fs := by
  unfold clear; simp only [h]

structure Cleared (s : St) (ws : List Nat) (t : St) : Prop where
  old : ∀ a, t.old a = (s.old a).map (fun o => if a ∈ ws then { o with fields := clear s o.fields } else o)
  white : ∀ v, isWhite t v = isWhite s v
  young : t.young = s.young
  roots : t.roots = s.roots
  heapStart : t.heapStart = s.heapStart
  sweepHp : t.sweepHp = s.sweepHp
  gray : t.gray = s.gray
  isPure : t.isPure = s.isPure
  markhp : t.markhp = s.markhp

theorem cleared_foldl (s : St) : ∀ (ws done : List Nat) (t : St), Cleared s done t → Cleared s (done ++ ws) (ws.foldl weakClear t) := by
  intro ws
  induction ws with
  | nil => intro done t h; simpa using h
  | cons w ws ih =>
    intro done t h
    have := ih (done ++ [w]) (weakClear t w) ?_
    · simpa using this
    · refine ⟨?_, fun v => (weakClear_isWhite t w v).trans (h.white v), h.young, h.roots, h.heapStart, h.sweepHp, h.gray, h.isPure, h.markhp⟩
      intro a
      show updF t.old w ((t.old w).map (fun o => { o with fields := clear t o.fields })) a = _
      by_cases e : a = w
      · subst e
        rw [updF_same, h.old a]
        cases s.old a with
        | none => rfl
        | some o =>
          simp only [Option.map_some, List.mem_append, List.mem_singleton, or_true, if_true, clear_congr h.white]
          split
          · simp [clear_clear]
          · rfl
      · rw [updF_ne _ _ e, h.old a]
        cases s.old a with
        | none => rfl
        | some o => simp [e]

theorem weakPhase_cleared (s : St) : Cleared s s.weaks (s.weaks.foldl weakClear s) := by
  have := cleared_foldl s s.weaks [] s ⟨fun a => by cases s.old a <;> simp, fun _ => rfl, rfl, rfl, rfl, rfl, rfl, rfl, rfl⟩
  simpa using this

theorem isWhite_some {s : St} {a : Nat} {o : Obj} (h : s.old a = some o) : isWhite s (.old a) = true ↔ o.color = .white := by
  simp [isWhite, h]

theorem mem_clear {s : St} {fs : List Val} {c : Nat} (h : .old c ∈ clear s fs) : .old c ∈ fs ∧ isWhite s (.old c) = false := by
  unfold clear at h
  obtain ⟨v, hv, e⟩ := List.mem_map.mp h
  by_cases hw : isWhite s v
  · rw [if_pos hw] at e; exact absurd e (by simp)
  · rw [if_neg hw] at e
    subst e
    exact ⟨hv, by simpa using hw⟩

theorem inv_weak {s : St} (i : Inv s) (hp : s.phase = .weak) : Inv (weakPhase s) := by
  have hnm : s.phase ≠ .mark := by rw [hp]; simp
  have c := weakPhase_cleared s
  have hold : ∀ a, (weakPhase s).old a = (s.old a).map (fun o => if a ∈ s.weaks then { o with fields := clear s o.fields } else o) := c.old
  have hback : ∀ a o', (weakPhase s).old a = some o' → ∃ o, s.old a = some o ∧ o'.tag = o.tag ∧ o'.color = o.color ∧
      (∀ x, .old x ∈ o'.fields → .old x ∈ o.fields ∧ (a ∈ s.weaks → isWhite s (.old x) = false)) := by
    intro a o' h
    rw [hold] at h
    obtain ⟨o, h1, h2⟩ := Option.map_eq_some_iff.mp h
    refine ⟨o, h1, ?_⟩
    by_cases hw : a ∈ s.weaks
    · rw [if_pos hw] at h2
      subst h2
      exact ⟨rfl, rfl, fun x hx => ⟨(mem_clear hx).1, fun _ => (mem_clear hx).2⟩⟩
    · rw [if_neg hw] at h2
      subst h2
      exact ⟨rfl, rfl, fun x hx => ⟨hx, fun h => absurd h hw⟩⟩
  have hph : (weakPhase s).phase ≠ .mark := by simp [weakPhase]
  have hsw : (weakPhase s).sweepHp = s.sweepHp := c.sweepHp
  have hlive : ∀ a, Live (weakPhase s) a ↔ Live s a := by
    intro a
    rw [live_other hph, live_other hnm, hsw]
    constructor
    · rintro ⟨o', h1, h2⟩
      obtain ⟨o, k1, _, k3, _⟩ := hback a o' h1
      exact ⟨o, k1, by rw [← k3]; exact h2⟩
    · rintro ⟨o, h1, h2⟩
      rw [hold, h1]
      refine ⟨_, rfl, ?_⟩
      dsimp only
      by_cases hw : a ∈ s.weaks
      · rw [if_pos hw]; exact h2
      · rw [if_neg hw]; exact h2
  obtain ⟨g1, g2, g0, g3⟩ := i.noGray hnm
  have hr : (weakPhase s).roots = s.roots := c.roots
  have hy : (weakPhase s).young = s.young := c.young
  refine ⟨?_, ?_, ?_, ?_, ?_, ?_, ?_, fun _ => rfl, ?_, fun h => absurd h hph, ?_, ?_⟩
  · rw [hr]; exact fun a h => (hlive a).mpr (i.roots a h)
  · rw [hy]; exact fun y o a h1 h2 h3 => (hlive a).mpr (i.young y o a h1 h2 h3)
  · intro a o' x hl h1 h2 h3
    obtain ⟨o, k1, k2, _, k4⟩ := hback a o' h1
    exact (hlive x).mpr (i.fields a o x ((hlive a).mp hl) k1 (by omega) (k4 x h3).1)
  · rw [hy]; exact i.weakTag
  · intro h; exact absurd rfl h
  · intro a o' x hl h1 h2 _ _ h5
    obtain ⟨o, k1, k2, _, k4⟩ := hback a o' h1
    rw [hlive]
    by_cases hw : a ∈ s.weaks
    · rw [live_other hnm]
      have hx := i.exist (by rw [hp]; simp) a o x k1 (by omega) (k4 x h5).1
      obtain ⟨ox, hox⟩ := Option.ne_none_iff_exists'.mp hx
      refine ⟨ox, hox, Or.inl ?_⟩
      intro hc
      have := (k4 x h5).2 hw
      rw [(isWhite_some hox).mpr hc] at this
      exact absurd this (by simp)
    · exact i.weak a o x ((hlive a).mp hl) k1 (by omega) (fun h => absurd h hnm) hw (k4 x h5).1
  · intro a ha; exact absurd ha (by simp [weakPhase])
  · intro a ha
    have : (weakPhase s).heapStart = s.heapStart := c.heapStart
    rw [this]
    refine i.start a (fun e => ha ?_)
    rw [hold, e]; rfl
  · intro _
    refine ⟨c.gray.trans g1, c.isPure.trans g2, c.markhp.trans g0, ?_⟩
    intro a o' h
    obtain ⟨o, k1, _, k3, _⟩ := hback a o' h
    rw [k3]; exact g3 a o k1
  · intro _ a o' h1 h2
    obtain ⟨o, k1, _, k3, _⟩ := hback a o' h1
    rw [k3]
    rw [hsw] at h2
    exact i.low hnm a o k1 h2

/-! ### The sweep -/

theorem sweepAt_old (s : St) (e x : Nat) : (sweepAt s e).old x =
    if x = s.sweepHp then (if isWhite s (.old x) then none else (s.old x).map (fun o => { o with color := .white })) else s.old x := by
  unfold sweepAt
  cases ho : s.old s.sweepHp with
  | none =>
    dsimp only
    by_cases h : x = s.sweepHp
    · subst h; simp [ho]
    · rw [if_neg h]
  | some o =>
    cases hc : o.color with
    | white =>
      simp only [hc]
      by_cases h : x = s.sweepHp
      · subst h; rw [updF_same, if_pos rfl]
        have : isWhite s (.old s.sweepHp) = true := (isWhite_some ho).mpr hc
        rw [if_pos this]
      · rw [updF_ne _ _ h, if_neg h]
    | gray =>
      simp only [hc]
      by_cases h : x = s.sweepHp
      · subst h
        rw [if_pos rfl]
        have : ¬ isWhite s (.old s.sweepHp) = true := by rw [isWhite_some ho, hc]; simp
        rw [if_neg this]
        exact updF_same _ _ _
      · rw [if_neg h]; exact updF_ne _ _ h
    | black =>
      simp only [hc]
      by_cases h : x = s.sweepHp
      · subst h
        rw [if_pos rfl]
        have : ¬ isWhite s (.old s.sweepHp) = true := by rw [isWhite_some ho, hc]; simp
        rw [if_neg this]
        exact updF_same _ _ _
      · rw [if_neg h]; exact updF_ne _ _ h

theorem sweepAt_rest (s : St) (e : Nat) : (sweepAt s e).young = s.young ∧ (sweepAt s e).roots = s.roots ∧ (sweepAt s e).phase = s.phase ∧
    (sweepAt s e).gray = s.gray ∧ (sweepAt s e).isPure = s.isPure ∧ (sweepAt s e).heapStart = s.heapStart ∧ (sweepAt s e).sweepHp = e ∧
    (sweepAt s e).weaks = s.weaks ∧ (sweepAt s e).markhp = s.markhp := by
  unfold sweepAt
  split
  · exact ⟨rfl, rfl, rfl, rfl, rfl, rfl, rfl, rfl, rfl⟩
  · split <;> exact ⟨rfl, rfl, rfl, rfl, rfl, rfl, rfl, rfl, rfl⟩

theorem inv_sweep {s : St} {e : Nat} (i : Inv s) (hp : s.phase = .sweep) (he : s.sweepHp < e)
    (hgap : ∀ x, s.sweepHp < x → x < e → s.old x = none) : Inv (sweepAt s e) := by
  have hnm : s.phase ≠ .mark := by rw [hp]; simp
  obtain ⟨r1, r2, r3, r4, r5, r6, r7, r8, r9⟩ := sweepAt_rest s e
  have hph : (sweepAt s e).phase ≠ .mark := by rw [r3]; exact hnm
  have hold := sweepAt_old s e
  generalize sweepAt s e = t at *
  obtain ⟨g1, g2, g0, g3⟩ := i.noGray hnm
  have hback : ∀ a o', t.old a = some o' → ∃ o, s.old a = some o ∧ o'.tag = o.tag ∧ o'.fields = o.fields ∧
      (a = s.sweepHp ∧ o'.color = .white ∧ o.color ≠ .white ∨ a ≠ s.sweepHp ∧ o' = o) := by
    intro a o' h
    rw [hold] at h
    by_cases ha : a = s.sweepHp
    · rw [if_pos ha] at h
      by_cases hw : isWhite s (.old a) = true
      · rw [if_pos hw] at h; exact absurd h (by simp)
      · rw [if_neg hw] at h
        obtain ⟨o, k1, k2⟩ := Option.map_eq_some_iff.mp h
        rw [isWhite_some k1] at hw
        exact ⟨o, k1, by rw [← k2], by rw [← k2], Or.inl ⟨ha, by rw [← k2], hw⟩⟩
    · rw [if_neg ha] at h
      exact ⟨o', h, rfl, rfl, Or.inr ⟨ha, rfl⟩⟩
  have hl1 : ∀ a, Live s a → Live t a := by
    intro a hl
    rw [live_other hnm] at hl
    rw [live_other hph, r7]
    obtain ⟨o, h1, h2⟩ := hl
    rw [hold]
    by_cases ha : a = s.sweepHp
    · have hw : ¬ isWhite s (.old a) = true := by
        rw [isWhite_some h1]
        rcases h2 with h2 | h2
        · exact h2
        · omega
      rw [if_pos ha, if_neg hw, h1]
      exact ⟨_, rfl, Or.inr (by omega)⟩
    · rw [if_neg ha]
      exact ⟨o, h1, h2.imp id (fun h => by omega)⟩
  have hl2 : ∀ a, Live t a → Live s a := by
    intro a hl
    rw [live_other hph, r7] at hl
    rw [live_other hnm]
    obtain ⟨o', h1, h2⟩ := hl
    obtain ⟨o, k1, _, _, ⟨k4, k5, k6⟩ | ⟨k4, rfl⟩⟩ := hback a o' h1
    · exact ⟨o, k1, Or.inl k6⟩
    · refine ⟨o', k1, h2.imp id (fun h => ?_)⟩
      by_contra hlt
      rw [hgap a (by omega) h] at k1
      exact absurd k1 (by simp)
  refine ⟨?_, ?_, ?_, ?_, ?_, ?_, ?_, ?_, ?_, fun h => absurd h hph, ?_, ?_⟩
  · rw [r2]; exact fun a h => hl1 a (i.roots a h)
  · rw [r1]; exact fun y o a h1 h2 h3 => hl1 a (i.young y o a h1 h2 h3)
  · intro a o' c hl h1 h2 h3
    obtain ⟨o, k1, k2, k3, _⟩ := hback a o' h1
    exact hl1 c (i.fields a o c (hl2 a hl) k1 (by omega) (by rw [← k3]; exact h3))
  · rw [r1]; exact i.weakTag
  · intro h; rw [r3] at h; exact absurd hp h
  · intro a o' c hl h1 h2 _ h4 h5
    obtain ⟨o, k1, k2, k3, _⟩ := hback a o' h1
    rw [r8] at h4
    exact hl1 c (i.weak a o c (hl2 a hl) k1 (by omega) (fun h => absurd h hnm) h4 (by rw [← k3]; exact h5))
  · rw [r8, i.weaks0 hp]; intro a ha; simp at ha
  · intro _; rw [r8]; exact i.weaks0 hp
  · intro a ha
    rw [r6]
    refine i.start a (fun e0 => ha ?_)
    rw [hold, e0]
    split
    · split <;> rfl
    · rfl
  · intro _
    refine ⟨by rw [r4]; exact g1, by rw [r5]; exact g2, by rw [r9]; exact g0, ?_⟩
    intro a o' h
    obtain ⟨o, k1, _, _, ⟨k4, k5, k6⟩ | ⟨k4, rfl⟩⟩ := hback a o' h
    · rw [k5]; simp
    · exact g3 a o' k1
  · intro _ a o' h1 h2
    rw [r7] at h2
    obtain ⟨o, k1, _, _, ⟨k4, k5, k6⟩ | ⟨k4, rfl⟩⟩ := hback a o' h1
    · exact k5
    · refine i.low hnm a o' k1 ?_
      by_contra hlt
      rw [hgap a (by omega) h2] at k1
      exact absurd k1 (by simp)

/-! ### A new cycle -/

theorem inv_start {s : St} (i : Inv s) (hp : s.phase = .sweep) (hend : ∀ x, s.sweepHp ≤ x → s.old x = none)
    (hy : ∀ y, s.young y = none) : Inv (startCycle s) := by
  have hnm : s.phase ≠ .mark := by rw [hp]; simp
  obtain ⟨g1, g2, g0, g3⟩ := i.noGray hnm
  have hlow : ∀ a, s.old a ≠ none → a < s.sweepHp := by
    intro a ha
    by_contra h
    exact ha (hend a (by omega))
  have hwhite : ∀ a o, s.old a = some o → o.color = .white := fun a o h => i.low hnm a o h (hlow a (by rw [h]; simp))
  have hlive : ∀ a, s.old a ≠ none → Live s a := by
    intro a ha
    rw [live_other hnm]
    obtain ⟨o, ho⟩ := Option.ne_none_iff_exists'.mp ha
    exact ⟨o, ho, Or.inr (hlow a ha)⟩
  have hex : ∀ a o c, s.old a = some o → o.tag ≤ noScan → .old c ∈ o.fields → s.old c ≠ none := by
    intro a o c h1 h2 h3
    by_cases ht : o.tag = noScan
    · exact i.live_exists (i.weak a o c (hlive a (by rw [h1]; simp)) h1 ht (fun h => absurd h hnm) (by rw [i.weaks0 hp]; simp) h3)
    · exact i.live_exists (i.fields a o c (hlive a (by rw [h1]; simp)) h1 (by omega) h3)
  have d := foldl_dark s.roots s
  have hg : GrayOk s := ⟨fun a h => by rw [g1] at h; simp at h, by rw [g1]; simp, fun a o h1 h2 => absurd h2 (g3 a o h1)⟩
  have hg' := d.grayOk hg
  have hmh : (startCycle s).markhp = none := rfl
  have hnb : ∀ a o, (s.roots.foldl darken s).old a = some o → o.color ≠ .black := by
    intro a o h hb
    obtain ⟨o2, k1, _, _, _, k5⟩ := d.back h
    have := k5 hb
    subst this
    rw [hwhite a o k1] at hb
    exact absurd hb (by simp)
  have hold : (startCycle s).old = (s.roots.foldl darken s).old := rfl
  have hroots : (startCycle s).roots = s.roots := d.roots
  have hyoung : (startCycle s).young = s.young := d.young
  refine mark_inv rfl ?_ ?_ ?_ ?_ ?_ ?_ ?_ ?_ ?_
  · intro a ha
    rw [hroots] at ha
    obtain ⟨o, k1, k2⟩ := foldl_nonwhite s.roots s a ha (i.live_exists (i.roots a ha))
    exact .base k1 k2
  · intro y o a h1; rw [hyoung, hy] at h1; exact absurd h1 (by simp)
  · intro a o c h1 h2; exact absurd h2 (hnb a o h1)
  · intro y o h1; rw [hyoung, hy] at h1; exact absurd h1 (by simp)
  · intro a o c h1 h2 h3 h4
    obtain ⟨o2, k1, k2, k3, _⟩ := d.back h1
    exact hex a o2 c k1 (by omega) (by rw [← k3]; exact h3) ((d.none_iff c).mp h4)
  · intro a o c h1 _ h2; exact absurd h2 (hnb a o h1)
  · intro a ha
    have : (startCycle s).weaks = s.weaks := d.weaks
    rw [this, i.weaks0 hp] at ha; simp at ha
  · intro a ha
    have : (startCycle s).heapStart = s.heapStart := d.heapStart
    rw [this]
    exact i.start a (fun e => ha ((d.none_iff a).mpr e))
  · refine ⟨hg'.gray, hg'.nodup, ?_⟩
    intro a o h1 h2
    have hmk : (s.roots.foldl darken s).markhp = s.markhp := d.markhp
    rcases hg'.all a o h1 h2 with h | ⟨m, h, _⟩ | h
    · exact Or.inl h
    · rw [hmk, g0] at h; exact absurd h (by simp)
    · exact Or.inr (Or.inr h)

end Mosml.Major
