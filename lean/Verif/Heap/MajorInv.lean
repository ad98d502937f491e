import Verif.Heap.Major

namespace Mosml.Major

theorem updF_same {α : Type} (f : Nat → α) (a : Nat) (v : α) : updF f a v a = v := by simp [updF]

theorem updF_ne {α : Type} (f : Nat → α) {a x : Nat} (v : α) (h : x ≠ a) : updF f a v x = f x := by simp [updF, h]

/-! ### What `darken` does -/

/-- in the mark phase: `gray_vals` has gray blocks, each once, and every gray block that the current walk has passed, unless some were dropped -/
structure GrayOk (s : St) : Prop where
  gray : ∀ a ∈ s.gray, ∃ o, s.old a = some o ∧ o.color = .gray
  nodup : s.gray.Nodup
  all : ∀ a o, s.old a = some o → o.color = .gray → a ∈ s.gray ∨ (∃ m, s.markhp = some m ∧ m ≤ a) ∨ s.isPure = false

/-- some white blocks have become gray; nothing else of interest has changed -/
structure Dark (s s' : St) : Prop where
  old : ∀ a, s'.old a = s.old a ∨ ∃ o, s.old a = some o ∧ o.color = .white ∧ s'.old a = some { o with color := .gray }
  young : s'.young = s.young
  roots : s'.roots = s.roots
  phase : s'.phase = s.phase
  markhp : s'.markhp = s.markhp
  heapStart : s'.heapStart = s.heapStart
  sweepHp : s'.sweepHp = s.sweepHp
  weaks : s'.weaks = s.weaks
  grayOk : GrayOk s → GrayOk s'

theorem Dark.refl (s : St) : Dark s s :=
  ⟨fun _ => Or.inl rfl, rfl, rfl, rfl, rfl, rfl, rfl, rfl, id⟩

theorem Dark.trans {s t u : St} (h : Dark s t) (k : Dark t u) : Dark s u where
  old := by
    intro a
    rcases h.old a with e | ⟨o, e1, e2, e3⟩
    · rcases k.old a with d | ⟨o, d1, d2, d3⟩
      · exact Or.inl (d.trans e)
      · exact Or.inr ⟨o, by rw [← e]; exact d1, d2, d3⟩
    · rcases k.old a with d | ⟨o', d1, d2, d3⟩
      · exact Or.inr ⟨o, e1, e2, d.trans e3⟩
      · rw [e3] at d1
        obtain rfl := Option.some.inj d1
        exact absurd d2 (by simp)
  young := k.young.trans h.young
  roots := k.roots.trans h.roots
  phase := k.phase.trans h.phase
  markhp := k.markhp.trans h.markhp
  heapStart := k.heapStart.trans h.heapStart
  sweepHp := k.sweepHp.trans h.sweepHp
  weaks := k.weaks.trans h.weaks
  grayOk := fun g => k.grayOk (h.grayOk g)

theorem reallocGray_dark (s : St) : Dark s (reallocGray s) := by
  unfold reallocGray
  split
  · exact ⟨fun _ => Or.inl rfl, rfl, rfl, rfl, rfl, rfl, rfl, rfl, fun g => ⟨g.gray, g.nodup, g.all⟩⟩
  · exact ⟨fun _ => Or.inl rfl, rfl, rfl, rfl, rfl, rfl, rfl, rfl,
      fun g => ⟨fun a h => g.gray a (List.mem_of_mem_drop h), g.nodup.sublist (List.drop_sublist _ _), fun _ _ _ _ => Or.inr (Or.inr rfl)⟩⟩
  · exact ⟨fun _ => Or.inl rfl, rfl, rfl, rfl, rfl, rfl, rfl, rfl,
      fun g => ⟨fun a h => by simp at h, List.nodup_nil, fun _ _ _ _ => Or.inr (Or.inr rfl)⟩⟩
  · exact ⟨fun _ => Or.inl rfl, rfl, rfl, rfl, rfl, rfl, rfl, rfl,
      fun g => ⟨fun a h => by simp at h, List.nodup_nil, fun _ _ _ _ => Or.inr (Or.inr rfl)⟩⟩

theorem push_dark (s : St) {a : Nat} {o : Obj} (ho : s.old a = some o) (hw : o.color = .white) :
    Dark s { setColor s a .gray with gray := a :: s.gray } := by
  refine ⟨?_, rfl, rfl, rfl, rfl, rfl, rfl, rfl, ?_⟩
  · intro x
    show updF s.old a _ x = _ ∨ _
    by_cases e : x = a
    · subst e
      right
      refine ⟨o, ho, hw, ?_⟩
      show updF s.old x _ x = _
      rw [updF_same, ho]; rfl
    · left; exact updF_ne _ _ e
  · intro g
    refine ⟨?_, ?_, ?_⟩
    · intro x hx
      show ∃ o, updF s.old a _ x = some o ∧ _
      by_cases e : x = a
      · subst e
        exact ⟨{ o with color := .gray }, by rw [updF_same, ho]; rfl, rfl⟩
      · rw [updF_ne _ _ e]
        refine g.gray x ?_
        rcases List.mem_cons.mp hx with h | h
        · exact absurd h e
        · exact h
    · refine List.nodup_cons.mpr ⟨?_, g.nodup⟩
      intro hm
      obtain ⟨o', h1, h2⟩ := g.gray a hm
      rw [ho] at h1
      obtain rfl := Option.some.inj h1
      rw [hw] at h2; exact absurd h2 (by simp)
    · intro x o' h1 h2
      by_cases e : x = a
      · left; rw [e]; exact List.mem_cons_self
      · have h1' : s.old x = some o' := by
          have : updF s.old a _ x = some o' := h1
          rwa [updF_ne _ _ e] at this
        rcases g.all x o' h1' h2 with h | h
        · left; exact List.mem_cons_of_mem _ h
        · right; exact h

theorem darken_dark (s : St) (v : Val) : Dark s (darken s v) := by
  unfold darken
  split
  · split
    · rename_i a _ o ho
      split
      · rename_i hw
        dsimp only
        split
        · exact (push_dark s ho hw).trans (reallocGray_dark _)
        · exact push_dark s ho hw
      · exact Dark.refl s
    · exact Dark.refl s
  · exact Dark.refl s

theorem reallocGray_old (s : St) : (reallocGray s).old = s.old := by unfold reallocGray; split <;> rfl

/-- afterwards the block is not white -/
theorem darken_nonwhite (s : St) {a : Nat} (h : s.old a ≠ none) : ∃ o, (darken s (.old a)).old a = some o ∧ o.color ≠ .white := by
  obtain ⟨o, ho⟩ := Option.ne_none_iff_exists'.mp h
  unfold darken
  simp only [ho]
  by_cases hw : o.color = .white
  · rw [if_pos hw]
    have hcol : (setColor s a .gray).old a = some { o with color := .gray } := by
      show updF s.old a _ a = _
      rw [updF_same, ho]; rfl
    split
    · rw [reallocGray_old]
      exact ⟨_, hcol, by simp⟩
    · exact ⟨_, hcol, by simp⟩
  · rw [if_neg hw]; exact ⟨o, ho, hw⟩

theorem Dark.nonwhite {s s' : St} (h : Dark s s') {a : Nat} {o : Obj} (ho : s.old a = some o) (hw : o.color ≠ .white) :
    s'.old a = some o := by
  rcases h.old a with e | ⟨o', e1, e2, _⟩
  · rw [e, ho]
  · rw [ho] at e1
    obtain rfl := Option.some.inj e1
    exact absurd e2 hw

theorem Dark.none_iff {s s' : St} (h : Dark s s') (a : Nat) : s'.old a = none ↔ s.old a = none := by
  rcases h.old a with e | ⟨o, e1, _, e3⟩
  · rw [e]
  · rw [e1, e3]; simp

theorem foldl_dark (vs : List Val) : ∀ s : St, Dark s (vs.foldl darken s) := by
  induction vs with
  | nil => exact Dark.refl
  | cons v vs ih => exact fun s => (darken_dark s v).trans (ih _)

theorem foldl_nonwhite (vs : List Val) : ∀ s : St, ∀ a, .old a ∈ vs → s.old a ≠ none →
    ∃ o, (vs.foldl darken s).old a = some o ∧ o.color ≠ .white := by
  induction vs with
  | nil => intro s a h; simp at h
  | cons v vs ih =>
    intro s a h hn
    rcases List.mem_cons.mp h with rfl | h
    · obtain ⟨o, h1, h2⟩ := darken_nonwhite s hn
      exact ⟨o, (foldl_dark vs _).nonwhite h1 h2, h2⟩
    · exact ih _ a h (fun e => hn (((darken_dark s v).none_iff a).mp e))

/-- a block has the same tag and fields -/
theorem Dark.back {s s' : St} (h : Dark s s') {a : Nat} {o' : Obj} (ho : s'.old a = some o') :
    ∃ o, s.old a = some o ∧ o'.tag = o.tag ∧ o'.fields = o.fields ∧ (o.color ≠ .white → o' = o) ∧ (o'.color = .black → o' = o) := by
  rcases h.old a with e | ⟨o, e1, e2, e3⟩
  · rw [e] at ho; exact ⟨o', ho, rfl, rfl, fun _ => rfl, fun _ => rfl⟩
  · rw [e3] at ho
    obtain rfl := Option.some.inj ho
    exact ⟨o, e1, rfl, rfl, fun h => absurd e2 h, fun h => absurd h (by simp)⟩

theorem Dark.forth {s s' : St} (h : Dark s s') {a : Nat} {o : Obj} (ho : s.old a = some o) :
    ∃ o', s'.old a = some o' ∧ o'.tag = o.tag ∧ o'.fields = o.fields ∧ (o.color ≠ .black → o'.color ≠ .black) := by
  rcases h.old a with e | ⟨o1, e1, e2, e3⟩
  · exact ⟨o, by rw [e, ho], rfl, rfl, id⟩
  · rw [ho] at e1
    obtain rfl := Option.some.inj e1
    exact ⟨_, e3, rfl, rfl, fun _ => by simp⟩

/-! ### The invariant -/

/-- blocks the mark phase has marked or will mark -/
inductive Prot (s : St) : Nat → Prop
  | base {a o} : s.old a = some o → o.color ≠ .white → Prot s a
  | edge {a o c} : Prot s a → s.old a = some o → o.color ≠ .black → o.tag < noScan → .old c ∈ o.fields → Prot s c

/-- blocks that will still be there when the next cycle starts -/
def Live (s : St) (a : Nat) : Prop :=
  match s.phase with
  | .mark => Prot s a
  | _ => ∃ o, s.old a = some o ∧ (o.color ≠ .white ∨ a < s.sweepHp)

structure Inv (s : St) : Prop where
  /-- what the program holds -/
  roots : ∀ a, .old a ∈ s.roots → Live s a
  young : ∀ y o a, s.young y = some o → o.tag < noScan → .old a ∈ o.fields → Live s a
  /-- what live blocks hold -/
  fields : ∀ a o c, Live s a → s.old a = some o → o.tag < noScan → .old c ∈ o.fields → Live s c
  weakTag : ∀ y o, s.young y = some o → o.tag ≠ noScan
  /-- no dangling pointers before the sweep -/
  exist : s.phase ≠ .sweep → ∀ a o c, s.old a = some o → o.tag ≤ noScan → .old c ∈ o.fields → s.old c ≠ none
  /-- weak arrays that the weak phase will not see hold live blocks -/
  weak : ∀ a o c, Live s a → s.old a = some o → o.tag = noScan → (s.phase = .mark → o.color = .black) → a ∉ s.weaks →
    .old c ∈ o.fields → Live s c
  weaks : ∀ a ∈ s.weaks, ∃ o, s.old a = some o ∧ o.tag = noScan ∧ o.color = .black
  weaks0 : s.phase = .sweep → s.weaks = []
  start : ∀ a, s.old a ≠ none → s.heapStart ≤ a
  grayOk : s.phase = .mark → GrayOk s
  noGray : s.phase ≠ .mark → s.gray = [] ∧ s.isPure = true ∧ s.markhp = none ∧ ∀ a o, s.old a = some o → o.color ≠ .gray
  low : s.phase ≠ .mark → ∀ a o, s.old a = some o → a < s.sweepHp → o.color = .white

theorem live_mark {s : St} (h : s.phase = .mark) (a : Nat) : Live s a ↔ Prot s a := by
  unfold Live; rw [h]

theorem live_other {s : St} (h : s.phase ≠ .mark) (a : Nat) :
    Live s a ↔ ∃ o, s.old a = some o ∧ (o.color ≠ .white ∨ a < s.sweepHp) := by
  unfold Live
  cases hp : s.phase with
  | mark => exact absurd hp h
  | _ => rfl

/-- a live block exists -/
theorem Inv.live_exists {s : St} (i : Inv s) {a : Nat} (h : Live s a) : s.old a ≠ none := by
  by_cases hp : s.phase = .mark
  · rw [live_mark hp] at h
    cases h with
    | base h _ => rw [h]; simp
    | edge _ h1 h2 h3 h4 => exact i.exist (by rw [hp]; simp) _ _ _ h1 (by omega) h4
  · rw [live_other hp] at h
    obtain ⟨o, h, _⟩ := h
    rw [h]; simp

theorem Inv.preach {s : St} (i : Inv s) {v : Val} (h : PReach s v) : ∀ a, v = .old a → Live s a := by
  induction h with
  | root h => rintro a rfl; exact i.roots a h
  | old h1 h2 h3 h4 ih => rintro a rfl; exact i.fields _ _ _ (ih _ rfl) h2 h3 h4
  | young h1 h2 h3 h4 ih => rintro a rfl; exact i.young _ _ _ h2 h3 h4

theorem Inv.inHand {s : St} (i : Inv s) {a : Nat} (h : InHand s (.old a)) : Live s a := by
  rcases h with h | ⟨h, _⟩
  · exact i.preach h a rfl
  · exact absurd rfl (h a)

theorem prot_congr {s t : St} (h : t.old = s.old) (a : Nat) (p : Prot s a) : Prot t a := by
  induction p with
  | base k1 k2 => exact .base (by rw [h]; exact k1) k2
  | edge _ k1 k2 k3 k4 ih => exact .edge ih (by rw [h]; exact k1) k2 k3 k4

theorem live_congr {s t : St} (h1 : t.old = s.old) (h2 : t.phase = s.phase) (h3 : t.sweepHp = s.sweepHp) (a : Nat) (l : Live s a) : Live t a := by
  by_cases hp : s.phase = .mark
  · rw [live_mark hp] at l
    rw [live_mark (h2.trans hp)]
    exact prot_congr h1 a l
  · rw [live_other hp] at l
    rw [live_other (by rw [h2]; exact hp), h1, h3]
    exact l

end Mosml.Major
