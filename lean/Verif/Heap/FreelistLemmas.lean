import Verif.Heap.Freelist

namespace Mosml.Heap

/-! ### Stores and headers -/

@[simp] theorem upd_same (m : Mem) (a v : Nat) : upd m a v a = v := by simp [upd]

theorem upd_ne (m : Mem) {a x : Nat} (v : Nat) (h : x ≠ a) : upd m a v x = m x := by simp [upd, h]

theorem Color.code_lt (c : Color) : c.code < 4 := by cases c <;> decide

theorem wosize_mkHd (w t : Nat) (c : Color) (ht : t < 256) : wosizeHd (mkHd w t c) = w := by
  have := c.code_lt; unfold wosizeHd mkHd; omega

theorem color_mkHd (w t : Nat) (c : Color) (ht : t < 256) : colorHd (mkHd w t c) = c.code := by
  have := c.code_lt; unfold colorHd mkHd; omega

theorem wosize_blue (h : Nat) : wosizeHd (h - colorHd h * 256 + Color.blue.code * 256) = wosizeHd h := by
  have : Color.blue.code = 2 := rfl
  rw [this]; unfold wosizeHd colorHd; omega

theorem color_blue (h : Nat) : colorHd (h - colorHd h * 256 + Color.blue.code * 256) = 2 := by
  have : Color.blue.code = 2 := rfl
  rw [this]; unfold colorHd; omega

/-! ### Linked lists in memory -/

/-- from `p`, the links lead through `l` to NULL -/
def Chain (m : Mem) : Nat → List Nat → Prop
  | p, [] => m p = 0
  | p, b :: l => m p = b ∧ Chain m b l

/-- the last element of `p :: a` -/
def lastOf (p : Nat) : List Nat → Nat
  | [] => p
  | b :: l => lastOf b l

theorem lastOf_mem (p : Nat) (a : List Nat) : lastOf p a = p ∨ lastOf p a ∈ a := by
  induction a generalizing p with
  | nil => exact Or.inl rfl
  | cons b a ih =>
    rcases ih b with h | h
    · right; simp only [lastOf, h]; simp
    · right; simp only [lastOf]; simp [h]

theorem lastOf_append (p : Nat) (a b : List Nat) : lastOf p (a ++ b) = lastOf (lastOf p a) b := by
  induction a generalizing p with
  | nil => rfl
  | cons x a ih => exact ih x

theorem Chain.congr {m m' : Mem} {p : Nat} {l : List Nat} (h : Chain m p l) (hp : m' p = m p) (hl : ∀ x ∈ l, m' x = m x) :
    Chain m' p l := by
  induction l generalizing p with
  | nil => exact hp.trans h
  | cons b l ih =>
    refine ⟨hp.trans h.1, ih h.2 (hl b (by simp)) (fun x hx => hl x (by simp [hx]))⟩

theorem Chain.next {m : Mem} {p : Nat} {a b : List Nat} {c : Nat} (h : Chain m p (a ++ c :: b)) : m (lastOf p a) = c := by
  induction a generalizing p with
  | nil => exact h.1
  | cons x a ih => exact ih h.2

theorem Chain.drop {m : Mem} {p : Nat} {a b : List Nat} (h : Chain m p (a ++ b)) : Chain m (lastOf p a) b := by
  induction a generalizing p with
  | nil => exact h
  | cons x a ih => exact ih h.2

theorem Chain.last {m : Mem} {p : Nat} {a : List Nat} (h : Chain m p a) : m (lastOf p a) = 0 := by
  induction a generalizing p with
  | nil => exact h
  | cons x a ih => exact ih h.2

/-- redirecting the link of the last element of `p :: a` -/
theorem Chain.splice {m m' : Mem} {p : Nat} {a b l : List Nat} (h : Chain m p (a ++ b))
    (nd : (p :: (a ++ b)).Nodup) (heq : ∀ x ∈ p :: a, x ≠ lastOf p a → m' x = m x)
    (htail : Chain m' (lastOf p a) l) : Chain m' p (a ++ l) := by
  induction a generalizing p with
  | nil => exact htail
  | cons x a ih =>
    simp only [List.cons_append, List.nodup_cons] at nd
    have hne : p ≠ lastOf p (x :: a) := by
      intro e
      rcases lastOf_mem x a with h1 | h1
      · rw [lastOf, h1] at e; apply nd.1; rw [e]; simp
      · rw [lastOf] at e; rw [← e] at h1; exact nd.1 (by simp [h1])
    refine ⟨(heq p (by simp) hne).trans h.1, ?_⟩
    apply ih h.2
    · simp only [List.nodup_cons]; exact nd.2
    · intro y hy hy2
      exact heq y (by simp only [List.mem_cons] at hy ⊢; exact Or.inr hy) hy2
    · exact htail

theorem mem_split {x p : Nat} {l : List Nat} (h : x = p ∨ x ∈ l) : ∃ a b, l = a ++ b ∧ x = lastOf p a := by
  induction l generalizing p with
  | nil => rcases h with h | h
           · exact ⟨[], [], rfl, h⟩
           · simp at h
  | cons y l ih =>
    rcases h with h | h
    · exact ⟨[], y :: l, rfl, h⟩
    · obtain ⟨a, b, e, hx⟩ := ih (p := y) (List.mem_cons.mp h)
      exact ⟨y :: a, b, by rw [e]; rfl, hx⟩

/-! ### Searching -/

theorem search1_spec (m : Mem) (w : Nat) : ∀ fuel p l, Chain m p l → (∀ x ∈ l, x ≠ 0) → l.length < fuel →
    (∃ a c b, l = a ++ c :: b ∧ search1 m w fuel p = .inl (lastOf p a, c) ∧ w ≤ wosizeHd (m (c - 1))) ∨
    (search1 m w fuel p = .inr (lastOf p l) ∧ ∀ x ∈ l, wosizeHd (m (x - 1)) < w) := by
  intro fuel
  induction fuel with
  | zero => intro p l _ _ h; omega
  | succ f ih =>
    intro p l hc hn hl
    unfold search1
    cases l with
    | nil =>
      right
      have : m p = 0 := hc
      simp only [this, if_true]
      exact ⟨rfl, by simp⟩
    | cons b l =>
      have hb : m p = b := hc.1
      simp only [hb]
      rw [if_neg (hn b (by simp))]
      by_cases hw : wosizeHd (m (b - 1)) ≥ w
      · left
        rw [if_pos hw]
        exact ⟨[], b, l, rfl, rfl, hw⟩
      · rw [if_neg hw]
        simp only [List.length_cons] at hl
        rcases ih b l hc.2 (fun x hx => hn x (by simp [hx])) (by omega) with ⟨a, c, d, e1, e2, e3⟩ | ⟨e1, e2⟩
        · left; exact ⟨b :: a, c, d, by rw [e1]; rfl, e2, e3⟩
        · right
          refine ⟨e1, fun x hx => ?_⟩
          rcases List.mem_cons.mp hx with rfl | hx
          · omega
          · exact e2 x hx

theorem search2_spec (m : Mem) (w q : Nat) : ∀ fuel p l, Chain m p l → (p :: l).Nodup → q ∈ p :: l → l.length < fuel →
    (∃ a c b, l = a ++ c :: b ∧ search2 m w q fuel p = some (lastOf p a, c) ∧ w ≤ wosizeHd (m (c - 1))) ∨
    (search2 m w q fuel p = none ∧ ∃ a b, l = a ++ b ∧ q = lastOf p a ∧ ∀ x ∈ a, wosizeHd (m (x - 1)) < w) := by
  intro fuel
  induction fuel with
  | zero => intro p l _ _ _ h; omega
  | succ f ih =>
    intro p l hc nd hq hl
    unfold search2
    by_cases hpq : p = q
    · right
      rw [if_pos hpq]
      exact ⟨rfl, [], l, rfl, hpq.symm, by simp⟩
    · rw [if_neg hpq]
      cases l with
      | nil => simp only [List.mem_singleton] at hq; exact absurd hq.symm hpq
      | cons b l =>
        have hb : m p = b := hc.1
        simp only [hb]
        by_cases hw : wosizeHd (m (b - 1)) ≥ w
        · left
          rw [if_pos hw]
          exact ⟨[], b, l, rfl, rfl, hw⟩
        · rw [if_neg hw]
          simp only [List.length_cons] at hl
          have hq' : q ∈ b :: l := by
            rcases List.mem_cons.mp hq with h | h
            · exact absurd h.symm hpq
            · exact h
          rcases ih b l hc.2 (List.nodup_cons.mp nd).2 hq' (by omega) with ⟨a, c, d, e1, e2, e3⟩ | ⟨e1, a, d, e2, e3, e4⟩
          · left; exact ⟨b :: a, c, d, by rw [e1]; rfl, e2, e3⟩
          · right
            refine ⟨e1, b :: a, d, by rw [e2]; rfl, e3, fun x hx => ?_⟩
            rcases List.mem_cons.mp hx with rfl | hx
            · omega
            · exact e4 x hx

theorem findPlace_spec (m : Mem) (bp : Nat) : ∀ fuel p l, Chain m p l → ∃ a b, l = a ++ b ∧ findPlace m bp fuel p = lastOf p a := by
  intro fuel
  induction fuel with
  | zero => intro p l _; exact ⟨[], l, rfl, rfl⟩
  | succ f ih =>
    intro p l hc
    unfold findPlace
    by_cases h : m p ≠ 0 ∧ m p < bp
    · simp only
      rw [if_pos h]
      cases l with
      | nil => exact absurd hc h.1
      | cons b l =>
        have hb : m p = b := hc.1
        rw [hb]
        obtain ⟨a, d, e1, e2⟩ := ih b l hc.2
        exact ⟨b :: a, d, by rw [e1]; rfl, e2⟩
    · simp only
      rw [if_neg h]
      exact ⟨[], l, rfl, rfl⟩

/-! ### The invariant -/

/-- `T h = some w`: a block with header at `h` and `w` words; the blocks tile the chunks exactly -/
structure Tiling (chunks : List (Nat × Nat)) (T : Nat → Option Nat) : Prop where
  disj : ∀ h w h' w', T h = some w → T h' = some w' → h ≠ h' → h + w < h' ∨ h' + w' < h
  cover : ∀ a, (∃ c ∈ chunks, c.1 ≤ a ∧ a < c.2) ↔ ∃ h w, T h = some w ∧ h ≤ a ∧ a ≤ h + w
  inside : ∀ h w, T h = some w → ∃ c ∈ chunks, c.1 ≤ h ∧ h + w < c.2
  gaps : ∀ c ∈ chunks, ∀ c' ∈ chunks, c ≠ c' → c.2 < c'.1 ∨ c'.2 < c.1
  pos : ∀ c ∈ chunks, c.1 < c.2

/-- the blocks, their headers, and the free list: the blue blocks are those of the list `fl`, which is threaded through
memory from the sentinel at `head` -/
structure Inv (s : FL) (chunks : List (Nat × Nat)) (T : Nat → Option Nat) (fl : List Nat) : Prop where
  tl : Tiling chunks T
  size : ∀ h w, T h = some w → wosizeHd (s.mem h) = w
  blue : ∀ h w, T h = some w → (colorHd (s.mem h) = 2 ↔ h + 1 ∈ fl)
  free : ∀ b ∈ fl, ∃ h w, b = h + 1 ∧ T h = some w ∧ 0 < w
  chain : Chain s.mem s.head fl
  nodup : (s.head :: fl).Nodup
  prevIn : s.prev ∈ s.head :: fl
  mergeIn : s.merge ∈ s.head :: fl
  headPos : 0 < s.head
  sent : s.mem (s.head - 1) = mkHd 0 0 .blue
  headOut : ∀ c ∈ chunks, ∀ a, c.1 ≤ a → a < c.2 → a ≠ s.head - 1 ∧ a ≠ s.head

theorem Inv.out {s chunks T fl} (i : Inv s chunks T fl) {h w a : Nat} (ht : T h = some w) (h1 : h ≤ a) (h2 : a ≤ h + w) :
    a ≠ s.head - 1 ∧ a ≠ s.head := by
  obtain ⟨c, hc, c1, c2⟩ := i.tl.inside h w ht
  exact i.headOut c hc a (by omega) (by omega)

/-- two blocks that share a word are the same -/
theorem Tiling.same {chunks T} (i : Tiling chunks T) {h w h' w' a : Nat} (h1 : T h = some w) (h2 : T h' = some w')
    (a1 : h ≤ a) (a2 : a ≤ h + w) (a3 : h' ≤ a) (a4 : a ≤ h' + w') : h = h' := by
  by_contra hne
  rcases i.disj h w h' w' h1 h2 hne with h | h <;> omega

/-- A word of a block other than its first field is not a link of the list; nor is the first field of a block that is not in the
list. -/
theorem Inv.linkNe {s chunks T fl} (i : Inv s chunks T fl) {x h w a : Nat} (hx : x ∈ s.head :: fl) (ht : T h = some w)
    (a1 : h ≤ a) (a2 : a ≤ h + w) (ha : a ≠ h + 1 ∨ h + 1 ∉ fl) : a ≠ x := by
  rintro rfl
  rcases List.mem_cons.mp hx with e | hx
  · exact (i.out ht a1 a2).2 e
  · obtain ⟨h', w', e, ht', hw'⟩ := i.free _ hx
    have := i.tl.same ht ht' a1 a2 (by omega) (by omega)
    subst this
    rcases ha with h1 | h1
    · omega
    · rw [← e] at h1; exact h1 hx

theorem lastOf_head (p : Nat) (a b : List Nat) : lastOf p a ∈ p :: (a ++ b) := by
  rcases lastOf_mem p a with h | h
  · rw [h]; simp
  · simp [h]

theorem Chain.move {m m' : Mem} {c q : Nat} {l : List Nat} (h : Chain m c l) (hq : m' q = m c) (hl : ∀ x ∈ l, m' x = m x) :
    Chain m' q l := by
  cases l with
  | nil => exact hq.trans h
  | cons b l =>
    refine ⟨hq.trans h.1, h.2.congr (hl b (by simp)) (fun x hx => hl x (by simp [hx]))⟩

/-- cutting a block in two -/
theorem Tiling.split {chunks T} (i : Tiling chunks T) {h w r wo : Nat} (ht : T h = some w) (hw : r + wo + 1 = w) :
    Tiling chunks (fun x => if x = h + r + 1 then some wo else if x = h then some r else T x) := by
  have key : ∀ x v, (if x = h + r + 1 then some wo else if x = h then some r else T x) = some v →
      (x = h + r + 1 ∧ v = wo) ∨ (x = h ∧ v = r) ∨ (x ≠ h ∧ T x = some v ∧ (x + v < h ∨ h + w < x)) := by
    intro x v hx
    by_cases h1 : x = h + r + 1
    · rw [if_pos h1] at hx; left; exact ⟨h1, (Option.some.inj hx).symm⟩
    · rw [if_neg h1] at hx
      by_cases h2 : x = h
      · rw [if_pos h2] at hx; right; left; exact ⟨h2, (Option.some.inj hx).symm⟩
      · rw [if_neg h2] at hx
        right; right
        refine ⟨h2, hx, ?_⟩
        rcases i.disj x v h w hx ht h2 with h | h
        · left; exact h
        · right; exact h
  refine ⟨?_, ?_, ?_, i.gaps, i.pos⟩
  · intro x v x' v' hx hx' hne
    rcases key x v hx with ⟨a, b⟩ | ⟨a, b⟩ | ⟨a, b, c⟩ <;> rcases key x' v' hx' with ⟨a', b'⟩ | ⟨a', b'⟩ | ⟨a', b', c'⟩
    all_goals first | omega | exact i.disj x v x' v' b b' hne
  · intro a
    rw [i.cover]
    constructor
    · rintro ⟨x, v, hx, h1, h2⟩
      by_cases hxh : x = h
      · subst hxh
        rw [ht] at hx
        have hv : w = v := Option.some.inj hx
        by_cases hlt : a ≤ x + r
        · exact ⟨x, r, by rw [if_neg (by omega), if_pos rfl], h1, hlt⟩
        · exact ⟨x + r + 1, wo, by rw [if_pos rfl], by omega, by omega⟩
      · refine ⟨x, v, ?_, h1, h2⟩
        have : x ≠ h + r + 1 := by
          intro e
          rcases i.disj x v h w hx ht hxh with h | h <;> omega
        rw [if_neg this, if_neg hxh]; exact hx
    · rintro ⟨x, v, hx, h1, h2⟩
      rcases key x v hx with ⟨e, f⟩ | ⟨e, f⟩ | ⟨_, e, _⟩
      · exact ⟨h, w, ht, by omega, by omega⟩
      · exact ⟨h, w, ht, by omega, by omega⟩
      · exact ⟨x, v, e, h1, h2⟩
  · intro x v hx
    obtain ⟨c, hc, c1, c2⟩ := i.inside h w ht
    rcases key x v hx with ⟨e, f⟩ | ⟨e, f⟩ | ⟨_, e, _⟩
    · exact ⟨c, hc, by omega, by omega⟩
    · exact ⟨c, hc, by omega, by omega⟩
    · exact i.inside x v e

/-- joining two adjacent blocks -/
theorem Tiling.join {chunks T} (i : Tiling chunks T) {h w w' : Nat} (ht : T h = some w) (ht' : T (h + w + 1) = some w') :
    Tiling chunks (fun x => if x = h then some (w + w' + 1) else if x = h + w + 1 then none else T x) := by
  have key : ∀ x v, (if x = h then some (w + w' + 1) else if x = h + w + 1 then none else T x) = some v →
      (x = h ∧ v = w + w' + 1) ∨ (x ≠ h ∧ x ≠ h + w + 1 ∧ T x = some v ∧ (x + v < h ∨ h + w + 1 + w' < x)) := by
    intro x v hx
    by_cases h1 : x = h
    · rw [if_pos h1] at hx; left; exact ⟨h1, (Option.some.inj hx).symm⟩
    · rw [if_neg h1] at hx
      by_cases h2 : x = h + w + 1
      · rw [if_pos h2] at hx; exact absurd hx (by simp)
      · rw [if_neg h2] at hx
        right
        refine ⟨h1, h2, hx, ?_⟩
        rcases i.disj x v h w hx ht h1 with h | h
        · left; exact h
        · rcases i.disj x v _ w' hx ht' h2 with h3 | h3
          · omega
          · right; exact h3
  refine ⟨?_, ?_, ?_, i.gaps, i.pos⟩
  · intro x v x' v' hx hx' hne
    rcases key x v hx with ⟨a, b⟩ | ⟨a, a2, b, c⟩ <;> rcases key x' v' hx' with ⟨a', b'⟩ | ⟨a', a2', b', c'⟩
    all_goals first | omega | exact i.disj x v x' v' b b' hne
  · intro a
    rw [i.cover]
    constructor
    · rintro ⟨x, v, hx, h1, h2⟩
      by_cases hxh : x = h
      · subst hxh
        rw [ht] at hx
        have hv : w = v := Option.some.inj hx
        exact ⟨x, w + w' + 1, by rw [if_pos rfl], h1, by omega⟩
      · by_cases hx2 : x = h + w + 1
        · subst hx2
          rw [ht'] at hx
          have hv : w' = v := Option.some.inj hx
          exact ⟨h, w + w' + 1, by rw [if_pos rfl], by omega, by omega⟩
        · exact ⟨x, v, by rw [if_neg hxh, if_neg hx2]; exact hx, h1, h2⟩
    · rintro ⟨x, v, hx, h1, h2⟩
      rcases key x v hx with ⟨e, f⟩ | ⟨_, _, e, _⟩
      · by_cases hlt : a ≤ h + w
        · exact ⟨h, w, ht, by omega, by omega⟩
        · exact ⟨_, w', ht', by omega, by omega⟩
      · exact ⟨x, v, e, h1, h2⟩
  · intro x v hx
    rcases key x v hx with ⟨e, f⟩ | ⟨_, _, e, _⟩
    · obtain ⟨c, hc, c1, c2⟩ := i.inside h w ht
      obtain ⟨d, hd, d1, d2⟩ := i.inside _ w' ht'
      by_cases hcd : c = d
      · subst hcd; exact ⟨c, hc, by omega, by omega⟩
      · rcases i.gaps c hc d hd hcd with h | h <;> omega
    · exact i.inside x v e

/-- a new chunk that is one block -/
theorem Tiling.grow {chunks T} (i : Tiling chunks T) {a n : Nat} (hn : 0 < n)
    (hg : ∀ c ∈ chunks, c.2 < a ∨ a + n < c.1) :
    Tiling ((a, a + n) :: chunks) (fun x => if x = a then some (n - 1) else T x) := by
  have sep : ∀ x v, T x = some v → x + v < a ∨ a + n < x := by
    intro x v hx
    obtain ⟨c, hc, c1, c2⟩ := i.inside x v hx
    rcases hg c hc with h | h <;> omega
  have key : ∀ x v, (if x = a then some (n - 1) else T x) = some v →
      (x = a ∧ v = n - 1) ∨ (x ≠ a ∧ T x = some v ∧ (x + v < a ∨ a + n < x)) := by
    intro x v hx
    by_cases h1 : x = a
    · rw [if_pos h1] at hx; left; exact ⟨h1, (Option.some.inj hx).symm⟩
    · rw [if_neg h1] at hx; right; exact ⟨h1, hx, sep x v hx⟩
  refine ⟨?_, ?_, ?_, ?_, ?_⟩
  · intro x v x' v' hx hx' hne
    rcases key x v hx with ⟨a, b⟩ | ⟨a, b, c⟩ <;> rcases key x' v' hx' with ⟨a', b'⟩ | ⟨a', b', c'⟩
    all_goals first | omega | exact i.disj x v x' v' b b' hne
  · intro y
    constructor
    · rintro ⟨c, hc, c1, c2⟩
      rcases List.mem_cons.mp hc with rfl | hc
      · exact ⟨a, n - 1, by rw [if_pos rfl], c1, by simp only at c2; omega⟩
      · obtain ⟨x, v, hx, h1, h2⟩ := (i.cover y).mp ⟨c, hc, c1, c2⟩
        have hs := sep x v hx
        refine ⟨x, v, ?_, h1, h2⟩
        rw [if_neg (by omega)]; exact hx
    · rintro ⟨x, v, hx, h1, h2⟩
      rcases key x v hx with ⟨e, f⟩ | ⟨_, e, _⟩
      · exact ⟨(a, a + n), by simp, by simp only; omega, by simp only; omega⟩
      · obtain ⟨c, hc, h⟩ := (i.cover y).mpr ⟨x, v, e, h1, h2⟩
        exact ⟨c, by simp [hc], h⟩
  · intro x v hx
    rcases key x v hx with ⟨e, f⟩ | ⟨_, e, _⟩
    · exact ⟨(a, a + n), by simp, by simp only; omega, by simp only; omega⟩
    · obtain ⟨c, hc, h⟩ := i.inside x v e
      exact ⟨c, by simp [hc], h⟩
  · intro c hc c' hc' hne
    rcases List.mem_cons.mp hc with rfl | hc <;> rcases List.mem_cons.mp hc' with rfl | hc'
    · exact absurd rfl hne
    · have := hg c' hc'; simp only; omega
    · have := hg c hc; simp only; omega
    · exact i.gaps c hc c' hc' hne
  · intro c hc
    rcases List.mem_cons.mp hc with rfl | hc
    · simp only; omega
    · exact i.pos c hc

end Mosml.Heap
