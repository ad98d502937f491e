import Verif.Sort.Arraysort

namespace Mosml.Sort.Arraysort
open Mosml.Maps (Lawful)

variable {A : Type} (d : A)

/-- the element at `i`; `d` out of bounds -/
def val (m : List A) (i : Int) : A := m.getD i.toNat d

theorem sub_val {m : List A} {i : Int} (h0 : 0 ≤ i) (h1 : i < m.length) : sub m i = some (val d m i) := by
  unfold sub val
  have : i.toNat < m.length := by omega
  rw [if_neg (by omega)]
  simp [List.getD, List.getElem?_eq_getElem this]

theorem upd_ok {m : List A} {i : Int} (x : A) (h0 : 0 ≤ i) (h1 : i < m.length) : upd m i x = some (m.set i.toNat x) := by
  unfold upd; rw [if_neg (by omega)]

theorem val_set {m : List A} {i : Int} (x : A) (h0 : 0 ≤ i) (h1 : i < m.length) (k : Int) (hk : 0 ≤ k) :
    val d (m.set i.toNat x) k = if k = i then x else val d m k := by
  unfold val
  have h2 : i.toNat < m.length := by omega
  by_cases e : k = i
  · subst e; simp [List.getD, h2]
  · have : i.toNat ≠ k.toNat := by omega
    rw [if_neg e]
    simp [List.getD, List.getElem?_set_ne this]

theorem swap_spec {m : List A} {i j : Int} (hi0 : 0 ≤ i) (hi1 : i < m.length) (hj0 : 0 ≤ j) (hj1 : j < m.length) :
    ∃ m', swap m i j = some m' ∧ m'.Perm m ∧
      ∀ k, 0 ≤ k → val d m' k = if k = i then val d m j else if k = j then val d m i else val d m k := by
  refine ⟨(m.set i.toNat (val d m j)).set j.toNat (val d m i), ?_, ?_, ?_⟩
  · unfold swap
    rw [sub_val d hi0 hi1, sub_val d hj0 hj1]
    show (upd m i (val d m j)).bind _ = _
    rw [upd_ok _ hi0 hi1]
    show upd (m.set i.toNat (val d m j)) j (val d m i) = _
    rw [upd_ok _ hj0 (by simpa using hj1)]
  · have h1 : i.toNat < m.length := by omega
    have h2 : j.toNat < m.length := by omega
    have e1 : val d m i = m[i.toNat] := by simp [val, List.getD, h1]
    have e2 : val d m j = m[j.toNat] := by simp [val, List.getD, h2]
    rw [e1, e2]
    exact List.set_set_perm h1 h2
  · intro k hk
    rw [val_set d _ hj0 (by simpa using hj1) k hk, val_set d _ hi0 hi1 k hk]
    by_cases e1 : k = i
    · by_cases e2 : k = j
      · subst e1; simp [e2]
      · simp [e1]
        intro e; exact absurd (e1.trans e) e2
    · simp [e1]

/-- `m'` is `m` with the elements at `lo .. hi-1` in another order -/
def Rearr (lo hi : Int) (m m' : List A) : Prop :=
  m'.Perm m ∧ ∃ s : Int → Int, (∀ i, ¬ (lo ≤ i ∧ i < hi) → s i = i) ∧ (∀ i, lo ≤ i ∧ i < hi → lo ≤ s i ∧ s i < hi) ∧
    ∀ i, 0 ≤ i → val d m' i = val d m (s i)

variable {d}

theorem Rearr.refl (lo hi : Int) (m : List A) : Rearr d lo hi m m := ⟨.refl _, id, by simp, by simp, by simp⟩

theorem Rearr.trans {lo hi : Int} {m m' m'' : List A} (h0 : 0 ≤ lo) (h1 : Rearr d lo hi m m') (h2 : Rearr d lo hi m' m'') : Rearr d lo hi m m'' := by
  obtain ⟨p1, s1, a1, b1, c1⟩ := h1
  obtain ⟨p2, s2, a2, b2, c2⟩ := h2
  refine ⟨p2.trans p1, fun i => s1 (s2 i), ?_, ?_, ?_⟩
  · intro i hi; simp only; rw [a2 i hi, a1 i hi]
  · intro i hi; exact b1 _ (b2 i hi)
  · intro i h0i
    rw [c2 i h0i, c1]
    by_cases hr : lo ≤ i ∧ i < hi
    · have := (b2 i hr).1; omega
    · rw [a2 i hr]; exact h0i

theorem Rearr.widen {lo hi lo' hi' : Int} {m m' : List A} (h : Rearr d lo hi m m') (h1 : lo' ≤ lo) (h2 : hi ≤ hi') : Rearr d lo' hi' m m' := by
  obtain ⟨p, s, a, b, c⟩ := h
  refine ⟨p, s, fun i hi => a i (by omega), ?_, c⟩
  intro i hr'
  by_cases hr : lo ≤ i ∧ i < hi
  · have := b i hr; omega
  · rw [a i hr]; exact hr'

theorem Rearr.len {lo hi : Int} {m m' : List A} (h : Rearr d lo hi m m') : m'.length = m.length := h.1.length_eq

theorem Rearr.out {lo hi : Int} {m m' : List A} (h : Rearr d lo hi m m') {i : Int} (h0 : 0 ≤ i) (hi : i < lo ∨ hi ≤ i) : val d m' i = val d m i := by
  obtain ⟨_, s, a, _, c⟩ := h
  rw [c i h0, a i (by omega)]

theorem Rearr.all {lo hi : Int} {m m' : List A} (h : Rearr d lo hi m m') (h0 : 0 ≤ lo) {P : A → Prop}
    (hp : ∀ i, lo ≤ i → i < hi → P (val d m i)) : ∀ i, lo ≤ i → i < hi → P (val d m' i) := by
  obtain ⟨_, s, _, b, c⟩ := h
  intro i h1 h2
  rw [c i (by omega)]
  exact hp _ (b i ⟨h1, h2⟩).1 (b i ⟨h1, h2⟩).2

theorem swap_rearr (d : A) {m : List A} {lo hi i j : Int} (h0 : 0 ≤ lo) (h1 : hi ≤ m.length) (hi0 : lo ≤ i) (hi1 : i < hi) (hj0 : lo ≤ j) (hj1 : j < hi) :
    ∃ m', swap m i j = some m' ∧ Rearr d lo hi m m' ∧
      ∀ k, 0 ≤ k → val d m' k = if k = i then val d m j else if k = j then val d m i else val d m k := by
  obtain ⟨m', a, b, c⟩ := swap_spec d (m := m) (i := i) (j := j) (by omega) (by omega) (by omega) (by omega)
  refine ⟨m', a, ⟨b, fun k => if k = i then j else if k = j then i else k, ?_, ?_, ?_⟩, c⟩
  · intro k hk
    simp only
    rw [if_neg (by omega), if_neg (by omega)]
  · intro k hk
    simp only
    split
    · omega
    · split <;> omega
  · intro k hk
    rw [c k hk]
    simp only
    split
    · rfl
    · split <;> rfl

theorem vecswapN_rearr (d : A) (n : Nat) : ∀ {m : List A} {lo hi i j : Int}, 0 ≤ lo → hi ≤ m.length → lo ≤ i → i + n ≤ j → j + n ≤ hi →
    ∃ m', vecswapN m i j n = some m' ∧ Rearr d lo hi m m' ∧
      (∀ k, 0 ≤ k → val d m' k = if i ≤ k ∧ k < i + n then val d m (k + j - i) else if j ≤ k ∧ k < j + n then val d m (k + i - j) else val d m k) := by
  induction n with
  | zero =>
    intro m lo hi i j h0 h1 h2 h3 h4
    refine ⟨m, rfl, .refl _ _ _, ?_⟩
    intro k hk
    rw [if_neg (by omega), if_neg (by omega)]
  | succ n ih =>
    intro m lo hi i j h0 h1 h2 h3 h4
    obtain ⟨m1, a1, b1, c1⟩ := swap_rearr d (m := m) (lo := lo) (hi := hi) (i := i) (j := j) h0 h1 (by omega) (by omega) (by omega) (by omega)
    obtain ⟨m2, a2, b2, c2⟩ := ih (m := m1) (lo := lo) (hi := hi) (i := i + 1) (j := j + 1) h0 (by rw [b1.len]; omega) (by omega) (by omega) (by omega)
    refine ⟨m2, ?_, b1.trans h0 b2, ?_⟩
    · simp only [vecswapN, a1]; exact a2
    · intro k hk
      rw [c2 k hk]
      by_cases k1 : i ≤ k ∧ k < i + (n + 1 : Nat)
      · rw [if_pos k1]
        by_cases e : k = i
        · rw [if_neg (by omega), if_neg (by omega), c1 k hk, if_pos e, e]; congr 1; omega
        · rw [if_pos (by omega), c1 _ (by omega), if_neg (by omega), if_neg (by omega)]; congr 1; omega
      · rw [if_neg k1]
        by_cases k2 : j ≤ k ∧ k < j + (n + 1 : Nat)
        · rw [if_pos k2]
          by_cases e : k = j
          · rw [if_neg (by omega), if_neg (by omega), c1 k hk, if_neg (by omega), if_pos e, e]; congr 1; omega
          · rw [if_neg (by omega), if_pos (by omega), c1 _ (by omega), if_neg (by omega), if_neg (by omega)]; congr 1; omega
        · rw [if_neg k2, if_neg (by omega), if_neg (by omega), c1 k hk, if_neg (by omega), if_neg (by omega)]

theorem vecswap_rearr (d : A) {m : List A} {lo hi i j n : Int} (h0 : 0 ≤ lo) (h1 : hi ≤ m.length) (h2 : lo ≤ i) (h3 : i + n ≤ j) (h4 : j + n ≤ hi) (h5 : 0 ≤ n) :
    ∃ m', vecswap m i j n = some m' ∧ Rearr d lo hi m m' ∧
      (∀ k, 0 ≤ k → val d m' k = if i ≤ k ∧ k < i + n then val d m (k + j - i) else if j ≤ k ∧ k < j + n then val d m (k + i - j) else val d m k) := by
  obtain ⟨m', a, b, c⟩ := vecswapN_rearr d n.toNat (m := m) (lo := lo) (hi := hi) (i := i) (j := j) h0 h1 h2 (by omega) (by omega)
  rw [Int.toNat_of_nonneg h5] at c
  exact ⟨m', by unfold vecswap; rw [if_neg (by omega)]; exact a, b, c⟩

variable {cmp : A → A → Ordering}

/-- the elements at `lo .. hi-1` are in nondecreasing order -/
def Srt (cmp : A → A → Ordering) (d : A) (lo hi : Int) (m : List A) : Prop :=
  ∀ i j, lo ≤ i → i < j → j < hi → cmp (val d m i) (val d m j) ≠ .gt

theorem inner_ok (h : Lawful cmp) (d : A) (fuel : Nat) : ∀ {m : List A} {start i j : Int}, 0 ≤ start → i < m.length → start ≤ j → j ≤ i →
    (j - start).toNat < fuel →
    (∀ k l, start ≤ k → k < l → l ≤ i → l ≠ j → cmp (val d m k) (val d m l) ≠ .gt) →
    ∃ m', inner cmp start m j fuel = some m' ∧ Rearr d start (i + 1) m m' ∧ Srt cmp d start (i + 1) m' := by
  induction fuel with
  | zero => intro m start i j _ _ _ _ hf; omega
  | succ fuel ih =>
    intro m start i j h0 h1 h2 h3 hf hs
    unfold inner
    by_cases e : j = start
    · rw [if_pos e]
      exact ⟨m, rfl, .refl _ _ _, fun k l a b c => hs k l a b (by omega) (by omega)⟩
    · rw [if_neg e]
      dsimp only
      rw [sub_val (i := j - 1) d (by omega) (by omega), sub_val (i := j) d (by omega) (by omega)]
      simp only [Option.bind_eq_bind, Option.bind_some]
      by_cases c : cmp (val d m (j - 1)) (val d m j) = .gt
      · rw [if_pos c]
        obtain ⟨m1, a1, b1, c1⟩ := swap_rearr d (m := m) (lo := start) (hi := i + 1) (i := j) (j := j - 1) h0 (by omega) (by omega) (by omega) (by omega) (by omega)
        rw [a1]
        simp only [Option.bind_some]
        have c' : cmp (val d m j) (val d m (j - 1)) = .lt := (h.gt_iff _ _).1 c
        obtain ⟨m2, a2, b2, c2⟩ := ih (m := m1) (start := start) (i := i) (j := j - 1) h0 (by rw [b1.len]; exact h1) (by omega) (by omega) (by omega) (by
          intro k l hk hkl hl hne
          rw [c1 k (by omega), c1 l (by omega)]
          by_cases lj : l = j
          · subst lj
            rw [if_neg (show k ≠ l by omega), if_pos rfl]
            by_cases kj : k = l - 1
            · rw [if_pos kj, c']; simp
            · rw [if_neg kj]; exact hs k (l - 1) hk (by omega) (by omega) (by omega)
          · rw [if_neg lj, if_neg hne]
            by_cases kj : k = j
            · rw [if_pos kj]; exact hs (j - 1) l (by omega) (by omega) hl lj
            · rw [if_neg kj]
              by_cases kj' : k = j - 1
              · rw [if_pos kj']; exact hs j l (by omega) (by omega) hl lj
              · rw [if_neg kj']; exact hs k l hk hkl hl lj)
        exact ⟨m2, a2, b1.trans h0 b2, c2⟩
      · rw [if_neg c]
        refine ⟨m, rfl, .refl _ _ _, ?_⟩
        intro k l a b c'
        by_cases lj : l = j
        · subst lj
          by_cases kj : k = l - 1
          · rw [kj]; exact c
          · exact h.trans _ _ _ (hs k (l - 1) a (by omega) (by omega) (by omega)) c
        · exact hs k l a b (by omega) lj

theorem outer_ok (h : Lawful cmp) (d : A) (k : Nat) : ∀ {m : List A} {start limit i : Int}, 0 ≤ start → limit ≤ m.length → start ≤ i → (limit - i).toNat = k →
    Srt cmp d start i m →
    ∃ m', outer cmp start limit m i = some m' ∧ Rearr d start limit m m' ∧ Srt cmp d start limit m' := by
  induction k with
  | zero =>
    intro m start limit i h0 h1 h2 hk hs
    unfold outer
    rw [if_pos (by omega)]
    exact ⟨m, rfl, .refl _ _ _, fun k l a b c => hs k l a b (by omega)⟩
  | succ k ih =>
    intro m start limit i h0 h1 h2 hk hs
    unfold outer
    rw [if_neg (by omega)]
    obtain ⟨m1, a1, b1, c1⟩ := inner_ok h d ((i - start).toNat + 1) (m := m) (start := start) (i := i) (j := i) h0 (by omega) h2 (by omega) (by omega)
      (fun k l a b c e => hs k l a b (by omega))
    rw [a1]
    simp only [Option.bind_eq_bind, Option.bind_some]
    obtain ⟨m2, a2, b2, c2⟩ := ih (m := m1) (start := start) (limit := limit) (i := i + 1) h0 (by rw [b1.len]; exact h1) (by omega) (by omega) c1
    exact ⟨m2, a2, (b1.widen (by omega) (by omega)).trans h0 b2, c2⟩

theorem insertSort_ok (h : Lawful cmp) (d : A) {m : List A} {start n : Int} (h0 : 0 ≤ start) (h1 : start + n ≤ m.length) :
    ∃ m', insertSort cmp m start n = some m' ∧ Rearr d start (start + n) m m' ∧ Srt cmp d start (start + n) m' :=
  outer_ok h d _ h0 h1 (by omega) rfl (fun k l a b c => by omega)

theorem med3_ok (d : A) {m : List A} {lo hi a b c : Int} (h0 : 0 ≤ lo) (h1 : hi ≤ m.length) (ha : lo ≤ a ∧ a < hi) (hb : lo ≤ b ∧ b < hi) (hc : lo ≤ c ∧ c < hi) :
    ∃ p, med3 cmp m a b c = some p ∧ lo ≤ p ∧ p < hi := by
  unfold med3
  rw [sub_val d (by omega) (by omega), sub_val d (by omega) (by omega), sub_val d (by omega) (by omega)]
  simp only [Option.bind_eq_bind, Option.bind_some]
  cases cmp (val d m a) (val d m b) <;> cases cmp (val d m b) (val d m c) <;> cases cmp (val d m a) (val d m c) <;> simp_all

theorem getPivot_ok (d : A) {m : List A} {a n : Int} (h0 : 0 ≤ a) (h1 : a + n ≤ m.length) (hn : 1 ≤ n) :
    ∃ p, getPivot cmp m a n = some p ∧ a ≤ p ∧ p < a + n := by
  unfold getPivot
  have e2 : n.fdiv 2 = n / 2 := Int.fdiv_eq_ediv_of_nonneg _ (by omega)
  have e8 : n.fdiv 8 = n / 8 := Int.fdiv_eq_ediv_of_nonneg _ (by omega)
  by_cases c : n ≤ 7
  · rw [if_pos c]; exact ⟨_, rfl, by omega, by omega⟩
  · rw [if_neg c]
    dsimp only
    by_cases c2 : n ≤ 40
    · rw [if_pos c2]
      exact med3_ok d h0 h1 (by omega) (by omega) (by omega)
    · rw [if_neg c2]
      obtain ⟨p1, q1, r1⟩ := med3_ok (cmp := cmp) d (m := m) (lo := a) (hi := a + n) (a := a) (b := a + n.fdiv 8) (c := a + 2 * n.fdiv 8) h0 h1 (by omega) (by omega) (by omega)
      obtain ⟨p2, q2, r2⟩ := med3_ok (cmp := cmp) d (m := m) (lo := a) (hi := a + n) (a := a + n.fdiv 2 - n.fdiv 8) (b := a + n.fdiv 2) (c := a + n.fdiv 2 + n.fdiv 8) h0 h1 (by omega) (by omega) (by omega)
      obtain ⟨p3, q3, r3⟩ := med3_ok (cmp := cmp) d (m := m) (lo := a) (hi := a + n) (a := a + n - 1 - 2 * n.fdiv 8) (b := a + n - 1 - n.fdiv 8) (c := a + n - 1) h0 h1 (by omega) (by omega) (by omega)
      rw [q1, q2, q3]
      simp only [Option.bind_eq_bind, Option.bind_some]
      exact med3_ok d h0 h1 r1 r2 r3

/-- the four zones during the partition around the element `v` at `a` -/
structure Zones (cmp : A → A → Ordering) (d : A) (a hi : Int) (v : A) (m : List A) (pa pb pc pd : Int) : Prop where
  l0 : a < pa
  l1 : pa ≤ pb
  l2 : pb ≤ pc + 1
  l3 : pc ≤ pd
  l4 : pd < hi
  len : hi ≤ m.length
  piv : val d m a = v
  eq1 : ∀ i, a ≤ i → i < pa → cmp (val d m i) v = .eq
  lt : ∀ i, pa ≤ i → i < pb → cmp (val d m i) v = .lt
  gt : ∀ i, pc < i → i ≤ pd → cmp (val d m i) v = .gt
  eq2 : ∀ i, pd < i → i < hi → cmp (val d m i) v = .eq

theorem bottom_ok (d : A) (k : Nat) : ∀ {m : List A} {a hi pa pb pc pd : Int} {v : A}, 0 ≤ a → Zones cmp d a hi v m pa pb pc pd → (pc + 1 - pb).toNat = k →
    ∃ m' pa' pb', bottom cmp a pc m pa pb = some (m', pa', pb') ∧ Rearr d a hi m m' ∧ Zones cmp d a hi v m' pa' pb' pc pd ∧ pb ≤ pb' ∧
      (pb' ≤ pc → cmp (val d m' pb') v = .gt) := by
  induction k with
  | zero =>
    intro m a hi pa pb pc pd v h0 z hk
    unfold bottom
    rw [if_pos (by omega)]
    exact ⟨m, pa, pb, rfl, .refl _ _ _, z, by omega, by omega⟩
  | succ k ih =>
    intro m a hi pa pb pc pd v h0 z hk
    have ⟨l0, l1, l2, l3, l4, len, piv, eq1, lt, gt, eq2⟩ := z
    unfold bottom
    rw [if_neg (by omega), sub_val d (by omega) (by omega), sub_val d (by omega) (by omega), piv]
    simp only [Option.bind_eq_bind, Option.bind_some]
    cases c : cmp (val d m pb) v with
    | gt => exact ⟨m, pa, pb, rfl, .refl _ _ _, z, by omega, fun _ => c⟩
    | lt =>
      dsimp only
      obtain ⟨m', pa', pb', r1, r2, r3, r4, r5⟩ := ih (m := m) (a := a) (hi := hi) (pa := pa) (pb := pb + 1) (pc := pc) (pd := pd) (v := v) h0
        ⟨l0, by omega, by omega, l3, l4, len, piv, eq1, (fun i h1 h2 => by
          by_cases e : i = pb
          · rw [e]; exact c
          · exact lt i h1 (by omega)), gt, eq2⟩ (by omega)
      exact ⟨m', pa', pb', r1, r2, r3, by omega, r5⟩
    | eq =>
      dsimp only
      obtain ⟨m1, a1, b1, c1⟩ := swap_rearr d (m := m) (lo := a) (hi := hi) (i := pa) (j := pb) h0 len (by omega) (by omega) (by omega) (by omega)
      rw [a1]
      simp only [Option.bind_some]
      obtain ⟨m', pa', pb', r1, r2, r3, r4, r5⟩ := ih (m := m1) (a := a) (hi := hi) (pa := pa + 1) (pb := pb + 1) (pc := pc) (pd := pd) (v := v) h0
        ⟨by omega, by omega, by omega, l3, l4, by rw [b1.len]; exact len,
          (by rw [c1 a h0, if_neg (by omega), if_neg (by omega)]; exact piv),
          (fun i h1 h2 => by
            rw [c1 i (by omega)]
            by_cases e : i = pa
            · rw [if_pos e]; exact c
            · rw [if_neg e, if_neg (by omega)]; exact eq1 i h1 (by omega)),
          (fun i h1 h2 => by
            rw [c1 i (by omega), if_neg (by omega)]
            by_cases e : i = pb
            · rw [if_pos e]; exact lt pa (by omega) (by omega)
            · rw [if_neg e]; exact lt i (by omega) (by omega)),
          (fun i h1 h2 => by rw [c1 i (by omega), if_neg (by omega), if_neg (by omega)]; exact gt i h1 h2),
          (fun i h1 h2 => by rw [c1 i (by omega), if_neg (by omega), if_neg (by omega)]; exact eq2 i h1 h2)⟩ (by omega)
      exact ⟨m', pa', pb', r1, b1.trans h0 r2, r3, by omega, r5⟩

theorem top_ok (d : A) (k : Nat) : ∀ {m : List A} {a hi pa pb pc pd : Int} {v : A}, 0 ≤ a → Zones cmp d a hi v m pa pb pc pd → (pc + 1 - pb).toNat = k →
    (pb ≤ pc → cmp (val d m pb) v = .gt) →
    ∃ m' pc' pd', top cmp a pb m pc pd = some (m', pc', pd') ∧ Rearr d a hi m m' ∧ Zones cmp d a hi v m' pa pb pc' pd' ∧ pc' ≤ pc ∧
      (pb ≤ pc' → cmp (val d m' pc') v = .lt) ∧ (pb ≤ pc' → cmp (val d m' pb) v = .gt) := by
  induction k with
  | zero =>
    intro m a hi pa pb pc pd v h0 z hk hb
    unfold top
    rw [if_pos (by omega)]
    exact ⟨m, pc, pd, rfl, .refl _ _ _, z, by omega, by omega, by omega⟩
  | succ k ih =>
    intro m a hi pa pb pc pd v h0 z hk hb
    have ⟨l0, l1, l2, l3, l4, len, piv, eq1, lt, gt, eq2⟩ := z
    unfold top
    rw [if_neg (by omega), sub_val d (by omega) (by omega), sub_val d (by omega) (by omega), piv]
    simp only [Option.bind_eq_bind, Option.bind_some]
    cases c : cmp (val d m pc) v with
    | lt => exact ⟨m, pc, pd, rfl, .refl _ _ _, z, by omega, fun _ => c, hb⟩
    | gt =>
      dsimp only
      obtain ⟨m', pa', pb', r1, r2, r3, r4, r5, r6⟩ := ih (m := m) (a := a) (hi := hi) (pa := pa) (pb := pb) (pc := pc - 1) (pd := pd) (v := v) h0
        ⟨l0, by omega, by omega, by omega, l4, len, piv, eq1, lt, (fun i h1 h2 => by
          by_cases e : i = pc
          · rw [e]; exact c
          · exact gt i (by omega) (by omega)), eq2⟩ (by omega) (fun _ => hb (by omega))
      exact ⟨m', pa', pb', r1, r2, r3, by omega, r5, r6⟩
    | eq =>
      dsimp only
      have hne : pb ≠ pc := by
        intro e
        have := hb (by omega)
        rw [e, c] at this; exact absurd this (by simp)
      obtain ⟨m1, a1, b1, c1⟩ := swap_rearr d (m := m) (lo := a) (hi := hi) (i := pc) (j := pd) h0 len (by omega) (by omega) (by omega) (by omega)
      rw [a1]
      simp only [Option.bind_some]
      obtain ⟨m', pa', pb', r1, r2, r3, r4, r5, r6⟩ := ih (m := m1) (a := a) (hi := hi) (pa := pa) (pb := pb) (pc := pc - 1) (pd := pd - 1) (v := v) h0
        ⟨by omega, by omega, by omega, by omega, by omega, by rw [b1.len]; exact len,
          (by rw [c1 a h0, if_neg (by omega), if_neg (by omega)]; exact piv),
          (fun i h1 h2 => by rw [c1 i (by omega), if_neg (by omega), if_neg (by omega)]; exact eq1 i h1 h2),
          (fun i h1 h2 => by rw [c1 i (by omega), if_neg (by omega), if_neg (by omega)]; exact lt i h1 h2),
          (fun i h1 h2 => by
            rw [c1 i (by omega)]
            by_cases e : i = pc
            · rw [if_pos e]; exact gt pd (by omega) (by omega)
            · rw [if_neg e, if_neg (by omega)]; exact gt i (by omega) (by omega)),
          (fun i h1 h2 => by
            rw [c1 i (by omega)]
            by_cases e : i = pc
            · rw [if_pos e]
              have : pd = pc := by omega
              rw [this]; exact c
            · rw [if_neg e]
              by_cases e' : i = pd
              · rw [if_pos e']; exact c
              · rw [if_neg e']; exact eq2 i (by omega) (by omega))⟩ (by omega)
        (fun _ => by rw [c1 pb (by omega), if_neg (by omega), if_neg (by omega)]; exact hb (by omega))
      exact ⟨m', pa', pb', r1, b1.trans h0 r2, r3, by omega, r5, r6⟩

theorem split_ok (d : A) (fuel : Nat) : ∀ {m : List A} {a hi pa pb pc pd : Int} {v : A}, 0 ≤ a → Zones cmp d a hi v m pa pb pc pd → (pc + 1 - pb).toNat < fuel →
    ∃ m' pa' pb' pd', split cmp a m pa pb pc pd fuel = some (m', pa', pb', pb' - 1, pd') ∧ Rearr d a hi m m' ∧ Zones cmp d a hi v m' pa' pb' (pb' - 1) pd' := by
  induction fuel with
  | zero => intro m a hi pa pb pc pd v h0 z hk; omega
  | succ fuel ih =>
    intro m a hi pa pb pc pd v h0 z hk
    obtain ⟨m1, pa1, pb1, e1, r1, z1, q1, c1⟩ := bottom_ok d _ h0 z rfl
    obtain ⟨m2, pc2, pd2, e2, r2, z2, q2, c2, c3⟩ := top_ok d _ h0 z1 rfl c1
    unfold split
    rw [e1]
    simp only [Option.bind_eq_bind, Option.bind_some]
    rw [e2]
    simp only [Option.bind_some]
    have ⟨l0, l1, l2, l3, l4, len, piv, eq1, lt, gt, eq2⟩ := z2
    by_cases c : pb1 > pc2
    · rw [if_pos c]
      have : pc2 = pb1 - 1 := by omega
      subst this
      exact ⟨m2, pa1, pb1, pd2, rfl, r1.trans h0 r2, z2⟩
    · rw [if_neg c]
      have c2 := c2 (by omega)
      have c3 := c3 (by omega)
      have hne : pb1 ≠ pc2 := by
        intro e
        rw [e, c2] at c3; exact absurd c3 (by simp)
      obtain ⟨m3, a3, b3, c4⟩ := swap_rearr d (m := m2) (lo := a) (hi := hi) (i := pb1) (j := pc2) h0 len (by omega) (by omega) (by omega) (by omega)
      rw [a3]
      simp only [Option.bind_some]
      obtain ⟨m', pa', pb', pd', s1, s2, s3⟩ := ih (m := m3) (a := a) (hi := hi) (pa := pa1) (pb := pb1 + 1) (pc := pc2 - 1) (pd := pd2) (v := v) h0
        ⟨l0, by omega, by omega, by omega, l4, by rw [b3.len]; exact len,
          (by rw [c4 a h0, if_neg (by omega), if_neg (by omega)]; exact piv),
          (fun i h1 h2 => by rw [c4 i (by omega), if_neg (by omega), if_neg (by omega)]; exact eq1 i h1 h2),
          (fun i h1 h2 => by
            rw [c4 i (by omega)]
            by_cases e : i = pb1
            · rw [if_pos e]; exact c2
            · rw [if_neg e, if_neg (by omega)]; exact lt i h1 (by omega)),
          (fun i h1 h2 => by
            rw [c4 i (by omega), if_neg (by omega)]
            by_cases e : i = pc2
            · rw [if_pos e]; exact c3
            · rw [if_neg e]; exact gt i (by omega) (by omega)),
          (fun i h1 h2 => by rw [c4 i (by omega), if_neg (by omega), if_neg (by omega)]; exact eq2 i h1 h2)⟩ (by omega)
      exact ⟨m', pa', pb', pd', s1, (r1.trans h0 r2).trans h0 (b3.trans h0 s2), s3⟩

theorem partition_ok (h : Lawful cmp) (d : A) {m : List A} {a n : Int} (h0 : 0 ≤ a) (h1 : a + n ≤ m.length) (hn : 1 ≤ n) :
    ∃ m' n1 n2 v, partition cmp m a n = some (m', n1, n2) ∧ Rearr d a (a + n) m m' ∧ 0 ≤ n1 ∧ 0 ≤ n2 ∧ n1 + n2 < n ∧
      (∀ i, a ≤ i → i < a + n1 → cmp (val d m' i) v = .lt) ∧ (∀ i, a + n1 ≤ i → i < a + n - n2 → cmp (val d m' i) v = .eq) ∧
      (∀ i, a + n - n2 ≤ i → i < a + n → cmp (val d m' i) v = .gt) := by
  obtain ⟨pm, e1, g1, g2⟩ := getPivot_ok (cmp := cmp) d h0 h1 hn
  obtain ⟨m1, e2, r2, c2⟩ := swap_rearr d (m := m) (lo := a) (hi := a + n) (i := a) (j := pm) h0 h1 (by omega) (by omega) g1 g2
  obtain ⟨m3, pa, pb, pd, e3, r3, z3⟩ := split_ok (cmp := cmp) d (n.toNat + 1) (m := m1) (a := a) (hi := a + n) (pa := a + 1) (pb := a + 1) (pc := a + (n - 1))
    (pd := a + (n - 1)) (v := val d m1 a) h0
    ⟨by omega, by omega, by omega, by omega, by omega, by rw [r2.len]; exact h1, rfl,
      (fun i k1 k2 => by have : i = a := by omega
                         rw [this]; exact h.refl _), (fun i k1 k2 => by omega), (fun i k1 k2 => by omega), (fun i k1 k2 => by omega)⟩ (by omega)
  generalize val d m1 a = v at z3
  have ⟨l0, l1, l2, l3, l4, len, piv, eq1, lt, gt, eq2⟩ := z3
  obtain ⟨m4, e4, r4, c4⟩ := vecswap_rearr d (m := m3) (lo := a) (hi := a + n) (i := a) (j := pb - min (pa - a) (pb - pa)) (n := min (pa - a) (pb - pa)) h0 len
    (by omega) (by omega) (by omega) (by omega)
  obtain ⟨m5, e5, r5, c5⟩ := vecswap_rearr d (m := m4) (lo := a) (hi := a + n) (i := pb) (j := a + n - min (pd - (pb - 1)) (a + n - pd - 1))
    (n := min (pd - (pb - 1)) (a + n - pd - 1)) h0 (by rw [r4.len]; exact len) (by omega) (by omega) (by omega) (by omega)
  refine ⟨m5, pb - pa, pd - (pb - 1), v, ?_, ((r2.trans h0 r3).trans h0 r4).trans h0 r5, by omega, by omega, by omega, ?_, ?_, ?_⟩
  · unfold partition
    rw [e1]
    simp only [Option.bind_eq_bind, Option.bind_some]
    rw [e2]
    simp only [Option.bind_some]
    rw [e3]
    simp only [Option.bind_some]
    rw [e4]
    simp only [Option.bind_some]
    rw [e5]
    simp only [Option.bind_some]
  · intro i k1 k2
    rw [c5 i (by omega), if_neg (by omega), if_neg (by omega), c4 i (by omega)]
    by_cases e : i < a + min (pa - a) (pb - pa)
    · rw [if_pos (by omega)]; exact lt _ (by omega) (by omega)
    · rw [if_neg (by omega), if_neg (by omega)]; exact lt _ (by omega) (by omega)
  · intro i k1 k2
    rw [c5 i (by omega)]
    by_cases e : i < pb
    · rw [if_neg (by omega), if_neg (by omega), c4 i (by omega), if_neg (by omega)]
      by_cases e' : pb - min (pa - a) (pb - pa) ≤ i
      · rw [if_pos (by omega)]; exact eq1 _ (by omega) (by omega)
      · rw [if_neg (by omega)]; exact eq1 _ (by omega) (by omega)
    · by_cases e' : i < pb + min (pd - (pb - 1)) (a + n - pd - 1)
      · rw [if_pos (by omega), c4 _ (by omega), if_neg (by omega), if_neg (by omega)]; exact eq2 _ (by omega) (by omega)
      · rw [if_neg (by omega), if_neg (by omega), c4 _ (by omega), if_neg (by omega), if_neg (by omega)]; exact eq2 _ (by omega) (by omega)
  · intro i k1 k2
    rw [c5 i (by omega), if_neg (by omega)]
    by_cases e' : a + n - min (pd - (pb - 1)) (a + n - pd - 1) ≤ i
    · rw [if_pos (by omega), c4 _ (by omega), if_neg (by omega), if_neg (by omega)]; exact gt _ (by omega) (by omega)
    · rw [if_neg (by omega), c4 _ (by omega), if_neg (by omega), if_neg (by omega)]; exact gt _ (by omega) (by omega)

theorem sortR_ok (h : Lawful cmp) (d : A) (fuel : Nat) : ∀ {m : List A} {a n : Int}, 0 ≤ a → a + n ≤ m.length → n < fuel → 0 < fuel →
    ∃ m', sortR cmp m a n fuel = some m' ∧ Rearr d a (a + n) m m' ∧ Srt cmp d a (a + n) m' := by
  induction fuel with
  | zero => intro m a n h0 h1 h2 h3; omega
  | succ fuel ih =>
    intro m a n h0 h1 h2 _
    unfold sortR
    by_cases c : n < 7
    · rw [if_pos c]; exact insertSort_ok h d h0 h1
    · rw [if_neg c]
      obtain ⟨m1, n1, n2, v, e1, r1, p1, p2, p3, z1, z2, z3⟩ := partition_ok h d h0 h1 (by omega)
      rw [e1]
      show ∃ m', ((if n1 > 1 then sortR cmp m1 a n1 fuel else some m1).bind
        fun m => if n2 > 1 then sortR cmp m (a + n - n2) n2 fuel else some m) = some m' ∧ _
      have s1 : ∃ m2, (if n1 > 1 then sortR cmp m1 a n1 fuel else some m1) = some m2 ∧ Rearr d a (a + n1) m1 m2 ∧ Srt cmp d a (a + n1) m2 := by
        by_cases c1 : n1 > 1
        · rw [if_pos c1]; exact ih h0 (by rw [r1.len]; omega) (by omega) (by omega)
        · rw [if_neg c1]; exact ⟨m1, rfl, .refl _ _ _, fun i j _ _ _ => by omega⟩
      obtain ⟨m2, e2, r2, q2⟩ := s1
      rw [e2]
      simp only [Option.bind_some]
      have s2 : ∃ m3, (if n2 > 1 then sortR cmp m2 (a + n - n2) n2 fuel else some m2) = some m3 ∧
          Rearr d (a + n - n2) (a + n) m2 m3 ∧ Srt cmp d (a + n - n2) (a + n) m3 := by
        by_cases c1 : n2 > 1
        · rw [if_pos c1]
          obtain ⟨m3, w1, w2, w3⟩ := ih (m := m2) (a := a + n - n2) (n := n2) (by omega) (by rw [r2.len, r1.len]; omega) (by omega) (by omega)
          rw [show a + n - n2 + n2 = a + n by omega] at w2 w3
          exact ⟨m3, w1, w2, w3⟩
        · rw [if_neg c1]; exact ⟨m2, rfl, .refl _ _ _, fun i j _ _ _ => by omega⟩
      obtain ⟨m3, e3, r3, q3⟩ := s2
      refine ⟨m3, e3, r1.trans h0 ((r2.widen (by omega) (by omega)).trans h0 (r3.widen (by omega) (by omega))), ?_⟩
      have y1 : ∀ i, a ≤ i → i < a + n1 → cmp (val d m3 i) v = .lt := fun i k1 k2 => by
        rw [r3.out (by omega) (by omega)]
        exact r2.all (P := fun x => cmp x v = .lt) h0 z1 i k1 k2
      have y2 : ∀ i, a + n1 ≤ i → i < a + n - n2 → cmp (val d m3 i) v = .eq := fun i k1 k2 => by
        rw [r3.out (by omega) (by omega), r2.out (by omega) (by omega)]; exact z2 i k1 k2
      have y3 : ∀ i, a + n - n2 ≤ i → i < a + n → cmp (val d m3 i) v = .gt := fun i k1 k2 => by
        refine r3.all (P := fun x => cmp x v = .gt) (by omega) ?_ i k1 k2
        intro i k1 k2
        rw [r2.out (by omega) (by omega)]; exact z3 i k1 k2
      intro i j k1 k2 k3
      by_cases ci : i < a + n1
      · by_cases cj : j < a + n1
        · rw [r3.out (by omega) (by omega), r3.out (by omega) (by omega)]; exact q2 i j k1 k2 cj
        · refine h.trans _ v _ (by rw [y1 i k1 ci]; simp) ?_
          by_cases cj' : j < a + n - n2
          · rw [h.eq_symm (y2 j (by omega) cj')]; simp
          · rw [(h.gt_iff _ _).1 (y3 j (by omega) k3)]; simp
      · by_cases ci' : i < a + n - n2
        · refine h.trans _ v _ (by rw [y2 i (by omega) ci']; simp) ?_
          by_cases cj' : j < a + n - n2
          · rw [h.eq_symm (y2 j (by omega) cj')]; simp
          · rw [(h.gt_iff _ _).1 (y3 j (by omega) k3)]; simp
        · exact q3 i j (by omega) k2 k3

/-- nondecreasing order -/
def Ordered (cmp : A → A → Ordering) (l : List A) : Prop := l.Pairwise (fun a b => cmp a b ≠ .gt)

/-- C42: for every array and every comparison that is a total preorder, `sort` comes to an end, makes no access out of bounds, and
leaves in the array its elements in nondecreasing order. -/
theorem C42_sort (h : Lawful cmp) (m : List A) : ∃ m', sort cmp m = some m' ∧ m'.Perm m ∧ Ordered cmp m' := by
  cases m with
  | nil =>
    refine ⟨[], ?_, .refl _, .nil⟩
    simp [sort, sortR, insertSort, outer]
  | cons x xs =>
    obtain ⟨m', e, r, s⟩ := sortR_ok h x ((x :: xs).length + 1) (m := x :: xs) (a := 0) (n := (x :: xs).length) (by omega) (by omega) (by omega) (by omega)
    refine ⟨m', e, r.1, ?_⟩
    refine List.pairwise_iff_getElem.mpr ?_
    intro i j hi hj hij
    have hl := r.len
    have := s i j (by omega) (by omega) (by omega)
    simpa [val, List.getD, hi, hj] using this

theorem sortedS_ok (h : Lawful cmp) (m : List A) (d : A) (k : Nat) : ∀ (i : Int), (m.length - i).toNat = k → 2 ≤ i → i ≤ m.length →
    ∃ b, sortedS cmp m (val d m (i - 2)) (val d m (i - 1)) i = some b ∧ (b = true ↔ Srt cmp d (i - 2) m.length m) := by
  induction k with
  | zero =>
    intro i hk h2 hl
    unfold sortedS
    by_cases c : cmp (val d m (i - 2)) (val d m (i - 1)) = .gt
    · rw [if_pos c]
      refine ⟨false, rfl, by simp, fun hs => absurd c (hs _ _ (by omega) (by omega) (by omega))⟩
    · rw [if_neg c, if_pos (by omega)]
      refine ⟨true, rfl, ?_⟩
      simp only [true_iff]
      intro a b h1 h3 h4
      have ea : a = i - 2 := by omega
      have eb : b = i - 1 := by omega
      rw [ea, eb]; exact c
  | succ k ih =>
    intro i hk h2 hl
    unfold sortedS
    by_cases c : cmp (val d m (i - 2)) (val d m (i - 1)) = .gt
    · rw [if_pos c]
      refine ⟨false, rfl, by simp, fun hs => absurd c (hs _ _ (by omega) (by omega) (by omega))⟩
    · rw [if_neg c, if_neg (by omega), sub_val d (by omega) (by omega)]
      simp only [Option.bind_eq_bind, Option.bind_some]
      obtain ⟨b, e1, e2⟩ := ih (i + 1) (by omega) (by omega) (by omega)
      rw [show i + 1 - 2 = i - 1 by omega, show i + 1 - 1 = i by omega] at e1
      rw [show i + 1 - 2 = i - 1 by omega] at e2
      refine ⟨b, e1, e2.trans ⟨?_, ?_⟩⟩
      · intro hs a b h1 h3 h4
        by_cases ea : a = i - 2
        · by_cases eb : b = i - 1
          · rw [ea, eb]; exact c
          · rw [ea]; exact h.trans _ _ _ c (hs (i - 1) b (by omega) (by omega) h4)
        · exact hs a b (by omega) h3 h4
      · intro hs a b h1 h3 h4
        exact hs a b (by omega) h3 h4

/-- C42: `sorted` makes no access out of bounds and decides whether the array is in nondecreasing order. -/
theorem C42_sorted (h : Lawful cmp) (m : List A) : ∃ b, sorted cmp m = some b ∧ (b = true ↔ Ordered cmp m) := by
  match m with
  | [] => exact ⟨true, rfl, by simp [Ordered]⟩
  | [x] => exact ⟨true, rfl, by simp [Ordered]⟩
  | x :: y :: zs =>
    obtain ⟨b, e1, e2⟩ := sortedS_ok h (x :: y :: zs) x _ 2 rfl (by omega) (by simp; omega)
    refine ⟨b, ?_, e2.trans ?_⟩
    · unfold sorted
      rw [if_neg (by simp), sub_val x (by omega) (by simp; omega), sub_val x (by omega) (by simp)]
      exact e1
    · constructor
      · intro s
        refine List.pairwise_iff_getElem.mpr ?_
        intro i j hi hj hij
        have := s i j (by omega) (by omega) (by omega)
        simpa only [val, List.getD, Int.toNat_natCast, List.getElem?_eq_getElem hi, List.getElem?_eq_getElem hj, Option.getD_some] using this
      · intro hp i j h1 h2 h3
        have := List.pairwise_iff_getElem.mp hp i.toNat j.toNat (by omega) (by omega) (by omega)
        have hi : i.toNat < (x :: y :: zs).length := by omega
        have hj : j.toNat < (x :: y :: zs).length := by omega
        simpa only [val, List.getD, List.getElem?_eq_getElem hi, List.getElem?_eq_getElem hj, Option.getD_some] using this

/-- an array with repetitions that goes through the partition, under a comparison for which different elements are EQUAL -/
example := C42_sort (Mosml.Maps.mod_lawful 10) [5, 7, 3, 13, 1, 5, 9, 8, 5, 15, 2]

end Mosml.Sort.Arraysort
