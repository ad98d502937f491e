import Verif.Yacc.Closure

/-!
C37: `closure` computes the LR(0) closure of its nucleus.
-/
namespace Mosml.Yacc.Closure

open Warshall (Mem wordsize row row_lt pos_row getD_set mask_bit mask_next col_word wordsize_pos)

variable (g : Gram)

/-! ### bits -/

/-- bit `k` of row `j`, for rows of `rs` words -/
def bitr (m : Mem) (rs j k : Nat) : Bool := (row m rs j (k / 32)).getLsbD (k % 32)

theorem setBit_spec (m : Mem) (R rs j k : Nat) (hm : m.length = R * rs) (hj : j < R) (hk : k / 32 < rs) :
    ∃ m', setBit m (j * rs) k = some m' ∧ m'.length = R * rs ∧
      ∀ j' k', k' / 32 < rs → (bitr m' rs j' k' = true ↔ bitr m rs j' k' = true ∨ (j' = j ∧ k' = k)) := by
  have hl := row_lt (rs := rs) hj
  have hp : j * rs + k / 32 < m.length := by omega
  refine ⟨m.set (j * rs + k / 32) (m[j * rs + k / 32] ||| ((1 : BitVec 32) <<< (k % 32))), ?_, by simp [hm], ?_⟩
  · unfold setBit; rw [List.getElem?_eq_getElem hp]
  · intro j' k' hk'
    have hg : m[j * rs + k / 32] = m.getD (j * rs + k / 32) 0 := by simp [List.getD, hp]
    unfold bitr row
    rw [getD_set _ _ _ _ hp, hg]
    by_cases c : j' * rs + k' / 32 = j * rs + k / 32
    · obtain ⟨e1, e2⟩ := pos_row (rs := rs) (j := j) (q := j * rs + k / 32) (by omega) (by omega) j' (k' / 32) hk' c.symm
      rw [if_pos c, ← c, e1]
      rw [BitVec.getLsbD_or, BitVec.getLsbD_shiftLeft]
      have hlt : k' % 32 < 32 := Nat.mod_lt _ (by omega)
      by_cases ck : k' = k
      · subst ck; simp [hlt]
      · have : k' % 32 ≠ k % 32 := by omega
        by_cases c2 : k' % 32 < k % 32
        · simp [c2, ck]
        · have : k' % 32 - k % 32 ≠ 0 := by omega
          simp [this, ck]
    · rw [if_neg c]
      constructor
      · exact .inl
      · rintro (h | ⟨rfl, rfl⟩)
        · exact h
        · exact absurd rfl c

/-! ### set_EFF -/

/-- variable `a` has a rule whose first symbol is variable `b` -/
def E (a b : Nat) : Prop := ∃ (r : Nat) (x : Int), g.rlhs[r]? = some ((g.start : Int) + a) ∧ g.rrhs[r]? = some x ∧ at? g.ritem x = some ((g.start : Int) + b)

theorem at_some {A : Type} {l : List A} {i : Int} (h1 : 0 ≤ i) (h2 : i < l.length) : ∃ a, at? l i = some a ∧ a ∈ l := by
  unfold at?
  rw [if_neg (by omega)]
  have : i.toNat < l.length := by omega
  exact ⟨l[i.toNat], by rw [List.getElem?_eq_getElem this], by simp⟩

theorem at_ofNat {A : Type} (l : List A) (n : Nat) : at? l (Int.ofNat n) = l[n]? := by
  unfold at?
  rw [if_neg (by simp)]
  simp

variable {g}

theorem effRules_spec (hv : Valid g) (R j : Nat) (hj : j < R) (L : List Nat) : ∀ (m : Mem), m.length = R * wordsize g.nvars →
    (∀ r ∈ L, 0 < r ∧ r < g.nrules) →
    ∃ m', effRules g (j * wordsize g.nvars) (L.map Int.ofNat ++ [-1]) m = some m' ∧ m'.length = R * wordsize g.nvars ∧
      ∀ j' k', k' < g.nvars → (bitr m' (wordsize g.nvars) j' k' = true ↔ bitr m (wordsize g.nvars) j' k' = true ∨
        (j' = j ∧ ∃ r ∈ L, ∃ x, g.rrhs[r]? = some x ∧ at? g.ritem x = some ((g.start : Int) + k'))) := by
  induction L with
  | nil =>
    intro m hm _
    refine ⟨m, by simp [effRules], hm, ?_⟩
    intro j' k' _
    simp
  | cons r L ih =>
    intro m hm hL
    obtain ⟨hr0, hr⟩ := hL r (by simp)
    have hrr : r < g.rrhs.length := lt_of_lt_of_le hr hv.rhsLen
    have hx := List.getElem?_eq_getElem hrr
    obtain ⟨hx1, hx2⟩ := hv.rhs r _ hx hr
    obtain ⟨s, hs, hsm⟩ := at_some hx1 hx2
    have hsn := hv.items s hsm
    have main : ∃ m1, (if ISVAR g s then setBit m (j * wordsize g.nvars) (s - g.start).toNat else some m : Option Mem) = some m1 ∧ m1.length = R * wordsize g.nvars ∧
        ∀ j' k', k' < g.nvars → (bitr m1 (wordsize g.nvars) j' k' = true ↔ bitr m (wordsize g.nvars) j' k' = true ∨ (j' = j ∧ s = (g.start : Int) + k')) := by
      by_cases c : (g.start : Int) ≤ s
      · have hlt : (s - g.start).toNat < g.nvars := by unfold Gram.nvars; have := hv.symbols; omega
        obtain ⟨m1, e1, e2, e3⟩ := setBit_spec m R _ j _ hm hj (col_word hlt)
        refine ⟨m1, by simp only [ISVAR, ge_iff_le, c, decide_true, if_true, e1], e2, ?_⟩
        intro j' k' hk'
        rw [e3 j' k' (col_word hk')]
        have : k' = (s - g.start).toNat ↔ s = (g.start : Int) + k' := by omega
        rw [this]
      · refine ⟨m, by simp only [ISVAR, ge_iff_le, c, decide_false, Bool.false_eq_true, if_false], hm, ?_⟩
        intro j' k' hk'
        have : ¬ (s = (g.start : Int) + k') := by omega
        simp only [this, and_false, or_false]
    obtain ⟨m1, e1, e2, e3⟩ := main
    obtain ⟨m', f1, f2, f3⟩ := ih m1 e2 (fun r' h => hL r' (by simp [h]))
    refine ⟨m', ?_, f2, ?_⟩
    · rw [List.map_cons, List.cons_append, effRules, if_pos (by simpa using hr0), at_ofNat, hx]
      show (at? g.ritem g.rrhs[r]).bind _ = _
      rw [hs, Option.bind_some]
      show Option.bind _ _ = _
      rw [e1]
      exact f1
    · intro j' k' hk'
      rw [f3 j' k' hk', e3 j' k' hk']
      constructor
      · rintro ((h | ⟨h1, h2⟩) | ⟨h1, r', h2, x, h3, h4⟩)
        · exact .inl h
        · exact .inr ⟨h1, r, by simp, _, hx, by rw [hs, h2]⟩
        · exact .inr ⟨h1, r', by simp [h2], x, h3, h4⟩
      · rintro (h | ⟨h1, r', h2, x, h3, h4⟩)
        · exact .inl (.inl h)
        · rcases List.mem_cons.1 h2 with rfl | h2
          · rw [hx] at h3
            cases h3
            rw [hs] at h4
            cases h4
            exact .inl (.inr ⟨h1, rfl⟩)
          · exact .inr ⟨h1, r', h2, x, h3, h4⟩

theorem mem_derives {lhs : Int} {r : Nat} : r ∈ (List.range g.nrules).filter (fun i => g.rlhs[i]? == some lhs) ↔ r < g.nrules ∧ g.rlhs[r]? = some lhs := by
  simp

theorem derives_pos (hv : Valid g) (a : Nat) : ∀ r ∈ (List.range g.nrules).filter (fun i => g.rlhs[i]? == some ((g.start : Int) + a)), 0 < r ∧ r < g.nrules := by
  intro r hr
  obtain ⟨h1, h2⟩ := mem_derives.1 hr
  refine ⟨?_, h1⟩
  rcases Nat.eq_zero_or_pos r with rfl | h
  · have := hv.first _ h2; omega
  · exact h

theorem lhs_lt (hv : Valid g) {r : Nat} {l : Int} (h : g.rlhs[r]? = some l) : r < g.nrules := by
  obtain ⟨h, _⟩ := List.getElem?_eq_some_iff.1 h
  rw [hv.lhsLen] at h; exact h

theorem effVars_spec (hv : Valid g) (d : Nat) : ∀ (i : Nat) (m : Mem), i + d = g.nvars → m.length = g.nvars * wordsize g.nvars →
    ∃ m', effVars g (wordsize g.nvars) d ((g.start : Int) + i) (i * wordsize g.nvars) m = some m' ∧ m'.length = g.nvars * wordsize g.nvars ∧
      ∀ j' k', k' < g.nvars → (bitr m' (wordsize g.nvars) j' k' = true ↔ bitr m (wordsize g.nvars) j' k' = true ∨ (i ≤ j' ∧ j' < g.nvars ∧ E g j' k')) := by
  induction d with
  | zero =>
    intro i m hi hm
    refine ⟨m, rfl, hm, ?_⟩
    intro j' k' _
    have : ¬ (i ≤ j' ∧ j' < g.nvars ∧ E g j' k') := by rintro ⟨h1, h2, _⟩; omega
    simp [this]
  | succ d ih =>
    intro i m hi hm
    obtain ⟨m1, e1, e2, e3⟩ := effRules_spec hv g.nvars i (by omega) _ m hm (derives_pos hv i)
    obtain ⟨m', f1, f2, f3⟩ := ih (i + 1) m1 (by omega) e2
    refine ⟨m', ?_, f2, ?_⟩
    · rw [effVars]
      unfold derives
      show Option.bind _ _ = _
      rw [e1]
      have : (i + 1) * wordsize g.nvars = i * wordsize g.nvars + wordsize g.nvars := by rw [Nat.add_mul]; omega
      rw [this] at f1
      push_cast at f1
      rw [← add_assoc] at f1
      exact f1
    · intro j' k' hk'
      rw [f3 j' k' hk', e3 j' k' hk']
      constructor
      · rintro ((h | ⟨h1, r, h2, x, h3, h4⟩) | ⟨h1, h2, h3⟩)
        · exact .inl h
        · subst h1
          exact .inr ⟨le_refl _, by omega, r, x, (mem_derives.1 h2).2, h3, h4⟩
        · exact .inr ⟨by omega, h2, h3⟩
      · rintro (h | ⟨h1, h2, h3⟩)
        · exact .inl (.inl h)
        · by_cases c : j' = i
          · subst c
            obtain ⟨r, x, h4, h5, h6⟩ := h3
            exact .inl (.inr ⟨rfl, r, mem_derives.2 ⟨lhs_lt hv h4, h4⟩, x, h5, h6⟩)
          · exact .inr ⟨by omega, h2, h3⟩

theorem bitr_zero (n rs j k : Nat) : bitr (List.replicate n 0) rs j k = false := by
  unfold bitr row
  have : (List.replicate n (0 : BitVec 32)).getD (j * rs + k / 32) 0 = 0 := by
    simp only [List.getD, List.getElem?_replicate]
    split <;> rfl
  rw [this]; simp

theorem E_lt (hv : Valid g) {a b : Nat} (h : E g a b) : a < g.nvars ∧ b < g.nvars := by
  obtain ⟨r, x, h1, h2, h3⟩ := h
  have hr := lhs_lt hv h1
  have ha := hv.lhs r _ h1
  obtain ⟨hx1, hx2⟩ := hv.rhs r x h2 hr
  obtain ⟨s, hs, hsm⟩ := at_some hx1 hx2
  rw [h3] at hs
  cases hs
  have hb := hv.items _ hsm
  unfold Gram.nvars
  constructor <;> omega

theorem set_EFF_spec (hv : Valid g) : ∃ m, set_EFF g = some m ∧ m.length = g.nvars * wordsize g.nvars ∧
    ∀ j k, j < g.nvars → k < g.nvars → (bitr m (wordsize g.nvars) j k = true ↔ Relation.ReflTransGen (E g) j k) := by
  obtain ⟨m1, e1, e2, e3⟩ := effVars_spec hv g.nvars 0 (List.replicate (g.nvars * wordsize g.nvars) 0) (by omega) (by simp)
  obtain ⟨m, f1, f2, f3⟩ := Warshall.C34_reflexive m1 g.nvars e2
  refine ⟨m, ?_, by rw [f2, e2], ?_⟩
  · unfold set_EFF
    simp only [Nat.zero_mul, Nat.cast_zero, add_zero] at e1
    show Option.bind _ _ = _
    rw [e1]
    exact f1
  · intro j k hj hk
    have hE : Warshall.Rel m1 g.nvars = E g := by
      funext a b
      apply propext
      constructor
      · rintro ⟨h1, h2, h3⟩
        rcases (e3 a b h2).1 h3 with h | h
        · rw [bitr_zero] at h; cases h
        · exact h.2.2
      · intro h
        obtain ⟨h1, h2⟩ := E_lt hv h
        exact ⟨h1, h2, (e3 a b h2).2 (.inr ⟨by omega, h1, h⟩)⟩
    have := f3 j k hj hk
    rw [hE] at this
    exact this

/-! ### set_first_derives -/

theorem fdRules_spec (R j : Nat) (hj : j < R) (L : List Nat) : ∀ (m : Mem), m.length = R * wordsize g.nrules → (∀ r ∈ L, r < g.nrules) →
    ∃ m', fdRules (j * wordsize g.nrules) (L.map Int.ofNat ++ [-1]) m = some m' ∧ m'.length = R * wordsize g.nrules ∧
      ∀ j' k', k' / 32 < wordsize g.nrules → (bitr m' (wordsize g.nrules) j' k' = true ↔ bitr m (wordsize g.nrules) j' k' = true ∨ (j' = j ∧ k' ∈ L)) := by
  induction L with
  | nil =>
    intro m hm _
    exact ⟨m, by simp [fdRules], hm, by simp⟩
  | cons r L ih =>
    intro m hm hL
    obtain ⟨m1, e1, e2, e3⟩ := setBit_spec m R _ j r hm hj (col_word (hL r (by simp)))
    obtain ⟨m', f1, f2, f3⟩ := ih m1 e2 (fun r' h => hL r' (by simp [h]))
    refine ⟨m', ?_, f2, ?_⟩
    · rw [List.map_cons, List.cons_append, fdRules, if_pos (by simp)]
      show Option.bind _ _ = _
      have : (Int.ofNat r).toNat = r := rfl
      rw [this, e1]
      exact f1
    · intro j' k' hk'
      rw [f3 j' k' hk', e3 j' k' hk', List.mem_cons]
      tauto

/-- variable `a` derives, from the left, a variable with rule `r` -/
def F (g : Gram) (a r : Nat) : Prop := ∃ b : Nat, Relation.ReflTransGen (E g) a b ∧ g.rlhs[r]? = some ((g.start : Int) + b)

theorem readEFF_lt {eff : Mem} {over : Option (BitVec 32)} {p : Nat} (h : p < eff.length) : readEFF eff over p = some (eff.getD p 0) := by
  unfold readEFF
  rw [if_neg (by omega)]
  simp [List.getD, h]

theorem fdCols_spec (hv : Valid g) (eff : Mem) (over : Option (BitVec 32)) (ho : over.isSome ∨ g.nvars % 32 ≠ 0)
    (hl : eff.length = g.nvars * wordsize g.nvars)
    (he : ∀ j k, j < g.nvars → k < g.nvars → (bitr eff (wordsize g.nvars) j k = true ↔ Relation.ReflTransGen (E g) j k))
    (i : Nat) (hi : i < g.nvars) (d : Nat) :
    ∀ (c : Nat) (cword : BitVec 32) (m : Mem), c + d = g.nvars → (c < g.nvars → cword = row eff (wordsize g.nvars) i (c / 32)) → m.length = g.nvars * wordsize g.nrules →
    ∃ m', fdCols g eff over (i * wordsize g.nrules) d ((g.start : Int) + c) (i * wordsize g.nvars + c / 32 + 1) cword ((1 : BitVec 32) <<< (c % 32)) m = some m' ∧
      m'.length = g.nvars * wordsize g.nrules ∧
      ∀ j' r, r / 32 < wordsize g.nrules → (bitr m' (wordsize g.nrules) j' r = true ↔ bitr m (wordsize g.nrules) j' r = true ∨
        (j' = i ∧ ∃ b, c ≤ b ∧ b < g.nvars ∧ Relation.ReflTransGen (E g) i b ∧ g.rlhs[r]? = some ((g.start : Int) + b))) := by
  induction d with
  | zero =>
    intro c cword m hc _ hm
    refine ⟨m, rfl, hm, ?_⟩
    intro j' r _
    constructor
    · exact .inl
    · rintro (h | ⟨_, b, h1, h2, _⟩)
      · exact h
      · omega
  | succ d ih =>
    intro c cword m hc hcw hm
    have hcn : c < g.nvars := by omega
    have hcw := hcw hcn
    have hlt : c % 32 < 32 := Nat.mod_lt _ (by omega)
    have main : ∃ m1, (if cword &&& ((1 : BitVec 32) <<< (c % 32)) ≠ 0 then fdRules (i * wordsize g.nrules) (derives g ((g.start : Int) + c)) m else some m : Option Mem) = some m1 ∧
        m1.length = g.nvars * wordsize g.nrules ∧
        ∀ j' r, r / 32 < wordsize g.nrules → (bitr m1 (wordsize g.nrules) j' r = true ↔ bitr m (wordsize g.nrules) j' r = true ∨
          (j' = i ∧ Relation.ReflTransGen (E g) i c ∧ g.rlhs[r]? = some ((g.start : Int) + c))) := by
      have hb : (cword &&& ((1 : BitVec 32) <<< (c % 32)) ≠ 0) ↔ Relation.ReflTransGen (E g) i c := by
        rw [mask_bit _ _ hlt, hcw]; exact he i c hi hcn
      by_cases cb : Relation.ReflTransGen (E g) i c
      · rw [if_pos (hb.2 cb)]
        obtain ⟨m1, e1, e2, e3⟩ := fdRules_spec (g := g) g.nvars i hi _ m hm (fun r h => (mem_derives.1 h).1)
        refine ⟨m1, e1, e2, ?_⟩
        intro j' r hr
        rw [e3 j' r hr, mem_derives]
        constructor
        · rintro (h | ⟨h1, h2, h3⟩)
          · exact .inl h
          · exact .inr ⟨h1, cb, h3⟩
        · rintro (h | ⟨h1, h2, h3⟩)
          · exact .inl h
          · exact .inr ⟨h1, lhs_lt hv h3, h3⟩
      · rw [if_neg (fun h => cb (hb.1 h))]
        exact ⟨m, rfl, hm, by intro j' r _; simp [cb]⟩
    obtain ⟨m1, e1, e2, e3⟩ := main
    have fin : ∀ m' : Mem, (∀ j' r, r / 32 < wordsize g.nrules → (bitr m' (wordsize g.nrules) j' r = true ↔ bitr m1 (wordsize g.nrules) j' r = true ∨
        (j' = i ∧ ∃ b, c + 1 ≤ b ∧ b < g.nvars ∧ Relation.ReflTransGen (E g) i b ∧ g.rlhs[r]? = some ((g.start : Int) + b)))) →
        ∀ j' r, r / 32 < wordsize g.nrules → (bitr m' (wordsize g.nrules) j' r = true ↔ bitr m (wordsize g.nrules) j' r = true ∨
        (j' = i ∧ ∃ b, c ≤ b ∧ b < g.nvars ∧ Relation.ReflTransGen (E g) i b ∧ g.rlhs[r]? = some ((g.start : Int) + b))) := by
      intro m' h j' r hr
      rw [h j' r hr, e3 j' r hr]
      constructor
      · rintro ((h | ⟨h1, h2, h3⟩) | ⟨h1, b, h2, h3⟩)
        · exact .inl h
        · exact .inr ⟨h1, c, le_refl _, hcn, h2, h3⟩
        · exact .inr ⟨h1, b, by omega, h3⟩
      · rintro (h | ⟨h1, b, h2, h3, h4, h5⟩)
        · exact .inl (.inl h)
        · by_cases cb : b = c
          · subst cb; exact .inl (.inr ⟨h1, h4, h5⟩)
          · exact .inr ⟨h1, b, by omega, h3, h4, h5⟩
    obtain ⟨n1, n2⟩ := mask_next (c % 32) hlt
    have hcast : (g.start : Int) + c + 1 = (g.start : Int) + ((c + 1 : Nat) : Int) := by push_cast; ring
    have hil := row_lt (rs := wordsize g.nvars) hi
    rw [fdCols]
    show ∃ m', Option.bind _ _ = _ ∧ _
    rw [e1, Option.bind_some]
    dsimp only
    rw [n1, hcast]
    by_cases c1 : c % 32 = 31
    · rw [if_pos c1, if_pos rfl]
      have g1 : (c + 1) / 32 = c / 32 + 1 := by omega
      have g2 : (c + 1) % 32 = 0 := by omega
      have rd : ∃ w, readEFF eff over (i * wordsize g.nvars + c / 32 + 1) = some w ∧ (c + 1 < g.nvars → w = row eff (wordsize g.nvars) i ((c + 1) / 32)) := by
        by_cases c2 : c + 1 < g.nvars
        · have := col_word c2
          refine ⟨_, readEFF_lt (by omega), ?_⟩
          intro _
          unfold row
          rw [g1, add_assoc]
        · by_cases c3 : i * wordsize g.nvars + c / 32 + 1 < eff.length
          · exact ⟨_, readEFF_lt c3, fun h => absurd h c2⟩
          · have hle : i * wordsize g.nvars + c / 32 + 1 = eff.length := by
              have := col_word hcn
              omega
            have : over.isSome := by
              rcases ho with h | h
              · exact h
              · omega
            obtain ⟨w, hw⟩ := Option.isSome_iff_exists.1 this
            refine ⟨w, ?_, fun h => absurd h c2⟩
            unfold readEFF
            rw [if_pos hle, hw]
      obtain ⟨w, hw1, hw2⟩ := rd
      obtain ⟨m', f1, f2, f3⟩ := ih (c + 1) w m1 (by omega) hw2 e2
      refine ⟨m', ?_, f2, fin m' f3⟩
      rw [hw1]
      rw [g1, g2] at f1
      exact f1
    · rw [if_neg c1, if_neg (by rw [n2]; omega)]
      have g1 : (c + 1) / 32 = c / 32 := by omega
      have g2 : (c + 1) % 32 = c % 32 + 1 := by omega
      obtain ⟨m', f1, f2, f3⟩ := ih (c + 1) cword m1 (by omega) (fun _ => by rw [g1]; exact hcw) e2
      refine ⟨m', ?_, f2, fin m' f3⟩
      rw [g1, g2] at f1
      exact f1

theorem fdRows_spec (hv : Valid g) (eff : Mem) (over : Option (BitVec 32)) (ho : over.isSome ∨ g.nvars % 32 ≠ 0)
    (hl : eff.length = g.nvars * wordsize g.nvars)
    (he : ∀ j k, j < g.nvars → k < g.nvars → (bitr eff (wordsize g.nvars) j k = true ↔ Relation.ReflTransGen (E g) j k))
    (d : Nat) : ∀ (i : Nat) (m : Mem), i + d = g.nvars → m.length = g.nvars * wordsize g.nrules →
    ∃ m', fdRows g eff over d i (i * wordsize g.nrules) m = some m' ∧ m'.length = g.nvars * wordsize g.nrules ∧
      ∀ j' r, j' < g.nvars → r / 32 < wordsize g.nrules → (bitr m' (wordsize g.nrules) j' r = true ↔ bitr m (wordsize g.nrules) j' r = true ∨ (i ≤ j' ∧ F g j' r)) := by
  induction d with
  | zero =>
    intro i m hi hm
    refine ⟨m, rfl, hm, ?_⟩
    intro j' r hj' _
    have : ¬ (i ≤ j') := by omega
    simp [this]
  | succ d ih =>
    intro i m hi hm
    have hin : i < g.nvars := by omega
    have hil := row_lt (rs := wordsize g.nvars) hin
    have hwp := wordsize_pos (n := g.nvars) (by omega)
    obtain ⟨m1, e1, e2, e3⟩ := fdCols_spec hv eff over ho hl he i hin g.nvars 0 (row eff (wordsize g.nvars) i 0) m (by omega) (fun _ => rfl) hm
    obtain ⟨m', f1, f2, f3⟩ := ih (i + 1) m1 (by omega) e2
    refine ⟨m', ?_, f2, ?_⟩
    · rw [fdRows]
      show Option.bind _ _ = _
      rw [readEFF_lt (by omega), Option.bind_some]
      show Option.bind _ _ = _
      simp only [Nat.cast_zero, add_zero, Nat.zero_div, Nat.zero_mod, BitVec.shiftLeft_zero, row] at e1
      rw [e1, Option.bind_some]
      have : (i + 1) * wordsize g.nrules = i * wordsize g.nrules + wordsize g.nrules := by rw [Nat.add_mul]; omega
      rw [this] at f1
      exact f1
    · intro j' r hj' hr
      rw [f3 j' r hj' hr, e3 j' r hr]
      constructor
      · rintro ((h | ⟨rfl, b, _, _, h1, h2⟩) | ⟨h1, h2⟩)
        · exact .inl h
        · exact .inr ⟨le_refl _, b, h1, h2⟩
        · exact .inr ⟨by omega, h2⟩
      · rintro (h | ⟨h1, h2⟩)
        · exact .inl (.inl h)
        · by_cases c : j' = i
          · subst c
            obtain ⟨b, h3, h4⟩ := h2
            have := hv.lhs r _ h4
            exact .inl (.inr ⟨rfl, b, by omega, by unfold Gram.nvars; omega, h3, h4⟩)
          · exact .inr ⟨by omega, h2⟩

theorem set_first_derives_spec (hv : Valid g) (over : Option (BitVec 32)) (ho : over.isSome ∨ g.nvars % 32 ≠ 0) :
    ∃ fd, set_first_derives g over = some fd ∧ fd.length = g.nvars * wordsize g.nrules ∧
      ∀ a r, a < g.nvars → r / 32 < wordsize g.nrules → (bitr fd (wordsize g.nrules) a r = true ↔ F g a r) := by
  obtain ⟨eff, e1, e2, e3⟩ := set_EFF_spec hv
  obtain ⟨fd, f1, f2, f3⟩ := fdRows_spec hv eff over ho e2 e3 g.nvars 0 (List.replicate (g.nvars * wordsize g.nrules) 0) (by omega) (by simp)
  refine ⟨fd, ?_, f2, ?_⟩
  · unfold set_first_derives
    show Option.bind _ _ = _
    rw [e1, Option.bind_some]
    rw [Nat.zero_mul] at f1
    exact f1
  · intro a r ha hr
    rw [f3 a r ha hr, bitr_zero]
    simp

/-! ### the rule set -/

theorem orRuleset_spec (fd : Mem) (rs : List (BitVec 32)) : ∀ dsp, dsp + rs.length ≤ fd.length →
    ∃ rs', orRuleset fd rs dsp = some rs' ∧ rs'.length = rs.length ∧ ∀ w, w < rs.length → rs'.getD w 0 = rs.getD w 0 ||| fd.getD (dsp + w) 0 := by
  induction rs with
  | nil => intro dsp _; exact ⟨[], rfl, rfl, by simp⟩
  | cons a rs ih =>
    intro dsp h
    simp only [List.length_cons] at h
    obtain ⟨r, e1, e2, e3⟩ := ih (dsp + 1) (by omega)
    have hd : dsp < fd.length := by omega
    refine ⟨(a ||| fd[dsp]) :: r, ?_, by simp [e2], ?_⟩
    · rw [orRuleset, List.getElem?_eq_getElem hd]
      show Option.bind _ _ = _
      rw [e1]
      rfl
    · intro w hw
      cases w with
      | zero => simp [List.getD, hd]
      | succ w =>
        simp only [List.length_cons] at hw
        have := e3 w (by omega)
        rw [show dsp + (w + 1) = dsp + 1 + w by omega]
        simpa [List.getD] using this

/-- bit `r` of the rule set -/
def rbit (rs : List (BitVec 32)) (r : Nat) : Bool := (rs.getD (r / 32) 0).getLsbD (r % 32)

theorem nucLoop_spec (hv : Valid g) (fd : Mem) (hl : fd.length = g.nvars * wordsize g.nrules) (csp : List Int) :
    ∀ rs, (∀ x ∈ csp, 0 ≤ x ∧ x < g.ritem.length) → rs.length = wordsize g.nrules →
    ∃ rs', nucLoop g fd csp rs = some rs' ∧ rs'.length = wordsize g.nrules ∧
      ∀ r, r / 32 < wordsize g.nrules → (rbit rs' r = true ↔ rbit rs r = true ∨
        ∃ c ∈ csp, ∃ a : Nat, a < g.nvars ∧ at? g.ritem c = some ((g.start : Int) + a) ∧ bitr fd (wordsize g.nrules) a r = true) := by
  induction csp with
  | nil => intro rs _ hrs; exact ⟨rs, rfl, hrs, by simp⟩
  | cons c csp ih =>
    intro rs hx hrs
    obtain ⟨hx1, hx2⟩ := hx c (by simp)
    obtain ⟨s, hs, hsm⟩ := at_some hx1 hx2
    have hsn := hv.items s hsm
    have main : ∃ rs1, (if ISVAR g s then orRuleset fd rs ((s - g.start).toNat * wordsize g.nrules) else some rs : Option _) = some rs1 ∧
        rs1.length = wordsize g.nrules ∧ ∀ r, r / 32 < wordsize g.nrules → (rbit rs1 r = true ↔ rbit rs r = true ∨
          ∃ a : Nat, a < g.nvars ∧ s = (g.start : Int) + a ∧ bitr fd (wordsize g.nrules) a r = true) := by
      by_cases cs : (g.start : Int) ≤ s
      · have hlt : (s - g.start).toNat < g.nvars := by unfold Gram.nvars; have := hv.symbols; omega
        have hrow := row_lt (rs := wordsize g.nrules) hlt
        obtain ⟨rs1, e1, e2, e3⟩ := orRuleset_spec fd rs ((s - g.start).toNat * wordsize g.nrules) (by omega)
        refine ⟨rs1, by simp only [ISVAR, ge_iff_le, cs, decide_true, if_true, e1], by omega, ?_⟩
        intro r hr
        unfold rbit
        rw [e3 _ (by omega), BitVec.getLsbD_or, Bool.or_eq_true]
        apply or_congr Iff.rfl
        constructor
        · intro h
          exact ⟨_, hlt, by omega, h⟩
        · rintro ⟨a, _, h2, h3⟩
          have : (s - g.start).toNat = a := by omega
          rw [this]; exact h3
      · refine ⟨rs, by simp only [ISVAR, ge_iff_le, cs, decide_false, Bool.false_eq_true, if_false], hrs, ?_⟩
        intro r _
        constructor
        · exact .inl
        · rintro (h | ⟨a, _, h2, _⟩)
          · exact h
          · omega
    obtain ⟨rs1, e1, e2, e3⟩ := main
    obtain ⟨rs', f1, f2, f3⟩ := ih rs1 (fun x h => hx x (by simp [h])) e2
    refine ⟨rs', ?_, f2, ?_⟩
    · rw [nucLoop]
      show Option.bind _ _ = _
      rw [hs, Option.bind_some]
      show Option.bind _ _ = _
      rw [e1]
      exact f1
    · intro r hr
      rw [f3 r hr, e3 r hr]
      constructor
      · rintro ((h | ⟨a, h1, h2, h3⟩) | ⟨c', h1, h2⟩)
        · exact .inl h
        · exact .inr ⟨c, by simp, a, h1, by rw [hs, h2], h3⟩
        · exact .inr ⟨c', by simp [h1], h2⟩
      · rintro (h | ⟨c', h1, a, h2, h3, h4⟩)
        · exact .inl (.inl h)
        · rcases List.mem_cons.1 h1 with rfl | h1
          · rw [hs] at h3; cases h3
            exact .inl (.inr ⟨a, h2, rfl, h4⟩)
          · exact .inr ⟨c', h1, a, h2, h3, h4⟩

/-! ### merging -/

theorem copyLess_spec (x : Int) (csp : List Int) : ∀ out, ∃ l, copyLess x csp out = (l, out ++ csp.takeWhile (fun c => c < x)) ∧ csp = csp.takeWhile (fun c => c < x) ++ l ∧
    (csp.Pairwise (· < ·) → ∀ c ∈ l, x ≤ c) := by
  induction csp with
  | nil => intro out; exact ⟨[], by simp [copyLess], by simp, by simp⟩
  | cons c csp ih =>
    intro out
    rw [copyLess]
    by_cases h : c < x
    · rw [if_pos h]
      obtain ⟨l, e1, e2, e3⟩ := ih (out ++ [c])
      refine ⟨l, ?_, ?_, ?_⟩
      · rw [e1, List.takeWhile_cons_of_pos (by simpa using h)]; simp
      · rw [List.takeWhile_cons_of_pos (by simpa using h), List.cons_append, ← e2]
      · intro hp; exact e3 (List.pairwise_cons.1 hp).2
    · rw [if_neg h]
      refine ⟨c :: csp, ?_, ?_, ?_⟩
      · rw [List.takeWhile_cons_of_neg (by simpa using h)]; simp
      · rw [List.takeWhile_cons_of_neg (by simpa using h)]; simp
      · intro hp d hd
        rcases List.mem_cons.1 hd with rfl | hd
        · omega
        · have := (List.pairwise_cons.1 hp).1 d hd; omega

theorem skipEq_spec (x : Int) (l : List Int) (hp : l.Pairwise (· < ·)) (hx : ∀ c ∈ l, x ≤ c) :
    (skipEq x l).Pairwise (· < ·) ∧ (∀ c, c ∈ skipEq x l ↔ c ∈ l ∧ x < c) := by
  induction l with
  | nil => simp [skipEq]
  | cons c l ih =>
    obtain ⟨h1, h2⟩ := List.pairwise_cons.1 hp
    rw [skipEq]
    by_cases e : c = x
    · rw [if_pos e]
      obtain ⟨g1, g2⟩ := ih h2 (fun d hd => hx d (by simp [hd]))
      refine ⟨g1, ?_⟩
      intro d
      rw [g2, List.mem_cons]
      subst e
      constructor
      · rintro ⟨a, b⟩; exact ⟨.inr a, b⟩
      · rintro ⟨rfl | a, b⟩
        · omega
        · exact ⟨a, b⟩
    · rw [if_neg e]
      refine ⟨hp, ?_⟩
      have hc := hx c (by simp)
      intro d
      constructor
      · intro hd
        refine ⟨hd, ?_⟩
        rcases List.mem_cons.1 hd with rfl | hd
        · omega
        · have := h1 d hd; omega
      · exact fun h => h.1

/-- after the rules below `ruleno`: `out` and `csp` are increasing, and have the elements of the nucleus and of the rules in the set -/
structure Inv (g : Gram) (nucleus : List Int) (S : Nat → Prop) (ruleno : Nat) (csp out : List Int) : Prop where
  sorted : (out ++ csp).Pairwise (· < ·)
  mem : ∀ x, x ∈ out ++ csp ↔ x ∈ nucleus ∨ ∃ r, r < ruleno ∧ S r ∧ g.rrhs[r]? = some x
  low : ∀ x ∈ out, ∃ r y, r < ruleno ∧ S r ∧ g.rrhs[r]? = some y ∧ x ≤ y

theorem inv_skip {nucleus : List Int} {S : Nat → Prop} {ruleno : Nat} {csp out : List Int} (h : Inv g nucleus S ruleno csp out) (hs : ¬ S ruleno) : Inv g nucleus S (ruleno + 1) csp out where
  sorted := h.sorted
  mem := by
    intro x
    rw [h.mem x]
    apply or_congr Iff.rfl
    constructor
    · rintro ⟨r, h1, h2⟩; exact ⟨r, by omega, h2⟩
    · rintro ⟨r, h1, h2, h3⟩
      refine ⟨r, ?_, h2, h3⟩
      by_cases e : r = ruleno
      · subst e; exact absurd h2 hs
      · omega
  low := by
    intro x hx
    obtain ⟨r, y, h1, h2⟩ := h.low x hx
    exact ⟨r, y, by omega, h2⟩

theorem inv_step {nucleus : List Int} {S : Nat → Prop} {ruleno : Nat} {csp out : List Int} {x : Int} (h : Inv g nucleus S ruleno csp out) (hs : S ruleno)
    (hx : g.rrhs[ruleno]? = some x) (hm : ∀ r y, r < ruleno → S r → g.rrhs[r]? = some y → y < x) :
    Inv g nucleus S (ruleno + 1) (skipEq x (copyLess x csp out).1) ((copyLess x csp out).2 ++ [x]) := by
  obtain ⟨l, e1, e2, e3⟩ := copyLess_spec x csp out
  rw [e1]
  dsimp only
  have hso := List.pairwise_append.1 h.sorted
  have e3 := e3 hso.2.1
  generalize ht : csp.takeWhile (fun c => c < x) = t at *
  have htl : ∀ c ∈ t, c < x := by
    intro c hc
    rw [← ht] at hc
    have := List.all_takeWhile (p := fun c => decide (c < x)) (l := csp)
    rw [List.all_eq_true] at this
    simpa using this c hc
  have hl : l.Pairwise (· < ·) := by
    have := hso.2.1
    rw [e2] at this
    exact (List.pairwise_append.1 this).2.1
  obtain ⟨k1, k2⟩ := skipEq_spec x l hl e3
  have hox : ∀ c ∈ out, c < x := by
    intro c hc
    obtain ⟨r, y, h1, h2, h3, h4⟩ := h.low c hc
    have := hm r y h1 h2 h3
    omega
  refine ⟨?_, ?_, ?_⟩
  · have ho : (out ++ t).Pairwise (· < ·) := by
      have := h.sorted
      rw [e2, ← List.append_assoc] at this
      exact (List.pairwise_append.1 this).1
    have hot : ∀ c ∈ out ++ t, c < x := by
      intro c hc
      rcases List.mem_append.1 hc with hc | hc
      · exact hox c hc
      · exact htl c hc
    rw [List.pairwise_append, List.pairwise_append]
    refine ⟨⟨ho, by simp, ?_⟩, k1, ?_⟩
    · intro a ha b hb
      simp only [List.mem_singleton] at hb
      subst hb
      exact hot a ha
    · intro a ha b hb
      have hb' := ((k2 b).1 hb).2
      rcases List.mem_append.1 ha with ha | ha
      · have := hot a ha; omega
      · simp only [List.mem_singleton] at ha; omega
  · intro c
    have hc := h.mem c
    rw [e2] at hc
    simp only [List.mem_append, List.mem_singleton, k2] at hc ⊢
    constructor
    · rintro (((h1 | h1) | h1) | ⟨h1, _⟩)
      · rcases hc.1 (.inl h1) with h | ⟨r, h2, h3⟩
        · exact .inl h
        · exact .inr ⟨r, by omega, h3⟩
      · rcases hc.1 (.inr (.inl h1)) with h | ⟨r, h2, h3⟩
        · exact .inl h
        · exact .inr ⟨r, by omega, h3⟩
      · subst h1; exact .inr ⟨ruleno, by omega, hs, hx⟩
      · rcases hc.1 (.inr (.inr h1)) with h | ⟨r, h2, h3⟩
        · exact .inl h
        · exact .inr ⟨r, by omega, h3⟩
    · intro hh
      have old : (c ∈ nucleus ∨ ∃ r, r < ruleno ∧ S r ∧ g.rrhs[r]? = some c) ∨ c = x := by
        rcases hh with h1 | ⟨r, h1, h2, h3⟩
        · exact .inl (.inl h1)
        · by_cases e : r = ruleno
          · subst e; rw [hx] at h3; cases h3; exact .inr rfl
          · exact .inl (.inr ⟨r, by omega, h2, h3⟩)
      rcases old with ho | ho
      · rcases hc.2 ho with h1 | h1 | h1
        · exact .inl (.inl (.inl h1))
        · exact .inl (.inl (.inr h1))
        · have := e3 c h1
          by_cases e : c = x
          · exact .inl (.inr e)
          · exact .inr ⟨h1, by omega⟩
      · exact .inl (.inr ho)
  · intro c hc
    refine ⟨ruleno, x, by omega, hs, hx, ?_⟩
    simp only [List.mem_append, List.mem_singleton] at hc
    rcases hc with (hc | hc) | hc
    · have := hox c hc; omega
    · have := htl c hc; omega
    · omega

/-- the rules of the set are below `nrules`, and in the order of their items -/
structure SetOk (g : Gram) (S : Nat → Prop) : Prop where
  lt : ∀ r, S r → r < g.rrhs.length
  mono : ∀ r r' y y', r < r' → S r → S r' → g.rrhs[r]? = some y → g.rrhs[r']? = some y' → y < y'

theorem bitLoop_spec {nucleus : List Int} {S : Nat → Prop} (hS : SetOk g S) (word : BitVec 32) (base d : Nat) : ∀ (b : Nat) (csp out : List Int), b + d = 32 →
    (∀ k, k < 32 → (word.getLsbD k = true ↔ S (base + k))) → Inv g nucleus S (base + b) csp out →
    ∃ csp' out', bitLoop g word (d + 1) ((1 : BitVec 32) <<< b) (base + b) csp out = some (base + 32, csp', out') ∧ Inv g nucleus S (base + 32) csp' out' := by
  induction d with
  | zero =>
    intro b csp out hb hw hi
    have : b = 32 := by omega
    subst this
    refine ⟨csp, out, ?_, hi⟩
    rw [bitLoop, if_neg (by decide)]
  | succ d ih =>
    intro b csp out hb hw hi
    have hb32 : b < 32 := by omega
    have hnz : (1 : BitVec 32) <<< b ≠ 0 := by
      cases b with
      | zero => decide
      | succ b => intro h; have := (mask_next b (by omega)).2.1 h; omega
    have hsh : ((1 : BitVec 32) <<< b) <<< 1 = (1 : BitVec 32) <<< (b + 1) := by rw [← BitVec.shiftLeft_add]
    rw [bitLoop, if_pos hnz, hsh]
    have hbit := mask_bit word b hb32
    by_cases c : S (base + b)
    · rw [if_pos (hbit.2 ((hw b hb32).2 c))]
      have hlt := hS.lt _ c
      have hx := List.getElem?_eq_getElem hlt
      have hi' := inv_step hi c hx (fun r y h1 h2 h3 => hS.mono r _ y _ h1 h2 c h3 hx)
      obtain ⟨csp', out', f1, f2⟩ := ih (b + 1) _ _ (by omega) hw hi'
      refine ⟨csp', out', ?_, f2⟩
      show Option.bind _ _ = _
      rw [hx, Option.bind_some]
      exact f1
    · rw [if_neg (by rw [hbit, hw b hb32]; exact c)]
      exact ih (b + 1) csp out (by omega) hw (inv_skip hi c)

theorem inv_skips {nucleus : List Int} {S : Nat → Prop} {csp out : List Int} {ruleno : Nat} (d : Nat) (h : Inv g nucleus S ruleno csp out) (hs : ∀ k, k < d → ¬ S (ruleno + k)) :
    Inv g nucleus S (ruleno + d) csp out := by
  induction d with
  | zero => exact h
  | succ d ih => exact inv_skip (ih (fun k hk => hs k (by omega))) (hs d (by omega))

theorem wordLoop_spec {nucleus : List Int} {S : Nat → Prop} (hS : SetOk g S) (rsp : List (BitVec 32)) : ∀ (base : Nat) (csp out : List Int),
    (∀ r, r / 32 < rsp.length → (rbit rsp r = true ↔ S (base + r))) → Inv g nucleus S base csp out →
    ∃ csp' out', wordLoop g rsp base csp out = some (csp', out') ∧ Inv g nucleus S (base + 32 * rsp.length) csp' out' := by
  induction rsp with
  | nil => intro base csp out _ hi; exact ⟨csp, out, rfl, hi⟩
  | cons w rsp ih =>
    intro base csp out hw hi
    have hw0 : ∀ k, k < 32 → (w.getLsbD k = true ↔ S (base + k)) := by
      intro k hk
      have := hw k (by simp; omega)
      rw [← this]
      unfold rbit
      rw [Nat.div_eq_of_lt hk, Nat.mod_eq_of_lt hk]
      simp
    have hw' : ∀ r, r / 32 < rsp.length → (rbit rsp r = true ↔ S (base + 32 + r)) := by
      intro r hr
      have := hw (32 + r) (by simp; omega)
      rw [show base + 32 + r = base + (32 + r) by omega, ← this]
      unfold rbit
      rw [show (32 + r) / 32 = r / 32 + 1 by omega, show (32 + r) % 32 = r % 32 by omega]
      simp
    have hlen : base + 32 * (w :: rsp).length = base + 32 + 32 * rsp.length := by simp; omega
    rw [hlen, wordLoop]
    by_cases c : w = 0
    · rw [if_pos c]
      refine ih (base + 32) csp out hw' (inv_skips 32 hi ?_)
      intro k hk hSk
      have := (hw0 k hk).2 hSk
      rw [c] at this
      simp at this
    · rw [if_neg c]
      obtain ⟨csp1, out1, e1, e2⟩ := bitLoop_spec hS w base 32 0 csp out (by omega) hw0 hi
      simp only [BitVec.shiftLeft_zero, add_zero] at e1
      obtain ⟨csp', out', f1, f2⟩ := ih (base + 32) csp1 out1 hw' e2
      refine ⟨csp', out', ?_, f2⟩
      show Option.bind _ _ = _
      rw [e1]
      exact f1

/-! ### the theorems -/

theorem inClosure_iff (nucleus : List Int) (hv : Valid g) (x : Int) :
    InClosure g nucleus x ↔ x ∈ nucleus ∨ ∃ r, (∃ c ∈ nucleus, ∃ a : Nat, at? g.ritem c = some ((g.start : Int) + a) ∧ F g a r) ∧ g.rrhs[r]? = some x := by
  constructor
  · intro h
    induction h with
    | nucleus h => exact .inl h
    | step hx h1 h2 h3 h4 ih =>
      rename_i x b r y
      right
      obtain ⟨nb, rfl⟩ : ∃ nb : Nat, b = (g.start : Int) + nb := ⟨(b - g.start).toNat, by omega⟩
      rcases ih with ih | ⟨r0, ⟨c, hc, a, ha, b0, hb0, hr0⟩, hx0⟩
      · exact ⟨r, ⟨x, ih, nb, h1, nb, .refl, h3⟩, h4⟩
      · exact ⟨r, ⟨c, hc, a, ha, nb, hb0.tail ⟨r0, x, hr0, hx0, h1⟩, h3⟩, h4⟩
  · rintro (h | ⟨r, ⟨c, hc, a, ha, b, hb, hr⟩, hx⟩)
    · exact .nucleus h
    · have : ∃ y, InClosure g nucleus y ∧ at? g.ritem y = some ((g.start : Int) + b) := by
        induction hb generalizing r x with
        | refl => exact ⟨c, .nucleus hc, ha⟩
        | tail h1 h2 ih =>
          obtain ⟨r', x', g1, g2, g3⟩ := h2
          obtain ⟨y, k1, k2⟩ := ih x' r' g2 g1
          exact ⟨x', .step k1 k2 (by omega) g1 g2, g3⟩
      obtain ⟨y, k1, k2⟩ := this
      exact .step k1 k2 (by omega) hr hx

theorem sorted_length (l : List Int) (n : Nat) (hp : l.Pairwise (· < ·)) (hb : ∀ x ∈ l, 0 ≤ x ∧ x < n) : l.length ≤ n := by
  have key : ∀ (l : List Int) (lo : Int), l.Pairwise (· < ·) → (∀ x ∈ l, lo ≤ x ∧ x < n) → (l.length : Int) ≤ max 0 (n - lo) := by
    intro l
    induction l with
    | nil => intro lo _ _; simp
    | cons a l ih =>
      intro lo hp hb
      obtain ⟨h1, h2⟩ := List.pairwise_cons.1 hp
      have := ih (a + 1) h2 (fun x hx => ⟨by have := h1 x hx; omega, (hb x (by simp [hx])).2⟩)
      have ha := hb a (by simp)
      rw [List.length_cons]
      push_cast
      omega
  have := key l 0 hp hb
  omega

/-- C37: `set_first_derives` succeeds for any grammar (`over` is the word after the array `EFF`), and then `closure` of any increasing list of items is the
increasing list of the items of its LR(0) closure, which fits in the array `itemset` -/
theorem C37_closure (hv : Valid g) (over : Option (BitVec 32)) (ho : over.isSome ∨ g.nvars % 32 ≠ 0) :
    ∃ fd, set_first_derives g over = some fd ∧ ∀ nucleus : List Int, nucleus.Pairwise (· < ·) → (∀ x ∈ nucleus, 0 ≤ x ∧ x < g.ritem.length) →
      ∃ l, closure g fd nucleus = some l ∧ l.Pairwise (· < ·) ∧ (∀ x, x ∈ l ↔ InClosure g nucleus x) ∧ l.length ≤ g.ritem.length := by
  obtain ⟨fd, e1, e2, e3⟩ := set_first_derives_spec hv over ho
  refine ⟨fd, e1, ?_⟩
  intro nucleus hp hb
  obtain ⟨rs, f1, f2, f3⟩ := nucLoop_spec hv fd e2 nucleus (List.replicate (wordsize g.nrules) 0) hb (by simp)
  let S : Nat → Prop := fun r => ∃ c ∈ nucleus, ∃ a : Nat, at? g.ritem c = some ((g.start : Int) + a) ∧ F g a r
  have hSlt : ∀ r, S r → r < g.nrules ∧ ∃ l, g.rlhs[r]? = some l ∧ (g.start : Int) ≤ l := by
    rintro r ⟨c, hc, a, ha, b, hb, hr⟩
    exact ⟨lhs_lt hv hr, _, hr, by omega⟩
  have hbits : ∀ r, r / 32 < rs.length → (rbit rs r = true ↔ S (0 + r)) := by
    intro r hr
    rw [f2] at hr
    rw [f3 r hr, zero_add]
    have hz : rbit (List.replicate (wordsize g.nrules) 0) r = false := by
      have := bitr_zero (wordsize g.nrules) 0 0 r
      unfold bitr row at this
      unfold rbit
      simpa using this
    rw [hz]
    simp only [Bool.false_eq_true, false_or]
    constructor
    · rintro ⟨c, hc, a, ha1, ha2, ha3⟩
      exact ⟨c, hc, a, ha2, (e3 a r ha1 hr).1 ha3⟩
    · rintro ⟨c, hc, a, ha2, hF⟩
      obtain ⟨k1, k2⟩ := hb c hc
      obtain ⟨s, hs, hsm⟩ := at_some k1 k2
      rw [ha2] at hs; cases hs
      have := hv.items _ hsm
      have ha1 : a < g.nvars := by unfold Gram.nvars; omega
      exact ⟨c, hc, a, ha1, ha2, (e3 a r ha1 hr).2 hF⟩
  have hSok : SetOk g S := by
    refine ⟨fun r h => lt_of_lt_of_le (hSlt r h).1 hv.rhsLen, ?_⟩
    intro r r' y y' h1 h2 h3 h4 h5
    obtain ⟨_, l, hl1, hl2⟩ := hSlt r h2
    exact hv.mono r r' y y' l h1 (hSlt r' h3).1 h4 h5 hl1 hl2
  obtain ⟨csp, out, g1, g2⟩ := wordLoop_spec (nucleus := nucleus) hSok rs 0 nucleus [] hbits ⟨by simpa using hp, by intro x; simp, by simp⟩
  have hmem : ∀ x, x ∈ out ++ csp ↔ InClosure g nucleus x := by
    intro x
    rw [g2.mem, inClosure_iff nucleus hv]
    apply or_congr Iff.rfl
    constructor
    · rintro ⟨r, _, h2, h3⟩; exact ⟨r, h2, h3⟩
    · rintro ⟨r, h2, h3⟩
      refine ⟨r, ?_, h2, h3⟩
      have := (hSlt r h2).1
      rw [f2]
      unfold wordsize
      omega
  refine ⟨out ++ csp, ?_, g2.sorted, hmem, ?_⟩
  · unfold closure
    show Option.bind _ _ = _
    rw [f1, Option.bind_some]
    show Option.bind _ _ = _
    rw [g1]
    rfl
  · refine sorted_length _ _ g2.sorted ?_
    intro x hx
    rcases (inClosure_iff nucleus hv x).1 ((hmem x).1 hx) with h | ⟨r, h1, h2⟩
    · exact hb x h
    · exact hv.rhs r x h2 (hSlt r h1).1

/-! ### the word after the array -/

theorem fdCols_over (eff : Mem) (hl : eff.length = g.nvars * wordsize g.nvars) (h32 : g.nvars % 32 = 0) (i rrow : Nat) (hi : i + 1 = g.nvars) (d : Nat) :
    ∀ (c : Nat) (j : Int) (cword : BitVec 32) (m : Mem), c + (d + 1) = g.nvars →
    fdCols g eff none rrow (d + 1) j (i * wordsize g.nvars + c / 32 + 1) cword ((1 : BitVec 32) <<< (c % 32)) m = none := by
  have hlen : eff.length = i * wordsize g.nvars + g.nvars / 32 := by
    rw [hl]
    have : g.nvars * wordsize g.nvars = i * wordsize g.nvars + wordsize g.nvars := by rw [← hi, Nat.add_mul, Nat.one_mul]
    rw [this]
    unfold wordsize
    omega
  induction d with
  | zero =>
    intro c j cword m hc
    rw [fdCols]
    show Option.bind _ _ = _
    cases (if cword &&& ((1 : BitVec 32) <<< (c % 32)) ≠ 0 then fdRules rrow (derives g j) m else some m : Option Mem) with
    | none => rfl
    | some m1 =>
      rw [Option.bind_some]
      dsimp only
      obtain ⟨n1, n2⟩ := mask_next (c % 32) (Nat.mod_lt _ (by omega))
      have c31 : c % 32 = 31 := by omega
      rw [n1, if_pos c31, if_pos rfl]
      unfold readEFF
      rw [if_pos (by omega)]
      rfl
  | succ d ih =>
    intro c j cword m hc
    rw [fdCols]
    show Option.bind _ _ = _
    cases (if cword &&& ((1 : BitVec 32) <<< (c % 32)) ≠ 0 then fdRules rrow (derives g j) m else some m : Option Mem) with
    | none => rfl
    | some m1 =>
      rw [Option.bind_some]
      dsimp only
      obtain ⟨n1, n2⟩ := mask_next (c % 32) (Nat.mod_lt _ (by omega))
      rw [n1]
      by_cases c1 : c % 32 = 31
      · rw [if_pos c1, if_pos rfl]
        have g1 : (c + 1) / 32 = c / 32 + 1 := by omega
        have g2 : (c + 1) % 32 = 0 := by omega
        show Option.bind _ _ = _
        cases readEFF eff none (i * wordsize g.nvars + c / 32 + 1) with
        | none => rfl
        | some w =>
          have := ih (c + 1) (j + 1) w m1 (by omega)
          rw [g1, g2] at this
          exact this
      · rw [if_neg c1, if_neg (by rw [n2]; omega)]
        have g1 : (c + 1) / 32 = c / 32 := by omega
        have g2 : (c + 1) % 32 = c % 32 + 1 := by omega
        have := ih (c + 1) (j + 1) cword m1 (by omega)
        rw [g1, g2] at this
        exact this

theorem fdRows_over (eff : Mem) (hl : eff.length = g.nvars * wordsize g.nvars) (h32 : g.nvars % 32 = 0) (d : Nat) :
    ∀ (i rrow : Nat) (m : Mem), i + (d + 1) = g.nvars → fdRows g eff none (d + 1) i rrow m = none := by
  induction d with
  | zero =>
    intro i rrow m hi
    rw [fdRows]
    show Option.bind _ _ = _
    cases readEFF eff none (i * wordsize g.nvars) with
    | none => rfl
    | some w =>
      rw [Option.bind_some]
      have := fdCols_over eff hl h32 i rrow hi (g.nvars - 1) 0 g.start w m (by omega)
      rw [show g.nvars - 1 + 1 = g.nvars by omega] at this
      simp only [Nat.zero_div, Nat.zero_mod, BitVec.shiftLeft_zero, add_zero] at this
      show Option.bind _ _ = _
      rw [this]
      rfl
  | succ d ih =>
    intro i rrow m hi
    rw [fdRows]
    show Option.bind _ _ = _
    cases readEFF eff none (i * wordsize g.nvars) with
    | none => rfl
    | some w =>
      rw [Option.bind_some]
      show Option.bind _ _ = _
      cases fdCols g eff none rrow g.nvars g.start (i * wordsize g.nvars + 1) w 1 m with
      | none => rfl
      | some m1 => exact ih (i + 1) _ m1 (by omega)

/-- C37, finding: when the number of variables is a multiple of 32, `set_first_derives` reads the word after the array `EFF` -/
theorem C37_overread_violation (hv : Valid g) (h0 : 0 < g.nvars) (h32 : g.nvars % 32 = 0) : set_first_derives g none = none := by
  obtain ⟨eff, e1, e2, _⟩ := set_EFF_spec hv
  unfold set_first_derives
  show Option.bind _ _ = _
  rw [e1, Option.bind_some]
  have := fdRows_over eff e2 h32 (g.nvars - 1) 0 0 (List.replicate (g.nvars * wordsize g.nrules) 0) (by omega)
  rw [show g.nvars - 1 + 1 = g.nvars by omega] at this
  exact this

/-! ### examples -/

/-- `Valid`, as a program -/
def validB (g : Gram) : Bool :=
  g.start ≤ g.nsyms && g.rlhs.length == g.nrules && g.nrules ≤ g.rrhs.length && (g.rlhs.take 1).all (fun l => l < g.start) && g.rlhs.all (fun l => l < g.nsyms) &&
  (g.rrhs.take g.nrules).all (fun x => 0 ≤ x && x < g.ritem.length) && g.ritem.all (fun s => s < g.nsyms) &&
  (List.range g.nrules).all (fun j => (List.range j).all (fun i => g.rlhs.getD i 0 < g.start || g.rrhs.getD i 0 < g.rrhs.getD j 0))

theorem validB_sound (h : validB g = true) : Valid g := by
  simp only [validB, Bool.and_eq_true, decide_eq_true_eq, beq_iff_eq, List.all_eq_true, Bool.or_eq_true, List.mem_range] at h
  obtain ⟨⟨⟨⟨⟨⟨⟨h1, h2⟩, h3⟩, h4⟩, h5⟩, h6⟩, h7⟩, h8⟩ := h
  refine ⟨h1, h2, h3, ?_, ?_, ?_, ?_, h7⟩
  · intro l hl
    apply h4
    cases hr : g.rlhs with
    | nil => rw [hr] at hl; cases hl
    | cons a r => rw [hr] at hl; simp at hl; simp [hl]
  · intro i l hl
    exact h5 l (List.mem_of_getElem? hl)
  · intro i x hx hi
    refine h6 x (List.mem_of_getElem? (i := i) ?_)
    rw [List.getElem?_take, if_pos hi, hx]
  · intro i j x y lx hij hj hx hy hlx hs
    rcases h8 j hj i hij with h | h
    · simp only [List.getD, hlx, Option.getD_some] at h; omega
    · simpa only [List.getD, hx, hy, Option.getD_some] using h

/-- tokens 0 (the end), 1 (error), 2 `x`, 3 `y`; variables 4 (`$accept`), 5 `E`, 6 `T`, 7 `U`; `E : E x T | T`, `T : y`, `U : y` -/
def gEx : Gram where
  start := 4
  nsyms := 8
  nrules := 7
  rlhs := [0, 0, 4, 5, 5, 6, 7]
  rrhs := [0, 0, 1, 4, 8, 10, 12, 14]
  ritem := [-1, 5, 0, -2, 5, 2, 6, -3, 6, -4, 3, -5, 3, -6]

example : Valid gEx := validB_sound (by decide +kernel)

example : (set_first_derives gEx none).bind (fun fd => closure gEx fd [1]) = some [1, 4, 8, 10] := by decide +kernel

example : (set_first_derives gEx none).bind (fun fd => closure gEx fd [2, 6]) = some [2, 6, 10] := by decide +kernel

/-- 32 variables, each with one rule, of the token 2 -/
def gOver : Gram where
  start := 3
  nsyms := 35
  nrules := 34
  rlhs := [0, 0] ++ (List.range 32).map (fun i : Nat => (i : Int) + 3)
  rrhs := [0, 0] ++ (List.range 32).map (fun i : Nat => 2 * (i : Int) + 1)
  ritem := [-1] ++ (List.range 32).flatMap (fun i : Nat => [2, - ((i : Int) + 2)])

example : Valid gOver ∧ 0 < gOver.nvars ∧ gOver.nvars % 32 = 0 := ⟨validB_sound (by decide +kernel), by decide +kernel, by decide +kernel⟩

end Mosml.Yacc.Closure
