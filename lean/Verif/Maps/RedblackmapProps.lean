import Verif.Maps.Redblackmap

/-!
C39: Redblackmap is a finite map, stays balanced, and never fails.
-/
namespace Mosml.Maps.Redblackmap
open Tree
variable {K V : Type}

/-- the items of a tree from left to right -/
def flat : Tree K V → List (K × V)
  | LEAF => []
  | RED k x l r | BLACK k x l r => flat l ++ (k, x) :: flat r

def isBlack : Tree K V → Prop
  | RED _ _ _ _ => False
  | _ => True

/-- no red node has a red child -/
def invc : Tree K V → Prop
  | LEAF => True
  | RED _ _ l r => isBlack l ∧ isBlack r ∧ invc l ∧ invc r
  | BLACK _ _ l r => invc l ∧ invc r

/-- as `invc`, but the root may be red with red children -/
def invc2 (t : Tree K V) : Prop := invc (blacken t)

/-- number of black nodes on the leftmost path -/
def bh : Tree K V → Nat
  | LEAF => 0
  | RED _ _ l _ => bh l
  | BLACK _ _ l _ => bh l + 1

/-- the same number of black nodes on every path -/
def invh : Tree K V → Prop
  | LEAF => True
  | RED _ _ l r | BLACK _ _ l r => bh l = bh r ∧ invh l ∧ invh r

/-- longest path -/
def height : Tree K V → Nat
  | LEAF => 0
  | RED _ _ l r | BLACK _ _ l r => max (height l) (height r) + 1

theorem invc2_of (t : Tree K V) (h : invc t) : invc2 t := by
  cases t <;> simp_all [invc2, blacken, invc]

/-! ### order -/

theorem flat_blacken (t : Tree K V) : flat (blacken t) = flat t := by cases t <;> rfl

theorem flat_lbalance (k : K) (x : V) (l r : Tree K V) : flat (lbalance k x l r) = flat l ++ (k, x) :: flat r := by
  unfold lbalance; split <;> simp [flat]

theorem flat_rbalance (k : K) (x : V) (l r : Tree K V) : flat (rbalance k x l r) = flat l ++ (k, x) :: flat r := by
  unfold rbalance; split <;> simp [flat]

theorem flat_redden {t t' : Tree K V} (h : redden t = some t') : flat t' = flat t := by
  cases t <;> simp [redden] at h; subst h; rfl

theorem flat_balleft {k : K} {x : V} {l r t : Tree K V} (h : balleft k x l r = some t) : flat t = flat l ++ (k, x) :: flat r := by
  unfold balleft at h
  split at h
  · cases h; simp [flat]
  · cases h; simp [flat_rbalance, flat]
  · rename_i z zd w wd a b c _
    cases e : redden c with
    | none => rw [e] at h; cases h
    | some c' =>
      rw [e] at h; cases h
      simp [flat, flat_rbalance, flat_redden e]
  · cases h

theorem flat_balright {k : K} {x : V} {l r t : Tree K V} (h : balright k x l r = some t) : flat t = flat l ++ (k, x) :: flat r := by
  unfold balright at h
  split at h
  · cases h; simp [flat]
  · cases h; simp [flat_lbalance, flat]
  · rename_i w wd a y yd b c _
    cases e : redden a with
    | none => rw [e] at h; cases h
    | some c' =>
      rw [e] at h; cases h
      simp [flat, flat_lbalance, flat_redden e]
  · cases h

/-! ### balance -/

theorem lbalance_inv (k : K) (x : V) (l r : Tree K V) (hl : invh l) (hr : invh r) (he : bh l = bh r) (cl : invc2 l) (cr : invc r) :
    invh (lbalance k x l r) ∧ bh (lbalance k x l r) = bh l + 1 ∧ invc (lbalance k x l r) := by
  unfold lbalance
  split
  · simp_all [invh, bh, invc, invc2, blacken, isBlack]
  · simp_all [invh, bh, invc, invc2, blacken, isBlack]
  · rename_i h1 h2
    refine ⟨⟨he, hl, hr⟩, rfl, ?_, cr⟩
    cases l with
    | LEAF => exact cl
    | BLACK => exact cl
    | RED a b c d =>
      refine ⟨?_, ?_, cl.1, cl.2⟩
      · cases c <;> simp [isBlack]; exact h1 _ _ _ _ _ _ _ rfl
      · cases d <;> simp [isBlack]; exact h2 _ _ _ _ _ _ _ rfl

theorem rbalance_inv (k : K) (x : V) (l r : Tree K V) (hl : invh l) (hr : invh r) (he : bh l = bh r) (cl : invc l) (cr : invc2 r) :
    invh (rbalance k x l r) ∧ bh (rbalance k x l r) = bh l + 1 ∧ invc (rbalance k x l r) := by
  unfold rbalance
  split
  · simp_all [invh, bh, invc, invc2, blacken, isBlack]
  · obtain ⟨h1, ⟨h2, h3, h4⟩, h5⟩ := hr
    obtain ⟨⟨c1, c2, c3, c4⟩, c5⟩ := cr
    simp only [bh] at *
    exact ⟨⟨by simp only [bh]; omega, ⟨by omega, hl, h3⟩, ⟨by omega, h4, h5⟩⟩, trivial, ⟨trivial, trivial, ⟨cl, c3⟩, ⟨c4, c5⟩⟩⟩
  · rename_i h1 h2
    refine ⟨⟨he, hl, hr⟩, rfl, cl, ?_⟩
    cases r with
    | LEAF => exact cr
    | BLACK => exact cr
    | RED a b c d =>
      refine ⟨?_, ?_, cr.1, cr.2⟩
      · cases c <;> simp [isBlack]; exact h2 _ _ _ _ _ _ _ rfl
      · cases d <;> simp [isBlack]; exact h1 _ _ _ _ _ _ _ rfl

theorem redden_ok {t : Tree K V} (h : invh t) (c : invc t) (b : isBlack t) (p : 0 < bh t) :
    ∃ t', redden t = some t' ∧ invh t' ∧ bh t' + 1 = bh t ∧ invc2 t' := by
  cases t with
  | LEAF => simp [bh] at p
  | RED => exact absurd b id
  | BLACK k x l r => exact ⟨_, rfl, h, rfl, c⟩

theorem balleft_ok (k : K) (x : V) (l r : Tree K V) (hl : invh l) (hr : invh r) (he : bh l + 1 = bh r) (cl : invc2 l) (cr : invc r) :
    ∃ t, balleft k x l r = some t ∧ invh t ∧ bh t = bh r ∧ invc2 t ∧ (isBlack r → invc t) := by
  unfold balleft
  split
  · rename_i lk lx a b
    refine ⟨_, rfl, ⟨by simpa [bh] using he, hl, hr⟩, by simpa [bh] using he, ⟨cl, cr⟩, fun h => ⟨trivial, h, cl, cr⟩⟩
  · rename_i z zd a b hn
    have cl' : invc l := by
      cases l with
      | RED => exact absurd rfl (hn _ _ _ _)
      | _ => exact cl
    have h1 := rbalance_inv k x l (RED z zd a b) hl hr (by simpa [bh] using he) cl' cr
    exact ⟨_, rfl, h1.1, by rw [h1.2.1]; simpa [bh] using he, invc2_of _ h1.2.2, fun _ => h1.2.2⟩
  · rename_i z zd w wd a b c hn
    have cl' : invc l := by
      cases l with
      | RED => exact absurd rfl (hn _ _ _ _)
      | _ => exact cl
    obtain ⟨h1, ⟨h2, h3, h4⟩, h5⟩ := hr
    obtain ⟨c1, c2, ⟨c3, c4⟩, c5⟩ := cr
    simp only [bh] at he h1
    obtain ⟨c', e1, e2, e3, e4⟩ := redden_ok h5 c5 c2 (by omega)
    have h6 := rbalance_inv z zd b c' h4 e2 (by omega) c4 e4
    rw [e1]
    refine ⟨_, rfl, ⟨?_, ⟨by omega, hl, h3⟩, h6.1⟩, ?_, ⟨⟨cl', c3⟩, h6.2.2⟩, fun h => absurd h id⟩
    · rw [h6.2.1]; simp only [bh]; omega
    · simp only [bh]; omega
  · rename_i h1 h2 h3
    exfalso
    cases r with
    | LEAF => simp [bh] at he
    | BLACK => exact h2 _ _ _ _ rfl
    | RED k' x' a b =>
      obtain ⟨c1, -⟩ := cr
      cases a with
      | LEAF => simp [bh] at he
      | RED => exact c1
      | BLACK => exact h3 _ _ _ _ _ _ _ rfl

theorem balright_ok (k : K) (x : V) (l r : Tree K V) (hl : invh l) (hr : invh r) (he : bh l = bh r + 1) (cl : invc l) (cr : invc2 r) :
    ∃ t, balright k x l r = some t ∧ invh t ∧ bh t = bh l ∧ invc2 t ∧ (isBlack l → invc t) := by
  unfold balright
  split
  · rename_i lk lx a b
    refine ⟨_, rfl, ⟨by simpa [bh] using he, hl, hr⟩, rfl, ⟨cl, cr⟩, fun h => ⟨h, trivial, cl, cr⟩⟩
  · rename_i z zd a b hn
    have cr' : invc r := by
      cases r with
      | RED => exact absurd rfl (hn _ _ _ _)
      | _ => exact cr
    have h1 := lbalance_inv k x (RED z zd a b) r hl hr (by simpa [bh] using he) cl cr'
    exact ⟨_, rfl, h1.1, by rw [h1.2.1]; simp [bh], invc2_of _ h1.2.2, fun _ => h1.2.2⟩
  · rename_i w wd a y yd b c hn
    have cr' : invc r := by
      cases r with
      | RED => exact absurd rfl (hn _ _ _ _)
      | _ => exact cr
    obtain ⟨h1, h5, ⟨h2, h3, h4⟩⟩ := hl
    obtain ⟨c1, c2, c5, ⟨c3, c4⟩⟩ := cl
    simp only [bh] at he h1
    obtain ⟨a', e1, e2, e3, e4⟩ := redden_ok h5 c5 c1 (by omega)
    have h6 := lbalance_inv w wd a' b e2 h3 (by omega) e4 c3
    rw [e1]
    refine ⟨_, rfl, ⟨?_, h6.1, ⟨by omega, h4, hr⟩⟩, ?_, ⟨h6.2.2, ⟨c4, cr'⟩⟩, fun h => absurd h id⟩
    · rw [h6.2.1]; simp only [bh]; omega
    · simp only [bh]; rw [h6.2.1]; omega
  · rename_i h1 h2 h3
    exfalso
    cases l with
    | LEAF => simp [bh] at he
    | BLACK => exact h1 _ _ _ _ rfl
    | RED k' x' a b =>
      obtain ⟨-, c1, -⟩ := cl
      have h4 := hl.1
      cases b with
      | LEAF => simp only [bh] at he h4; omega
      | RED => exact c1
      | BLACK => exact h2 _ _ _ _ _ _ _ rfl

theorem append_ok (n : Nat) : ∀ (l r : Tree K V), size l + size r ≤ n → invh l → invh r → bh l = bh r → invc l → invc r →
    ∃ t, append l r = some t ∧ flat t = flat l ++ flat r ∧ invh t ∧ bh t = bh l ∧ invc2 t ∧ (isBlack l → isBlack r → invc t) := by
  induction n with
  | zero =>
    intro l r hn hl hr he cl cr
    cases l with
    | LEAF => exact ⟨r, by simp [append], rfl, hr, he.symm, invc2_of _ cr, fun _ _ => cr⟩
    | _ => simp [size] at hn
  | succ n ih =>
    intro l r hn hl hr he cl cr
    cases l with
    | LEAF => exact ⟨r, by simp [append], rfl, hr, he.symm, invc2_of _ cr, fun _ _ => cr⟩
    | RED x xd a b =>
      obtain ⟨l1, l2, l3⟩ := hl
      obtain ⟨l4, l5, l6, l7⟩ := cl
      cases r with
      | LEAF => exact ⟨RED x xd a b, by simp [append], by simp [flat], ⟨l1, l2, l3⟩, rfl, invc2_of _ ⟨l4, l5, l6, l7⟩, fun _ _ => ⟨l4, l5, l6, l7⟩⟩
      | RED y yd c d =>
        obtain ⟨r1, r2, r3⟩ := hr
        obtain ⟨r4, r5, r6, r7⟩ := cr
        simp only [bh] at he
        obtain ⟨t, t1, t2, t3, t4, t5, t6⟩ := ih b c (by simp only [size] at hn; omega) l3 r2 (by omega) l7 r6
        have t7 := t6 l5 r4
        unfold append
        rw [t1]
        cases t with
        | RED z zd b' c' =>
          refine ⟨_, rfl, ?_, ?_, ?_, ?_, fun h => absurd h id⟩
          · simp only [flat] at t2 ⊢; simp only [List.append_assoc, List.cons_append]
            have := congrArg (· ++ (y, yd) :: flat d) t2
            simp only [List.append_assoc, List.cons_append] at this
            rw [this]
          · obtain ⟨t31, t32, t33⟩ := t3
            simp only [invh, bh] at *
            refine ⟨by omega, ⟨by omega, l2, t32⟩, ⟨by omega, t33, r3⟩⟩
          · simp only [bh]
          · obtain ⟨t71, t72, t73, t74⟩ := t7
            exact ⟨⟨l4, t71, l6, t73⟩, ⟨t72, r5, t74, r7⟩⟩
        | LEAF | BLACK =>
          refine ⟨_, rfl, ?_, ?_, ?_, ?_, fun h => absurd h id⟩
          · simp only [flat] at t2 ⊢
            simp only [List.append_assoc, List.cons_append]
            have := congrArg (· ++ (y, yd) :: flat d) t2
            simp only [List.append_assoc, List.cons_append] at this
            simp [this]
          · simp only [invh, bh] at *
            refine ⟨by omega, l2, ⟨by omega, t3, r3⟩⟩
          · simp only [bh]
          · exact ⟨l6, ⟨trivial, r5, t7, r7⟩⟩
      | BLACK y yd c d =>
        simp only [bh] at he
        obtain ⟨t, t1, t2, t3, t4, t5, t6⟩ := ih b (BLACK y yd c d) (by simp only [size] at hn ⊢; omega) l3 hr (by simp only [bh]; omega) l7 cr
        unfold append
        rw [t1]
        refine ⟨_, rfl, by simp [flat] at t2 ⊢; rw [t2], ⟨by omega, l2, t3⟩, rfl, ⟨l6, t6 l5 trivial⟩, fun h => absurd h id⟩
    | BLACK x xd a b =>
      cases r with
      | LEAF => exact ⟨_, by simp [append], by simp [flat], hl, rfl, invc2_of _ cl, fun _ _ => cl⟩
      | RED y yd c d =>
        obtain ⟨r1, r2, r3⟩ := hr
        obtain ⟨r4, r5, r6, r7⟩ := cr
        simp only [bh] at he
        obtain ⟨t, t1, t2, t3, t4, t5, t6⟩ := ih (BLACK x xd a b) c (by simp only [size] at hn ⊢; omega) hl r2 (by simp only [bh]; omega) cl r6
        unfold append
        rw [t1]
        refine ⟨_, rfl, by simp [flat] at t2 ⊢; rw [t2]; simp, ⟨by simp only [bh] at *; omega, t3, r3⟩, by simp only [bh] at *; omega, ⟨t6 trivial r4, r7⟩, fun _ h => absurd h id⟩
      | BLACK y yd c d =>
        obtain ⟨l1, l2, l3⟩ := hl
        obtain ⟨l6, l7⟩ := cl
        obtain ⟨r1, r2, r3⟩ := hr
        obtain ⟨r6, r7⟩ := cr
        simp only [bh] at he
        obtain ⟨t, t1, t2, t3, t4, t5, t6⟩ := ih b c (by simp only [size] at hn; omega) l3 r2 (by omega) l7 r6
        unfold append
        rw [t1]
        have cat := congrArg (· ++ (y, yd) :: flat d) t2
        cases t with
        | RED z zd b' c' =>
          obtain ⟨t31, t32, t33⟩ := t3
          simp only [flat, List.append_assoc, List.cons_append] at cat
          refine ⟨_, rfl, by simp [flat, cat], ?_, ?_, ?_, ?_⟩
          · simp only [invh, bh] at *
            exact ⟨by omega, ⟨by omega, l2, t32⟩, ⟨by omega, t33, r3⟩⟩
          · simp only [bh]
          · exact ⟨⟨l6, t5.1⟩, ⟨t5.2, r7⟩⟩
          · exact fun _ _ => ⟨trivial, trivial, ⟨l6, t5.1⟩, ⟨t5.2, r7⟩⟩
        | LEAF =>
          have k1 := balleft_ok x xd a (BLACK y yd LEAF d) l2 ⟨by omega, t3, r3⟩ (by simp only [bh] at *; omega) (invc2_of _ l6) ⟨t5, r7⟩
          obtain ⟨s, s1, s2, s3, s4, s5⟩ := k1
          simp only [flat, List.append_assoc, List.cons_append] at cat
          refine ⟨s, s1, by rw [flat_balleft s1]; simp [flat] at *; exact cat, s2, by rw [s3]; simp only [bh] at *; omega, s4, fun _ _ => s5 trivial⟩
        | BLACK tk tx tl tr =>
          have k1 := balleft_ok x xd a (BLACK y yd (BLACK tk tx tl tr) d) l2 ⟨by omega, t3, r3⟩ (by simp only [bh] at *; omega) (invc2_of _ l6) ⟨t5, r7⟩
          obtain ⟨s, s1, s2, s3, s4, s5⟩ := k1
          simp only [flat, List.append_assoc, List.cons_append] at cat
          refine ⟨s, s1, by rw [flat_balleft s1]; simp [flat] at *; exact cat, s2, by rw [s3]; simp only [bh] at *; omega, s4, fun _ _ => s5 trivial⟩

section
variable {cmp : K → K → Ordering} (h : Lawful cmp)
include h

theorem findLoop_ok (x : K) (t : Tree K V) (ho : Sorted cmp (flat t)) :
    (findLoop cmp x t).1 = (lfind cmp x (flat t)).map Prod.snd ∧ (findLoop cmp x t).2 ≤ height t := by
  induction t with
  | LEAF => exact ⟨rfl, Nat.le_refl _⟩
  | RED k w l r ihl ihr | BLACK k w l r ihl ihr =>
    obtain ⟨o1, o2, o3, o4, _⟩ := sorted_mid.mp ho
    unfold findLoop
    rw [flat]
    cases e : cmp x k with
    | gt => rw [lfind_gt h e o3]; have := ihr o2; exact ⟨this.1, by simp only [height]; omega⟩
    | lt => rw [lfind_lt h e]; have := ihl o1; exact ⟨this.1, by simp only [height]; omega⟩
    | eq => rw [lfind_eq h e o3]; exact ⟨rfl, by simp only [height]; omega⟩

theorem ins_ok (x : K) (v : V) (t : Tree K V) (ho : Sorted cmp (flat t)) :
    flat (ins cmp x v t).1 = lins cmp x v (flat t) ∧ ((ins cmp x v t).2 = true ↔ lfind cmp x (flat t) = none) := by
  induction t with
  | LEAF => simp [ins, flat, lins, lfind]
  | RED k w l r ihl ihr =>
    obtain ⟨o1, o2, o3, o4, _⟩ := sorted_mid.mp ho
    unfold ins
    rw [flat]
    cases e : cmp x k with
    | gt =>
      rw [lfind_gt h e o3, lins_gt h e o3]
      have := ihr o2
      exact ⟨by simp only [flat, this.1], this.2⟩
    | lt =>
      rw [lfind_lt h e, lins_lt h e]
      have := ihl o1
      exact ⟨by simp only [flat, this.1], this.2⟩
    | eq => rw [lfind_eq h e o3, lins_eq h e o3]; simp [flat]
  | BLACK k w l r ihl ihr =>
    obtain ⟨o1, o2, o3, o4, _⟩ := sorted_mid.mp ho
    unfold ins
    rw [flat]
    cases e : cmp x k with
    | gt =>
      rw [lfind_gt h e o3, lins_gt h e o3]
      have := ihr o2
      exact ⟨by simp only [flat_rbalance, this.1], this.2⟩
    | lt =>
      rw [lfind_lt h e, lins_lt h e]
      have := ihl o1
      exact ⟨by simp only [flat_lbalance, this.1], this.2⟩
    | eq => rw [lfind_eq h e o3, lins_eq h e o3]; simp [flat]

omit h in
theorem ins_inv (x : K) (v : V) (t : Tree K V) (hh : invh t) (hc : invc t) :
    invh (ins cmp x v t).1 ∧ bh (ins cmp x v t).1 = bh t ∧ invc2 (ins cmp x v t).1 ∧ (isBlack t → invc (ins cmp x v t).1) := by
  induction t with
  | LEAF => simp [ins, invh, bh, invc2, blacken, invc, isBlack]
  | RED k w l r ihl ihr =>
    obtain ⟨h1, h2, h3⟩ := hh
    obtain ⟨c1, c2, c3, c4⟩ := hc
    unfold ins
    cases cmp x k with
    | lt =>
      obtain ⟨i1, i2, i3, i4⟩ := ihl h2 c3
      exact ⟨⟨by omega, i1, h3⟩, i2, ⟨i4 c1, c4⟩, fun h => absurd h id⟩
    | gt =>
      obtain ⟨i1, i2, i3, i4⟩ := ihr h3 c4
      exact ⟨⟨by omega, h2, i1⟩, rfl, ⟨c3, i4 c2⟩, fun h => absurd h id⟩
    | eq => exact ⟨⟨h1, h2, h3⟩, rfl, ⟨c3, c4⟩, fun h => absurd h id⟩
  | BLACK k w l r ihl ihr =>
    obtain ⟨h1, h2, h3⟩ := hh
    obtain ⟨c3, c4⟩ := hc
    unfold ins
    cases cmp x k with
    | lt =>
      obtain ⟨i1, i2, i3, i4⟩ := ihl h2 c3
      have := lbalance_inv k w _ r i1 h3 (by omega) i3 c4
      exact ⟨this.1, by rw [this.2.1, i2]; rfl, invc2_of _ this.2.2, fun _ => this.2.2⟩
    | gt =>
      obtain ⟨i1, i2, i3, i4⟩ := ihr h3 c4
      have := rbalance_inv k w l _ h2 i1 (by omega) c3 i3
      exact ⟨this.1, by rw [this.2.1]; rfl, invc2_of _ this.2.2, fun _ => this.2.2⟩
    | eq => exact ⟨⟨h1, h2, h3⟩, rfl, ⟨c3, c4⟩, fun _ => ⟨c3, c4⟩⟩

/-- what `del` leaves of the balance -/
def DelInv (t t' : Tree K V) : Prop :=
  invh t' ∧ (isBlack t → invc2 t' ∧ bh t' + 1 = bh t) ∧ (¬ isBlack t → invc t' ∧ bh t' = bh t)

omit h in
theorem delLeft_ok (k : K) (w : V) (l l' r : Tree K V) (dl : DelInv l l') (ne : l ≠ LEAF) (h1 : bh l = bh r) (h3 : invh r) (c4 : invc r) :
    ∃ t, delLeft k w l r l' = some t ∧ flat t = flat l' ++ (k, w) :: flat r ∧ invh t ∧ bh t = bh l ∧ invc2 t ∧ (isBlack l → isBlack r → invc t) := by
  obtain ⟨d1, d2, d3⟩ := dl
  cases l with
  | LEAF => exact absurd rfl ne
  | RED lk lx ll lr =>
    obtain ⟨d4, d5⟩ := d3 id
    exact ⟨_, rfl, rfl, ⟨by omega, d1, h3⟩, d5, ⟨d4, c4⟩, fun h => absurd h id⟩
  | BLACK lk lx ll lr =>
    obtain ⟨d4, d5⟩ := d2 trivial
    obtain ⟨t, t1, t2, t3, t4, t5⟩ := balleft_ok k w l' r d1 h3 (by omega) d4 c4
    exact ⟨t, t1, flat_balleft t1, t2, by omega, t4, fun _ h => t5 h⟩

omit h in
theorem delRight_ok (k : K) (w : V) (l r r' : Tree K V) (dr : DelInv r r') (ne : r ≠ LEAF) (h1 : bh l = bh r) (h3 : invh l) (c4 : invc l) :
    ∃ t, delRight k w l r r' = some t ∧ flat t = flat l ++ (k, w) :: flat r' ∧ invh t ∧ bh t = bh l ∧ invc2 t ∧ (isBlack l → isBlack r → invc t) := by
  obtain ⟨d1, d2, d3⟩ := dr
  cases r with
  | LEAF => exact absurd rfl ne
  | RED lk lx ll lr =>
    obtain ⟨d4, d5⟩ := d3 id
    exact ⟨_, rfl, rfl, ⟨by omega, h3, d1⟩, rfl, ⟨c4, d4⟩, fun _ h => absurd h id⟩
  | BLACK lk lx ll lr =>
    obtain ⟨d4, d5⟩ := d2 trivial
    obtain ⟨t, t1, t2, t3, t4, t5⟩ := balright_ok k w l r' h3 d1 (by omega) c4 d4
    exact ⟨t, t1, flat_balright t1, t2, t3, t4, fun h _ => t5 h⟩

theorem del_ok (x : K) (t : Tree K V) (hh : invh t) (hc : invc t) (ho : Sorted cmp (flat t)) :
    (lfind cmp x (flat t) = none ∧ del cmp x t = .notFound) ∨
    ∃ p t', lfind cmp x (flat t) = some p ∧ del cmp x t = .ok p.2 t' ∧ flat t' = lrem cmp x (flat t) ∧ DelInv t t' := by
  have node : ∀ (k : K) (w : V) (l r t : Tree K V), flat t = flat l ++ (k, w) :: flat r → Sorted cmp (flat t) → bh l = bh r → invh l → invh r →
      invc l → invc r → (isBlack t ∨ isBlack l ∧ isBlack r) → (isBlack t → bh t = bh l + 1) → (¬ isBlack t → bh t = bh l) →
      ((lfind cmp x (flat l) = none ∧ del cmp x l = .notFound) ∨
        ∃ p t', lfind cmp x (flat l) = some p ∧ del cmp x l = .ok p.2 t' ∧ flat t' = lrem cmp x (flat l) ∧ DelInv l t') →
      ((lfind cmp x (flat r) = none ∧ del cmp x r = .notFound) ∨
        ∃ p t', lfind cmp x (flat r) = some p ∧ del cmp x r = .ok p.2 t' ∧ flat t' = lrem cmp x (flat r) ∧ DelInv r t') →
      (del cmp x t = match cmp x k with
        | .eq => Rm.bind (.ok w LEAF) (fun _ => append l r)
        | .lt => (del cmp x l).bind (delLeft k w l r)
        | .gt => (del cmp x r).bind (delRight k w l r)) →
      (lfind cmp x (flat t) = none ∧ del cmp x t = .notFound) ∨
      ∃ p t', lfind cmp x (flat t) = some p ∧ del cmp x t = .ok p.2 t' ∧ flat t' = lrem cmp x (flat t) ∧ DelInv t t' := by
    intro k w l r t hf ho hb h2 h3 c3 c4 hcol hb1 hb2 il ir hd
    rw [hf] at ho ⊢
    rw [hd]
    obtain ⟨o1, o2, o3, o4, _⟩ := sorted_mid.mp ho
    have fin : ∀ s, invh s → bh s = bh l → invc2 s → (isBlack l → isBlack r → invc s) → DelInv t s := by
      intro s s1 s2 s3 s4
      refine ⟨s1, fun hb => ⟨s3, by rw [hb1 hb, s2]⟩, fun hb => ?_⟩
      rcases hcol with h' | h'
      · exact absurd h' hb
      · exact ⟨s4 h'.1 h'.2, by rw [hb2 hb, s2]⟩
    cases e : cmp x k with
    | lt =>
      rw [lfind_lt h e, lrem_lt h e]
      rcases il with ⟨i1, i2⟩ | ⟨p, l', i1, i2, i3, i4⟩
      · exact .inl ⟨i1, by simp only [i2, Rm.bind]⟩
      · obtain ⟨s, s1, s2, s3, s4, s5, s6⟩ := delLeft_ok k w l l' r i4 (by rintro rfl; cases i2) hb h3 c4
        exact .inr ⟨p, s, i1, by simp only [i2, Rm.bind, s1], by rw [s2, i3], fin s s3 s4 s5 s6⟩
    | gt =>
      rw [lfind_gt h e o3, lrem_gt h e o3]
      rcases ir with ⟨i1, i2⟩ | ⟨p, r', i1, i2, i3, i4⟩
      · exact .inl ⟨i1, by simp only [i2, Rm.bind]⟩
      · obtain ⟨s, s1, s2, s3, s4, s5, s6⟩ := delRight_ok k w l r r' i4 (by rintro rfl; cases i2) hb h2 c3
        exact .inr ⟨p, s, i1, by simp only [i2, Rm.bind, s1], by rw [s2, i3], fin s s3 s4 s5 s6⟩
    | eq =>
      rw [lfind_eq h e o3, lrem_eq h e o3]
      obtain ⟨s, s1, s2, s3, s4, s5, s6⟩ := append_ok _ l r (Nat.le_refl _) h2 h3 hb c3 c4
      exact .inr ⟨_, s, rfl, by simp only [Rm.bind, s1], s2, fin s s3 s4 s5 s6⟩
  induction t with
  | LEAF => exact .inl ⟨rfl, rfl⟩
  | RED k w l r ihl ihr =>
    obtain ⟨h1, h2, h3⟩ := hh
    obtain ⟨c1, c2, c3, c4⟩ := hc
    obtain ⟨o1, o2, -⟩ := sorted_mid.mp ho
    exact node k w l r _ rfl ho h1 h2 h3 c3 c4 (.inr ⟨c1, c2⟩) (fun h => absurd h id) (fun _ => rfl) (ihl h2 c3 o1) (ihr h3 c4 o2) (by rw [del]; cases cmp x k <;> rfl)
  | BLACK k w l r ihl ihr =>
    obtain ⟨h1, h2, h3⟩ := hh
    obtain ⟨c3, c4⟩ := hc
    obtain ⟨o1, o2, -⟩ := sorted_mid.mp ho
    exact node k w l r _ rfl ho h1 h2 h3 c3 c4 (.inl trivial) (fun _ => rfl) (fun h => absurd trivial h) (ihl h2 c3 o1) (ihr h3 c4 o2) (by rw [del]; cases cmp x k <;> rfl)

end

/-! ### traversals -/

theorem flat_push (b : Tree K V) (s : List (Tree K V)) : (push b s).flatMap flat = flat b ++ s.flatMap flat := by
  cases b <;> simp [push, flat]

theorem getMin_ok (s : List (Tree K V)) :
    (s.flatMap flat = [] ∧ getMin s = none) ∨ ∃ k x s', getMin s = some (k, x, s') ∧ s.flatMap flat = (k, x) :: s'.flatMap flat := by
  fun_induction getMin s with
  | case1 => exact .inl ⟨rfl, rfl⟩
  | case2 rest ih => simpa [flat] using ih
  | case3 k x a b rest h | case5 k x a b rest h =>
    rw [isLeaf_iff] at h; subst h
    exact .inr ⟨k, x, _, rfl, by rw [flat_push]; simp [flat]⟩
  | case4 k x a b rest h ih | case6 k x a b rest h ih =>
    have e : (pushNode a k x b rest).flatMap flat = flat a ++ (k, x) :: (flat b ++ rest.flatMap flat) := by
      simp [pushNode, flat, flat_push]
    rw [e] at ih
    simpa [flat] using ih

/-- the items of a stack whose trees are to be read from right to left -/
theorem getMax_ok (s : List (Tree K V)) :
    (s.reverse.flatMap flat = [] ∧ getMax s = none) ∨
      ∃ k x s', getMax s = some (k, x, s') ∧ s.reverse.flatMap flat = s'.reverse.flatMap flat ++ [(k, x)] := by
  fun_induction getMax s with
  | case1 => exact .inl ⟨rfl, rfl⟩
  | case2 rest ih => simpa [flat] using ih
  | case3 k x a b rest h | case5 k x a b rest h =>
    rw [isLeaf_iff] at h; subst h
    refine .inr ⟨k, x, _, rfl, ?_⟩
    cases a <;> simp [push, flat]
  | case4 k x a b rest h ih | case6 k x a b rest h ih =>
    have e : (pushNode b k x a rest).reverse.flatMap flat = rest.reverse.flatMap flat ++ (flat a ++ (k, x) :: flat b) := by
      cases a <;> simp [pushNode, flat, push]
    rw [e] at ih
    simpa [flat] using ih

theorem foldlLoop_eq {S : Type} (f : K × V × S → S) (s : List (Tree K V)) (acc : S) :
    foldlLoop f s acc = (s.flatMap flat).foldl (fun a p => f (p.1, p.2, a)) acc := by
  fun_induction foldlLoop f s acc with
  | case1 s acc k x s' h ih =>
    rcases getMin_ok s with ⟨h1, h2⟩ | ⟨k', x', s'', h1, h2⟩
    · rw [h2] at h; cases h
    · rw [h1] at h; cases h
      rw [ih, h2]; rfl
  | case2 s acc h =>
    rcases getMin_ok s with ⟨h1, h2⟩ | ⟨k', x', s'', h1, h2⟩
    · rw [h1]; rfl
    · rw [h1] at h; cases h

theorem foldrLoop_eq {S : Type} (f : K × V × S → S) (s : List (Tree K V)) (acc : S) :
    foldrLoop f s acc = (s.reverse.flatMap flat).foldr (fun p a => f (p.1, p.2, a)) acc := by
  fun_induction foldrLoop f s acc with
  | case1 s acc k x s' h ih =>
    rcases getMax_ok s with ⟨h1, h2⟩ | ⟨k', x', s'', h1, h2⟩
    · rw [h2] at h; cases h
    · rw [h1] at h; cases h
      rw [ih, h2]; simp
  | case2 s acc h =>
    rcases getMax_ok s with ⟨h1, h2⟩ | ⟨k', x', s'', h1, h2⟩
    · rw [h1]; rfl
    · rw [h1] at h; cases h

theorem listItems_eq (d : Dict K V) : listItems d = flat d.tree := by
  simp [listItems, foldr, foldrLoop_eq]

/-- C39: the traversals go through the items in (reverse) order. -/
theorem C39_traversals {S : Type} (d : Dict K V) (s : S) (f : K × V → S → S) (g : K × V × S → S) :
    app f d s = (listItems d).foldl (fun s p => f p s) s ∧
    revapp f d s = (listItems d).reverse.foldl (fun s p => f p s) s ∧
    foldl g s d = (listItems d).foldl (fun s p => g (p.1, p.2, s)) s ∧
    foldr g s d = (listItems d).foldr (fun p s => g (p.1, p.2, s)) s := by
  rw [listItems_eq]
  refine ⟨?_, ?_, ?_, ?_⟩
  · simp [app, foldl, foldlLoop_eq]
  · simp [revapp, foldr, foldrLoop_eq]
  · simp [foldl, foldlLoop_eq]
  · simp [foldr, foldrLoop_eq]

/-! ### height -/

theorem height_le (t : Tree K V) (hc : invc t) (hh : invh t) : height t ≤ 2 * bh t + 1 ∧ (isBlack t → height t ≤ 2 * bh t) := by
  induction t with
  | LEAF => simp [height]
  | RED k x l r ihl ihr =>
    obtain ⟨c1, c2, c3, c4⟩ := hc
    obtain ⟨h1, h2, h3⟩ := hh
    have := (ihl c3 h2).2 c1
    have := (ihr c4 h3).2 c2
    exact ⟨by simp only [height, bh]; omega, fun h => absurd h id⟩
  | BLACK k x l r ihl ihr =>
    obtain ⟨c3, c4⟩ := hc
    obtain ⟨h1, h2, h3⟩ := hh
    have := (ihl c3 h2).1
    have := (ihr c4 h3).1
    exact ⟨by simp only [height, bh]; omega, fun _ => by simp only [height, bh]; omega⟩

theorem count_ge (t : Tree K V) (hh : invh t) : 2 ^ bh t ≤ (flat t).length + 1 := by
  induction t with
  | LEAF => simp [bh, flat]
  | RED k x l r ihl ihr =>
    have := ihl hh.2.1
    simp only [bh, flat, List.length_append, List.length_cons]; omega
  | BLACK k x l r ihl ihr =>
    have h1 := ihl hh.2.1
    have h2 := ihr hh.2.2
    rw [← hh.1] at h2
    simp only [bh, flat, List.length_append, List.length_cons, Nat.pow_succ]; omega

/-! ### the property -/

/-- the operations that make a new map -/
inductive Op (K V : Type) where
  | insert (k : K) (v : V)
  | remove (k : K)

/-- a program (the last operation comes first): `none` if Fail was raised; NotFound leaves the map as it was -/
def run (cmp : K → K → Ordering) : List (Op K V) → Option (Dict K V)
  | [] => some mkDict
  | .insert k v :: ops => do let d ← run cmp ops; some (insert cmp d k v)
  | .remove k :: ops => do
    let d ← run cmp ops
    match remove cmp d k with
    | .ok d' _ => some d'
    | .notFound => some d
    | .fail => none

/-- the same on finite maps -/
def spec (cmp : K → K → Ordering) : List (Op K V) → FMap K V
  | [] => FMap.empty
  | .insert k v :: ops => FMap.insert cmp (spec cmp ops) k v
  | .remove k :: ops => FMap.remove cmp (spec cmp ops) k

/-- the invariant of a map -/
def Ok (d : Dict K V) : Prop := invh d.tree ∧ invc d.tree ∧ isBlack d.tree ∧ d.n = (flat d.tree).length

theorem lins_length {cmp : K → K → Ordering} (x : K) (v : V) (l : List (K × V)) :
    (lins cmp x v l).length = l.length + (lfind cmp x l).isNone.toNat := by
  induction l with
  | nil => simp [lins, lfind]
  | cons p l ih =>
    simp only [lins, lfind]
    cases e : cmp x p.1 <;> simp [ih]
    omega

theorem lrem_length {cmp : K → K → Ordering} (x : K) (l : List (K × V)) (p : K × V) (s : lfind cmp x l = some p) :
    (lrem cmp x l).length + 1 = l.length := by
  induction l with
  | nil => cases s
  | cons q l ih =>
    simp only [lrem, lfind] at *
    cases e : cmp x q.1 <;> simp only [e] at s
    · cases s
    · simp
    · simp [ih s]

theorem blacken_ok (t : Tree K V) (h : invh t) (c : invc2 t) : invh (blacken t) ∧ invc (blacken t) ∧ isBlack (blacken t) := by
  refine ⟨?_, c, ?_⟩ <;> cases t <;> first | exact h | trivial

theorem run_ok {cmp : K → K → Ordering} (h : Lawful cmp) (ops : List (Op K V)) :
    ∃ d, run cmp ops = some d ∧ Ok d ∧ Lists cmp (flat d.tree) (spec cmp ops) := by
  induction ops with
  | nil => exact ⟨mkDict, rfl, ⟨trivial, trivial, trivial, rfl⟩, Lists.empty⟩
  | cons op ops ih =>
    obtain ⟨d, h1, ⟨h2, h3, h4, h5⟩, h6⟩ := ih
    cases op with
    | insert k v =>
      obtain ⟨i1, i2⟩ := ins_ok h k v d.tree h6.1
      obtain ⟨j1, j2, j3, j4⟩ := ins_inv (cmp := cmp) k v d.tree h2 h3
      obtain ⟨b1, b2, b3⟩ := blacken_ok _ j1 j3
      refine ⟨insert cmp d k v, by simp only [run, h1]; rfl, ⟨b1, b2, b3, ?_⟩, ?_⟩
      · have := lins_length (cmp := cmp) k v (flat d.tree)
        simp only [insert, flat_blacken, i1, this]
        cases e : lfind cmp k (flat d.tree) with
        | none => rw [if_pos (i2.2 e), h5]; simp
        | some p => rw [if_neg (fun h => by rw [i2.1 h] at e; cases e), h5]; simp
      · simp only [insert, flat_blacken, i1]; exact h6.insert h k v
    | remove k =>
      rcases del_ok h k d.tree h2 h3 h6.1 with ⟨e1, e2⟩ | ⟨p, t', e1, e2, e3, e4⟩
      · refine ⟨d, by simp [run, h1, remove, e2], ⟨h2, h3, h4, h5⟩, ?_⟩
        have e : spec cmp (.remove k :: ops) = spec cmp ops := by
          funext y
          simp only [spec, FMap.remove]
          split
          · rename_i e
            cases e' : spec cmp ops y with
            | none => rfl
            | some p =>
              have := (h6.2 y p).1 e'
              rw [(lfind_some h h6.1).2 ⟨this.1, h.eq_trans this.2 (h.eq_symm e)⟩] at e1
              cases e1
          · rfl
        rw [e]; exact h6
      · obtain ⟨b1, b2, b3⟩ := blacken_ok _ e4.1 (e4.2.1 h4).1
        refine ⟨⟨blacken t', d.n - 1⟩, by simp [run, h1, remove, e2], ⟨b1, b2, b3, ?_⟩, ?_⟩
        · have := lrem_length k _ p e1
          simp only [flat_blacken, e3, h5]; omega
        · simp only [flat_blacken, e3]; exact h6.remove h k

/-- C39: after any sequence of insertions and removals, in which Fail is never raised, the map behaves as the finite map. -/
theorem C39_redblackmap {cmp : K → K → Ordering} (h : Lawful cmp) (ops : List (Op K V)) :
    ∃ d, run cmp ops = some d ∧
      (∀ x, find cmp d x = (spec cmp ops).value x) ∧
      Lists cmp (listItems d) (spec cmp ops) ∧
      numItems d = (listItems d).length ∧
      (∀ x, (spec cmp ops x = none ∧ remove cmp d x = .notFound) ∨ ∃ d' v, (spec cmp ops).value x = some v ∧ remove cmp d x = .ok d' v) := by
  obtain ⟨d, h1, ⟨h2, h3, h4, h5⟩, h6⟩ := run_ok h ops
  refine ⟨d, h1, ?_, ?_, ?_, ?_⟩
  · intro x
    rw [find, (findLoop_ok h x d.tree h6.1).1, Lists.find h h6]; rfl
  · rw [listItems_eq]; exact h6
  · rw [listItems_eq]; exact h5
  · intro x
    rcases del_ok h x d.tree h2 h3 h6.1 with ⟨e1, e2⟩ | ⟨p, t', e1, e2, -, -⟩
    · exact .inl ⟨by rw [← Lists.find h h6]; exact e1, by simp [remove, e2]⟩
    · refine .inr ⟨⟨blacken t', d.n - 1⟩, p.2, ?_, by simp only [remove, e2]⟩
      rw [FMap.value, ← Lists.find h h6, e1]; rfl

/-- C39: looking up a key in a map of `n` items made by any sequence of operations takes at most 2 log2 (n+1) comparisons. -/
theorem C39_comparisons {cmp : K → K → Ordering} (h : Lawful cmp) (ops : List (Op K V)) (d : Dict K V) (hd : run cmp ops = some d) (x : K) :
    (findLoop cmp x d.tree).2 ≤ 2 * Nat.log2 ((listItems d).length + 1) := by
  obtain ⟨d', h1, ⟨h2, h3, h4, h5⟩, h6⟩ := run_ok h ops
  rw [hd] at h1; cases h1
  have e1 := (findLoop_ok h x d.tree h6.1).2
  have e2 := (height_le d.tree h3 h2).2 h4
  have e3 := count_ge d.tree h2
  rw [listItems_eq]
  have e4 : bh d.tree ≤ Nat.log2 ((flat d.tree).length + 1) := (Nat.le_log2 (by omega)).2 e3
  omega

/-- the effect of applying a function with state to the items of a list in turn -/
def mapList {S W : Type} (f : K × V → S → W × S) : List (K × V) → S → List (K × W) × S
  | [], s => ([], s)
  | p :: l, s => let r := f p s; let q := mapList f l r.2; ((p.1, r.1) :: q.1, q.2)

theorem mapList_append {S W : Type} (f : K × V → S → W × S) (l r : List (K × V)) (s : S) :
    mapList f (l ++ r) s = ((mapList f l s).1 ++ (mapList f r (mapList f l s).2).1, (mapList f r (mapList f l s).2).2) := by
  induction l generalizing s with
  | nil => rfl
  | cons p l ih => simp [mapList, ih]

theorem mapLoop_eq {S W : Type} (t : Tree K V) (s : S) (f : K × V → S → W × S) :
    (flat (mapLoop f t s).1, (mapLoop f t s).2) = mapList f (flat t) s := by
  induction t generalizing s with
  | LEAF => rfl
  | RED k v l r ihl ihr | BLACK k v l r ihl ihr =>
    have e1 := ihl s
    have e2 := ihr (f (k, v) (mapLoop f l s).2).2
    simp only [mapLoop, flat, mapList_append, mapList]
    rw [← e1, ← e2]

/-- C39: `map` and `transform` keep the keys and call the function on the items in order. -/
theorem C39_map {S W : Type} (d : Dict K V) (s : S) (f : K × V → S → W × S) (g : V → S → W × S) :
    (listItems (map f d s).1, (map f d s).2) = mapList f (listItems d) s ∧
    (listItems (transform g d s).1, (transform g d s).2) = mapList (fun p => g p.2) (listItems d) s ∧
    numItems (map f d s).1 = numItems d ∧ numItems (transform g d s).1 = numItems d := by
  simp only [listItems_eq]
  exact ⟨mapLoop_eq _ _ _, mapLoop_eq _ _ _, rfl, rfl⟩

/-- a run with rebalancing, a replacement and removals, under a comparison for which 1 and 11 are the same key -/
example : ((run (fun a b : Int => compare (a % 10) (b % 10)) [.remove 3, .insert 11 'x', .remove 8, .insert 5 'e', .insert 4 'd',
      .insert 3 'c', .insert 2 'b', .insert 1 'a']).map (fun d => (flat d.tree, numItems d))) =
    some ([(11, 'x'), (2, 'b'), (4, 'd'), (5, 'e')], 4) := by decide +kernel

example : Lawful (fun a b : Int => compare (a % 10) (b % 10)) := mod_lawful 10

end Mosml.Maps.Redblackmap
