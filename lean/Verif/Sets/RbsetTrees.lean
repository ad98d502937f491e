import Verif.Sets.Rbset

/-!
Red-black trees as sorted lists; balance.
-/
namespace Mosml.Sets.Rbset
open Mosml.Maps (Lawful)
open Tree
variable {K : Type}

/-- the elements of a tree from left to right -/
def flat : Tree K → List K
  | LEAF => []
  | RED k l r | BLACK k l r => flat l ++ k :: flat r

def isBlack : Tree K → Prop
  | RED _ _ _ => False
  | _ => True

/-- no red node has a red child -/
def invc : Tree K → Prop
  | LEAF => True
  | RED _ l r => isBlack l ∧ isBlack r ∧ invc l ∧ invc r
  | BLACK _ l r => invc l ∧ invc r

/-- as `invc`, but the root may be red with red children -/
def invc2 (t : Tree K) : Prop := invc (blacken t)

/-- number of black nodes on the leftmost path -/
def bh : Tree K → Nat
  | LEAF => 0
  | RED _ l _ => bh l
  | BLACK _ l _ => bh l + 1

/-- the same number of black nodes on every path -/
def invh : Tree K → Prop
  | LEAF => True
  | RED _ l r | BLACK _ l r => bh l = bh r ∧ invh l ∧ invh r

theorem invc2_of (t : Tree K) (h : invc t) : invc2 t := by
  cases t <;> simp_all [invc2, blacken, invc]

/-! ### order -/

theorem flat_blacken (t : Tree K) : flat (blacken t) = flat t := by cases t <;> rfl

theorem flat_lbalance (k : K) (l r : Tree K) : flat (lbalance k l r) = flat l ++ k :: flat r := by
  unfold lbalance; split <;> simp [flat]

theorem flat_rbalance (k : K) (l r : Tree K) : flat (rbalance k l r) = flat l ++ k :: flat r := by
  unfold rbalance; split <;> simp [flat]

theorem flat_sub1 {t t' : Tree K} (h : sub1 t = some t') : flat t' = flat t := by
  cases t <;> simp [sub1] at h; subst h; rfl

theorem flat_balleft {k : K} {l r t : Tree K} (h : balleft k l r = some t) : flat t = flat l ++ k :: flat r := by
  unfold balleft at h
  split at h
  · cases h; simp [flat]
  · cases h; simp [flat_rbalance, flat]
  · rename_i z w a b c _
    cases e : sub1 c with
    | none => rw [e] at h; cases h
    | some c' =>
      rw [e] at h; cases h
      simp [flat, flat_rbalance, flat_sub1 e]
  · cases h

theorem flat_balright {k : K} {l r t : Tree K} (h : balright k l r = some t) : flat t = flat l ++ k :: flat r := by
  unfold balright at h
  split at h
  · cases h; simp [flat]
  · cases h; simp [flat_lbalance, flat]
  · rename_i w a y b c _
    cases e : sub1 a with
    | none => rw [e] at h; cases h
    | some c' =>
      rw [e] at h; cases h
      simp [flat, flat_lbalance, flat_sub1 e]
  · cases h

/-! ### balance -/

theorem lbalance_inv (k : K) (l r : Tree K) (hl : invh l) (hr : invh r) (he : bh l = bh r) (cl : invc2 l) (cr : invc r) :
    invh (lbalance k l r) ∧ bh (lbalance k l r) = bh l + 1 ∧ invc (lbalance k l r) := by
  unfold lbalance
  split
  · simp_all [invh, bh, invc, invc2, blacken, isBlack]
  · simp_all [invh, bh, invc, invc2, blacken, isBlack]
  · rename_i h1 h2
    refine ⟨⟨he, hl, hr⟩, rfl, ?_, cr⟩
    cases l with
    | LEAF => exact cl
    | BLACK => exact cl
    | RED a c d =>
      refine ⟨?_, ?_, cl.1, cl.2⟩
      · cases c <;> simp [isBlack]; exact h1 _ _ _ _ _ rfl
      · cases d <;> simp [isBlack]; exact h2 _ _ _ _ _ rfl

theorem rbalance_inv (k : K) (l r : Tree K) (hl : invh l) (hr : invh r) (he : bh l = bh r) (cl : invc l) (cr : invc2 r) :
    invh (rbalance k l r) ∧ bh (rbalance k l r) = bh l + 1 ∧ invc (rbalance k l r) := by
  unfold rbalance
  split
  · simp_all [invh, bh, invc, invc2, blacken, isBlack]
  · obtain ⟨h1, ⟨h2, h3, h4⟩, h5⟩ := hr
    obtain ⟨⟨c1, c2, c3, c4⟩, c5⟩ := cr
    simp only [bh] at *
    exact ⟨⟨by simp only [bh]; omega, ⟨by omega, hl, h3⟩, ⟨by omega, h4, h5⟩⟩, trivial, ⟨trivial, trivial, ⟨cl, c3⟩, ⟨c4, c5⟩⟩⟩
  · rename_i h1 h2
    refine ⟨⟨he, hl, hr⟩, rfl, cl, ?_⟩
    cases r with
    | LEAF => exact cr
    | BLACK => exact cr
    | RED a c d =>
      refine ⟨?_, ?_, cr.1, cr.2⟩
      · cases c <;> simp [isBlack]; exact h2 _ _ _ _ _ rfl
      · cases d <;> simp [isBlack]; exact h1 _ _ _ _ _ rfl

theorem sub1_ok {t : Tree K} (h : invh t) (c : invc t) (b : isBlack t) (p : 0 < bh t) :
    ∃ t', sub1 t = some t' ∧ invh t' ∧ bh t' + 1 = bh t ∧ invc2 t' := by
  cases t with
  | LEAF => simp [bh] at p
  | RED => exact absurd b id
  | BLACK k l r => exact ⟨_, rfl, h, rfl, c⟩

theorem balleft_ok (k : K) (l r : Tree K) (hl : invh l) (hr : invh r) (he : bh l + 1 = bh r) (cl : invc2 l) (cr : invc r) :
    ∃ t, balleft k l r = some t ∧ invh t ∧ bh t = bh r ∧ invc2 t ∧ (isBlack r → invc t) := by
  unfold balleft
  split
  · rename_i lk a b
    refine ⟨_, rfl, ⟨by simpa [bh] using he, hl, hr⟩, by simpa [bh] using he, ⟨cl, cr⟩, fun h => ⟨trivial, h, cl, cr⟩⟩
  · rename_i z a b hn
    have cl' : invc l := by
      cases l with
      | RED => exact absurd rfl (hn _ _ _)
      | _ => exact cl
    have h1 := rbalance_inv k l (RED z a b) hl hr (by simpa [bh] using he) cl' cr
    exact ⟨_, rfl, h1.1, by rw [h1.2.1]; simpa [bh] using he, invc2_of _ h1.2.2, fun _ => h1.2.2⟩
  · rename_i z w a b c hn
    have cl' : invc l := by
      cases l with
      | RED => exact absurd rfl (hn _ _ _)
      | _ => exact cl
    obtain ⟨h1, ⟨h2, h3, h4⟩, h5⟩ := hr
    obtain ⟨c1, c2, ⟨c3, c4⟩, c5⟩ := cr
    simp only [bh] at he h1
    obtain ⟨c', e1, e2, e3, e4⟩ := sub1_ok h5 c5 c2 (by omega)
    have h6 := rbalance_inv z b c' h4 e2 (by omega) c4 e4
    rw [e1]
    refine ⟨_, rfl, ⟨?_, ⟨by omega, hl, h3⟩, h6.1⟩, ?_, ⟨⟨cl', c3⟩, h6.2.2⟩, fun h => absurd h id⟩
    · rw [h6.2.1]; simp only [bh]; omega
    · simp only [bh]; omega
  · rename_i h1 h2 h3
    exfalso
    cases r with
    | LEAF => simp [bh] at he
    | BLACK => exact h2 _ _ _ rfl
    | RED k' a b =>
      obtain ⟨c1, -⟩ := cr
      cases a with
      | LEAF => simp [bh] at he
      | RED => exact c1
      | BLACK => exact h3 _ _ _ _ _ rfl

theorem balright_ok (k : K) (l r : Tree K) (hl : invh l) (hr : invh r) (he : bh l = bh r + 1) (cl : invc l) (cr : invc2 r) :
    ∃ t, balright k l r = some t ∧ invh t ∧ bh t = bh l ∧ invc2 t ∧ (isBlack l → invc t) := by
  unfold balright
  split
  · rename_i lk a b
    refine ⟨_, rfl, ⟨by simpa [bh] using he, hl, hr⟩, rfl, ⟨cl, cr⟩, fun h => ⟨h, trivial, cl, cr⟩⟩
  · rename_i z a b hn
    have cr' : invc r := by
      cases r with
      | RED => exact absurd rfl (hn _ _ _)
      | _ => exact cr
    have h1 := lbalance_inv k (RED z a b) r hl hr (by simpa [bh] using he) cl cr'
    exact ⟨_, rfl, h1.1, by rw [h1.2.1]; simp [bh], invc2_of _ h1.2.2, fun _ => h1.2.2⟩
  · rename_i w a y b c hn
    have cr' : invc r := by
      cases r with
      | RED => exact absurd rfl (hn _ _ _)
      | _ => exact cr
    obtain ⟨h1, h5, ⟨h2, h3, h4⟩⟩ := hl
    obtain ⟨c1, c2, c5, ⟨c3, c4⟩⟩ := cl
    simp only [bh] at he h1
    obtain ⟨a', e1, e2, e3, e4⟩ := sub1_ok h5 c5 c1 (by omega)
    have h6 := lbalance_inv w a' b e2 h3 (by omega) e4 c3
    rw [e1]
    refine ⟨_, rfl, ⟨?_, h6.1, ⟨by omega, h4, hr⟩⟩, ?_, ⟨h6.2.2, ⟨c4, cr'⟩⟩, fun h => absurd h id⟩
    · rw [h6.2.1]; simp only [bh]; omega
    · simp only [bh]; rw [h6.2.1]; omega
  · rename_i h1 h2 h3
    exfalso
    cases l with
    | LEAF => simp [bh] at he
    | BLACK => exact h1 _ _ _ rfl
    | RED k' a b =>
      obtain ⟨-, c1, -⟩ := cl
      have h4 := hl.1
      cases b with
      | LEAF => simp only [bh] at he h4; omega
      | RED => exact c1
      | BLACK => exact h2 _ _ _ _ _ rfl

theorem append_ok (n : Nat) : ∀ (l r : Tree K), size l + size r ≤ n → invh l → invh r → bh l = bh r → invc l → invc r →
    ∃ t, append l r = some t ∧ flat t = flat l ++ flat r ∧ invh t ∧ bh t = bh l ∧ invc2 t ∧ (isBlack l → isBlack r → invc t) := by
  induction n with
  | zero =>
    intro l r hn hl hr he cl cr
    cases l with
    | LEAF => exact ⟨r, by simp [append], rfl, hr, he.symm, invc2_of _ cr, fun _ _ => cr⟩
    | _ => simp [size] at hn
  | succ n ih =>
    intro l r hn hl hr he cl cr
    cases l with
    | LEAF => exact ⟨r, by simp [append], rfl, hr, he.symm, invc2_of _ cr, fun _ _ => cr⟩
    | RED x a b =>
      obtain ⟨l1, l2, l3⟩ := hl
      obtain ⟨l4, l5, l6, l7⟩ := cl
      cases r with
      | LEAF => exact ⟨RED x a b, by simp [append], by simp [flat], ⟨l1, l2, l3⟩, rfl, invc2_of _ ⟨l4, l5, l6, l7⟩, fun _ _ => ⟨l4, l5, l6, l7⟩⟩
      | RED y c d =>
        obtain ⟨r1, r2, r3⟩ := hr
        obtain ⟨r4, r5, r6, r7⟩ := cr
        simp only [bh] at he
        obtain ⟨t, t1, t2, t3, t4, t5, t6⟩ := ih b c (by simp only [size] at hn; omega) l3 r2 (by omega) l7 r6
        have t7 := t6 l5 r4
        unfold append
        rw [t1]
        cases t with
        | RED z b' c' =>
          refine ⟨_, rfl, ?_, ?_, ?_, ?_, fun h => absurd h id⟩
          · simp only [flat] at t2 ⊢; simp only [List.append_assoc, List.cons_append]
            have := congrArg (· ++ y :: flat d) t2
            simp only [List.append_assoc, List.cons_append] at this
            rw [this]
          · obtain ⟨t31, t32, t33⟩ := t3
            simp only [invh, bh] at *
            refine ⟨by omega, ⟨by omega, l2, t32⟩, ⟨by omega, t33, r3⟩⟩
          · simp only [bh]
          · obtain ⟨t71, t72, t73, t74⟩ := t7
            exact ⟨⟨l4, t71, l6, t73⟩, ⟨t72, r5, t74, r7⟩⟩
        | LEAF | BLACK =>
          refine ⟨_, rfl, ?_, ?_, ?_, ?_, fun h => absurd h id⟩
          · simp only [flat] at t2 ⊢
            simp only [List.append_assoc, List.cons_append]
            have := congrArg (· ++ y :: flat d) t2
            simp only [List.append_assoc, List.cons_append] at this
            simp [this]
          · simp only [invh, bh] at *
            refine ⟨by omega, l2, ⟨by omega, t3, r3⟩⟩
          · simp only [bh]
          · exact ⟨l6, ⟨trivial, r5, t7, r7⟩⟩
      | BLACK y c d =>
        simp only [bh] at he
        obtain ⟨t, t1, t2, t3, t4, t5, t6⟩ := ih b (BLACK y c d) (by simp only [size] at hn ⊢; omega) l3 hr (by simp only [bh]; omega) l7 cr
        unfold append
        rw [t1]
        refine ⟨_, rfl, by simp [flat] at t2 ⊢; rw [t2], ⟨by omega, l2, t3⟩, rfl, ⟨l6, t6 l5 trivial⟩, fun h => absurd h id⟩
    | BLACK x a b =>
      cases r with
      | LEAF => exact ⟨_, by simp [append], by simp [flat], hl, rfl, invc2_of _ cl, fun _ _ => cl⟩
      | RED y c d =>
        obtain ⟨r1, r2, r3⟩ := hr
        obtain ⟨r4, r5, r6, r7⟩ := cr
        simp only [bh] at he
        obtain ⟨t, t1, t2, t3, t4, t5, t6⟩ := ih (BLACK x a b) c (by simp only [size] at hn ⊢; omega) hl r2 (by simp only [bh]; omega) cl r6
        unfold append
        rw [t1]
        refine ⟨_, rfl, by simp [flat] at t2 ⊢; rw [t2]; simp, ⟨by simp only [bh] at *; omega, t3, r3⟩, by simp only [bh] at *; omega, ⟨t6 trivial r4, r7⟩, fun _ h => absurd h id⟩
      | BLACK y c d =>
        obtain ⟨l1, l2, l3⟩ := hl
        obtain ⟨l6, l7⟩ := cl
        obtain ⟨r1, r2, r3⟩ := hr
        obtain ⟨r6, r7⟩ := cr
        simp only [bh] at he
        obtain ⟨t, t1, t2, t3, t4, t5, t6⟩ := ih b c (by simp only [size] at hn; omega) l3 r2 (by omega) l7 r6
        unfold append
        rw [t1]
        have cat := congrArg (· ++ y :: flat d) t2
        cases t with
        | RED z b' c' =>
          obtain ⟨t31, t32, t33⟩ := t3
          simp only [flat, List.append_assoc, List.cons_append] at cat
          refine ⟨_, rfl, by simp [flat, cat], ?_, ?_, ?_, ?_⟩
          · simp only [invh, bh] at *
            exact ⟨by omega, ⟨by omega, l2, t32⟩, ⟨by omega, t33, r3⟩⟩
          · simp only [bh]
          · exact ⟨⟨l6, t5.1⟩, ⟨t5.2, r7⟩⟩
          · exact fun _ _ => ⟨trivial, trivial, ⟨l6, t5.1⟩, ⟨t5.2, r7⟩⟩
        | LEAF =>
          have k1 := balleft_ok x a (BLACK y LEAF d) l2 ⟨by omega, t3, r3⟩ (by simp only [bh] at *; omega) (invc2_of _ l6) ⟨t5, r7⟩
          obtain ⟨s, s1, s2, s3, s4, s5⟩ := k1
          simp only [flat, List.append_assoc, List.cons_append] at cat
          refine ⟨s, s1, by rw [flat_balleft s1]; simp [flat] at *; exact cat, s2, by rw [s3]; simp only [bh] at *; omega, s4, fun _ _ => s5 trivial⟩
        | BLACK tk tl tr =>
          have k1 := balleft_ok x a (BLACK y (BLACK tk tl tr) d) l2 ⟨by omega, t3, r3⟩ (by simp only [bh] at *; omega) (invc2_of _ l6) ⟨t5, r7⟩
          obtain ⟨s, s1, s2, s3, s4, s5⟩ := k1
          simp only [flat, List.append_assoc, List.cons_append] at cat
          refine ⟨s, s1, by rw [flat_balleft s1]; simp [flat] at *; exact cat, s2, by rw [s3]; simp only [bh] at *; omega, s4, fun _ _ => s5 trivial⟩

section
variable {cmp : K → K → Ordering} (h : Lawful cmp)
include h

theorem mem_ok (x : K) (t : Tree K) (ho : Asc cmp (flat t)) :
    (mem cmp x t).1 = (lfind cmp x (flat t)).isSome ∧ (mem cmp x t).2 ≤ depth t := by
  induction t with
  | LEAF => exact ⟨rfl, Nat.le_refl _⟩
  | RED k l r ihl ihr | BLACK k l r ihl ihr =>
    obtain ⟨o1, o2, o3, o4, _⟩ := asc_mid.mp ho
    unfold mem
    rw [flat]
    cases e : cmp x k with
    | gt => rw [lfind_gt h e o3]; have := ihr o2; exact ⟨this.1, by simp only [depth]; omega⟩
    | lt => rw [lfind_lt h e]; have := ihl o1; exact ⟨this.1, by simp only [depth]; omega⟩
    | eq => rw [lfind_eq h e o3]; exact ⟨rfl, by simp only [depth]; omega⟩

theorem ins_ok (x : K) (t : Tree K) (ho : Asc cmp (flat t)) (hh : invh t) (hc : invc t) :
    (ins cmp x t = none ∧ (lfind cmp x (flat t)).isSome ∧ ladd cmp x (flat t) = flat t) ∨
    ∃ t', ins cmp x t = some t' ∧ lfind cmp x (flat t) = none ∧ flat t' = ladd cmp x (flat t) ∧
      invh t' ∧ bh t' = bh t ∧ invc2 t' ∧ (isBlack t → invc t') := by
  induction t with
  | LEAF => simp [ins, flat, ladd, lfind, invh, bh, invc2, blacken, invc, isBlack]
  | RED k l r ihl ihr =>
    obtain ⟨o1, o2, o3, o4, _⟩ := asc_mid.mp ho
    obtain ⟨h1, h2, h3⟩ := hh
    obtain ⟨c1, c2, c3, c4⟩ := hc
    unfold ins
    rw [flat]
    cases e : cmp x k with
    | gt =>
      simp only
      rw [lfind_gt h e o3, ladd_gt h e o3]
      rcases ihr o2 h3 c4 with ⟨i1, i2, i3⟩ | ⟨t', i1, i2, i3, i4, i5, i6, i7⟩
      · exact .inl ⟨by rw [i1]; rfl, i2, by rw [i3]⟩
      · exact .inr ⟨RED k l t', by rw [i1]; rfl, i2, by rw [flat, i3], ⟨by omega, h2, i4⟩, rfl, ⟨c3, i7 c2⟩, fun h => absurd h id⟩
    | lt =>
      simp only
      rw [lfind_lt h e, ladd_lt h e]
      rcases ihl o1 h2 c3 with ⟨i1, i2, i3⟩ | ⟨t', i1, i2, i3, i4, i5, i6, i7⟩
      · exact .inl ⟨by rw [i1]; rfl, i2, by rw [i3]⟩
      · exact .inr ⟨RED k t' r, by rw [i1]; rfl, i2, by rw [flat, i3], ⟨by omega, i4, h3⟩, i5, ⟨i7 c1, c4⟩, fun h => absurd h id⟩
    | eq => exact .inl ⟨rfl, by rw [lfind_eq h e o3]; rfl, by rw [ladd_eq h e o3]⟩
  | BLACK k l r ihl ihr =>
    obtain ⟨o1, o2, o3, o4, _⟩ := asc_mid.mp ho
    obtain ⟨h1, h2, h3⟩ := hh
    obtain ⟨c3, c4⟩ := hc
    unfold ins
    rw [flat]
    cases e : cmp x k with
    | gt =>
      simp only
      rw [lfind_gt h e o3, ladd_gt h e o3]
      rcases ihr o2 h3 c4 with ⟨i1, i2, i3⟩ | ⟨t', i1, i2, i3, i4, i5, i6, i7⟩
      · exact .inl ⟨by rw [i1]; rfl, i2, by rw [i3]⟩
      · have := rbalance_inv k l t' h2 i4 (by omega) c3 i6
        exact .inr ⟨rbalance k l t', by rw [i1]; rfl, i2, by rw [flat_rbalance, i3], this.1, by rw [this.2.1]; rfl, invc2_of _ this.2.2, fun _ => this.2.2⟩
    | lt =>
      simp only
      rw [lfind_lt h e, ladd_lt h e]
      rcases ihl o1 h2 c3 with ⟨i1, i2, i3⟩ | ⟨t', i1, i2, i3, i4, i5, i6, i7⟩
      · exact .inl ⟨by rw [i1]; rfl, i2, by rw [i3]⟩
      · have := lbalance_inv k t' r i4 h3 (by omega) i6 c4
        exact .inr ⟨lbalance k t' r, by rw [i1]; rfl, i2, by rw [flat_lbalance, i3], this.1, by rw [this.2.1, i5]; rfl, invc2_of _ this.2.2, fun _ => this.2.2⟩
    | eq => exact .inl ⟨rfl, by rw [lfind_eq h e o3]; rfl, by rw [ladd_eq h e o3]⟩

/-- what `del` leaves of the balance -/
def DelInv (t t' : Tree K) : Prop :=
  invh t' ∧ (isBlack t → invc2 t' ∧ bh t' + 1 = bh t) ∧ (¬ isBlack t → invc t' ∧ bh t' = bh t)

omit h in
theorem delLeft_ok (k : K) (l l' r : Tree K) (dl : DelInv l l') (ne : l ≠ LEAF) (h1 : bh l = bh r) (h3 : invh r) (c4 : invc r) :
    ∃ t, delLeft k l r l' = some t ∧ flat t = flat l' ++ k :: flat r ∧ invh t ∧ bh t = bh l ∧ invc2 t ∧ (isBlack l → isBlack r → invc t) := by
  obtain ⟨d1, d2, d3⟩ := dl
  cases l with
  | LEAF => exact absurd rfl ne
  | RED lk ll lr =>
    obtain ⟨d4, d5⟩ := d3 id
    exact ⟨_, rfl, rfl, ⟨by omega, d1, h3⟩, d5, ⟨d4, c4⟩, fun h => absurd h id⟩
  | BLACK lk ll lr =>
    obtain ⟨d4, d5⟩ := d2 trivial
    obtain ⟨t, t1, t2, t3, t4, t5⟩ := balleft_ok k l' r d1 h3 (by omega) d4 c4
    exact ⟨t, t1, flat_balleft t1, t2, by omega, t4, fun _ h => t5 h⟩

omit h in
theorem delRight_ok (k : K) (l r r' : Tree K) (dr : DelInv r r') (ne : r ≠ LEAF) (h1 : bh l = bh r) (h3 : invh l) (c4 : invc l) :
    ∃ t, delRight k l r r' = some t ∧ flat t = flat l ++ k :: flat r' ∧ invh t ∧ bh t = bh l ∧ invc2 t ∧ (isBlack l → isBlack r → invc t) := by
  obtain ⟨d1, d2, d3⟩ := dr
  cases r with
  | LEAF => exact absurd rfl ne
  | RED lk ll lr =>
    obtain ⟨d4, d5⟩ := d3 id
    exact ⟨_, rfl, rfl, ⟨by omega, h3, d1⟩, rfl, ⟨c4, d4⟩, fun _ h => absurd h id⟩
  | BLACK lk ll lr =>
    obtain ⟨d4, d5⟩ := d2 trivial
    obtain ⟨t, t1, t2, t3, t4, t5⟩ := balright_ok k l r' h3 d1 (by omega) c4 d4
    exact ⟨t, t1, flat_balright t1, t2, t3, t4, fun h _ => t5 h⟩

theorem del_ok (x : K) (t : Tree K) (hh : invh t) (hc : invc t) (ho : Asc cmp (flat t)) :
    (lfind cmp x (flat t) = none ∧ del cmp x t = .notFound) ∨
    ∃ p t', lfind cmp x (flat t) = some p ∧ del cmp x t = .ok t' ∧ flat t' = lrem cmp x (flat t) ∧ DelInv t t' := by
  have node : ∀ (k : K) (l r t : Tree K), flat t = flat l ++ k :: flat r → Asc cmp (flat t) → bh l = bh r → invh l → invh r →
      invc l → invc r → (isBlack t ∨ isBlack l ∧ isBlack r) → (isBlack t → bh t = bh l + 1) → (¬ isBlack t → bh t = bh l) →
      ((lfind cmp x (flat l) = none ∧ del cmp x l = .notFound) ∨
        ∃ p t', lfind cmp x (flat l) = some p ∧ del cmp x l = .ok t' ∧ flat t' = lrem cmp x (flat l) ∧ DelInv l t') →
      ((lfind cmp x (flat r) = none ∧ del cmp x r = .notFound) ∨
        ∃ p t', lfind cmp x (flat r) = some p ∧ del cmp x r = .ok t' ∧ flat t' = lrem cmp x (flat r) ∧ DelInv r t') →
      (del cmp x t = match cmp x k with
        | .eq => Rm.bind (.ok LEAF) (fun _ => append l r)
        | .lt => (del cmp x l).bind (delLeft k l r)
        | .gt => (del cmp x r).bind (delRight k l r)) →
      (lfind cmp x (flat t) = none ∧ del cmp x t = .notFound) ∨
      ∃ p t', lfind cmp x (flat t) = some p ∧ del cmp x t = .ok t' ∧ flat t' = lrem cmp x (flat t) ∧ DelInv t t' := by
    intro k l r t hf ho hb h2 h3 c3 c4 hcol hb1 hb2 il ir hd
    rw [hf] at ho ⊢
    rw [hd]
    obtain ⟨o1, o2, o3, o4, _⟩ := asc_mid.mp ho
    have fin : ∀ s, invh s → bh s = bh l → invc2 s → (isBlack l → isBlack r → invc s) → DelInv t s := by
      intro s s1 s2 s3 s4
      refine ⟨s1, fun hb => ⟨s3, by rw [hb1 hb, s2]⟩, fun hb => ?_⟩
      rcases hcol with h' | h'
      · exact absurd h' hb
      · exact ⟨s4 h'.1 h'.2, by rw [hb2 hb, s2]⟩
    cases e : cmp x k with
    | lt =>
      rw [lfind_lt h e, lrem_lt h e]
      rcases il with ⟨i1, i2⟩ | ⟨p, l', i1, i2, i3, i4⟩
      · exact .inl ⟨i1, by simp only [i2, Rm.bind]⟩
      · obtain ⟨s, s1, s2, s3, s4, s5, s6⟩ := delLeft_ok k l l' r i4 (by rintro rfl; cases i2) hb h3 c4
        exact .inr ⟨p, s, i1, by simp only [i2, Rm.bind, s1], by rw [s2, i3], fin s s3 s4 s5 s6⟩
    | gt =>
      rw [lfind_gt h e o3, lrem_gt h e o3]
      rcases ir with ⟨i1, i2⟩ | ⟨p, r', i1, i2, i3, i4⟩
      · exact .inl ⟨i1, by simp only [i2, Rm.bind]⟩
      · obtain ⟨s, s1, s2, s3, s4, s5, s6⟩ := delRight_ok k l r r' i4 (by rintro rfl; cases i2) hb h2 c3
        exact .inr ⟨p, s, i1, by simp only [i2, Rm.bind, s1], by rw [s2, i3], fin s s3 s4 s5 s6⟩
    | eq =>
      rw [lfind_eq h e o3, lrem_eq h e o3]
      obtain ⟨s, s1, s2, s3, s4, s5, s6⟩ := append_ok _ l r (Nat.le_refl _) h2 h3 hb c3 c4
      exact .inr ⟨_, s, rfl, by simp only [Rm.bind, s1], s2, fin s s3 s4 s5 s6⟩
  induction t with
  | LEAF => exact .inl ⟨rfl, rfl⟩
  | RED k l r ihl ihr =>
    obtain ⟨h1, h2, h3⟩ := hh
    obtain ⟨c1, c2, c3, c4⟩ := hc
    obtain ⟨o1, o2, -⟩ := asc_mid.mp ho
    exact node k l r _ rfl ho h1 h2 h3 c3 c4 (.inr ⟨c1, c2⟩) (fun h => absurd h id) (fun _ => rfl) (ihl h2 c3 o1) (ihr h3 c4 o2) (by rw [del]; cases cmp x k <;> rfl)
  | BLACK k l r ihl ihr =>
    obtain ⟨h1, h2, h3⟩ := hh
    obtain ⟨c3, c4⟩ := hc
    obtain ⟨o1, o2, -⟩ := asc_mid.mp ho
    exact node k l r _ rfl ho h1 h2 h3 c3 c4 (.inl trivial) (fun _ => rfl) (fun h => absurd trivial h) (ihl h2 c3 o1) (ihr h3 c4 o2) (by rw [del]; cases cmp x k <;> rfl)

end

/-! ### traversals -/

theorem flat_push (b : Tree K) (s : List (Tree K)) : (push b s).flatMap flat = flat b ++ s.flatMap flat := by
  cases b <;> simp [push, flat]

theorem getMin_ok (s : List (Tree K)) :
    (s.flatMap flat = [] ∧ getMin s = none) ∨ ∃ k s', getMin s = some (k, s') ∧ s.flatMap flat = k :: s'.flatMap flat := by
  fun_induction getMin s with
  | case1 => exact .inl ⟨rfl, rfl⟩
  | case2 rest ih => simpa [flat] using ih
  | case3 k a b rest h | case5 k a b rest h =>
    rw [isLeaf_iff] at h; subst h
    exact .inr ⟨k, _, rfl, by rw [flat_push]; simp [flat]⟩
  | case4 k a b rest h ih | case6 k a b rest h ih =>
    have e : (a :: pushNode k b rest).flatMap flat = flat a ++ k :: (flat b ++ rest.flatMap flat) := by
      simp [pushNode, flat, flat_push]
    rw [e] at ih
    simpa [flat] using ih

/-- the items of a stack whose trees are to be read from right to left -/
theorem getMax_ok (s : List (Tree K)) :
    (s.reverse.flatMap flat = [] ∧ getMax s = none) ∨
      ∃ k s', getMax s = some (k, s') ∧ s.reverse.flatMap flat = s'.reverse.flatMap flat ++ [k] := by
  fun_induction getMax s with
  | case1 => exact .inl ⟨rfl, rfl⟩
  | case2 rest ih => simpa [flat] using ih
  | case3 k a b rest h | case5 k a b rest h =>
    rw [isLeaf_iff] at h; subst h
    refine .inr ⟨k, _, rfl, ?_⟩
    cases a <;> simp [push, flat]
  | case4 k a b rest h ih | case6 k a b rest h ih =>
    have e : (b :: pushNode k a rest).reverse.flatMap flat = rest.reverse.flatMap flat ++ (flat a ++ k :: flat b) := by
      cases a <;> simp [pushNode, flat, push]
    rw [e] at ih
    simpa [flat] using ih

theorem foldlLoop_eq {S : Type} (f : K → S → S) (s : List (Tree K)) (acc : S) :
    foldlLoop f s acc = (s.flatMap flat).foldl (fun a p => f p a) acc := by
  fun_induction foldlLoop f s acc with
  | case1 s acc k s' h ih =>
    rcases getMin_ok s with ⟨h1, h2⟩ | ⟨k', s'', h1, h2⟩
    · rw [h2] at h; cases h
    · rw [h1] at h; cases h
      rw [ih, h2]; rfl
  | case2 s acc h =>
    rcases getMin_ok s with ⟨h1, h2⟩ | ⟨k', s'', h1, h2⟩
    · rw [h1]; rfl
    · rw [h1] at h; cases h

theorem foldrLoop_eq {S : Type} (f : K → S → S) (s : List (Tree K)) (acc : S) :
    foldrLoop f s acc = (s.reverse.flatMap flat).foldr (fun p a => f p a) acc := by
  fun_induction foldrLoop f s acc with
  | case1 s acc k s' h ih =>
    rcases getMax_ok s with ⟨h1, h2⟩ | ⟨k', s'', h1, h2⟩
    · rw [h2] at h; cases h
    · rw [h1] at h; cases h
      rw [ih, h2]; simp
  | case2 s acc h =>
    rcases getMax_ok s with ⟨h1, h2⟩ | ⟨k', s'', h1, h2⟩
    · rw [h1]; rfl
    · rw [h1] at h; cases h

theorem listItems_eq (d : RSet K) : listItems d = flat d.tree := by
  have : push d.tree [] = [] ∧ flat d.tree = [] ∨ push d.tree [] = [d.tree] := by cases d.tree <;> simp [push, flat]
  rcases this with ⟨h1, h2⟩ | h1 <;> simp [listItems, foldr, foldrLoop_eq, h1]; exact h2

/-! ### depth -/

theorem depth_le (t : Tree K) (hc : invc t) (hh : invh t) : depth t ≤ 2 * bh t + 1 ∧ (isBlack t → depth t ≤ 2 * bh t) := by
  induction t with
  | LEAF => simp [depth]
  | RED k l r ihl ihr =>
    obtain ⟨c1, c2, c3, c4⟩ := hc
    obtain ⟨h1, h2, h3⟩ := hh
    have := (ihl c3 h2).2 c1
    have := (ihr c4 h3).2 c2
    exact ⟨by simp only [depth, bh]; omega, fun h => absurd h id⟩
  | BLACK k l r ihl ihr =>
    obtain ⟨c3, c4⟩ := hc
    obtain ⟨h1, h2, h3⟩ := hh
    have := (ihl c3 h2).1
    have := (ihr c4 h3).1
    exact ⟨by simp only [depth, bh]; omega, fun _ => by simp only [depth, bh]; omega⟩

theorem count_ge (t : Tree K) (hh : invh t) : 2 ^ bh t ≤ (flat t).length + 1 := by
  induction t with
  | LEAF => simp [bh, flat]
  | RED k l r ihl ihr =>
    have := ihl hh.2.1
    simp only [bh, flat, List.length_append, List.length_cons]; omega
  | BLACK k l r ihl ihr =>
    have h1 := ihl hh.2.1
    have h2 := ihr hh.2.2
    rw [← hh.1] at h2
    simp only [bh, flat, List.length_append, List.length_cons, Nat.pow_succ]; omega


end Mosml.Sets.Rbset
