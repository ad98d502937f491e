import Verif.Sets.BinarysetTrees

/-!
Union, intersection and difference of Binaryset.
-/
namespace Mosml.Sets.Binaryset
open Binaryset.Tree
open Mosml.Maps (Lawful)
variable {K : Type}

/-- strictly between two bounds, each of which may be missing -/
def Between (cmp : K → K → Ordering) (lo hi : Option K) (z : K) : Prop :=
  (∀ a, lo = some a → cmp a z = .lt) ∧ (∀ b, hi = some b → cmp z b = .lt)

/-- `s'` has the same elements as `s` between the bounds, and its root is there -/
structure Trimmed (cmp : K → K → Ordering) (lo hi : Option K) (s s' : Tree K) : Prop where
  sized : Sized s'
  asc : Asc cmp (flat s')
  root : ∀ v c l r, s' = T v c l r → Between cmp lo hi v
  same : ∀ z, Between cmp lo hi z → (z ∈ flat s' ↔ z ∈ flat s)

/-- the result is the union of `s1` and of the elements of `s2` between the bounds -/
def Unites (cmp : K → K → Ordering) (lo hi : Option K) (s1 s2 : Tree K) (res : Option (Tree K)) : Prop :=
  ∃ t, res = some t ∧ Sized t ∧ Asc cmp (flat t) ∧
    ∀ z, z ∈ flat t ↔ z ∈ flat s1 ∨ (z ∈ flat s2 ∧ Between cmp lo hi z ∧ ∀ y ∈ flat s1, cmp y z ≠ .eq)

section
variable {cmp : K → K → Ordering} (h : Lawful cmp)
include h

theorem trimmed_right {lo hi : Option K} {v : K} {c : Int} {l r s' : Tree K} (t : Trimmed cmp lo hi r s')
    (ho : Asc cmp (flat (T v c l r))) (k : ∀ z, cmp z v ≠ .gt → ¬ Between cmp lo hi z) : Trimmed cmp lo hi (T v c l r) s' := by
  obtain ⟨o1, o2, o3, o4, o5⟩ := asc_mid.mp ho
  refine ⟨t.sized, t.asc, t.root, fun z hz => ?_⟩
  rw [t.same z hz, flat, List.mem_append, List.mem_cons]
  constructor
  · intro k1; exact .inr (.inr k1)
  · rintro (k1 | rfl | k1)
    · exact absurd hz (k z (by simp [o3 z k1]))
    · exact absurd hz (k z (by simp [h.refl]))
    · exact k1

theorem trimmed_left {lo hi : Option K} {v : K} {c : Int} {l r s' : Tree K} (t : Trimmed cmp lo hi l s')
    (ho : Asc cmp (flat (T v c l r))) (k : ∀ z, cmp v z ≠ .gt → ¬ Between cmp lo hi z) : Trimmed cmp lo hi (T v c l r) s' := by
  obtain ⟨o1, o2, o3, o4, o5⟩ := asc_mid.mp ho
  refine ⟨t.sized, t.asc, t.root, fun z hz => ?_⟩
  rw [t.same z hz, flat, List.mem_append, List.mem_cons]
  constructor
  · intro k1; exact .inl k1
  · rintro (k1 | rfl | k1)
    · exact k1
    · exact absurd hz (k z (by simp [h.refl]))
    · exact absurd hz (k z (by simp [o4 z k1]))

omit h in
theorem trimmed_empty (lo hi : Option K) : Trimmed cmp lo hi (E : Tree K) E :=
  ⟨trivial, List.Pairwise.nil, (by simp), fun _ _ => Iff.rfl⟩

omit h in
theorem trimmed_self {lo hi : Option K} {v : K} {c : Int} {l r : Tree K} (hs : Sized (T v c l r)) (ho : Asc cmp (flat (T v c l r)))
    (k : Between cmp lo hi v) : Trimmed cmp lo hi (T v c l r) (T v c l r) :=
  ⟨hs, ho, (by rintro _ _ _ _ e; cases e; exact k), fun _ _ => Iff.rfl⟩

/-- nothing at or below `v` is above `a`, if `v` is not -/
theorem not_above {a v z : K} {hi : Option K} (e : cmp v a ≠ .gt) (k : cmp z v ≠ .gt) : ¬ Between cmp (some a) hi z := by
  intro b
  have e1 := h.trans z v a k e
  exact e1 ((h.gt_iff _ _).2 (b.1 a rfl))

theorem not_below {a v z : K} {lo : Option K} (e : cmp v a ≠ .lt) (k : cmp v z ≠ .gt) : ¬ Between cmp lo (some a) z := by
  intro b
  have e1 := h.trans a v z (fun e1 => e ((h.gt_iff _ _).1 e1)) k
  exact e1 ((h.gt_iff _ _).2 (b.2 a rfl))

theorem trim_ok (lo hi : K) (s : Tree K) (hs : Sized s) (ho : Asc cmp (flat s)) : Trimmed cmp (some lo) (some hi) s (trim cmp lo hi s) := by
  induction s with
  | E => exact trimmed_empty _ _
  | T v c l r ihl ihr =>
    obtain ⟨o1, o2, o3, o4, o5⟩ := asc_mid.mp ho
    unfold trim
    split
    · rename_i e1
      split
      · rename_i e2
        refine trimmed_self hs ho ⟨?_, ?_⟩
        · rintro _ ⟨⟩; exact (h.gt_iff _ _).1 e1
        · rintro _ ⟨⟩; exact e2
      · rename_i e2
        exact trimmed_left h (ihl hs.2.1 o1) ho (fun z k => not_below h e2 k)
    · rename_i e1
      exact trimmed_right h (ihr hs.2.2 o2) ho (fun z k => not_above h e1 k)

theorem trim_lo_ok (lo : K) (s : Tree K) (hs : Sized s) (ho : Asc cmp (flat s)) : Trimmed cmp (some lo) none s (trim_lo cmp lo s) := by
  induction s with
  | E => exact trimmed_empty _ _
  | T v c l r ihl ihr =>
    obtain ⟨o1, o2, o3, o4, o5⟩ := asc_mid.mp ho
    unfold trim_lo
    split
    · rename_i e1
      refine trimmed_self hs ho ⟨?_, by simp⟩
      rintro _ ⟨⟩; exact (h.gt_iff _ _).1 e1
    · rename_i e1
      exact trimmed_right h (ihr hs.2.2 o2) ho (fun z k => not_above h e1 k)

theorem trim_hi_ok (hi : K) (s : Tree K) (hs : Sized s) (ho : Asc cmp (flat s)) : Trimmed cmp none (some hi) s (trim_hi cmp hi s) := by
  induction s with
  | E => exact trimmed_empty _ _
  | T v c l r ihl ihr =>
    obtain ⟨o1, o2, o3, o4, o5⟩ := asc_mid.mp ho
    unfold trim_hi
    split
    · rename_i e1
      refine trimmed_self hs ho ⟨by simp, ?_⟩
      rintro _ ⟨⟩; exact e1
    · rename_i e1
      exact trimmed_left h (ihl hs.2.1 o1) ho (fun z k => not_below h e1 k)

/-- the step common to all unions -/
theorem unites_node {lo hi : Option K} {v : K} {c : Int} {l1 r1 s2 a2 b2 : Tree K} {ra rb : Option (Tree K)}
    (ho : Asc cmp (flat (T v c l1 r1))) (hv : Between cmp lo hi v)
    (ta : Trimmed cmp lo (some v) s2 a2) (tb : Trimmed cmp (some v) hi s2 b2)
    (ha : Unites cmp lo (some v) l1 a2 ra) (hb : Unites cmp (some v) hi r1 b2 rb) :
    Unites cmp lo hi (T v c l1 r1) s2 (do let a ← ra; let b ← rb; concat3 cmp a v b) := by
  obtain ⟨o1, o2, o3, o4, o5⟩ := asc_mid.mp ho
  obtain ⟨a, rfl, a1, a2', a3⟩ := ha
  obtain ⟨b, rfl, b1, b2', b3⟩ := hb
  have la : ∀ z ∈ flat a, cmp z v = .lt := by
    intro z hz
    rcases (a3 z).1 hz with k | ⟨_, k, _⟩
    · exact o3 z k
    · exact k.2 v rfl
  have lb : ∀ z ∈ flat b, cmp v z = .lt := by
    intro z hz
    rcases (b3 z).1 hz with k | ⟨_, k, _⟩
    · exact o4 z k
    · exact k.1 v rfl
  have asc : Asc cmp (flat a ++ v :: flat b) :=
    asc_mid.mpr ⟨a2', b2', la, lb, fun x hx y hy => h.lt_trans (la x hx) (lb y hy)⟩
  obtain ⟨t, k1, k2, k3⟩ := concat3_ok h v _ le_rfl a1 b1 asc
  refine ⟨t, k1, k2, by rw [k3]; exact asc, fun z => ?_⟩
  simp only [k3, flat, List.mem_append, List.mem_cons, a3, b3]
  constructor
  · rintro ((k | ⟨k, w, n⟩) | rfl | (k | ⟨k, w, n⟩))
    · exact .inl (.inl k)
    · refine .inr ⟨(ta.same z w).1 k, ⟨w.1, fun b' hb' => h.lt_trans (w.2 v rfl) (hv.2 b' hb')⟩, ?_⟩
      intro y hy
      have e1 := w.2 v rfl
      rcases hy with hy | rfl | hy
      · exact n y hy
      · intro e; rw [h.eq_symm e] at e1; cases e1
      · intro e
        have := h.lt_trans e1 (o4 y hy)
        rw [h.eq_symm e] at this; cases this
    · exact .inl (.inr (.inl rfl))
    · exact .inl (.inr (.inr k))
    · refine .inr ⟨(tb.same z w).1 k, ⟨fun b' hb' => h.lt_trans (hv.1 b' hb') (w.1 v rfl), w.2⟩, ?_⟩
      intro y hy
      have e1 := w.1 v rfl
      rcases hy with hy | rfl | hy
      · intro e
        have := h.lt_trans (o3 y hy) e1
        rw [e] at this; cases this
      · intro e; rw [e] at e1; cases e1
      · exact n y hy
  · rintro ((k | rfl | k) | ⟨k, w, n⟩)
    · exact .inl (.inl k)
    · exact .inr (.inl rfl)
    · exact .inr (.inr (.inl k))
    · cases e : cmp z v with
      | lt =>
        have w' : Between cmp lo (some v) z := ⟨w.1, by rintro _ ⟨⟩; exact e⟩
        exact .inl (.inr ⟨(ta.same z w').2 k, w', fun y hy => n y (.inl hy)⟩)
      | gt =>
        have w' : Between cmp (some v) hi z := ⟨by rintro _ ⟨⟩; exact (h.gt_iff _ _).1 e, w.2⟩
        exact .inr (.inr (.inr ⟨(tb.same z w').2 k, w', fun y hy => n y (.inr (.inr hy))⟩))
      | eq => exact absurd (h.eq_symm e) (n v (.inr (.inl rfl)))

omit h in
theorem unites_nothing {lo hi : Option K} {s : Tree K} (hs : Sized s) (ho : Asc cmp (flat s)) : Unites cmp lo hi s E (some s) :=
  ⟨s, rfl, hs, ho, fun z => by simp [flat]⟩

/-- the first set is empty: the second is cut at the bounds -/
theorem unites_cut {lo hi : Option K} {v : K} {c : Int} {l r : Tree K} {ra rb : Option (Tree K)}
    (ho : Asc cmp (flat (T v c l r))) (hv : Between cmp lo hi v)
    (ha : ∃ a, ra = some a ∧ Sized a ∧ Asc cmp (flat a) ∧ ∀ z, z ∈ flat a ↔ z ∈ flat l ∧ ∀ b, lo = some b → cmp b z = .lt)
    (hb : ∃ a, rb = some a ∧ Sized a ∧ Asc cmp (flat a) ∧ ∀ z, z ∈ flat a ↔ z ∈ flat r ∧ ∀ b, hi = some b → cmp z b = .lt) :
    Unites cmp lo hi E (T v c l r) (do let a ← ra; let b ← rb; concat3 cmp a v b) := by
  obtain ⟨o1, o2, o3, o4, o5⟩ := asc_mid.mp ho
  obtain ⟨a, rfl, a1, a2, a3⟩ := ha
  obtain ⟨b, rfl, b1, b2, b3⟩ := hb
  have asc : Asc cmp (flat a ++ v :: flat b) :=
    asc_mid.mpr ⟨a2, b2, fun z hz => o3 z ((a3 z).1 hz).1, fun z hz => o4 z ((b3 z).1 hz).1,
      fun x hx y hy => o5 x ((a3 x).1 hx).1 y ((b3 y).1 hy).1⟩
  obtain ⟨t, k1, k2, k3⟩ := concat3_ok h v _ le_rfl a1 b1 asc
  refine ⟨t, k1, k2, by rw [k3]; exact asc, fun z => ?_⟩
  rw [k3, flat, flat, List.mem_append, List.mem_cons, a3, b3, List.mem_append, List.mem_cons]
  constructor
  · rintro (⟨k, w⟩ | rfl | ⟨k, w⟩)
    · exact .inr ⟨.inl k, ⟨w, fun b' hb' => h.lt_trans (o3 z k) (hv.2 b' hb')⟩, by simp⟩
    · exact .inr ⟨.inr (.inl rfl), hv, by simp⟩
    · exact .inr ⟨.inr (.inr k), ⟨fun b' hb' => h.lt_trans (hv.1 b' hb') (o4 z k), w⟩, by simp⟩
  · rintro (k | ⟨k | rfl | k, w, -⟩)
    · cases k
    · exact .inl ⟨k, w.1⟩
    · exact .inr (.inl rfl)
    · exact .inr (.inr ⟨k, w.2⟩)

theorem cut_gt (x : K) (t : Tree K) (hs : Sized t) (ho : Asc cmp (flat t)) :
    ∃ a, split_gt cmp x t = some a ∧ Sized a ∧ Asc cmp (flat a) ∧ ∀ z, z ∈ flat a ↔ z ∈ flat t ∧ ∀ b, some x = some b → cmp b z = .lt := by
  obtain ⟨a, h1, h2, h3⟩ := split_gt_ok h x t hs ho
  refine ⟨a, h1, h2, by rw [h3]; exact asc_filter _ ho, fun z => ?_⟩
  rw [h3, List.mem_filter]; simp

theorem cut_lt (x : K) (t : Tree K) (hs : Sized t) (ho : Asc cmp (flat t)) :
    ∃ a, split_lt cmp x t = some a ∧ Sized a ∧ Asc cmp (flat a) ∧ ∀ z, z ∈ flat a ↔ z ∈ flat t ∧ ∀ b, some x = some b → cmp z b = .lt := by
  obtain ⟨a, h1, h2, h3⟩ := split_lt_ok h x t hs ho
  refine ⟨a, h1, h2, by rw [h3]; exact asc_filter _ ho, fun z => ?_⟩
  rw [h3, List.mem_filter]; simp

omit h in
theorem cut_not {P : K → K → Prop} (t : Tree K) (hs : Sized t) (ho : Asc cmp (flat t)) :
    ∃ a, some t = some a ∧ Sized a ∧ Asc cmp (flat a) ∧ ∀ z, z ∈ flat a ↔ z ∈ flat t ∧ ∀ b, (none : Option K) = some b → P z b :=
  ⟨t, rfl, hs, ho, fun z => by simp⟩

theorem uni_bd_ok (s1 : Tree K) : ∀ (s2 : Tree K) (lo hi : K), Sized s1 → Asc cmp (flat s1) → (∀ z ∈ flat s1, Between cmp (some lo) (some hi) z) →
    Sized s2 → Asc cmp (flat s2) → (∀ v c l r, s2 = T v c l r → Between cmp (some lo) (some hi) v) →
    Unites cmp (some lo) (some hi) s1 s2 (uni_bd cmp s1 s2 lo hi) := by
  induction s1 with
  | E =>
    intro s2 lo hi _ _ _ z1 z2 z3
    cases s2 with
    | E => exact unites_nothing trivial List.Pairwise.nil
    | T v c l r =>
      obtain ⟨o1, o2, _⟩ := asc_mid.mp z2
      exact unites_cut h z2 (z3 _ _ _ _ rfl) (cut_gt h lo l z1.2.1 o1) (cut_lt h hi r z1.2.2 o2)
  | T v c l1 r1 ihl ihr =>
    intro s2 lo hi y1 y2 y3 z1 z2 z3
    cases s2 with
    | E => exact unites_nothing y1 y2
    | T v2 c2 l2 r2 =>
      obtain ⟨o1, o2, o3, o4, o5⟩ := asc_mid.mp y2
      have hv := y3 v (by simp [flat])
      have ta := trim_ok h lo v _ z1 z2
      have tb := trim_ok h v hi _ z1 z2
      refine unites_node h y2 hv ta tb (ihl _ _ _ y1.2.1 o1 ?_ ta.sized ta.asc ta.root) (ihr _ _ _ y1.2.2 o2 ?_ tb.sized tb.asc tb.root)
      · intro z hz
        exact ⟨(y3 z (by simp [flat, hz])).1, by rintro _ ⟨⟩; exact o3 z hz⟩
      · intro z hz
        exact ⟨by rintro _ ⟨⟩; exact o4 z hz, (y3 z (by simp [flat, hz])).2⟩

theorem uni_hi_ok (s1 : Tree K) : ∀ (s2 : Tree K) (hi : K), Sized s1 → Asc cmp (flat s1) → (∀ z ∈ flat s1, Between cmp none (some hi) z) →
    Sized s2 → Asc cmp (flat s2) → (∀ v c l r, s2 = T v c l r → Between cmp none (some hi) v) →
    Unites cmp none (some hi) s1 s2 (uni_hi cmp s1 s2 hi) := by
  induction s1 with
  | E =>
    intro s2 hi _ _ _ z1 z2 z3
    cases s2 with
    | E => exact unites_nothing trivial List.Pairwise.nil
    | T v c l r =>
      obtain ⟨o1, o2, _⟩ := asc_mid.mp z2
      exact unites_cut h z2 (z3 _ _ _ _ rfl) (ra := some l) (cut_not (P := fun z b => cmp b z = .lt) l z1.2.1 o1) (cut_lt h hi r z1.2.2 o2)
  | T v c l1 r1 ihl ihr =>
    intro s2 hi y1 y2 y3 z1 z2 z3
    cases s2 with
    | E => exact unites_nothing y1 y2
    | T v2 c2 l2 r2 =>
      obtain ⟨o1, o2, o3, o4, o5⟩ := asc_mid.mp y2
      have hv := y3 v (by simp [flat])
      have ta := trim_hi_ok h v _ z1 z2
      have tb := trim_ok h v hi _ z1 z2
      refine unites_node h y2 hv ta tb (ihl _ _ y1.2.1 o1 ?_ ta.sized ta.asc ta.root) (uni_bd_ok h _ _ _ _ y1.2.2 o2 ?_ tb.sized tb.asc tb.root)
      · intro z hz
        exact ⟨(y3 z (by simp [flat, hz])).1, by rintro _ ⟨⟩; exact o3 z hz⟩
      · intro z hz
        exact ⟨by rintro _ ⟨⟩; exact o4 z hz, (y3 z (by simp [flat, hz])).2⟩

theorem uni_lo_ok (s1 : Tree K) : ∀ (s2 : Tree K) (lo : K), Sized s1 → Asc cmp (flat s1) → (∀ z ∈ flat s1, Between cmp (some lo) none z) →
    Sized s2 → Asc cmp (flat s2) → (∀ v c l r, s2 = T v c l r → Between cmp (some lo) none v) →
    Unites cmp (some lo) none s1 s2 (uni_lo cmp s1 s2 lo) := by
  induction s1 with
  | E =>
    intro s2 lo _ _ _ z1 z2 z3
    cases s2 with
    | E => exact unites_nothing trivial List.Pairwise.nil
    | T v c l r =>
      obtain ⟨o1, o2, _⟩ := asc_mid.mp z2
      have := unites_cut h z2 (z3 _ _ _ _ rfl) (cut_gt h lo l z1.2.1 o1) (rb := some r) (cut_not (P := fun z b => cmp z b = .lt) r z1.2.2 o2)
      exact this
  | T v c l1 r1 ihl ihr =>
    intro s2 lo y1 y2 y3 z1 z2 z3
    cases s2 with
    | E => exact unites_nothing y1 y2
    | T v2 c2 l2 r2 =>
      obtain ⟨o1, o2, o3, o4, o5⟩ := asc_mid.mp y2
      have hv := y3 v (by simp [flat])
      have ta := trim_ok h lo v _ z1 z2
      have tb := trim_lo_ok h v _ z1 z2
      refine unites_node h y2 hv ta tb (uni_bd_ok h _ _ _ _ y1.2.1 o1 ?_ ta.sized ta.asc ta.root) (ihr _ _ y1.2.2 o2 ?_ tb.sized tb.asc tb.root)
      · intro z hz
        exact ⟨(y3 z (by simp [flat, hz])).1, by rintro _ ⟨⟩; exact o3 z hz⟩
      · intro z hz
        exact ⟨by rintro _ ⟨⟩; exact o4 z hz, (y3 z (by simp [flat, hz])).2⟩

theorem hedge_union_ok (s1 s2 : Tree K) (y1 : Sized s1) (y2 : Asc cmp (flat s1)) (z1 : Sized s2) (z2 : Asc cmp (flat s2)) :
    Unites cmp none none s1 s2 (hedge_union cmp s1 s2) := by
  cases s2 with
  | E =>
    have : hedge_union cmp s1 E = some s1 := by cases s1 <;> rfl
    rw [this]
    exact unites_nothing y1 y2
  | T v2 c2 l2 r2 =>
    cases s1 with
    | E => exact ⟨_, rfl, z1, z2, fun z => by simp [flat, Between]⟩
    | T v c l1 r1 =>
      obtain ⟨o1, o2, o3, o4, o5⟩ := asc_mid.mp y2
      have ta := trim_hi_ok h v _ z1 z2
      have tb := trim_lo_ok h v _ z1 z2
      refine unites_node h y2 ⟨by simp, by simp⟩ ta tb (uni_hi_ok h _ _ _ y1.2.1 o1 ?_ ta.sized ta.asc ta.root)
        (uni_lo_ok h _ _ _ y1.2.2 o2 ?_ tb.sized tb.asc tb.root)
      · intro z hz
        exact ⟨by simp, by rintro _ ⟨⟩; exact o3 z hz⟩
      · intro z hz
        exact ⟨by rintro _ ⟨⟩; exact o4 z hz, by simp⟩

theorem intersection_ok (s2 : Tree K) : ∀ (s1 : Tree K), Sized s1 → Asc cmp (flat s1) → Asc cmp (flat s2) →
    ∃ t, intersection cmp s1 s2 = some t ∧ Sized t ∧ Asc cmp (flat t) ∧ ∀ z, z ∈ flat t ↔ z ∈ flat s2 ∧ ∃ y ∈ flat s1, cmp y z = .eq := by
  induction s2 with
  | E =>
    intro s1 _ _ _
    exact ⟨E, by cases s1 <;> rfl, trivial, List.Pairwise.nil, fun z => by simp [flat]⟩
  | T v c l r ihl ihr =>
    intro s1 y1 y2 z2
    have step : s1 ≠ E → intersection cmp s1 (T v c l r) = (do
        let l2 ← split_lt cmp v s1
        let r2 ← split_gt cmp v s1
        let a ← intersection cmp l2 l
        let b ← intersection cmp r2 r
        match peek cmp v s1 with
        | none => concat a b
        | _ => concat3 cmp a v b) := by
      intro ne
      cases s1 with
      | E => exact absurd rfl ne
      | T => rfl
    by_cases ne : s1 = E
    · subst ne; exact ⟨E, rfl, trivial, List.Pairwise.nil, fun z => by simp [flat]⟩
    obtain ⟨o1, o2, o3, o4, o5⟩ := asc_mid.mp z2
    obtain ⟨l2, a1, a2, a3⟩ := split_lt_ok h v s1 y1 y2
    obtain ⟨r2, b1, b2, b3⟩ := split_gt_ok h v s1 y1 y2
    obtain ⟨a, c1, c2, c3, c4⟩ := ihl l2 a2 (by rw [a3]; exact asc_filter _ y2) o1
    obtain ⟨b, d1, d2, d3, d4⟩ := ihr r2 b2 (by rw [b3]; exact asc_filter _ y2) o2
    rw [step ne, a1, b1]
    simp only [Option.bind_eq_bind, Option.bind_some, c1, d1]
    rw [peek_ok h v s1 y2]
    have la : ∀ z ∈ flat a, z ∈ flat l := fun z hz => ((c4 z).1 hz).1
    have lb : ∀ z ∈ flat b, z ∈ flat r := fun z hz => ((d4 z).1 hz).1
    have ma : ∀ z, z ∈ flat a ↔ z ∈ flat l ∧ ∃ y ∈ flat s1, cmp y z = .eq := by
      intro z
      rw [c4]
      constructor
      · rintro ⟨k1, y, k2, k3⟩
        rw [a3, List.mem_filter] at k2
        exact ⟨k1, y, k2.1, k3⟩
      · rintro ⟨k1, y, k2, k3⟩
        refine ⟨k1, y, ?_, k3⟩
        rw [a3, List.mem_filter]
        exact ⟨k2, by simp [h.lt_of_eq_of_lt k3 (o3 z k1)]⟩
    have mb : ∀ z, z ∈ flat b ↔ z ∈ flat r ∧ ∃ y ∈ flat s1, cmp y z = .eq := by
      intro z
      rw [d4]
      constructor
      · rintro ⟨k1, y, k2, k3⟩
        rw [b3, List.mem_filter] at k2
        exact ⟨k1, y, k2.1, k3⟩
      · rintro ⟨k1, y, k2, k3⟩
        refine ⟨k1, y, ?_, k3⟩
        rw [b3, List.mem_filter]
        exact ⟨k2, by simp [h.lt_of_lt_of_eq (o4 z k1) (h.eq_symm k3)]⟩
    cases e : lfind cmp v (flat s1) with
    | none =>
      obtain ⟨t, k1, k2, k3⟩ := concat_ok _ le_rfl c2 d2
      refine ⟨t, k1, k2, ?_, fun z => ?_⟩
      · rw [k3]
        exact asc_append.mpr ⟨c3, d3, fun x hx y hy => o5 x (la x hx) y (lb y hy)⟩
      · rw [k3, List.mem_append, ma, mb, flat, List.mem_append, List.mem_cons]
        constructor
        · rintro (⟨k, w⟩ | ⟨k, w⟩)
          · exact ⟨.inl k, w⟩
          · exact ⟨.inr (.inr k), w⟩
        · rintro ⟨k | rfl | k, w⟩
          · exact .inl ⟨k, w⟩
          · obtain ⟨y, w1, w2⟩ := w
            exact absurd w2 ((lfind_none h y2).1 e y w1)
          · exact .inr ⟨k, w⟩
    | some p =>
      have asc : Asc cmp (flat a ++ v :: flat b) :=
        asc_mid.mpr ⟨c3, d3, fun z hz => o3 z (la z hz), fun z hz => o4 z (lb z hz), fun x hx y hy => o5 x (la x hx) y (lb y hy)⟩
      obtain ⟨t, k1, k2, k3⟩ := concat3_ok h v _ le_rfl c2 d2 asc
      refine ⟨t, k1, k2, by rw [k3]; exact asc, fun z => ?_⟩
      rw [k3, List.mem_append, List.mem_cons, ma, mb, flat, List.mem_append, List.mem_cons]
      constructor
      · rintro (⟨k, w⟩ | rfl | ⟨k, w⟩)
        · exact ⟨.inl k, w⟩
        · exact ⟨.inr (.inl rfl), p, (lfind_some h y2).1 e⟩
        · exact ⟨.inr (.inr k), w⟩
      · rintro ⟨k | rfl | k, w⟩
        · exact .inl ⟨k, w⟩
        · exact .inr (.inl rfl)
        · exact .inr (.inr ⟨k, w⟩)

theorem difference_ok (s2 : Tree K) : ∀ (s1 : Tree K), Sized s1 → Asc cmp (flat s1) → Asc cmp (flat s2) →
    ∃ t, difference cmp s1 s2 = some t ∧ Sized t ∧ Asc cmp (flat t) ∧ ∀ z, z ∈ flat t ↔ z ∈ flat s1 ∧ ∀ y ∈ flat s2, cmp y z ≠ .eq := by
  induction s2 with
  | E =>
    intro s1 y1 y2 _
    exact ⟨s1, by cases s1 <;> rfl, y1, y2, fun z => by simp [flat]⟩
  | T v c l r ihl ihr =>
    intro s1 y1 y2 z2
    by_cases ne : s1 = E
    · subst ne; exact ⟨E, rfl, trivial, List.Pairwise.nil, fun z => by simp [flat]⟩
    have step : difference cmp s1 (T v c l r) = (do
        let l2 ← split_lt cmp v s1
        let r2 ← split_gt cmp v s1
        let a ← difference cmp l2 l
        let b ← difference cmp r2 r
        concat a b) := by
      cases s1 with
      | E => exact absurd rfl ne
      | T => rfl
    obtain ⟨o1, o2, o3, o4, o5⟩ := asc_mid.mp z2
    obtain ⟨l2, a1, a2, a3⟩ := split_lt_ok h v s1 y1 y2
    obtain ⟨r2, b1, b2, b3⟩ := split_gt_ok h v s1 y1 y2
    obtain ⟨a, c1, c2, c3, c4⟩ := ihl l2 a2 (by rw [a3]; exact asc_filter _ y2) o1
    obtain ⟨b, d1, d2, d3, d4⟩ := ihr r2 b2 (by rw [b3]; exact asc_filter _ y2) o2
    obtain ⟨t, k1, k2, k3⟩ := concat_ok _ le_rfl c2 d2
    have la : ∀ z ∈ flat a, cmp z v = .lt := fun z hz => by
      have := ((c4 z).1 hz).1
      rw [a3, List.mem_filter] at this
      simpa using this.2
    have lb : ∀ z ∈ flat b, cmp v z = .lt := fun z hz => by
      have := ((d4 z).1 hz).1
      rw [b3, List.mem_filter] at this
      simpa using this.2
    refine ⟨t, ?_, k2, ?_, fun z => ?_⟩
    · rw [step, a1, b1]
      simp only [Option.bind_eq_bind, Option.bind_some, c1, d1, k1]
    · rw [k3]
      exact asc_append.mpr ⟨c3, d3, fun x hx y hy => h.lt_trans (la x hx) (lb y hy)⟩
    · rw [k3, List.mem_append, c4, d4, a3, b3, List.mem_filter, List.mem_filter]
      constructor
      · rintro (⟨⟨w1, w2⟩, w3⟩ | ⟨⟨w1, w2⟩, w3⟩)
        · have e1 : cmp z v = .lt := by simpa using w2
          refine ⟨w1, fun y hy => ?_⟩
          rw [flat, List.mem_append, List.mem_cons] at hy
          rcases hy with hy | rfl | hy
          · exact w3 y hy
          · intro e; rw [h.eq_symm e] at e1; cases e1
          · intro e
            have := h.lt_trans e1 (o4 y hy)
            rw [h.eq_symm e] at this; cases this
        · have e1 : cmp v z = .lt := by simpa using w2
          refine ⟨w1, fun y hy => ?_⟩
          rw [flat, List.mem_append, List.mem_cons] at hy
          rcases hy with hy | rfl | hy
          · intro e
            have := h.lt_trans (o3 y hy) e1
            rw [e] at this; cases this
          · intro e; rw [e] at e1; cases e1
          · exact w3 y hy
      · rintro ⟨w1, w2⟩
        have w3 : ∀ y ∈ flat l, cmp y z ≠ .eq := fun y hy => w2 y (by simp [flat, hy])
        have w4 : ∀ y ∈ flat r, cmp y z ≠ .eq := fun y hy => w2 y (by simp [flat, hy])
        cases e : cmp z v with
        | lt => exact .inl ⟨⟨w1, rfl⟩, w3⟩
        | gt => exact .inr ⟨⟨w1, by simp [(h.gt_iff _ _).1 e]⟩, w4⟩
        | eq => exact absurd (h.eq_symm e) (w2 v (by simp [flat]))

theorem isIn_ok (t' : Tree K) (ho' : Asc cmp (flat t')) (t : Tree K) : isIn cmp t' t = true ↔ ∀ x ∈ flat t, ∃ y ∈ flat t', cmp y x = .eq := by
  have mem : ∀ x, member cmp t' x = true ↔ ∃ y ∈ flat t', cmp y x = .eq := by
    intro x
    rw [member_ok h x t' ho', Option.isSome_iff_exists]
    exact ⟨fun ⟨y, hy⟩ => ⟨y, (lfind_some h ho').1 hy⟩, fun ⟨y, hy⟩ => ⟨y, (lfind_some h ho').2 hy⟩⟩
  have step : ∀ v c l r, isIn cmp t' (T v c l r) = (member cmp t' v && isIn cmp t' l && isIn cmp t' r) := by
    intro v c l r
    cases l <;> cases r <;> simp [isIn]
  induction t with
  | E => simp [isIn, flat]
  | T v c l r ihl ihr =>
    simp only [step, Bool.and_eq_true, mem, ihl, ihr, flat, List.mem_append, List.mem_cons]
    constructor
    · rintro ⟨⟨k1, k2⟩, k3⟩ x (hx | rfl | hx)
      · exact k2 x hx
      · exact k1
      · exact k3 x hx
    · intro k
      exact ⟨⟨k v (.inr (.inl rfl)), fun x hx => k x (.inl hx)⟩, fun x hx => k x (.inr (.inr hx))⟩

end
end Mosml.Sets.Binaryset
