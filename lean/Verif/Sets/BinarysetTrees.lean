import Verif.Sets.Binaryset

/-!
Lemmas about the trees of Binaryset.
-/
namespace Mosml.Sets.Binaryset
open Binaryset.Tree
open Mosml.Maps (Lawful)
variable {K : Type}

/-- the elements of a tree from left to right -/
def flat : Tree K → List K
  | E => []
  | T v _ l r => flat l ++ v :: flat r

/-- every count is the number of elements below -/
def Sized : Tree K → Prop
  | E => True
  | T _ c l r => c = 1 + (flat l).length + (flat r).length ∧ Sized l ∧ Sized r

theorem size_eq {t : Tree K} (h : Sized t) : treeSize t = (flat t).length := by
  cases t with
  | E => rfl
  | T v c l r =>
    simp only [treeSize, flat, List.length_append, List.length_cons, h.1]
    push_cast
    omega

theorem N_ok (v : K) {l r : Tree K} (hl : Sized l) (hr : Sized r) :
    Sized (N v l r) ∧ flat (N v l r) = flat l ++ v :: flat r := by
  have h1 := size_eq hl
  have h2 := size_eq hr
  have e : N v l r = T v (1 + treeSize l + treeSize r) l r := by
    cases l <;> cases r <;> simp [N, treeSize] <;> omega
  rw [e]
  exact ⟨⟨by rw [h1, h2], hl, hr⟩, rfl⟩

theorem single_L_ok (v : K) {l r : Tree K} (hl : Sized l) (hr : Sized r) (ne : r ≠ E) :
    ∃ t, single_L v l r = some t ∧ Sized t ∧ flat t = flat l ++ v :: flat r := by
  cases r with
  | E => exact absurd rfl ne
  | T b c y z =>
    obtain ⟨h1, h2⟩ := N_ok v hl hr.2.1
    obtain ⟨h3, h4⟩ := N_ok b h1 hr.2.2
    exact ⟨_, rfl, h3, by rw [h4, h2]; simp [flat]⟩

theorem single_R_ok (v : K) {l r : Tree K} (hl : Sized l) (hr : Sized r) (ne : l ≠ E) :
    ∃ t, single_R v l r = some t ∧ Sized t ∧ flat t = flat l ++ v :: flat r := by
  cases l with
  | E => exact absurd rfl ne
  | T b c y z =>
    obtain ⟨h1, h2⟩ := N_ok v hl.2.2 hr
    obtain ⟨h3, h4⟩ := N_ok b hl.2.1 h1
    exact ⟨_, rfl, h3, by rw [h4, h2]; simp [flat]⟩

theorem double_L_ok (v : K) {l : Tree K} {b : K} {c : Int} {y z : Tree K} (hl : Sized l)
    (hr : Sized (T b c y z)) (ne : y ≠ E) :
    ∃ t, double_L v l (T b c y z) = some t ∧ Sized t ∧ flat t = flat l ++ v :: flat (T b c y z) := by
  cases y with
  | E => exact absurd rfl ne
  | T d e x y =>
    obtain ⟨h1, h2⟩ := N_ok v hl hr.2.1.2.1
    obtain ⟨h3, h4⟩ := N_ok b hr.2.1.2.2 hr.2.2
    obtain ⟨h5, h6⟩ := N_ok d h1 h3
    exact ⟨_, rfl, h5, by rw [h6, h2, h4]; simp [flat]⟩

theorem double_R_ok (v : K) {r : Tree K} {b : K} {c : Int} {y z : Tree K} (hl : Sized (T b c y z))
    (hr : Sized r) (ne : z ≠ E) :
    ∃ t, double_R v (T b c y z) r = some t ∧ Sized t ∧ flat t = flat (T b c y z) ++ v :: flat r := by
  cases z with
  | E => exact absurd rfl ne
  | T d e x w =>
    obtain ⟨h1, h2⟩ := N_ok b hl.2.1 hl.2.2.2.1
    obtain ⟨h3, h4⟩ := N_ok v hl.2.2.2.2 hr
    obtain ⟨h5, h6⟩ := N_ok d h1 h3
    exact ⟨_, rfl, h5, by rw [h6, h2, h4]; simp [flat]⟩

theorem ne_of_pos {t : Tree K} (h : 0 < treeSize t) : t ≠ E := by
  rintro rfl; simp [treeSize] at h

/-- the smart constructor never fails, keeps the order and the counts -/
theorem T'_ok (v : K) {l r : Tree K} (hl : Sized l) (hr : Sized r) :
    ∃ t, T' v l r = some t ∧ Sized t ∧ flat t = flat l ++ v :: flat r := by
  unfold T'
  split
  · exact ⟨_, rfl, by simp [Sized, flat], rfl⟩
  · refine ⟨_, rfl, ?_, rfl⟩
    simp only [Sized, flat, List.length_nil] at *; simp; omega
  · refine ⟨_, rfl, ?_, rfl⟩
    simp only [Sized, flat, List.length_nil] at *; simp; omega
  · exact double_L_ok v hl hr (by simp)
  · exact double_R_ok v hl hr (by simp)
  · split
    · exact single_L_ok v hl hr (by simp)
    · exact double_L_ok v hl hr (by simp)
  · split
    · exact single_R_ok v hl hr (by simp)
    · exact double_R_ok v hl hr (by simp)
  · exact single_L_ok v hl hr (by simp)
  · exact single_R_ok v hl hr (by simp)
  · rename_i lv ln ll lr rv rn rl rr
    have s1 := size_eq hr.2.1
    have s2 := size_eq hr.2.2
    have s3 := size_eq hl.2.1
    have s4 := size_eq hl.2.2
    have c1 := hl.1
    have c2 := hr.1
    split
    · rename_i h1
      dsimp only
      split
      · exact single_L_ok v hl hr (by simp)
      · refine double_L_ok v hl hr (ne_of_pos ?_)
        unfold wt at h1; omega
    · split
      · rename_i h1
        dsimp only
        split
        · exact single_R_ok v hl hr (by simp)
        · refine double_R_ok v hl hr (ne_of_pos ?_)
          unfold wt at h1; omega
      · refine ⟨_, rfl, ⟨?_, hl, hr⟩, rfl⟩
        simp only [flat, List.length_append, List.length_cons]
        push_cast
        omega

theorem tmin_ok {t : Tree K} (h : Sized t) (ne : t ≠ E) :
    ∃ p t', tmin t = some p ∧ delmin t = some t' ∧ Sized t' ∧ flat t = p :: flat t' := by
  induction t with
  | E => exact absurd rfl ne
  | T v c l r ihl ihr =>
    cases l with
    | E => exact ⟨v, r, rfl, rfl, h.2.2, rfl⟩
    | T lv lc ll lr =>
      obtain ⟨p, t', h1, h2, h3, h4⟩ := ihl h.2.1 (by simp)
      obtain ⟨t'', h5, h6, h7⟩ := T'_ok v h3 h.2.2
      refine ⟨p, t'', h1, ?_, h6, ?_⟩
      · rw [delmin, h2]
        · exact h5
        · simp
      · rw [h7, flat, h4]; rfl

theorem delete'_ok {l r : Tree K} (hl : Sized l) (hr : Sized r) :
    ∃ t, delete' l r = some t ∧ Sized t ∧ flat t = flat l ++ flat r := by
  cases l with
  | E => exact ⟨r, rfl, hr, rfl⟩
  | T lv lc ll lr =>
    cases r with
    | E => exact ⟨_, rfl, hl, by simp [flat]⟩
    | T rv rc rl rr =>
      obtain ⟨p, t', h1, h2, h3, h4⟩ := tmin_ok hr (by simp)
      obtain ⟨t, h5, h6, h7⟩ := T'_ok p hl h3
      refine ⟨t, ?_, h6, by rw [h7, h4]⟩
      simp only [delete', h1, h2]
      exact h5

theorem concat_ok (n : Nat) : ∀ {l r : Tree K}, sizeOf l + sizeOf r ≤ n → Sized l → Sized r →
    ∃ t, concat l r = some t ∧ Sized t ∧ flat t = flat l ++ flat r := by
  induction n with
  | zero =>
    intro l r hn
    cases l <;> simp at hn
  | succ n ih =>
    intro l r hn hl hr
    unfold concat
    cases l with
    | E => exact ⟨r, rfl, hr, rfl⟩
    | T v1 n1 l1 r1 =>
      cases r with
      | E => exact ⟨_, rfl, hl, by simp [flat]⟩
      | T v2 n2 l2 r2 =>
        simp only [Tree.T.sizeOf_spec] at hn
        dsimp only
        split
        · obtain ⟨t, h1, h2, h3⟩ := @ih (T v1 n1 l1 r1) l2 (by simp only [Tree.T.sizeOf_spec]; omega) hl hr.2.1
          obtain ⟨t', h4, h5, h6⟩ := T'_ok v2 h2 hr.2.2
          exact ⟨t', by simp only [h1]; exact h4, h5, by rw [h6, h3]; simp [flat]⟩
        · split
          · obtain ⟨t, h1, h2, h3⟩ := @ih r1 (T v2 n2 l2 r2) (by simp only [Tree.T.sizeOf_spec]; omega) hl.2.2 hr
            obtain ⟨t', h4, h5, h6⟩ := T'_ok v1 hl.2.1 h2
            exact ⟨t', by simp only [h1]; exact h4, h5, by rw [h6, h3]; simp [flat]⟩
          · obtain ⟨p, t', h1, h2, h3, h4⟩ := tmin_ok hr (by simp)
            obtain ⟨t, h5, h6, h7⟩ := T'_ok p hl h3
            exact ⟨t, by simp only [h1, h2]; exact h5, h6, by rw [h7, h4]⟩

section
variable {cmp : K → K → Ordering} (h : Lawful cmp)
include h

theorem addt_ok (x : K) (t : Tree K) (hs : Sized t) (ho : Asc cmp (flat t)) :
    ∃ t', addt cmp x t = some t' ∧ Sized t' ∧ flat t' = lput cmp x (flat t) := by
  induction t with
  | E => exact ⟨_, rfl, by simp [Sized, flat], rfl⟩
  | T v c l r ihl ihr =>
    obtain ⟨o1, o2, o3, o4, _⟩ := asc_mid.mp ho
    unfold addt
    cases e : cmp x v with
    | lt =>
      obtain ⟨l', h1, h2, h3⟩ := ihl hs.2.1 o1
      obtain ⟨t', h4, h5, h6⟩ := T'_ok v h2 hs.2.2
      refine ⟨t', by simp only [h1]; exact h4, h5, ?_⟩
      rw [h6, h3, flat, lput_lt h e]
    | gt =>
      obtain ⟨r', h1, h2, h3⟩ := ihr hs.2.2 o2
      obtain ⟨t', h4, h5, h6⟩ := T'_ok v hs.2.1 h2
      refine ⟨t', by simp only [h1]; exact h4, h5, ?_⟩
      rw [h6, h3, flat, lput_gt h e o3]
    | eq =>
      refine ⟨_, rfl, hs, ?_⟩
      rw [flat, flat, lput_eq h e o3]

theorem peek_ok (x : K) (t : Tree K) (ho : Asc cmp (flat t)) : peek cmp x t = lfind cmp x (flat t) := by
  induction t with
  | E => rfl
  | T v c l r ihl ihr =>
    obtain ⟨o1, o2, o3, o4, _⟩ := asc_mid.mp ho
    unfold peek
    rw [flat]
    cases e : cmp x v with
    | gt => rw [lfind_gt h e o3]; exact ihr o2
    | lt => rw [lfind_lt h e]; exact ihl o1
    | eq => rw [lfind_eq h e o3]

theorem member_ok (x : K) (t : Tree K) (ho : Asc cmp (flat t)) : member cmp t x = (lfind cmp x (flat t)).isSome := by
  unfold member
  rw [peek_ok h x t ho]
  cases lfind cmp x (flat t) <;> rfl

theorem delete_ok (x : K) (t : Tree K) (hs : Sized t) (ho : Asc cmp (flat t)) :
    (lfind cmp x (flat t) = none ∧ delete cmp x t = .notFound) ∨
    ∃ p t', lfind cmp x (flat t) = some p ∧ delete cmp x t = .ok t' ∧ Sized t' ∧ flat t' = lrem cmp x (flat t) := by
  induction t with
  | E => exact .inl ⟨rfl, rfl⟩
  | T v c l r ihl ihr =>
    obtain ⟨o1, o2, o3, o4, _⟩ := asc_mid.mp ho
    unfold delete
    rw [flat]
    cases e : cmp x v with
    | lt =>
      rw [lfind_lt h e, lrem_lt h e]
      rcases ihl hs.2.1 o1 with ⟨h1, h2⟩ | ⟨p, t', h1, h2, h3, h4⟩
      · exact .inl ⟨h1, by simp only [h2, rebuild]⟩
      · obtain ⟨t'', h5, h6, h7⟩ := T'_ok v h3 hs.2.2
        exact .inr ⟨p, t'', h1, by simp only [h2, rebuild, h5], h6, by rw [h7, h4]⟩
    | gt =>
      rw [lfind_gt h e o3, lrem_gt h e o3]
      rcases ihr hs.2.2 o2 with ⟨h1, h2⟩ | ⟨p, t', h1, h2, h3, h4⟩
      · exact .inl ⟨h1, by simp only [h2, rebuild]⟩
      · obtain ⟨t'', h5, h6, h7⟩ := T'_ok v hs.2.1 h3
        exact .inr ⟨p, t'', h1, by simp only [h2, rebuild, h5], h6, by rw [h7, h4]⟩
    | eq =>
      rw [lfind_eq h e o3, lrem_eq h e o3]
      obtain ⟨t', h1, h2, h3⟩ := delete'_ok hs.2.1 hs.2.2
      exact .inr ⟨_, t', rfl, by simp only [h1], h2, h3⟩

omit h in
theorem lput_front {x : K} {l : List K} (s : ∀ q ∈ l, cmp x q = .lt) : lput cmp x l = x :: l := by
  cases l with
  | nil => rfl
  | cons p l => simp [lput, s p (by simp)]

theorem lput_back {x : K} {l : List K} (s : ∀ q ∈ l, cmp q x = .lt) : lput cmp x l = l ++ [x] := by
  induction l with
  | nil => rfl
  | cons p l ih =>
    have e : cmp x p = .gt := (h.gt_iff _ _).2 (s p (by simp))
    simp only [lput, e]
    rw [ih (fun q hq => s q (by simp [hq]))]; rfl

theorem concat3_ok (v : K) (n : Nat) : ∀ {l r : Tree K}, sizeOf l + sizeOf r ≤ n → Sized l → Sized r → Asc cmp (flat l ++ v :: flat r) →
    ∃ t, concat3 cmp l v r = some t ∧ Sized t ∧ flat t = flat l ++ v :: flat r := by
  induction n with
  | zero =>
    intro l r hn
    cases l <;> simp at hn
  | succ n ih =>
    intro l r hn hl hr ho
    obtain ⟨o1, o2, o3, o4, o5⟩ := asc_mid.mp ho
    unfold concat3
    cases l with
    | E =>
      obtain ⟨t, h1, h2, h3⟩ := addt_ok h v r hr o2
      exact ⟨t, h1, h2, by rw [h3, lput_front o4]; rfl⟩
    | T v1 n1 l1 r1 =>
      cases r with
      | E =>
        obtain ⟨t, h1, h2, h3⟩ := addt_ok h v _ hl o1
        exact ⟨t, h1, h2, by rw [h3, lput_back h o3]; rfl⟩
      | T v2 n2 l2 r2 =>
        simp only [Tree.T.sizeOf_spec] at hn
        dsimp only
        have a1 : Asc cmp ((flat (T v1 n1 l1 r1) ++ v :: flat l2) ++ (v2 :: flat r2)) := by
          rw [flat.eq_2 v2] at ho; simpa using ho
        have a2 : Asc cmp ((flat l1 ++ [v1]) ++ (flat r1 ++ v :: flat (T v2 n2 l2 r2))) := by
          rw [flat.eq_2 v1] at ho; simpa using ho
        split
        · obtain ⟨t, h1, h2, h3⟩ := @ih (T v1 n1 l1 r1) l2 (by simp only [Tree.T.sizeOf_spec]; omega) hl hr.2.1 (asc_append.mp a1).1
          obtain ⟨t', h4, h5, h6⟩ := T'_ok v2 h2 hr.2.2
          exact ⟨t', by simp only [h1]; exact h4, h5, by rw [h6, h3]; simp [flat]⟩
        · split
          · obtain ⟨t, h1, h2, h3⟩ := @ih r1 (T v2 n2 l2 r2) (by simp only [Tree.T.sizeOf_spec]; omega) hl.2.2 hr (asc_append.mp a2).2.1
            obtain ⟨t', h4, h5, h6⟩ := T'_ok v1 hl.2.1 h2
            exact ⟨t', by simp only [h1]; exact h4, h5, by rw [h6, h3]; simp [flat]⟩
          · obtain ⟨h1, h2⟩ := N_ok v hl hr
            exact ⟨_, rfl, h1, h2⟩

omit h in
theorem filter_all {p : K → Bool} {l : List K} (k : ∀ x ∈ l, p x = true) : l.filter p = l := List.filter_eq_self.2 k
omit h in
theorem filter_none {p : K → Bool} {l : List K} (k : ∀ x ∈ l, p x = false) : l.filter p = [] :=
  List.filter_eq_nil_iff.2 (fun x hx => by simp [k x hx])

theorem split_lt_ok (x : K) (t : Tree K) (hs : Sized t) (ho : Asc cmp (flat t)) :
    ∃ t', split_lt cmp x t = some t' ∧ Sized t' ∧ flat t' = (flat t).filter (fun z => cmp z x == .lt) := by
  induction t with
  | E => exact ⟨E, rfl, trivial, rfl⟩
  | T v c l r ihl ihr =>
    obtain ⟨o1, o2, o3, o4, o5⟩ := asc_mid.mp ho
    unfold split_lt
    rw [flat, List.filter_append, List.filter_cons]
    cases e : cmp v x with
    | gt =>
      obtain ⟨t', h1, h2, h3⟩ := ihl hs.2.1 o1
      refine ⟨t', h1, h2, ?_⟩
      rw [h3, filter_none (l := flat r)]
      · simp
      · intro y hy
        have := h.lt_trans ((h.gt_iff _ _).1 e) (o4 y hy)
        rw [(h.gt_iff _ _).2 this]; rfl
    | lt =>
      obtain ⟨t', h1, h2, h3⟩ := ihr hs.2.2 o2
      have asc : Asc cmp (flat l ++ v :: flat t') := by
        rw [h3]
        exact asc_mid.mpr ⟨o1, asc_filter _ o2, o3, fun y hy => o4 y (List.mem_filter.1 hy).1, fun a ha b hb => o5 a ha b ((List.mem_filter.1 hb).1)⟩
      obtain ⟨t, h4, h5, h6⟩ := concat3_ok h v _ le_rfl hs.2.1 h2 asc
      refine ⟨t, by simp only [h1]; exact h4, h5, ?_⟩
      rw [h6, h3, filter_all (l := flat l)]
      · simp
      · intro y hy; simp [h.lt_trans (o3 y hy) e]
    | eq =>
      refine ⟨l, rfl, hs.2.1, ?_⟩
      rw [filter_all (l := flat l), filter_none (l := flat r)]
      · simp
      · intro y hy
        rw [(h.gt_iff _ _).2 (h.lt_of_eq_of_lt (h.eq_symm e) (o4 y hy))]; rfl
      · intro y hy; simp [h.lt_of_lt_of_eq (o3 y hy) e]

theorem split_gt_ok (x : K) (t : Tree K) (hs : Sized t) (ho : Asc cmp (flat t)) :
    ∃ t', split_gt cmp x t = some t' ∧ Sized t' ∧ flat t' = (flat t).filter (fun z => cmp x z == .lt) := by
  induction t with
  | E => exact ⟨E, rfl, trivial, rfl⟩
  | T v c l r ihl ihr =>
    obtain ⟨o1, o2, o3, o4, o5⟩ := asc_mid.mp ho
    unfold split_gt
    rw [flat, List.filter_append, List.filter_cons]
    cases e : cmp v x with
    | lt =>
      obtain ⟨t', h1, h2, h3⟩ := ihr hs.2.2 o2
      refine ⟨t', h1, h2, ?_⟩
      rw [h3, filter_none (l := flat l)]
      · simp [(h.gt_iff _ _).2 e]
      · intro y hy
        rw [(h.gt_iff _ _).2 (h.lt_trans (o3 y hy) e)]; rfl
    | gt =>
      have e' := (h.gt_iff _ _).1 e
      obtain ⟨t', h1, h2, h3⟩ := ihl hs.2.1 o1
      have asc : Asc cmp (flat t' ++ v :: flat r) := by
        rw [h3]
        exact asc_mid.mpr ⟨asc_filter _ o1, o2, fun y hy => o3 y (List.mem_filter.1 hy).1, o4, fun a ha b hb => o5 a ((List.mem_filter.1 ha).1) b hb⟩
      obtain ⟨t, h4, h5, h6⟩ := concat3_ok h v _ le_rfl h2 hs.2.2 asc
      refine ⟨t, by simp only [h1]; exact h4, h5, ?_⟩
      rw [h6, h3, filter_all (l := flat r)]
      · simp [e']
      · intro y hy; simp [h.lt_trans e' (o4 y hy)]
    | eq =>
      refine ⟨r, rfl, hs.2.2, ?_⟩
      rw [filter_all (l := flat r), filter_none (l := flat l)]
      · simp [h.eq_symm e]
      · intro y hy
        rw [(h.gt_iff _ _).2 (h.lt_of_lt_of_eq (o3 y hy) e)]; rfl
      · intro y hy; simp [h.lt_of_eq_of_lt (h.eq_symm e) (o4 y hy)]

end

theorem foldr_eq {S : Type} (f : K → S → S) (t : Tree K) : ∀ b, foldr f t b = (flat t).foldr f b := by
  induction t with
  | E => intro b; rfl
  | T v c l r ihl ihr => intro b; simp [foldr, flat, ihl, ihr]

theorem listItems_eq (t : Tree K) : listItems t = flat t := by
  rw [listItems, foldr_eq]; simp

end Mosml.Sets.Binaryset
