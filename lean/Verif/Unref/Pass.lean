import Verif.Unref.SimEval

/-!
# What a pass of `unref` does
-/

namespace Mosml.Unref

open List (Forall₂)

/-- What a pass that ends well has done, from the store `S` to the store `S'`;
`c` is the label of the pass, `B` the nodes and `Q` the slots assigned that may
occur. -/
structure Done (i c : Int) (B : Nat → Prop) (Q : Int → Prop) (S S' : Store) : Prop where
  grows : ∀ j, S.label j = c → S'.label j = c
  new : ∀ j, S.label j ≠ c → S'.label j = c → B j ∧ (S'.term j).Ok B Q ∧
    ∀ V : Nat → Prop, (∀ j, S'.label j = c → V j) → Tr (some i) V (S.term j) (S'.term j)
  old : ∀ j, (S.label j = c ∨ S'.label j ≠ c) → S'.term j = S.term j
  lab : ∀ j, S'.label j = S.label j ∨ S'.label j = c

variable {i c : Int} {B : Nat → Prop} {Q Q' : Int → Prop}

theorem Done.refl (S : Store) : Done i c B Q S S where
  grows := fun _ h => h
  new := fun j h h' => absurd h' h
  old := fun _ _ => rfl
  lab := fun _ => Or.inl rfl

theorem Done.trans {S S1 S2 : Store} (h1 : Done i c B Q S S1) (h2 : Done i c B Q S1 S2) :
    Done i c B Q S S2 where
  grows := fun j h => h2.grows j (h1.grows j h)
  new := by
    intro j ha hb
    by_cases h : S1.label j = c
    · obtain ⟨h3, h4, h5⟩ := h1.new j ha h
      rw [h2.old j (Or.inl h)]
      exact ⟨h3, h4, fun V hV => h5 V fun j hj => hV j (h2.grows j hj)⟩
    · obtain ⟨h3, h4, h5⟩ := h2.new j h hb
      rw [← h1.old j (Or.inr h)]
      exact ⟨h3, h4, h5⟩
  old := by
    intro j h
    rcases h with h | h
    · rw [h2.old j (Or.inl (h1.grows j h)), h1.old j (Or.inl h)]
    · rw [h2.old j (Or.inr h), h1.old j (Or.inr fun h' => h (h2.grows j h'))]
  lab := by
    intro j
    rcases h2.lab j with h | h
    · rw [h]; exact h1.lab j
    · exact Or.inr h

/-- A pass over a term ends with `e'`. -/
structure Good (i c : Int) (B : Nat → Prop) (Q : Int → Prop) (S : Store) (e e' : Lam)
    (S' : Store) : Prop where
  done : Done i c B Q S S'
  ok : e'.Ok B Q
  tr : ∀ V : Nat → Prop, (∀ j, S'.label j = c → V j) → Tr (some i) V e e'

structure Goods (i c : Int) (B : Nat → Prop) (Q : Int → Prop) (S : Store) (e e' : List Lam)
    (S' : Store) : Prop where
  done : Done i c B Q S S'
  ok : OkL B Q e'
  tr : ∀ V : Nat → Prop, (∀ j, S'.label j = c → V j) → Forall₂ (Tr (some i) V) e e'

theorem bind_ok {α β} {m : M α} {f : α → M β} {S : Store} {b : β} {S' : Store}
    (h : M.bind m f S = some (.ok b S')) : ∃ a S1, m S = some (.ok a S1) ∧ f a S1 = some (.ok b S') := by
  simp only [M.bind] at h
  split at h
  · exact ⟨_, _, by assumption, h⟩
  · cases h
  · cases h

theorem ret_ok {α} {a b : α} {S S' : Store} (h : M.ret a S = some (.ok b S')) : b = a ∧ S' = S := by
  simp only [M.ret] at h; cases h; exact ⟨rfl, rfl⟩

theorem Tr.up {V : Nat → Prop} {S1 S2 : Store} (h : Done i c B Q S1 S2)
    (hV : ∀ j, S2.label j = c → V j) : ∀ j, S1.label j = c → V j :=
  fun j hj => hV j (h.grows j hj)

/-- The nodes of a store are closed under `B`, and do not assign the slot. -/
def Clo (B : Nat → Prop) (Q : Int → Prop) (c : Int) (S : Store) : Prop :=
  ∀ j, B j → S.label j ≠ c → (S.term j).Ok B Q

theorem Clo.after {S S' : Store} (h : Clo B Q c S) (hd : Done i c B Q' S S') : Clo B Q c S' := by
  intro j hB hl
  rw [hd.old j (Or.inr hl)]
  exact h j hB fun h' => hl (hd.grows j h')

theorem goods_map {f : Lam → M Lam}
    (hf : ∀ e S e' S', e.Ok B Q → Clo B Q c S → f e S = some (.ok e' S') → Good i c B Q' S e e' S') :
    ∀ es S es' S', OkL B Q es → Clo B Q c S → mapM f es S = some (.ok es' S') →
      Goods i c B Q' S es es' S'
  | [], S, es', S', ho, hS, h => by
    simp only [mapM] at h
    obtain ⟨rfl, rfl⟩ := ret_ok h
    exact ⟨Done.refl _, by simp only [OkL], fun _ _ => .nil⟩
  | e :: es, S, es', S', ho, hS, h => by
    simp only [mapM] at h
    simp only [OkL] at ho
    obtain ⟨e1, S1, h1, h⟩ := bind_ok h
    obtain ⟨e2, S2, h2, h⟩ := bind_ok h
    obtain ⟨rfl, rfl⟩ := ret_ok h
    have g1 := hf _ _ _ _ ho.1 hS h1
    have g2 := goods_map hf es _ _ _ ho.2 (hS.after g1.done) h2
    exact ⟨g1.done.trans g2.done, by simp only [OkL]; exact ⟨g1.ok, g2.ok⟩,
      fun V hV => .cons (g1.tr V (Tr.up g2.done hV)) (g2.tr V hV)⟩

theorem good_leaf {e : Lam} {S : Store} (ho : e.Ok B Q')
    (ht : ∀ V : Nat → Prop, Tr (some i) V e e) : Good i c B Q' S e e S :=
  ⟨Done.refl _, ho, fun V _ => ht V⟩

theorem unref_prim (n : Nat) (i c : Int) (p : Prim) (args : List Lam) :
    (∃ v, p = .field 0 ∧ args = [.var v] ∧ unref (n + 1) i c (.prim p args) =
      if v = i then .ret (.var v) else .ret (.prim (.field 0) [.var v])) ∨
    (∃ v a, p = .setfield 0 ∧ args = [.var v, a] ∧ unref (n + 1) i c (.prim p args) =
      if v = i then (unref n i c a).bind fun a => .ret (.assign i a)
      else (unref n i c a).bind fun a => .ret (.prim (.setfield 0) [.var v, a])) ∨
    unref (n + 1) i c (.prim p args) =
      (mapM (unref n i c) args).bind fun args => .ret (.prim p args) := by
  rw [unref.eq_def]
  dsimp only
  split
  all_goals rename_i heq
  all_goals cases heq
  · exact Or.inl ⟨_, rfl, rfl, rfl⟩
  · exact Or.inr (Or.inl ⟨_, _, rfl, rfl, rfl⟩)
  · exact Or.inr (Or.inr rfl)

theorem good_unref (hQ : ∀ v, Q v → v ≠ i ∧ Q' v) (hQi : Q' i) :
    ∀ n e S e' S', e.Ok B Q → Clo B Q c S → unref n i c e S = some (.ok e' S') →
      Good i c B Q' S e e' S'
  | 0, e, S, e', S', ho, hS, h => by simp [unref] at h
  | n + 1, e, S, e', S', ho, hS, h => by
    have ih := good_unref hQ hQi n
    have ihl := goods_map ih
    have two : ∀ {con : Lam → Lam → Lam} {a b : Lam} {S : Store} {e' : Lam} {S' : Store},
        Clo B Q c S → a.Ok B Q → b.Ok B Q →
        (∀ a b, (con a b).Ok B Q' ↔ a.Ok B Q' ∧ b.Ok B Q') →
        (∀ (V : Nat → Prop) a a' b b', Tr (some i) V a a' → Tr (some i) V b b' →
          Tr (some i) V (con a b) (con a' b')) →
        (M.bind (unref n i c a) fun a => M.bind (unref n i c b) fun b => M.ret (con a b)) S =
          some (.ok e' S') → Good i c B Q' S (con a b) e' S' := by
      intro con a b S e' S' hS ha hb hcon htr h
      obtain ⟨e1, S1, h1, h⟩ := bind_ok h
      obtain ⟨e2, S2, h2, h⟩ := bind_ok h
      obtain ⟨rfl, rfl⟩ := ret_ok h
      have g1 := ih _ _ _ _ ha hS h1
      have g2 := ih _ _ _ _ hb (hS.after g1.done) h2
      exact ⟨g1.done.trans g2.done, (hcon _ _).2 ⟨g1.ok, g2.ok⟩,
        fun V hV => htr V _ _ _ _ (g1.tr V (Tr.up g2.done hV)) (g2.tr V hV)⟩
    cases e
    case var v =>
      simp only [unref] at h
      split_ifs at h with hv
      · cases h
      obtain ⟨rfl, rfl⟩ := ret_ok h
      exact good_leaf (by simp only [Lam.Ok]) fun V => .var (by intro h; cases h; exact hv rfl)
    case assign v a =>
      simp only [unref] at h
      simp only [Lam.Ok] at ho
      obtain ⟨e1, S1, h1, h⟩ := bind_ok h
      obtain ⟨rfl, rfl⟩ := ret_ok h
      have g1 := ih _ _ _ _ ho.2 hS h1
      have hv := hQ v ho.1
      exact ⟨g1.done, by simp only [Lam.Ok]; exact ⟨hv.2, g1.ok⟩,
        fun V hV => .assign (by intro h; cases h; exact hv.1 rfl) (g1.tr V hV)⟩
    case const z =>
      simp only [unref] at h
      obtain ⟨rfl, rfl⟩ := ret_ok h
      exact good_leaf (by simp only [Lam.Ok]) fun V => .const
    case apply f args =>
      simp only [unref] at h
      simp only [Lam.Ok] at ho
      obtain ⟨e1, S1, h1, h⟩ := bind_ok h
      obtain ⟨e2, S2, h2, h⟩ := bind_ok h
      obtain ⟨rfl, rfl⟩ := ret_ok h
      have g1 := ih _ _ _ _ ho.1 hS h1
      have g2 := ihl _ _ _ _ ho.2 (hS.after g1.done) h2
      exact ⟨g1.done.trans g2.done, by simp only [Lam.Ok]; exact ⟨g1.ok, g2.ok⟩,
        fun V hV => .apply (g1.tr V (Tr.up g2.done hV)) (g2.tr V hV)⟩
    case lett args b =>
      simp only [unref] at h
      simp only [Lam.Ok] at ho
      obtain ⟨e1, S1, h1, h⟩ := bind_ok h
      obtain ⟨e2, S2, h2, h⟩ := bind_ok h
      obtain ⟨rfl, rfl⟩ := ret_ok h
      have g1 := ihl _ _ _ _ ho.1 hS h1
      have g2 := ih _ _ _ _ ho.2 (hS.after g1.done) h2
      exact ⟨g1.done.trans g2.done, by simp only [Lam.Ok]; exact ⟨g1.ok, g2.ok⟩,
        fun V hV => .lett (g1.tr V (Tr.up g2.done hV)) (g2.tr V hV)⟩
    case letrec args b =>
      simp only [unref] at h
      simp only [Lam.Ok] at ho
      obtain ⟨e1, S1, h1, h⟩ := bind_ok h
      obtain ⟨e2, S2, h2, h⟩ := bind_ok h
      obtain ⟨rfl, rfl⟩ := ret_ok h
      have g1 := ihl _ _ _ _ ho.1 hS h1
      have g2 := ih _ _ _ _ ho.2 (hS.after g1.done) h2
      exact ⟨g1.done.trans g2.done, by simp only [Lam.Ok]; exact ⟨g1.ok, g2.ok⟩,
        fun V hV => .letrec (g1.tr V (Tr.up g2.done hV)) (g2.tr V hV)⟩
    case prim p args =>
      simp only [Lam.Ok] at ho
      rcases unref_prim n i c p args with ⟨v, rfl, rfl, hu⟩ | ⟨v, a, rfl, rfl, hu⟩ | hu
      · rw [hu] at h
        by_cases hv : v = i
        · rw [if_pos hv] at h
          obtain ⟨rfl, rfl⟩ := ret_ok h
          subst hv
          exact ⟨Done.refl _, by simp only [Lam.Ok], fun V hV => .get rfl⟩
        · rw [if_neg hv] at h
          obtain ⟨rfl, rfl⟩ := ret_ok h
          exact ⟨Done.refl _, by simp only [Lam.Ok, OkL, and_self],
            fun V hV => .prim (.cons (.var (by intro h; cases h; exact hv rfl)) .nil)⟩
      · rw [hu] at h
        simp only [OkL] at ho
        by_cases hv : v = i
        · rw [if_pos hv] at h
          obtain ⟨e1, S1, h1, h⟩ := bind_ok h
          obtain ⟨rfl, rfl⟩ := ret_ok h
          subst hv
          have g1 := ih _ _ _ _ ho.2.1 hS h1
          exact ⟨g1.done, by simp only [Lam.Ok]; exact ⟨hQi, g1.ok⟩,
            fun V hV => .set rfl (g1.tr V hV)⟩
        · rw [if_neg hv] at h
          obtain ⟨e1, S1, h1, h⟩ := bind_ok h
          obtain ⟨rfl, rfl⟩ := ret_ok h
          have g1 := ih _ _ _ _ ho.2.1 hS h1
          exact ⟨g1.done, by simp only [Lam.Ok, OkL, and_true, true_and]; exact g1.ok,
            fun V hV => .prim (.cons (.var (by intro h; cases h; exact hv rfl))
              (.cons (g1.tr V hV) .nil))⟩
      · rw [hu] at h
        obtain ⟨e1, S1, h1, h⟩ := bind_ok h
        obtain ⟨rfl, rfl⟩ := ret_ok h
        have g1 := ihl _ _ _ _ ho hS h1
        exact ⟨g1.done, by simp only [Lam.Ok]; exact g1.ok, fun V hV => .prim (g1.tr V hV)⟩
    case statichandle a b =>
      simp only [unref] at h
      simp only [Lam.Ok] at ho
      exact two hS ho.1 ho.2 (by simp [Lam.Ok]) (fun V _ _ _ _ => .statichandle) h
    case staticfail =>
      simp only [unref] at h
      obtain ⟨rfl, rfl⟩ := ret_ok h
      exact good_leaf (by simp only [Lam.Ok]) fun V => .staticfail
    case handle a b =>
      simp only [unref] at h
      simp only [Lam.Ok] at ho
      exact two hS ho.1 ho.2 (by simp [Lam.Ok]) (fun V _ _ _ _ => .handle) h
    case cond x a b =>
      simp only [unref] at h
      simp only [Lam.Ok] at ho
      obtain ⟨e1, S1, h1, h⟩ := bind_ok h
      have g1 := ih _ _ _ _ ho.1 hS h1
      have hS1 := hS.after g1.done
      obtain ⟨e2, S2, h2, h⟩ := bind_ok h
      obtain ⟨e3, S3, h3, h⟩ := bind_ok h
      obtain ⟨rfl, rfl⟩ := ret_ok h
      have g2 := ih _ _ _ _ ho.2.1 hS1 h2
      have g3 := ih _ _ _ _ ho.2.2 (hS1.after g2.done) h3
      have g23 := g2.done.trans g3.done
      exact ⟨g1.done.trans g23, by simp only [Lam.Ok]; exact ⟨g1.ok, g2.ok, g3.ok⟩,
        fun V hV => .cond (g1.tr V (Tr.up g23 hV)) (g2.tr V (Tr.up g3.done hV)) (g3.tr V hV)⟩
    case seq a b =>
      simp only [unref] at h
      simp only [Lam.Ok] at ho
      exact two hS ho.1 ho.2 (by simp [Lam.Ok]) (fun V _ _ _ _ => .seq) h
    case «while» a b =>
      simp only [unref] at h
      simp only [Lam.Ok] at ho
      exact two hS ho.1 ho.2 (by simp [Lam.Ok]) (fun V _ _ _ _ => .while) h
    case andalso a b =>
      simp only [unref] at h
      simp only [Lam.Ok] at ho
      exact two hS ho.1 ho.2 (by simp [Lam.Ok]) (fun V _ _ _ _ => .andalso) h
    case orelse a b =>
      simp only [unref] at h
      simp only [Lam.Ok] at ho
      exact two hS ho.1 ho.2 (by simp [Lam.Ok]) (fun V _ _ _ _ => .orelse) h
    case case a ks acts =>
      simp only [unref] at h
      simp only [Lam.Ok] at ho
      obtain ⟨e1, S1, h1, h⟩ := bind_ok h
      obtain ⟨e2, S2, h2, h⟩ := bind_ok h
      obtain ⟨rfl, rfl⟩ := ret_ok h
      have g1 := ih _ _ _ _ ho.1 hS h1
      have g2 := ihl _ _ _ _ ho.2 (hS.after g1.done) h2
      exact ⟨g1.done.trans g2.done, by simp only [Lam.Ok]; exact ⟨g1.ok, g2.ok⟩,
        fun V hV => .case (g1.tr V (Tr.up g2.done hV)) (g2.tr V hV)⟩
    case switch a ks acts =>
      simp only [unref] at h
      simp only [Lam.Ok] at ho
      obtain ⟨e1, S1, h1, h⟩ := bind_ok h
      obtain ⟨e2, S2, h2, h⟩ := bind_ok h
      obtain ⟨rfl, rfl⟩ := ret_ok h
      have g1 := ih _ _ _ _ ho.1 hS h1
      have g2 := ihl _ _ _ _ ho.2 (hS.after g1.done) h2
      exact ⟨g1.done.trans g2.done, by simp only [Lam.Ok]; exact ⟨g1.ok, g2.ok⟩,
        fun V hV => .switch (g1.tr V (Tr.up g2.done hV)) (g2.tr V hV)⟩
    case unspec =>
      simp only [unref] at h
      obtain ⟨rfl, rfl⟩ := ret_ok h
      exact good_leaf (by simp only [Lam.Ok]) fun V => .unspec
    case shared j =>
      simp only [unref] at h
      simp only [Lam.Ok] at ho
      by_cases hj : S.label j = c
      · rw [if_neg (by simpa using hj)] at h
        cases h
        exact ⟨Done.refl _, by simp only [Lam.Ok]; exact ho, fun V hV => .shared (hV j hj)⟩
      · rw [if_pos hj] at h
        cases hu : unref n i c (S.term j) (S.mark j c) with
        | none => rw [hu] at h; cases h
        | some o =>
          rw [hu] at h
          cases o with
          | raised S1 => cases h
          | ok e1 S1 =>
            cases h
            have g := ih _ (S.mark j c) _ _ (hS j ho hj) (by
              intro k hk hl
              simp only [Store.mark] at hl ⊢
              split_ifs at hl
              · exact absurd rfl hl
              · exact hS k hk hl) hu
            have hlj : S1.label j = c := g.done.grows j (by simp [Store.mark])
            have hD : Done i c B Q' S (S1.put j e1) := by
              refine ⟨?_, ?_, ?_, ?_⟩
              · intro k hk
                have : k ≠ j := by rintro rfl; exact hj hk
                exact g.done.grows k (by simp [Store.mark, this, hk])
              · intro k hk hk'
                by_cases hkj : k = j
                · subst hkj
                  refine ⟨ho, by simpa [Store.put] using g.ok, fun V hV => ?_⟩
                  have := g.tr V hV
                  simpa [Store.put] using this
                · obtain ⟨h1, h2, h3⟩ := g.done.new k (by simp [Store.mark, hkj, hk]) hk'
                  refine ⟨h1, by simpa [Store.put, hkj] using h2, fun V hV => ?_⟩
                  have := h3 V hV
                  simpa [Store.put, hkj, Store.mark] using this
              · intro k hk
                have hkj : k ≠ j := by
                  rintro rfl
                  rcases hk with hk | hk
                  · exact hj hk
                  · exact hk hlj
                have := g.done.old k (by
                  rcases hk with hk | hk
                  · left; simp [Store.mark, hkj, hk]
                  · right; exact hk)
                simpa [Store.put, hkj, Store.mark] using this
              · intro k
                rcases g.done.lab k with h | h
                · by_cases hkj : k = j
                  · subst hkj; right; exact hlj
                  · left; simpa [Store.mark, Store.put, hkj] using h
                · right; exact h
            exact ⟨hD, by simp only [Lam.Ok]; exact ho, fun V hV => .shared (hV j hlj)⟩

end Mosml.Unref
