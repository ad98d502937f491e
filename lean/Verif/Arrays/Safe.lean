import Verif.Arrays.Copy

/-! # Traversals end well; collating; concatenating -/

namespace Mosml.Arrays

variable {V X : Type}

theorem fine_bind {α β : Type} {w : World V X} {p : Prog (World V X) α}
    {k : α → Prog (World V X) β} (hp : Fine w (p w))
    (hk : ∀ a w', Keeps w w' → Fine w' (k a w')) : Fine w ((p >>= k) w) := by
  rw [bind_apply]
  cases h : p w with
  | bad => rw [h] at hp; exact hp
  | raise e w' => rw [h] at hp; exact hp
  | ok a w' =>
    rw [h] at hp
    dsimp only
    have := hk a w' hp
    cases h' : k a w' with
    | bad => rw [h'] at this; exact this
    | raise e w'' => rw [h'] at this; exact keeps_trans hp this
    | ok b w'' => rw [h'] at this; exact keeps_trans hp this

theorem fine_pure {α : Type} (w : World V X) (a : α) :
    Fine w ((pure a : Prog (World V X) α) w) := keeps_refl w

theorem fine_of {α : Type} {p : Prog (World V X) α} (h1 : Safe p) (h2 : Steady p)
    (w : World V X) : Fine w (p w) := by
  have a := h1 w
  have b := h2 w
  cases h : p w with
  | bad => exact absurd h a
  | raise e w' => rw [h] at b; exact b
  | ok x w' => rw [h] at b; exact b

theorem fine_item (w : World V X) (c : Cont V) {j : Int} (h : 0 ≤ j)
    (h' : j < (cells w c).length) : Fine w (item c j w) := by
  rw [item_ok _ _ h h']
  exact keeps_refl w

theorem fine_become (w : World V X) (l : Nat) (j : Int) (v : V) : Fine w (become l j v w) :=
  keeps_become w l j v

theorem each_fine (body : Int → Prog (World V X) Unit) : ∀ (js : List Int) (w : World V X),
    (∀ j ∈ js, ∀ w', Keeps w w' → Fine w' (body j w')) → Fine w (each body js w) := by
  intro js
  induction js with
  | nil => intro w _; exact fine_pure w ()
  | cons j js ih =>
    intro w h
    simp only [each]
    refine fine_bind (h j (by simp) w (keeps_refl w)) ?_
    intro _ w' hk
    exact ih w' (fun m hm w'' hk' => h m (by simp [hm]) w'' (keeps_trans hk hk'))

theorem thread_fine {β : Type} (body : Int → β → Prog (World V X) β) :
    ∀ (js : List Int) (b : β) (w : World V X),
    (∀ j ∈ js, ∀ b w', Keeps w w' → Fine w' (body j b w')) → Fine w (thread body js b w) := by
  intro js
  induction js with
  | nil => intro b w _; exact fine_pure w b
  | cons j js ih =>
    intro b w h
    simp only [thread]
    refine fine_bind (h j (by simp) b w (keeps_refl w)) ?_
    intro b' w' hk
    exact ih b' w' (fun m hm b w'' hk' => h m (by simp [hm]) b w'' (keeps_trans hk hk'))

theorem firstly_fine {β : Type} (body : Int → Prog (World V X) (Option β)) :
    ∀ (js : List Int) (w : World V X),
    (∀ j ∈ js, ∀ w', Keeps w w' → Fine w' (body j w')) → Fine w (firstly body js w) := by
  intro js
  induction js with
  | nil => intro w _; exact fine_pure w none
  | cons j js ih =>
    intro w h
    simp only [firstly]
    refine fine_bind (h j (by simp) w (keeps_refl w)) ?_
    intro r w' hk
    cases r with
    | some b => exact fine_pure w' _
    | none => exact ih w' (fun m hm w'' hk' => h m (by simp [hm]) w'' (keeps_trans hk hk'))

theorem collect_fine {β : Type} (body : Int → Prog (World V X) β) :
    ∀ (js : List Int) (w : World V X),
    (∀ j ∈ js, ∀ w', Keeps w w' → Fine w' (body j w')) → Fine w (collect body js w) := by
  intro js
  induction js with
  | nil => intro w _; exact fine_pure w []
  | cons j js ih =>
    intro w h
    simp only [collect]
    refine fine_bind (h j (by simp) w (keeps_refl w)) ?_
    intro y w' hk
    refine fine_bind (ih w' (fun m hm w'' hk' => h m (by simp [hm]) w'' (keeps_trans hk hk'))) ?_
    intro ys w'' _
    exact fine_pure w'' _

theorem lrCollate_eq (c1 c2 : Cont V) (i1 i2 n1 n2 : Int)
    (cmp : V → V → Prog (World V X) Ordering) (hf : ∀ x y, Steady (cmp x y)) (stop : Int)
    (h1 : 0 ≤ i1) (h2 : 0 ≤ i2) :
    ∀ (k fuel : Nat) (j : Int) (w : World V X), k < fuel → stop = j + k → 0 ≤ j →
      Exists w c1 → Exists w c2 → i1 + stop ≤ (cells w c1).length →
      ((cells w c1).length : Int) ≤ maxLen → i2 + stop ≤ (cells w c2).length →
      ((cells w c2).length : Int) ≤ maxLen →
      lrCollate c1 c2 i1 i2 n1 n2 cmp stop fuel j w =
        (do
          let r ← firstly (fun j => do
            let x ← item c1 (i1 + j)
            let y ← item c2 (i2 + j)
            let o ← cmp x y
            pure (if o = Ordering.eq then none else some o)) (idx j k)
          pure (r.getD (if n1 < n2 then .lt else if n1 > n2 then .gt else .eq))) w := by
  intro k
  induction k with
  | zero =>
    intro fuel j w hf' hs h0 _ _ _ _ _ _
    obtain ⟨fuel, rfl⟩ : ∃ m, fuel = m + 1 := ⟨fuel - 1, by omega⟩
    simp only [lrCollate, idx_zero, firstly]
    rw [if_pos (by omega)]
    rfl
  | succ k ih =>
    intro fuel j w hf' hs h0 hc1 hc2 hl1 hm1 hl2 hm2
    obtain ⟨fuel, rfl⟩ : ∃ m, fuel = m + 1 := ⟨fuel - 1, by omega⟩
    have hm' : maxLen = 18014398509481983 := rfl
    have hmi : minInt = -4611686018427387904 := rfl
    have hma : maxInt = 4611686018427387903 := rfl
    simp only [lrCollate, idx_succ, firstly]
    rw [if_neg (by omega), chk_ok (by omega) (by omega)]
    simp only [bind_apply]
    rw [rd_eq _ _ (by omega), item_ok _ _ (by omega) (by omega)]
    dsimp only
    rw [chk_ok (by omega) (by omega)]
    simp only [bind_apply]
    rw [rd_eq _ _ (by omega), item_ok w c2 (j := i2 + j) (by omega) (by omega)]
    dsimp only
    have hst := hf ((cells w c1)[(i1 + j).toNat]'(by omega))
      ((cells w c2)[(i2 + j).toNat]'(by omega)) w
    cases hr : cmp ((cells w c1)[(i1 + j).toNat]'(by omega))
      ((cells w c2)[(i2 + j).toNat]'(by omega)) w with
    | bad => rfl
    | raise e w' => rfl
    | ok o w' =>
      rw [hr] at hst
      dsimp only
      have hlen1 := keeps_len hst hc1
      have hlen2 := keeps_len hst hc2
      cases o with
      | lt => rfl
      | gt => rfl
      | eq =>
        simp only [if_true, pure_apply]
        rw [chk_ok (by omega) (by omega)]
        rw [ih fuel (j + 1) w' (by omega) (by push_cast at hs; omega) (by omega)
          (keeps_exists hst hc1) (keeps_exists hst hc2) (by omega) (by omega) (by omega)
          (by omega)]
        rfl

theorem firstly_lex (c1 c2 : Cont V) (i1 i2 : Int) (cmp : V → V → Ordering) (w : World V X)
    (h1 : 0 ≤ i1) (h2 : 0 ≤ i2) :
    ∀ (k1 k2 : Nat) (j : Int), 0 ≤ j → i1 + j + k1 ≤ (cells w c1).length →
      i2 + j + k2 ≤ (cells w c2).length →
      (do
          let r ← firstly (fun j => do
            let x ← item c1 (i1 + j)
            let y ← item c2 (i2 + j)
            let o ← (pure (cmp x y) : Prog (World V X) Ordering)
            pure (if o = Ordering.eq then none else some o)) (idx j (min k1 k2))
          pure (r.getD (if k1 < k2 then .lt else if k1 > k2 then .gt else .eq))) w =
        .ok (lex cmp (seg (cells w c1) (i1 + j) k1) (seg (cells w c2) (i2 + j) k2)) w := by
  intro k1
  induction k1 with
  | zero =>
    intro k2 j h0 hl1 hl2
    simp only [Nat.zero_min, idx_zero, firstly, seg_zero]
    cases k2 with
    | zero => simp [bind_apply, pure_apply, seg_zero, lex]
    | succ k2 =>
      rw [seg_succ _ (by omega) (by push_cast at hl2; omega)]
      simp [bind_apply, pure_apply, lex]
  | succ k1 ih =>
    intro k2 j h0 hl1 hl2
    push_cast at hl1
    cases k2 with
    | zero =>
      rw [seg_succ _ (by omega) (by omega), Nat.min_zero, seg_zero]
      simp [bind_apply, pure_apply, lex, idx_zero, firstly]
    | succ k2 =>
      push_cast at hl2
      have ih' := ih k2 (j + 1) (by omega) (by omega) (by omega)
      rw [seg_succ _ (by omega) (by omega), seg_succ _ (by omega) (by omega)]
      have hmin : min (k1 + 1) (k2 + 1) = min k1 k2 + 1 := by omega
      rw [hmin, idx_succ]
      simp only [firstly, bind_apply, lex]
      rw [item_ok w c1 (j := i1 + j) (by omega) (by omega)]
      dsimp only
      rw [item_ok w c2 (j := i2 + j) (by omega) (by omega)]
      dsimp only [pure_apply]
      cases hcmp : cmp ((cells w c1)[(i1 + j).toNat]'(by omega))
        ((cells w c2)[(i2 + j).toNat]'(by omega)) with
      | lt => rfl
      | gt => rfl
      | eq =>
        simp only [if_true]
        simp only [bind_apply, ← add_assoc] at ih'
        simp only [Nat.add_lt_add_iff_right, gt_iff_lt] at ih' ⊢
        exact ih'

/-! ## Concatenation -/

/-- The number of elements of the slices together. -/
def total : List (Slice V) → Int
  | [] => 0
  | s :: ss => s.n + total ss

theorem total_nonneg {w : World V X} : ∀ {ss : List (Slice V)}, (∀ s ∈ ss, Valid w s) →
    0 ≤ total ss := by
  intro ss
  induction ss with
  | nil => intro _; simp [total]
  | cons s ss ih =>
    intro h
    have := ih (fun t ht => h t (by simp [ht]))
    have hs := (h s (by simp)).2.2.1
    simp only [total]
    omega

theorem sumLen_eq {w : World V X} : ∀ (ss : List (Slice V)) (n : Int), 0 ≤ n →
    (∀ s ∈ ss, Valid w s) → n + total ss ≤ maxInt → sumLen ss n w = .ok (n + total ss) w := by
  intro ss
  induction ss with
  | nil => intro n _ _ _; simp [sumLen, total, pure_apply]
  | cons s ss ih =>
    intro n hn h hb
    have h' : ∀ t ∈ ss, Valid w t := fun t ht => h t (by simp [ht])
    have hs := (h s (by simp)).2.2.1
    have := total_nonneg h'
    have hmi : minInt = -4611686018427387904 := rfl
    simp only [total] at hb ⊢
    simp only [sumLen]
    rw [chk_ok (by omega) (by omega), ih (s.n + n) (by omega) h' (by omega)]
    congr 1
    ring

theorem copyall_eq {w : World V X} : ∀ (ss : List (Slice V)) (pos : Int) (ys : List V),
    pos = ys.length → (∀ s ∈ ss, Valid w s) → pos + total ss ≤ maxLen →
    copyall ss pos (ys.map some ++ List.replicate (total ss).toNat none) w =
      .ok ((ys ++ ss.flatMap (elems w)).map some) w := by
  intro ss
  induction ss with
  | nil => intro pos ys _ _ _; simp [copyall, total, pure_apply]
  | cons s ss ih =>
    intro pos ys hpos h hb
    have h' : ∀ t ∈ ss, Valid w t := fun t ht => h t (by simp [ht])
    obtain ⟨hc, hi, hn, hl, hm⟩ := h s (by simp)
    have ht := total_nonneg h'
    have hmi : minInt = -4611686018427387904 := rfl
    have hma : maxInt = 4611686018427387903 := rfl
    have hml : maxLen = 18014398509481983 := rfl
    simp only [total] at hb ⊢
    have htn : (s.n + total ss).toNat = s.n.toNat + (total ss).toNat := by omega
    simp only [copyall, bind_apply]
    rw [htn, lrPut_eq s.c s.i s.n pos w hi hl hm (total ss).toNat s.n.toNat (rounds s.n) 0 ys
      (by simp [rounds]) (by omega) le_rfl (by omega) (by omega)]
    dsimp only
    rw [chk_ok (by omega) (by omega), add_zero, ih (pos + s.n) _
      (by rw [List.length_append, seg_length _ hi _ (by omega)]; push_cast; omega) h' (by omega)]
    simp [elems]

end Mosml.Arrays
