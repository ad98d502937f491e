import Verif.Heap.FreelistLemmas

/-! The operations on the free list keep the invariant. -/
namespace Mosml.Heap

/-- a block in use: not free, and with at least one field -/
def Live (T : Nat → Option Nat) (fl : List Nat) (h w : Nat) : Prop := T h = some w ∧ h + 1 ∉ fl ∧ 0 < w

theorem Inv.ne0 {s chunks T fl} (i : Inv s chunks T fl) : ∀ x ∈ fl, x ≠ 0 := by
  intro x hx
  obtain ⟨h, w, e, _⟩ := i.free x hx
  omega

theorem nodup_mid {p c : Nat} {a b : List Nat} (nd : (p :: (a ++ c :: b)).Nodup) :
    c ∉ p :: a ∧ c ∉ b ∧ (∀ x ∈ b, x ∉ p :: a) ∧ (p :: (a ++ b)).Nodup := by
  have h1 : ((p :: a) ++ c :: b).Nodup := nd
  rw [List.nodup_append] at h1
  obtain ⟨h2, h3, h4⟩ := h1
  have h5 := List.nodup_cons.mp h3
  refine ⟨fun h => h4 c h c (by simp) rfl, h5.1, fun x hx hp => h4 x hp x (by simp [hx]) rfl, ?_⟩
  show ((p :: a) ++ b).Nodup
  rw [List.nodup_append]
  exact ⟨h2, h5.2, fun x hx y hy => h4 x hx y (by simp [hy])⟩

theorem lastOf_mem' (p : Nat) (a : List Nat) : lastOf p a ∈ p :: a := by
  rcases lastOf_mem p a with h | h
  · rw [h]; simp
  · simp [h]

/-- cases 0 and 1 of `allocate_block`: the block leaves the list -/
theorem alloc_detach {s chunks T} {a b : List Nat} {h w wo : Nat} (i : Inv s chunks T (a ++ (h + 1) :: b))
    (ht : T h = some w) (hwo : 0 < wo) (h1 : wo ≤ w) (h2 : w ≤ wo + 1) (v : Nat) (hv1 : wosizeHd v = wo)
    (hv2 : colorHd v ≠ 2) :
    let s' : FL := { s with
      mem := upd (upd (upd s.mem (lastOf s.head a) (s.mem (h + 1))) h (mkHd 0 0 .white)) (h + w - wo) v
      merge := if s.merge = h + 1 then lastOf s.head a else s.merge
      prev := lastOf s.head a }
    ∃ T', Inv s' chunks T' (a ++ b) ∧ T' (h + w - wo) = some wo ∧
      (∀ x y, Live T' (a ++ b) x y ↔ Live T (a ++ (h + 1) :: b) x y ∨ (x = h + w - wo ∧ y = wo)) ∧
      (∀ x y, Live T (a ++ (h + 1) :: b) x y → ∀ z, x ≤ z → z ≤ x + y → s'.mem z = s.mem z) := by
  intro s'
  have hp0 := lastOf_mem' s.head a
  have hpin : lastOf s.head a ∈ s.head :: (a ++ (h + 1) :: b) := lastOf_head _ _ _
  obtain ⟨n1, n2, n3, n4⟩ := nodup_mid i.nodup
  -- the places written
  have hpne : ∀ x, h ≤ x → x ≤ h + w → x ≠ lastOf s.head a := by
    intro x hx1 hx2
    by_cases hx : x = h + 1
    · rw [hx]; intro e; rw [← e] at hp0; exact n1 hp0
    · exact i.linkNe hpin ht hx1 hx2 (Or.inl hx)
  -- the memory elsewhere
  have hmem : ∀ x, x ≠ lastOf s.head a → (x < h ∨ h + w < x) → s'.mem x = s.mem x := by
    intro x hx1 hx2
    show upd (upd (upd _ _ _) _ _) _ _ x = _
    rw [upd_ne _ _ (by omega), upd_ne _ _ (by omega), upd_ne _ _ hx1]
  have hlink : ∀ x ∈ s.head :: (a ++ b), x < h ∨ h + w < x := by
    intro x hx
    by_contra hcon
    have hx' : x ∈ s.head :: (a ++ (h + 1) :: b) := by
      simp only [List.mem_cons, List.mem_append] at hx ⊢; tauto
    by_cases hx2 : x = h + 1
    · rw [hx2] at hx
      simp only [List.mem_cons, List.mem_append] at hx
      rcases hx with hx | hx | hx
      · exact n1 (by simp [hx])
      · exact n1 (by simp [hx])
      · exact n2 hx
    · exact i.linkNe hx' ht (by omega) (by omega) (Or.inl hx2) rfl
  have hpm : s'.mem (lastOf s.head a) = s.mem (h + 1) := by
    have := hpne h (by omega) (by omega)
    have := hpne (h + w - wo) (by omega) (by omega)
    show upd (upd (upd _ _ _) _ _) _ _ _ = _
    rw [upd_ne _ _ (by omega), upd_ne _ _ (by omega), upd_same]
  have hhp : s'.mem (h + w - wo) = v := upd_same _ _ _
  have hchain : Chain s'.mem s'.head (a ++ b) := by
    have hd : Chain s.mem (h + 1) b := (i.chain.drop (a := a)).2
    refine Chain.splice (m := s.mem) (p := s.head) i.chain i.nodup ?_ ?_
    · intro x hx hx2
      exact hmem x hx2 (hlink x (by simp only [List.mem_cons, List.mem_append] at hx ⊢; tauto))
    · refine hd.move hpm ?_
      intro x hx
      refine hmem x ?_ (hlink x (by simp [hx]))
      intro e; rw [e] at hx; exact n3 _ hx hp0
  have hother : ∀ x y, T x = some y → x ≠ h → s'.mem x = s.mem x := by
    intro x y hx hne
    refine hmem x ?_ ?_
    · exact i.linkNe hpin hx (by omega) (by omega) (Or.inl (by omega))
    · rcases i.tl.disj x y h w hx ht hne with h | h <;> omega
  have hmg : s'.merge ∈ s'.head :: (a ++ b) := by
    show (if s.merge = h + 1 then _ else _) ∈ s.head :: (a ++ b)
    by_cases hm : s.merge = h + 1
    · rw [if_pos hm]; exact lastOf_head _ _ _
    · rw [if_neg hm]
      have := i.mergeIn
      simp only [List.mem_cons, List.mem_append] at this ⊢
      tauto
  have hsent : s'.mem (s'.head - 1) = mkHd 0 0 .blue := by
    have hs := i.sent
    show s'.mem (s.head - 1) = _
    rw [← hs]
    by_cases hin : s.head - 1 < h ∨ h + w < s.head - 1
    · refine hmem _ ?_ hin
      intro e
      rcases List.mem_cons.mp hp0 with h1 | h1
      · have := i.headPos; omega
      · obtain ⟨h', w', e', ht', hw'⟩ := i.free _ (List.mem_append_left _ h1)
        have := (i.out ht' (a := h' + 1) (by omega) (by omega)).1
        omega
    · exact absurd rfl (i.out ht (a := s.head - 1) (by omega) (by omega)).1
  have hmemfl : ∀ x, x ≠ h → (x + 1 ∈ a ++ b ↔ x + 1 ∈ a ++ (h + 1) :: b) := by
    intro x hx
    simp only [List.mem_append, List.mem_cons]
    constructor
    · tauto
    · rintro (h | h | h)
      · tauto
      · omega
      · tauto
  have hnot : h + 1 ∉ a ++ b := by
    intro hm
    have := hlink (h + 1) (by simp only [List.mem_cons]; right; exact hm)
    omega
  have hframe : ∀ x y, Live T (a ++ (h + 1) :: b) x y → ∀ z, x ≤ z → z ≤ x + y → s'.mem z = s.mem z := by
    rintro x y ⟨l1, l2, l3⟩ z hz1 hz2
    have hxh : x ≠ h := by rintro rfl; exact l2 (by simp)
    refine hmem z (i.linkNe hpin l1 hz1 hz2 (Or.inr l2)) ?_
    rcases i.tl.disj x y h w l1 ht hxh with h | h <;> omega
  by_cases hc : w = wo
  · subst hc
    have e0 : h + w - w = h := by omega
    rw [e0] at hhp ⊢
    refine ⟨T, ⟨i.tl, ?_, ?_, ?_, hchain, n4, lastOf_head _ _ _, hmg, i.headPos, hsent, i.headOut⟩, ht, ?_, hframe⟩
    · intro x y hx
      by_cases hxh : x = h
      · subst hxh; rw [hhp, hv1]; rw [ht] at hx; exact Option.some.inj hx
      · rw [hother x y hx hxh]; exact i.size x y hx
    · intro x y hx
      by_cases hxh : x = h
      · subst hxh; rw [hhp]
        constructor
        · intro h; exact absurd h hv2
        · intro h; exact absurd h hnot
      · rw [hother x y hx hxh, i.blue x y hx, hmemfl x hxh]
    · intro x hx
      exact i.free x (by simp only [List.mem_append, List.mem_cons] at hx ⊢; tauto)
    · intro x y
      unfold Live
      by_cases hxh : x = h
      · subst hxh
        rw [ht]
        constructor
        · rintro ⟨e, _, _⟩; right; exact ⟨rfl, (Option.some.inj e).symm⟩
        · rintro (⟨_, e, _⟩ | ⟨_, e⟩)
          · exact absurd (by simp) e
          · rw [e]; exact ⟨rfl, hnot, hwo⟩
      · rw [hmemfl x hxh]
        constructor
        · intro h; left; exact h
        · rintro (h | h)
          · exact h
          · exact absurd h.1 hxh
  · have hw : w = wo + 1 := by omega
    subst hw
    have e0 : h + (wo + 1) - wo = h + 1 := by omega
    rw [e0] at hhp ⊢
    have hT := i.tl.split (r := 0) (wo := wo) ht (by omega)
    have hh : s'.mem h = mkHd 0 0 .white := by
      show upd (upd (upd _ _ _) _ _) _ _ _ = _
      rw [upd_ne _ _ (by omega), upd_same]
    have hT1 : T (h + 1) = none := by
      by_contra hcon
      obtain ⟨y, hy⟩ := Option.ne_none_iff_exists'.mp hcon
      rcases i.tl.disj (h + 1) y h _ hy ht (by omega) with h | h <;> omega
    have key : ∀ x y, (if x = h + 0 + 1 then some wo else if x = h then some 0 else T x) = some y →
        (x = h + 1 ∧ y = wo) ∨ (x = h ∧ y = 0) ∨ (x ≠ h ∧ x ≠ h + 1 ∧ T x = some y) := by
      intro x y hx
      by_cases h1 : x = h + 0 + 1
      · rw [if_pos h1] at hx; left; exact ⟨h1, (Option.some.inj hx).symm⟩
      · rw [if_neg h1] at hx
        by_cases h2 : x = h
        · rw [if_pos h2] at hx; right; left; exact ⟨h2, (Option.some.inj hx).symm⟩
        · rw [if_neg h2] at hx; right; right; exact ⟨h2, by omega, hx⟩
    have hnot2 : h + 1 + 1 ∉ a ++ b := by
      intro hm
      have := hlink (h + 1 + 1) (by simp only [List.mem_cons]; right; exact hm)
      omega
    refine ⟨_, ⟨hT, ?_, ?_, ?_, hchain, n4, lastOf_head _ _ _, hmg, i.headPos, hsent, i.headOut⟩, ?_, ?_, hframe⟩
    · intro x y hx
      rcases key x y hx with ⟨e, f⟩ | ⟨e, f⟩ | ⟨e, f, g⟩
      · rw [e, f, hhp, hv1]
      · rw [e, f, hh, wosize_mkHd _ _ _ (by omega)]
      · rw [hother x y g e]; exact i.size x y g
    · intro x y hx
      rcases key x y hx with ⟨e, f⟩ | ⟨e, f⟩ | ⟨e, f, g⟩
      · rw [e, hhp]
        exact ⟨fun h => absurd h hv2, fun h => absurd h hnot2⟩
      · rw [e, hh, color_mkHd _ _ _ (by omega)]
        constructor
        · intro h; exact absurd h (by decide)
        · intro h; exact absurd h hnot
      · rw [hother x y g e, i.blue x y g, hmemfl x e]
    · intro x hx
      obtain ⟨h', w', e, ht', hw'⟩ := i.free x (by simp only [List.mem_append, List.mem_cons] at hx ⊢; tauto)
      have : h' ≠ h := by rintro rfl; rw [e] at hx; exact hnot hx
      have : h' ≠ h + 1 := by rintro rfl; rw [e] at hx; exact hnot2 hx
      exact ⟨h', w', e, by rw [if_neg (by omega), if_neg (by omega)]; exact ht', hw'⟩
    · rw [if_pos (by omega)]
    · intro x y
      unfold Live
      constructor
      · rintro ⟨h1, h2, h3⟩
        rcases key x y h1 with ⟨e, f⟩ | ⟨e, f⟩ | ⟨e, f, g⟩
        · right; exact ⟨e, f⟩
        · omega
        · left; exact ⟨g, by rw [← hmemfl x e]; exact h2, h3⟩
      · rintro (⟨h1, h2, h3⟩ | ⟨e, f⟩)
        · have e1 : x ≠ h := by rintro rfl; exact h2 (by simp)
          have e2 : x ≠ h + 1 := by rintro rfl; rw [hT1] at h1; exact absurd h1 (by simp)
          exact ⟨by dsimp only; rw [if_neg (by omega), if_neg e1]; exact h1, by rw [hmemfl x e1]; exact h2, h3⟩
        · rw [e, f]
          exact ⟨by dsimp only; rw [if_pos (by omega)], hnot2, hwo⟩

/-- case 2 of `allocate_block`: the block is cut and stays in the list -/
theorem alloc_cut {s chunks T} {fl : List Nat} {h w wo p : Nat} (i : Inv s chunks T fl) (hfl : h + 1 ∈ fl)
    (hp : p ∈ s.head :: fl)
    (ht : T h = some w) (hwo : 0 < wo) (h1 : wo + 2 ≤ w) (v : Nat) (hv1 : wosizeHd v = wo)
    (hv2 : colorHd v ≠ 2) :
    let s' : FL := { s with
      mem := upd (upd s.mem h (mkHd (w - (wo + 1)) 0 .blue)) (h + w - wo) v
      prev := p }
    ∃ T', Inv s' chunks T' fl ∧ T' (h + w - wo) = some wo ∧
      (∀ x y, Live T' fl x y ↔ Live T fl x y ∨ (x = h + w - wo ∧ y = wo)) ∧
      (∀ x y, Live T fl x y → ∀ z, x ≤ z → z ≤ x + y → s'.mem z = s.mem z) := by
  intro s'
  obtain ⟨r, hr⟩ : ∃ r, r + wo + 1 = w := ⟨w - (wo + 1), by omega⟩
  have e0 : h + w - wo = h + r + 1 := by omega
  have e1 : w - (wo + 1) = r := by omega
  have hhp : s'.mem (h + r + 1) = v := by
    show upd (upd _ _ _) _ _ _ = _
    rw [e0]; exact upd_same _ _ _
  have hh : s'.mem h = mkHd r 0 .blue := by
    show upd (upd _ _ _) _ _ _ = _
    rw [e0, upd_ne _ _ (by omega), e1, upd_same]
  have hmem : ∀ x, x ≠ h → x ≠ h + r + 1 → s'.mem x = s.mem x := by
    intro x hx1 hx2
    show upd (upd _ _ _) _ _ x = _
    rw [upd_ne _ _ (by omega), upd_ne _ _ hx1]
  rw [e0]
  have hlink : ∀ x ∈ s.head :: fl, s'.mem x = s.mem x := by
    intro x hx
    refine hmem x ?_ ?_
    · exact (i.linkNe hx ht (a := h) (by omega) (by omega) (Or.inl (by omega))).symm
    · exact (i.linkNe hx ht (a := h + r + 1) (by omega) (by omega) (Or.inl (by omega))).symm
  have hT := i.tl.split (r := r) (wo := wo) ht hr
  have hTn : T (h + r + 1) = none := by
    by_contra hcon
    obtain ⟨y, hy⟩ := Option.ne_none_iff_exists'.mp hcon
    rcases i.tl.disj (h + r + 1) y h _ hy ht (by omega) with h | h <;> omega
  have key : ∀ x y, (if x = h + r + 1 then some wo else if x = h then some r else T x) = some y →
      (x = h + r + 1 ∧ y = wo) ∨ (x = h ∧ y = r) ∨ (x ≠ h ∧ x ≠ h + r + 1 ∧ T x = some y) := by
    intro x y hx
    by_cases h1 : x = h + r + 1
    · rw [if_pos h1] at hx; left; exact ⟨h1, (Option.some.inj hx).symm⟩
    · rw [if_neg h1] at hx
      by_cases h2 : x = h
      · rw [if_pos h2] at hx; right; left; exact ⟨h2, (Option.some.inj hx).symm⟩
      · rw [if_neg h2] at hx; right; right; exact ⟨h2, by omega, hx⟩
  have hnot : h + r + 1 + 1 ∉ fl := by
    intro hm
    exact i.linkNe (List.mem_cons_of_mem _ hm) ht (a := h + r + 1 + 1) (by omega) (by omega) (Or.inl (by omega)) rfl
  have hframe : ∀ x y, Live T fl x y → ∀ z, x ≤ z → z ≤ x + y → s'.mem z = s.mem z := by
    rintro x y ⟨l1, l2, l3⟩ z hz1 hz2
    have hxh : x ≠ h := by rintro rfl; exact l2 hfl
    have := i.tl.disj x y h w l1 ht hxh
    exact hmem z (by omega) (by omega)
  refine ⟨_, ⟨hT, ?_, ?_, ?_, ?_, i.nodup, hp, i.mergeIn, i.headPos, ?_, i.headOut⟩, ?_, ?_, hframe⟩
  · intro x y hx
    rcases key x y hx with ⟨e, f⟩ | ⟨e, f⟩ | ⟨e, f, g⟩
    · rw [e, f, hhp, hv1]
    · rw [e, f, hh, wosize_mkHd _ _ _ (by omega)]
    · rw [hmem x e f]; exact i.size x y g
  · intro x y hx
    rcases key x y hx with ⟨e, f⟩ | ⟨e, f⟩ | ⟨e, f, g⟩
    · rw [e, hhp]
      exact ⟨fun h => absurd h hv2, fun h => absurd h hnot⟩
    · rw [e, hh, color_mkHd _ _ _ (by omega)]
      exact ⟨fun _ => hfl, fun _ => rfl⟩
    · rw [hmem x e f, i.blue x y g]
  · intro x hx
    obtain ⟨h', w', e, ht', hw'⟩ := i.free x hx
    by_cases hh' : h' = h
    · subst hh'
      exact ⟨h', r, e, by rw [if_neg (by omega), if_pos rfl], by omega⟩
    · have : h' ≠ h + r + 1 := by rintro rfl; rw [e] at hx; exact hnot hx
      exact ⟨h', w', e, by rw [if_neg (by omega), if_neg (by omega)]; exact ht', hw'⟩
  · exact i.chain.congr (hlink _ (by simp)) (fun x hx => hlink x (by simp [hx]))
  · show s'.mem (s.head - 1) = _
    rw [← i.sent]
    refine hmem _ ?_ ?_
    · exact ((i.out ht (a := h) (by omega) (by omega)).1).symm
    · exact ((i.out ht (a := h + r + 1) (by omega) (by omega)).1).symm
  · rw [if_pos rfl]
  · intro x y
    unfold Live
    constructor
    · rintro ⟨h1, h2, h3⟩
      rcases key x y h1 with ⟨e, f⟩ | ⟨e, f⟩ | ⟨e, f, g⟩
      · right; exact ⟨e, f⟩
      · exact absurd (by rw [e]; exact hfl) h2
      · left; exact ⟨g, h2, h3⟩
    · rintro (⟨h1, h2, h3⟩ | ⟨e, f⟩)
      · have e1 : x ≠ h := by rintro rfl; exact h2 hfl
        have e2 : x ≠ h + r + 1 := by rintro rfl; rw [hTn] at h1; exact absurd h1 (by simp)
        exact ⟨by dsimp only; rw [if_neg (by omega), if_neg e1]; exact h1, h2, h3⟩
      · rw [e, f]
        exact ⟨by dsimp only; rw [if_pos rfl], hnot, hwo⟩

/-! ### Freeing -/

/-- `fl_merge_block`, first part: the following block, which is free, becomes part of the block being freed.  The block keeps
a colour other than blue here; the code may leave blue in its header, `v`, for the moment, see `free_insert` -/
theorem free_forward {s chunks T} {a b : List Nat} {h w w2 : Nat} (i : Inv s chunks T (a ++ (h + w + 2) :: b))
    (ht : T h = some w) (hnf : h + 1 ∉ a ++ (h + w + 2) :: b) (ht2 : T (h + w + 1) = some w2) (v : Nat)
    (hv1 : wosizeHd v = w + w2 + 1) (hv2 : colorHd v ≠ 2) :
    let s' : FL := { s with
      mem := upd (upd s.mem (lastOf s.head a) (s.mem (h + w + 2))) h v
      merge := if s.merge = h + w + 2 then lastOf s.head a else s.merge
      prev := if s.prev = h + w + 2 then lastOf s.head a else s.prev }
    ∃ T', Inv s' chunks T' (a ++ b) ∧ T' h = some (w + w2 + 1) ∧ h + 1 ∉ a ++ b ∧
      (∀ x y, x ≠ h → (Live T' (a ++ b) x y ↔ Live T (a ++ (h + w + 2) :: b) x y)) ∧
      (∀ x y, x ≠ h → Live T (a ++ (h + w + 2) :: b) x y → ∀ z, x ≤ z → z ≤ x + y → s'.mem z = s.mem z) := by
  intro s'
  have hp0 := lastOf_mem' s.head a
  have hpin : lastOf s.head a ∈ s.head :: (a ++ (h + w + 2) :: b) := lastOf_head _ _ _
  obtain ⟨n1, n2, n3, n4⟩ := nodup_mid i.nodup
  have hph : h ≠ lastOf s.head a := i.linkNe hpin ht (by omega) (by omega) (Or.inl (by omega))
  have hmem : ∀ x, x ≠ lastOf s.head a → x ≠ h → s'.mem x = s.mem x := by
    intro x hx1 hx2
    show upd (upd _ _ _) _ _ x = _
    rw [upd_ne _ _ hx2, upd_ne _ _ hx1]
  have hpm : s'.mem (lastOf s.head a) = s.mem (h + w + 2) := by
    show upd (upd _ _ _) _ _ _ = _
    rw [upd_ne _ _ hph.symm, upd_same]
  have hh : s'.mem h = v := upd_same _ _ _
  have hsub : ∀ x, x ∈ a ++ b → x ∈ a ++ (h + w + 2) :: b := by
    intro x hx; simp only [List.mem_append, List.mem_cons] at hx ⊢; tauto
  have hne : h + w + 2 ∉ a ++ b := by
    intro hm
    rcases List.mem_append.mp hm with h1 | h1
    · exact n1 (by simp [h1])
    · exact n2 h1
  have hlinkh : ∀ x ∈ s.head :: (a ++ (h + w + 2) :: b), x ≠ h :=
    fun x hx => (i.linkNe hx ht (a := h) (by omega) (by omega) (Or.inl (by omega))).symm
  have hchain : Chain s'.mem s'.head (a ++ b) := by
    have hd : Chain s.mem (h + w + 2) b := (i.chain.drop (a := a)).2
    refine Chain.splice (m := s.mem) (p := s.head) i.chain i.nodup ?_ ?_
    · intro x hx hx2
      exact hmem x hx2 (hlinkh x (by simp only [List.mem_cons, List.mem_append] at hx ⊢; tauto))
    · refine hd.move hpm ?_
      intro x hx
      refine hmem x ?_ (hlinkh x (by simp [hx]))
      intro e; rw [e] at hx; exact n3 _ hx hp0
  have hT := i.tl.join ht ht2
  have key : ∀ x v, (if x = h then some (w + w2 + 1) else if x = h + w + 1 then none else T x) = some v →
      (x = h ∧ v = w + w2 + 1) ∨ (x ≠ h ∧ x ≠ h + w + 1 ∧ T x = some v) := by
    intro x v hx
    by_cases h1 : x = h
    · rw [if_pos h1] at hx; left; exact ⟨h1, (Option.some.inj hx).symm⟩
    · rw [if_neg h1] at hx
      by_cases h2 : x = h + w + 1
      · rw [if_pos h2] at hx; exact absurd hx (by simp)
      · rw [if_neg h2] at hx; right; exact ⟨h1, h2, hx⟩
  have hother : ∀ x y, T x = some y → x ≠ h → s'.mem x = s.mem x := by
    intro x y hx hne
    exact hmem x (i.linkNe hpin hx (by omega) (by omega) (Or.inl (by omega))) hne
  have hmemfl : ∀ x, x ≠ h + w + 1 → (x + 1 ∈ a ++ b ↔ x + 1 ∈ a ++ (h + w + 2) :: b) := by
    intro x hx
    simp only [List.mem_append, List.mem_cons]
    constructor
    · tauto
    · rintro (h | h | h)
      · tauto
      · omega
      · tauto
  have hcoord : ∀ q, q ∈ s.head :: (a ++ (h + w + 2) :: b) →
      (if q = h + w + 2 then lastOf s.head a else q) ∈ s.head :: (a ++ b) := by
    intro q hq
    by_cases hm : q = h + w + 2
    · rw [if_pos hm]; exact lastOf_head _ _ _
    · rw [if_neg hm]
      simp only [List.mem_cons, List.mem_append] at hq ⊢
      tauto
  refine ⟨_, ⟨hT, ?_, ?_, ?_, hchain, n4, hcoord _ i.prevIn, hcoord _ i.mergeIn, i.headPos, ?_, i.headOut⟩, ?_, ?_, ?_, ?_⟩
  · intro x y hx
    rcases key x y hx with ⟨e, f⟩ | ⟨e, f, g⟩
    · rw [e, f, hh, hv1]
    · rw [hother x y g e]; exact i.size x y g
  · intro x y hx
    rcases key x y hx with ⟨e, f⟩ | ⟨e, f, g⟩
    · rw [e, hh]
      exact ⟨fun h => absurd h hv2, fun h => absurd (hsub _ h) hnf⟩
    · rw [hother x y g e, i.blue x y g, hmemfl x f]
  · intro x hx
    obtain ⟨h', w', e, ht', hw'⟩ := i.free x (hsub x hx)
    have e1 : h' ≠ h := by rintro rfl; rw [e] at hx; exact hnf (hsub _ hx)
    have e2 : h' ≠ h + w + 1 := by rintro rfl; rw [e] at hx; exact hne hx
    exact ⟨h', w', e, by rw [if_neg e1, if_neg e2]; exact ht', hw'⟩
  · show s'.mem (s.head - 1) = _
    rw [← i.sent]
    refine hmem _ ?_ ((i.out ht (a := h) (by omega) (by omega)).1).symm
    intro e
    rcases List.mem_cons.mp hp0 with h1 | h1
    · have := i.headPos; omega
    · obtain ⟨h', w', e', ht', hw'⟩ := i.free _ (List.mem_append_left _ h1)
      have := (i.out ht' (a := h' + 1) (by omega) (by omega)).1
      omega
  · rw [if_pos rfl]
  · exact fun h => hnf (hsub _ h)
  · intro x y hxh
    unfold Live
    constructor
    · rintro ⟨h1, h2, h3⟩
      rcases key x y h1 with ⟨e, f⟩ | ⟨e, f, g⟩
      · exact absurd e hxh
      · exact ⟨g, by rw [← hmemfl x f]; exact h2, h3⟩
    · rintro ⟨h1, h2, h3⟩
      have e2 : x ≠ h + w + 1 := by rintro rfl; exact h2 (by simp)
      exact ⟨by dsimp only; rw [if_neg hxh, if_neg e2]; exact h1, fun h => h2 (hsub _ h), h3⟩
  · rintro x y hxh ⟨l1, l2, l3⟩ z hz1 hz2
    refine hmem z (i.linkNe hpin l1 hz1 hz2 (Or.inr l2)) ?_
    have := i.tl.disj x y h w l1 ht hxh
    omega

/-- `fl_merge_block`, second part, the preceding free block takes in the block being freed -/
theorem free_backward {s chunks T} {fl : List Nat} {h w h0 w0 : Nat} (i : Inv s chunks T fl)
    (ht : T h = some w) (hnf : h + 1 ∉ fl) (ht0 : T h0 = some w0) (hf0 : h0 + 1 ∈ fl) (hadj : h = h0 + w0 + 1) (u : Nat) :
    let s' : FL := { s with mem := upd (upd s.mem h u) h0 (mkHd (w0 + (w + 1)) 0 .blue) }
    ∃ T', Inv s' chunks T' fl ∧ T' h0 = some (w0 + w + 1) ∧
      (∀ x y, Live T' fl x y ↔ Live T fl x y ∧ x ≠ h) ∧
      (∀ x y, x ≠ h → Live T fl x y → ∀ z, x ≤ z → z ≤ x + y → s'.mem z = s.mem z) := by
  intro s'
  subst hadj
  have hT := i.tl.join ht0 ht
  have hmem : ∀ x, x ≠ h0 → x ≠ h0 + w0 + 1 → s'.mem x = s.mem x := by
    intro x hx1 hx2
    show upd (upd _ _ _) _ _ x = _
    rw [upd_ne _ _ hx1, upd_ne _ _ hx2]
  have hh : s'.mem h0 = mkHd (w0 + (w + 1)) 0 .blue := upd_same _ _ _
  have key : ∀ x v, (if x = h0 then some (w0 + w + 1) else if x = h0 + w0 + 1 then none else T x) = some v →
      (x = h0 ∧ v = w0 + w + 1) ∨ (x ≠ h0 ∧ x ≠ h0 + w0 + 1 ∧ T x = some v) := by
    intro x v hx
    by_cases h1 : x = h0
    · rw [if_pos h1] at hx; left; exact ⟨h1, (Option.some.inj hx).symm⟩
    · rw [if_neg h1] at hx
      by_cases h2 : x = h0 + w0 + 1
      · rw [if_pos h2] at hx; exact absurd hx (by simp)
      · rw [if_neg h2] at hx; right; exact ⟨h1, h2, hx⟩
  have hlink : ∀ x ∈ s.head :: fl, s'.mem x = s.mem x := by
    intro x hx
    refine hmem x ?_ ?_
    · exact (i.linkNe hx ht0 (a := h0) (by omega) (by omega) (Or.inl (by omega))).symm
    · exact (i.linkNe hx ht (a := h0 + w0 + 1) (by omega) (by omega) (Or.inl (by omega))).symm
  refine ⟨_, ⟨hT, ?_, ?_, ?_, ?_, i.nodup, i.prevIn, i.mergeIn, i.headPos, ?_, i.headOut⟩, ?_, ?_, ?_⟩
  · intro x y hx
    rcases key x y hx with ⟨e, f⟩ | ⟨e, f, g⟩
    · rw [e, f, hh, wosize_mkHd _ _ _ (by omega)]; omega
    · rw [hmem x e f]; exact i.size x y g
  · intro x y hx
    rcases key x y hx with ⟨e, f⟩ | ⟨e, f, g⟩
    · rw [e, hh, color_mkHd _ _ _ (by omega)]
      exact ⟨fun _ => hf0, fun _ => rfl⟩
    · rw [hmem x e f, i.blue x y g]
  · intro x hx
    obtain ⟨h', w', e, ht', hw'⟩ := i.free x hx
    by_cases hh' : h' = h0
    · subst hh'
      exact ⟨h', w0 + w + 1, e, by rw [if_pos rfl], by omega⟩
    · have : h' ≠ h0 + w0 + 1 := by rintro rfl; rw [e] at hx; exact hnf hx
      exact ⟨h', w', e, by rw [if_neg hh', if_neg this]; exact ht', hw'⟩
  · exact i.chain.congr (hlink _ (by simp)) (fun x hx => hlink x (by simp [hx]))
  · show s'.mem (s.head - 1) = _
    rw [← i.sent]
    refine hmem _ ?_ ?_
    · exact ((i.out ht0 (a := h0) (by omega) (by omega)).1).symm
    · exact ((i.out ht (a := h0 + w0 + 1) (by omega) (by omega)).1).symm
  · rw [if_pos rfl]
  · intro x y
    unfold Live
    constructor
    · rintro ⟨h1, h2, h3⟩
      rcases key x y h1 with ⟨e, f⟩ | ⟨e, f, g⟩
      · exact absurd (by rw [e]; exact hf0) h2
      · exact ⟨⟨g, h2, h3⟩, f⟩
    · rintro ⟨⟨h1, h2, h3⟩, f⟩
      have e1 : x ≠ h0 := by rintro rfl; exact h2 hf0
      exact ⟨by dsimp only; rw [if_neg e1, if_neg f]; exact h1, h2, h3⟩
  · rintro x y hxh ⟨l1, l2, l3⟩ z hz1 hz2
    have e1 : x ≠ h0 := by rintro rfl; exact l2 hf0
    have := i.tl.disj x y _ w l1 ht hxh
    have := i.tl.disj x y _ w0 l1 ht0 e1
    exact hmem z (by omega) (by omega)

/-- `fl_merge_block`, second part, the block goes into the list after `prev` -/
theorem free_insert {s chunks T} {a b : List Nat} {h w : Nat} (i : Inv s chunks T (a ++ b))
    (ht : T h = some w) (hnf : h + 1 ∉ a ++ b) (hw : 0 < w) (v cur : Nat) (hv1 : wosizeHd v = w)
    (hv2 : colorHd v = 2) (hcur : s.mem (lastOf s.head a) = cur) :
    let s' : FL := { s with
      mem := upd (upd (upd s.mem h v) (h + 1) cur) (lastOf s.head a) (h + 1)
      merge := h + 1 }
    Inv s' chunks T (a ++ (h + 1) :: b) ∧
      (∀ x y, Live T (a ++ (h + 1) :: b) x y ↔ Live T (a ++ b) x y ∧ x ≠ h) ∧
      (∀ x y, x ≠ h → Live T (a ++ b) x y → ∀ z, x ≤ z → z ≤ x + y → s'.mem z = s.mem z) := by
  intro s'
  have hp0 := lastOf_mem' s.head a
  have hpin : lastOf s.head a ∈ s.head :: (a ++ b) := lastOf_head _ _ _
  have hmem : ∀ x, x ≠ h → x ≠ h + 1 → x ≠ lastOf s.head a → s'.mem x = s.mem x := by
    intro x h1 h2 h3
    show upd (upd (upd _ _ _) _ _) _ _ x = _
    rw [upd_ne _ _ h3, upd_ne _ _ h2, upd_ne _ _ h1]
  have hph : h ≠ lastOf s.head a := i.linkNe hpin ht (by omega) (by omega) (Or.inl (by omega))
  have hph1 : h + 1 ≠ lastOf s.head a := i.linkNe hpin ht (by omega) (by omega) (Or.inr hnf)
  have hh : s'.mem h = v := by
    show upd (upd (upd _ _ _) _ _) _ _ h = _
    rw [upd_ne _ _ hph, upd_ne _ _ (by omega), upd_same]
  have hh1 : s'.mem (h + 1) = cur := by
    show upd (upd (upd _ _ _) _ _) _ _ (h + 1) = _
    rw [upd_ne _ _ hph1, upd_same]
  have hpm : s'.mem (lastOf s.head a) = h + 1 := upd_same _ _ _
  have hlink : ∀ x ∈ s.head :: (a ++ b), x ≠ h ∧ x ≠ h + 1 := by
    intro x hx
    exact ⟨(i.linkNe hx ht (a := h) (by omega) (by omega) (Or.inl (by omega))).symm,
      (i.linkNe hx ht (a := h + 1) (by omega) (by omega) (Or.inr hnf)).symm⟩
  have nd1 : ((s.head :: a) ++ b).Nodup := i.nodup
  rw [List.nodup_append] at nd1
  have hother : ∀ x y, T x = some y → x ≠ h → s'.mem x = s.mem x := by
    intro x y hx hne
    refine hmem x hne ?_ (i.linkNe hpin hx (by omega) (by omega) (Or.inl (by omega)))
    have := i.tl.disj x y h w hx ht hne
    omega
  have hmemfl : ∀ x, x ≠ h → (x + 1 ∈ a ++ (h + 1) :: b ↔ x + 1 ∈ a ++ b) := by
    intro x hx
    simp only [List.mem_append, List.mem_cons]
    constructor
    · rintro (h | h | h)
      · tauto
      · omega
      · tauto
    · tauto
  have hsub : ∀ x, x ∈ s.head :: (a ++ b) → x ∈ s.head :: (a ++ (h + 1) :: b) := by
    intro x hx; simp only [List.mem_append, List.mem_cons] at hx ⊢; tauto
  refine ⟨⟨i.tl, ?_, ?_, ?_, ?_, ?_, hsub _ i.prevIn, ?_, i.headPos, ?_, i.headOut⟩, ?_, ?_⟩
  · intro x y hx
    by_cases hxh : x = h
    · subst hxh; rw [hh, hv1]; rw [ht] at hx; exact Option.some.inj hx
    · rw [hother x y hx hxh]; exact i.size x y hx
  · intro x y hx
    by_cases hxh : x = h
    · subst hxh; rw [hh]
      exact ⟨fun _ => by simp, fun _ => hv2⟩
    · rw [hother x y hx hxh, i.blue x y hx, hmemfl x hxh]
  · intro x hx
    by_cases hxh : x = h + 1
    · exact ⟨h, w, hxh, ht, hw⟩
    · exact i.free x (by simp only [List.mem_append, List.mem_cons] at hx ⊢; tauto)
  · refine Chain.splice (m := s.mem) (p := s.head) i.chain i.nodup ?_ ⟨hpm, ?_⟩
    · intro x hx hx2
      have := hlink x (by simp only [List.mem_cons, List.mem_append] at hx ⊢; tauto)
      exact hmem x this.1 this.2 hx2
    · refine (i.chain.drop (a := a)).move (hh1.trans hcur.symm) ?_
      intro x hx
      have := hlink x (by simp [hx])
      refine hmem x this.1 this.2 ?_
      intro e; exact nd1.2.2 _ hp0 x hx e.symm
  · show ((s.head :: a) ++ (h + 1) :: b).Nodup
    rw [List.nodup_append]
    refine ⟨nd1.1, List.nodup_cons.mpr ⟨fun h => hnf (List.mem_append_right _ h), nd1.2.1⟩, ?_⟩
    intro x hx y hy e
    rcases List.mem_cons.mp hy with h1 | h1
    · have := hlink x (by simp only [List.mem_cons, List.mem_append] at hx ⊢; tauto)
      omega
    · exact nd1.2.2 x hx y h1 e
  · show h + 1 ∈ _
    simp
  · show s'.mem (s.head - 1) = _
    rw [← i.sent]
    refine hmem _ ((i.out ht (a := h) (by omega) (by omega)).1).symm
      ((i.out ht (a := h + 1) (by omega) (by omega)).1).symm ?_
    intro e
    rcases List.mem_cons.mp hp0 with h1 | h1
    · have := i.headPos; omega
    · obtain ⟨h', w', e', ht', hw'⟩ := i.free _ (List.mem_append_left _ h1)
      have := (i.out ht' (a := h' + 1) (by omega) (by omega)).1
      omega
  · intro x y
    unfold Live
    constructor
    · rintro ⟨h1, h2, h3⟩
      have e1 : x ≠ h := by rintro rfl; exact h2 (by simp)
      exact ⟨⟨h1, by rw [← hmemfl x e1]; exact h2, h3⟩, e1⟩
    · rintro ⟨⟨h1, h2, h3⟩, e1⟩
      exact ⟨h1, by rw [hmemfl x e1]; exact h2, h3⟩
  · rintro x y hxh ⟨l1, l2, l3⟩ z hz1 hz2
    have := i.tl.disj x y h w l1 ht hxh
    exact hmem z (by omega) (by omega) (i.linkNe hpin l1 hz1 hz2 (Or.inr l2))

end Mosml.Heap
