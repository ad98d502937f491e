import Verif.Heap.FreelistOps

/-! The functions of freelist.c and `alloc_shr` on a heap that meets the invariant. -/
namespace Mosml.Heap

theorem upd_upd (m : Mem) (a v u : Nat) : upd (upd m a v) a u = upd m a u := by
  funext x; unfold upd; split <;> rfl

theorem upd_comm (m : Mem) {a b : Nat} (v u : Nat) (h : a ≠ b) : upd (upd m a v) b u = upd (upd m b u) a v := by
  funext x; unfold upd; split <;> split <;> first | rfl | omega

theorem upd_self (m : Mem) (a : Nat) : upd m a (m a) = m := by
  funext x; unfold upd; split
  · next h => rw [h]
  · rfl

/-- what an allocation of `wo` words at `hp` does -/
structure Allocated (s s' : FL) (chunks chunks' : List (Nat × Nat)) (T : Nat → Option Nat) (fl : List Nat) (hp wo : Nat)
    (T' : Nat → Option Nat) (fl' : List Nat) : Prop where
  inv : Inv s' chunks' T' fl'
  here : T' hp = some wo
  fresh : ∀ y, ¬ Live T fl hp y
  live : ∀ x y, Live T' fl' x y ↔ Live T fl x y ∨ (x = hp ∧ y = wo)
  frame : ∀ x y, Live T fl x y → ∀ z, x ≤ z → z ≤ x + y → s'.mem z = s.mem z

theorem allocateBlock_ok {s chunks T fl} {a b : List Nat} {c wo : Nat} (i : Inv s chunks T fl) (e : fl = a ++ c :: b)
    (hwo : 0 < wo) (hc : wo ≤ wosizeHd (s.mem (c - 1))) (v : Nat) (hv1 : wosizeHd v = wo) (hv2 : colorHd v ≠ 2) :
    let r := allocateBlock s (wo + 1) (lastOf s.head a) c
    ∃ T' fl', Allocated s { r.2 with mem := upd r.2.mem r.1 v } chunks chunks T fl r.1 wo T' fl' := by
  subst e
  obtain ⟨h, w, rfl, ht, hw⟩ := i.free c (by simp)
  have e0 : h + 1 - 1 = h := by omega
  rw [e0, i.size h w ht] at hc
  intro r
  have hr1 : r.1 = h + w - wo := by
    show h + 1 + wosizeHd (s.mem (h + 1 - 1)) - (wo + 1) = _
    rw [e0, i.size h w ht]; omega
  have hfresh : ∀ y, ¬ Live T (a ++ (h + 1) :: b) (h + w - wo) y := by
    rintro y ⟨l1, l2, l3⟩
    have := i.tl.same l1 ht (a := h + w - wo) (by omega) (by omega) (by omega) (by omega)
    exact l2 (by rw [this]; simp)
  by_cases hlt : w < wo + 2
  · obtain ⟨T', h1, h2, h3, h4⟩ := alloc_detach i ht hwo hc (by omega) v hv1 hv2
    refine ⟨T', a ++ b, ?_⟩
    have : { r.2 with mem := upd r.2.mem r.1 v } = { s with
      mem := upd (upd (upd s.mem (lastOf s.head a) (s.mem (h + 1))) h (mkHd 0 0 .white)) (h + w - wo) v
      merge := if s.merge = h + 1 then lastOf s.head a else s.merge
      prev := lastOf s.head a } := by
      rw [hr1]
      show FL.mk _ _ _ _ _ = FL.mk _ _ _ _ _
      simp only [r, allocateBlock, e0, i.size h w ht, if_pos (show w < wo + 1 + 1 by omega)]
    rw [this, hr1]
    exact ⟨h1, h2, hfresh, h3, h4⟩
  · obtain ⟨T', h1, h2, h3, h4⟩ := alloc_cut i (p := lastOf s.head a) (by simp) (lastOf_head _ _ _) ht hwo (by omega) v hv1 hv2
    refine ⟨T', a ++ (h + 1) :: b, ?_⟩
    have : { r.2 with mem := upd r.2.mem r.1 v } = { s with
      mem := upd (upd s.mem h (mkHd (w - (wo + 1)) 0 .blue)) (h + w - wo) v
      prev := lastOf s.head a } := by
      rw [hr1]
      show FL.mk _ _ _ _ _ = FL.mk _ _ _ _ _
      simp only [r, allocateBlock, e0, i.size h w ht, if_neg (show ¬ w < wo + 1 + 1 by omega)]
    rw [this, hr1]
    exact ⟨h1, h2, hfresh, h3, h4⟩

theorem Inv.setLast {s chunks T fl} (i : Inv s chunks T fl) (l : Nat) : Inv { s with last := l } chunks T fl :=
  ⟨i.tl, i.size, i.blue, i.free, i.chain, i.nodup, i.prevIn, i.mergeIn, i.headPos, i.sent, i.headOut⟩

theorem Inv.setMerge {s chunks T fl} (i : Inv s chunks T fl) {q : Nat} (h : q ∈ s.head :: fl) :
    Inv { s with merge := q } chunks T fl :=
  ⟨i.tl, i.size, i.blue, i.free, i.chain, i.nodup, i.prevIn, h, i.headPos, i.sent, i.headOut⟩

theorem search1_fuel (m : Mem) (w : Nat) : ∀ l p, Chain m p l → ∀ f g, l.length < f → l.length < g →
    search1 m w f p = search1 m w g p := by
  intro l
  induction l with
  | nil =>
    intro p hc f g hf hg
    obtain ⟨f, rfl⟩ := Nat.exists_eq_add_of_lt hf
    obtain ⟨g, rfl⟩ := Nat.exists_eq_add_of_lt hg
    have : m p = 0 := hc
    simp only [search1, this, if_true]
  | cons b l ih =>
    intro p hc f g hf hg
    simp only [List.length_cons] at hf hg
    obtain ⟨f, rfl⟩ : ∃ f', f = f' + 1 := ⟨f - 1, by omega⟩
    obtain ⟨g, rfl⟩ : ∃ f', g = f' + 1 := ⟨g - 1, by omega⟩
    have : m p = b := hc.1
    simp only [search1, this, ih b hc.2 f g (by omega) (by omega)]

theorem search2_fuel (m : Mem) (w q : Nat) : ∀ l p, Chain m p l → q ∈ p :: l → ∀ f g, l.length < f → l.length < g →
    search2 m w q f p = search2 m w q g p := by
  intro l
  induction l with
  | nil =>
    intro p hc hq f g hf hg
    obtain ⟨f, rfl⟩ := Nat.exists_eq_add_of_lt hf
    obtain ⟨g, rfl⟩ := Nat.exists_eq_add_of_lt hg
    have : p = q := (List.mem_singleton.mp hq).symm
    simp only [search2, this, if_true]
  | cons b l ih =>
    intro p hc hq f g hf hg
    simp only [List.length_cons] at hf hg
    obtain ⟨f, rfl⟩ : ∃ f', f = f' + 1 := ⟨f - 1, by omega⟩
    obtain ⟨g, rfl⟩ : ∃ f', g = f' + 1 := ⟨g - 1, by omega⟩
    have : m p = b := hc.1
    by_cases hpq : p = q
    · simp only [search2, hpq, if_true]
    · have hq' : q ∈ b :: l := by
        rcases List.mem_cons.mp hq with h | h
        · exact absurd h.symm hpq
        · exact h
      simp only [search2, this, if_neg hpq, ih b hc.2 hq' f g (by omega) (by omega)]

theorem flAllocate_fuel {s chunks T fl} (i : Inv s chunks T fl) (wo : Nat) (fuel : Nat) (hf : fl.length + 1 ≤ fuel) :
    flAllocate fuel s wo = flAllocate (fl.length + 1) s wo := by
  obtain ⟨a, b, e, hp⟩ := mem_split (List.mem_cons.mp i.prevIn)
  have hch : Chain s.mem s.prev b := by
    rw [hp]; apply Chain.drop; rw [← e]; exact i.chain
  have hlen : fl.length = a.length + b.length := by rw [e, List.length_append]
  unfold flAllocate
  rw [search1_fuel s.mem wo b s.prev hch fuel (fl.length + 1) (by omega) (by omega)]
  dsimp only
  rw [search2_fuel s.mem wo s.prev fl s.head i.chain i.prevIn fuel (fl.length + 1) (by omega) (by omega)]

theorem flAllocate_ok {s chunks T fl} {wo : Nat} (i : Inv s chunks T fl) (hwo : 0 < wo) (fuel : Nat)
    (hf : fl.length < fuel) (v : Nat) (hv1 : wosizeHd v = wo) (hv2 : colorHd v ≠ 2) :
    (∃ hp s1, flAllocate fuel s wo = (some hp, s1) ∧
      ∃ T' fl', Allocated s { s1 with mem := upd s1.mem hp v } chunks chunks T fl hp wo T' fl') ∨
    (flAllocate fuel s wo = (none, { s with last := lastOf s.head fl }) ∧ ∀ b ∈ fl, wosizeHd (s.mem (b - 1)) < wo) := by
  obtain ⟨a, b, e, hp⟩ := mem_split (List.mem_cons.mp i.prevIn)
  have hch : Chain s.mem s.prev b := by
    rw [hp]; apply Chain.drop; rw [← e]; exact i.chain
  have hlen : fl.length = a.length + b.length := by rw [e, List.length_append]
  unfold flAllocate
  rcases search1_spec s.mem wo fuel s.prev b hch (fun x hx => i.ne0 x (by rw [e]; simp [hx])) (by omega) with
    ⟨a', c, b', e1, e2, e3⟩ | ⟨e1, e2⟩
  · left
    rw [e2]
    have ee : lastOf s.prev a' = lastOf s.head (a ++ a') := by rw [hp, lastOf_append]
    have hfl : fl = (a ++ a') ++ c :: b' := by rw [e, e1, List.append_assoc]
    obtain ⟨T', fl', h⟩ := allocateBlock_ok i hfl hwo e3 v hv1 hv2
    rw [ee]
    exact ⟨_, _, rfl, T', fl', h⟩
  · rw [e1]
    dsimp only
    rcases search2_spec s.mem wo s.prev fuel s.head fl i.chain i.nodup i.prevIn (by omega) with
      ⟨a', c, b', f1, f2, f3⟩ | ⟨f1, a', b', f2, f3, f4⟩
    · left
      rw [f2]
      obtain ⟨T', fl', h⟩ := allocateBlock_ok (i.setLast (lastOf s.prev b)) f1 hwo f3 v hv1 hv2
      exact ⟨_, _, rfl, T', fl', h.inv, h.here, h.fresh, h.live, h.frame⟩
    · right
      rw [f1]
      refine ⟨?_, ?_⟩
      · rw [e, hp, lastOf_append]
      · -- the two splittings agree
        have hlen' : fl.length = a'.length + b'.length := by rw [f2, List.length_append]
        have : a = a' ∧ b = b' := by
          have h1 : a ++ b = a' ++ b' := by rw [← e, ← f2]
          have hidx : a.length = a'.length := by
            have g1 : (s.head :: fl)[a.length]? = some s.prev := by
              rw [hp, e]; clear * -
              induction a generalizing s with
              | nil => rfl
              | cons x a ih => 
                have := ih (s := { s with head := x })
                simpa [lastOf] using this
            have g2 : (s.head :: fl)[a'.length]? = some s.prev := by
              rw [f3, f2]; clear * -
              induction a' generalizing s with
              | nil => rfl
              | cons x a ih => 
                have := ih (s := { s with head := x })
                simpa [lastOf] using this
            exact (List.getElem?_inj (by simp; omega) i.nodup).mp (g1.trans g2.symm)
          exact List.append_inj h1 hidx
        rw [e]
        intro x hx
        rcases List.mem_append.mp hx with h | h
        · rw [this.1] at h; exact f4 x h
        · exact e2 x h

/-! ### Freeing -/

/-- what freeing the block at `h` does -/
structure Freed (s s' : FL) (chunks : List (Nat × Nat)) (T : Nat → Option Nat) (fl : List Nat) (h adj : Nat)
    (T' : Nat → Option Nat) (fl' : List Nat) : Prop where
  inv : Inv s' chunks T' fl'
  next : ∃ h0 w0, T' h0 = some w0 ∧ h0 ≤ h ∧ h < adj ∧ adj = h0 + w0 + 1
  live : ∀ x y, Live T' fl' x y ↔ Live T fl x y ∧ x ≠ h
  frame : ∀ x y, x ≠ h → Live T fl x y → ∀ z, x ≤ z → z ≤ x + y → s'.mem z = s.mem z

/-- the second part of `fl_merge_block`, from a state whose header at `h` may be blue already -/
theorem free_second {s chunks T fl} {h w : Nat} (i : Inv s chunks T fl) (ht : T h = some w) (hnf : h + 1 ∉ fl) (u : Nat)
    (hu : wosizeHd u = w) (hb : w = 0 → u = s.mem h) (cur : Nat) (hcur : s.mem s.merge = cur) :
    let m := upd s.mem h u
    let s' := mergePrev { s with mem := m } (h + 1) u cur
    ∃ T' fl', Freed s s' chunks T fl h (h + w + 1) T' fl' := by
  intro m s'
  have e0 : h + 1 - 1 = h := by omega
  have hmne : s.merge - 1 ≠ h ∧ m (s.merge - 1) = s.mem (s.merge - 1) := by
    have : s.merge - 1 ≠ h := by
      rcases List.mem_cons.mp i.mergeIn with h1 | h1
      · rw [h1]
        exact (i.out ht (a := h) (by omega) (by omega)).1.symm
      · obtain ⟨h', w', e, _⟩ := i.free _ h1
        rintro rfl
        rw [e] at hnf h1
        exact hnf (by simpa using h1)
    exact ⟨this, upd_ne _ _ this⟩
  by_cases hadj : s.merge + wosizeHd (m (s.merge - 1)) = h
  · have es : s' = { s with mem := upd m (s.merge - 1) (mkHd (wosizeHd (m (s.merge - 1)) + (wosizeHd u + 1)) 0 .blue) } := by
      show mergePrev _ _ _ _ = _
      unfold mergePrev
      dsimp only
      rw [e0, if_pos hadj]
    rw [es]
    rw [hmne.2] at hadj ⊢
    rcases List.mem_cons.mp i.mergeIn with h1 | h1
    · exfalso
      rw [h1, i.sent, wosize_mkHd _ _ _ (by omega)] at hadj
      exact (i.out ht (a := h) (by omega) (by omega)).2 (by omega)
    · obtain ⟨h0, w0, e, ht0, hw0⟩ := i.free _ h1
      have e2 : s.merge - 1 = h0 := by omega
      rw [e2, i.size h0 w0 ht0] at hadj
      rw [e2, i.size h0 w0 ht0, hu]
      obtain ⟨T', g1, g2, g3, g4⟩ := free_backward i ht hnf ht0 (by rw [← e]; exact h1) (by omega) u
      refine ⟨T', fl, g1, ⟨h0, w0 + w + 1, g2, by omega, by omega, by omega⟩, g3, g4⟩
  · by_cases hw : w > 0
    · have es : s' = { s with
          mem := upd (upd (upd m h (u - colorHd u * 256 + Color.blue.code * 256)) (h + 1) cur) s.merge (h + 1)
          merge := h + 1 } := by
        show mergePrev _ _ _ _ = _
        unfold mergePrev
        dsimp only
        rw [e0, if_neg hadj, hu, if_pos hw]
      rw [es]
      obtain ⟨a, b, e, hp⟩ := mem_split (List.mem_cons.mp i.mergeIn)
      subst e
      have := free_insert i ht hnf hw (u - colorHd u * 256 + Color.blue.code * 256) cur (by rw [wosize_blue, hu])
        (color_blue u) (by rw [← hp]; exact hcur)
      obtain ⟨g1, g2, g3⟩ := this
      have em : upd m h (u - colorHd u * 256 + Color.blue.code * 256) = upd s.mem h (u - colorHd u * 256 + Color.blue.code * 256) :=
        upd_upd _ _ _ _
      rw [em, hp]
      exact ⟨T, _, g1, ⟨h, w, ht, by omega, by omega, by omega⟩, g2, g3⟩
    · have es : s' = s := by
        show mergePrev _ _ _ _ = _
        unfold mergePrev
        dsimp only
        rw [e0, if_neg hadj, hu, if_neg hw]
        have : m = s.mem := by
          show upd _ _ _ = _
          rw [hb (by omega), upd_self]
        rw [this]
      rw [es]
      refine ⟨T, fl, i, ⟨h, w, ht, by omega, by omega, by omega⟩, ?_, fun _ _ _ _ _ _ _ => rfl⟩
      intro x y
      constructor
      · intro hl
        refine ⟨hl, ?_⟩
        rintro rfl
        have := hl.1; rw [ht] at this
        have := Option.some.inj this
        have := hl.2.2
        omega
      · exact fun h => h.1

theorem flMergeBlock_ok {s chunks T fl} {h w : Nat} (i : Inv s chunks T fl) (ht : T h = some w) (hnf : h + 1 ∉ fl) :
    ∃ T' fl', Freed s (flMergeBlock s (h + 1)).2 chunks T fl h (flMergeBlock s (h + 1)).1 T' fl' := by
  have e0 : h + 1 - 1 = h := by omega
  have hsz := i.size h w ht
  obtain ⟨a, b, e, hp⟩ := mem_split (List.mem_cons.mp i.mergeIn)
  have hpin := i.mergeIn
  have hph : h ≠ s.merge := i.linkNe hpin ht (by omega) (by omega) (Or.inl (by omega))
  by_cases hfw : s.mem s.merge ≠ 0 ∧ h + 1 + w = s.mem s.merge - 1
  · -- the next block is free and adjacent
    subst e
    have hch : Chain s.mem s.merge b := by rw [hp]; exact i.chain.drop
    cases b with
    | nil => exact absurd hch hfw.1
    | cons c b =>
      have hc : s.mem s.merge = c := hch.1
      rw [hc] at hfw
      obtain ⟨h2, w2, e2, ht2, hw2⟩ := i.free c (by simp)
      have hh2 : h2 = h + w + 1 := by omega
      subst hh2
      have ec : c = h + w + 2 := by omega
      subst ec
      have i1 := free_forward i ht hnf ht2 (mkHd (w + w2 + 1) 0 .white) (wosize_mkHd _ _ _ (by omega))
        (by rw [color_mkHd _ _ _ (by omega)]; decide)
      obtain ⟨T1, j1, j2, j3, j4, j5⟩ := i1
      -- the code's state is this one with a blue header
      have hmg : (if s.merge = h + w + 2 then lastOf s.head a else s.merge) = s.merge := by
        rw [if_neg]
        intro e
        obtain ⟨n1, _⟩ := nodup_mid i.nodup
        exact n1 (by rw [← e, hp]; exact lastOf_mem' _ _)
      rw [hmg] at j1
      have sz2 : wosizeHd (s.mem (h + w + 1)) = w2 := i.size _ _ ht2
      have hcur : (upd (upd s.mem (lastOf s.head a) (s.mem (h + w + 2))) h (mkHd (w + w2 + 1) 0 .white)) s.merge =
          s.mem (h + w + 2) := by
        rw [upd_ne _ _ hph.symm, hp, upd_same]
      have key := free_second j1 j2 j3 (mkHd (w + w2 + 1) 0 .blue) (wosize_mkHd _ _ _ (by omega)) (by omega)
        (s.mem (h + w + 2)) hcur
      dsimp only at key
      rw [upd_upd] at key
      obtain ⟨T', fl', k⟩ := key
      have hrun : mergeNext s (h + 1) = ({ s with
          mem := upd (upd s.mem (lastOf s.head a) (s.mem (h + w + 2))) h (mkHd (w + w2 + 1) 0 .blue)
          prev := if s.prev = h + w + 2 then lastOf s.head a else s.prev },
          mkHd (w + w2 + 1) 0 .blue, h + (w + w2 + 1) + 1, s.mem (h + w + 2)) := by
        have e5 : h + w + 2 - 1 = h + w + 1 := by omega
        have e6 : w + (w2 + 1) = w + w2 + 1 := by omega
        have e7 : h + 1 + w = h + w + 2 - 1 := by omega
        have e8 : h + 1 + (w + w2 + 1) = h + (w + w2 + 1) + 1 := by omega
        unfold mergeNext
        dsimp only
        rw [e0, hsz, hc, if_pos ⟨show h + w + 2 ≠ 0 by omega, e7⟩, e5, sz2, e6, wosize_mkHd _ 0 _ (show 0 < 256 by omega), e8, ← hp]
      unfold flMergeBlock
      rw [hrun]
      refine ⟨T', fl', ?_, k.next, ?_, ?_⟩
      · exact k.inv
      · intro x y
        rw [k.live x y]
        constructor
        · rintro ⟨l, hne⟩; exact ⟨(j4 x y hne).mp l, hne⟩
        · rintro ⟨l, hne⟩; exact ⟨(j4 x y hne).mpr l, hne⟩
      · intro x y hne l z hz1 hz2
        exact (k.frame x y hne ((j4 x y hne).mpr l) z hz1 hz2).trans (j5 x y hne l z hz1 hz2)
  · have key := free_second i ht hnf (s.mem h) hsz (fun _ => rfl) (s.mem s.merge) rfl
    dsimp only at key
    rw [upd_self] at key
    obtain ⟨T', fl', k⟩ := key
    have hrun : mergeNext s (h + 1) = (s, s.mem h, h + w + 1, s.mem s.merge) := by
      have e8 : h + 1 + w = h + w + 1 := by omega
      unfold mergeNext
      dsimp only
      rw [e0, hsz, if_neg hfw, e8]
    unfold flMergeBlock
    rw [hrun]
    exact ⟨T', fl', k⟩

/-! ### Growing -/

/-- a fresh chunk of `n` words at `A`, apart from the others and from the sentinel -/
structure Fresh (s : FL) (chunks : List (Nat × Nat)) (A n : Nat) : Prop where
  two : 2 ≤ n
  apart : ∀ c ∈ chunks, c.2 < A ∨ A + n < c.1
  sentinel : A + n < s.head - 1 ∨ s.head < A

theorem grow_white {s chunks T fl} {A n : Nat} (i : Inv s chunks T fl) (f : Fresh s chunks A n) (v : Nat)
    (hv1 : wosizeHd v = n - 1) (hv2 : colorHd v ≠ 2) :
    Inv { s with mem := upd s.mem A v } ((A, A + n) :: chunks) (fun x => if x = A then some (n - 1) else T x) fl ∧
      A + 1 ∉ fl := by
  have hout : ∀ x w, T x = some w → x + w < A ∨ A + n < x := by
    intro x w hx
    obtain ⟨c, hc, c1, c2⟩ := i.tl.inside x w hx
    have := f.apart c hc
    omega
  have hf2 := f.two
  have hnf : ∀ z, A ≤ z → z ≤ A + n → z ∉ fl := by
    intro z hz1 hz2 hm
    obtain ⟨h, w, e, ht, hw⟩ := i.free z hm
    have := hout h w ht
    omega
  have hs := f.sentinel
  have hpos := i.headPos
  refine ⟨⟨i.tl.grow (by omega) f.apart, ?_, ?_, ?_, ?_, i.nodup, i.prevIn, i.mergeIn, i.headPos, ?_, ?_⟩,
    hnf _ (by omega) (by omega)⟩
  · intro x w hx
    dsimp only at hx ⊢
    by_cases h : x = A
    · subst h; rw [if_pos rfl] at hx; rw [upd_same, hv1]; exact Option.some.inj hx
    · rw [if_neg h] at hx; rw [upd_ne _ _ h]; exact i.size x w hx
  · intro x w hx
    dsimp only at hx ⊢
    by_cases h : x = A
    · subst h; rw [upd_same]
      exact ⟨fun h => absurd h hv2, fun h => absurd h (hnf _ (by omega) (by omega))⟩
    · rw [if_neg h] at hx; rw [upd_ne _ _ h]; exact i.blue x w hx
  · intro b hb
    obtain ⟨h, w, e, ht, hw⟩ := i.free b hb
    have := hout h w ht
    exact ⟨h, w, e, by rw [if_neg (by omega)]; exact ht, hw⟩
  · refine i.chain.congr ?_ ?_
    · exact upd_ne _ _ (by omega)
    · intro x hx
      refine upd_ne _ _ ?_
      rintro rfl
      exact hnf _ (by omega) (by omega) hx
  · show upd s.mem A v (s.head - 1) = _
    rw [upd_ne _ _ (by omega)]; exact i.sent
  · intro c hc a h1 h2
    show a ≠ s.head - 1 ∧ a ≠ s.head
    rcases List.mem_cons.mp hc with rfl | hc
    · simp only at h1 h2; omega
    · exact i.headOut c hc a h1 h2

/-- `fl_add_block` of a fresh chunk, after a failed `fl_allocate` -/
theorem flAddBlock_ok {s chunks T fl} {A n : Nat} (i : Inv s chunks T fl) (f : Fresh s chunks A n)
    (hlast : s.last = lastOf s.head fl) (fuel sweep : Nat) :
    ∃ fl', let s' := flAddBlock fuel { s with mem := upd s.mem A (mkHd (n - 1) 0 .blue) } sweep (A + 1)
      let T' := fun x => if x = A then some (n - 1) else T x
      Inv s' ((A, A + n) :: chunks) T' fl' ∧ A + 1 ∈ fl' ∧ fl'.length = fl.length + 1 ∧
      (∀ x y, Live T' fl' x y ↔ Live T fl x y) ∧
      (∀ x y, Live T fl x y → ∀ z, x ≤ z → z ≤ x + y → s'.mem z = s.mem z) := by
  have hf2 := f.two
  have hs := f.sentinel
  obtain ⟨iw, hnw⟩ := grow_white i f (mkHd (n - 1) 0 .white) (wosize_mkHd _ _ _ (by omega))
    (by rw [color_mkHd _ _ _ (by omega)]; decide)
  have hout : ∀ x w, T x = some w → x + w < A ∨ A + n < x := by
    intro x w hx
    obtain ⟨c, hc, c1, c2⟩ := i.tl.inside x w hx
    have := f.apart c hc
    omega
  -- the insertion after `lastOf s.head a`
  have ins : ∀ a b, fl = a ++ b → ∀ q, (q = s.merge ∨ q = A + 1) →
      let s' : FL := { s with
        mem := upd (upd (upd s.mem A (mkHd (n - 1) 0 .blue)) (A + 1) (s.mem (lastOf s.head a))) (lastOf s.head a) (A + 1)
        merge := q }
      let T' := fun x => if x = A then some (n - 1) else T x
      Inv s' ((A, A + n) :: chunks) T' (a ++ (A + 1) :: b) ∧
      (∀ x y, Live T' (a ++ (A + 1) :: b) x y ↔ Live T fl x y) ∧
      (∀ x y, Live T fl x y → ∀ z, x ≤ z → z ≤ x + y → s'.mem z = s.mem z) := by
    rintro a b rfl q hq
    have hpA : lastOf s.head a ≠ A := by
      rcases List.mem_cons.mp (lastOf_head s.head a b) with h | h
      · omega
      · obtain ⟨h', w', e, ht, hw⟩ := i.free _ h
        have := hout h' w' ht
        omega
    have hcur : (upd s.mem A (mkHd (n - 1) 0 .white)) (lastOf s.head a) = s.mem (lastOf s.head a) := upd_ne _ _ hpA
    obtain ⟨g1, g2, g3⟩ := free_insert iw (h := A) (w := n - 1) (by rw [if_pos rfl]) hnw (by omega)
      (mkHd (n - 1) 0 .blue) (s.mem (lastOf s.head a)) (wosize_mkHd _ _ _ (by omega))
      (by rw [color_mkHd _ _ _ (by omega)]; rfl) hcur
    simp only [upd_upd] at g1 g3
    have hlive : ∀ x y, Live T (a ++ b) x y → x ≠ A := by
      intro x y l e
      have := hout x y l.1
      omega
    refine ⟨?_, ?_, ?_⟩
    · refine g1.setMerge (q := q) ?_
      rcases hq with rfl | rfl
      · have := i.mergeIn
        show s.merge ∈ s.head :: _
        simp only [List.mem_cons, List.mem_append] at this ⊢; tauto
      · simp
    · intro x y
      rw [g2 x y]
      unfold Live
      constructor
      · rintro ⟨⟨h1, h2, h3⟩, h4⟩
        dsimp only at h1
        rw [if_neg h4] at h1
        exact ⟨h1, h2, h3⟩
      · intro l
        have := hlive x y l
        exact ⟨⟨by dsimp only; rw [if_neg this]; exact l.1, l.2.1, l.2.2⟩, this⟩
    · intro x y l z hz1 hz2
      have hxA := hlive x y l
      refine (g3 x y hxA ⟨by dsimp only; rw [if_neg hxA]; exact l.1, l.2.1, l.2.2⟩ z hz1 hz2).trans ?_
      have := hout x y l.1
      exact upd_ne _ _ (by omega)
  unfold flAddBlock
  by_cases hgt : A + 1 > s.last
  · rw [if_pos (by exact hgt)]
    refine ⟨fl ++ [A + 1], ?_⟩
    obtain ⟨g1, g2, g3⟩ := ins fl [] (by simp) s.merge (Or.inl rfl)
    have h0 : s.mem (lastOf s.head fl) = 0 := i.chain.last
    rw [h0] at g1 g3
    have hne : s.last ≠ A + 1 := by omega
    have hcomm : upd (upd (upd s.mem A (mkHd (n - 1) 0 .blue)) s.last (A + 1)) (A + 1) 0 =
        upd (upd (upd s.mem A (mkHd (n - 1) 0 .blue)) (A + 1) 0) (lastOf s.head fl) (A + 1) := by
      rw [upd_comm _ _ _ hne, hlast]
    dsimp only
    rw [hcomm]
    exact ⟨g1, by simp, by simp, g2, g3⟩
  · rw [if_neg (by exact hgt)]
    have hch : Chain (upd s.mem A (mkHd (n - 1) 0 .blue)) s.head fl := by
      refine i.chain.congr ?_ ?_
      · exact upd_ne _ _ (by omega)
      · intro x hx
        refine upd_ne _ _ ?_
        rintro rfl
        obtain ⟨h', w', e, ht, hw⟩ := i.free _ hx
        have := hout h' w' ht
        omega
    obtain ⟨a, b, e, e2⟩ := findPlace_spec (upd s.mem A (mkHd (n - 1) 0 .blue)) (A + 1) fuel s.head fl hch
    dsimp only
    rw [e2]
    have hpA : lastOf s.head a ≠ A := by
      rw [e] at i
      rcases List.mem_cons.mp (lastOf_head s.head a b) with h | h
      · omega
      · obtain ⟨h', w', e, ht, hw⟩ := i.free _ h
        have := hout h' w' ht
        omega
    obtain ⟨g1, g2, g3⟩ := ins a b e (if lastOf s.head a = s.merge ∧ A + 1 ≤ sweep then A + 1 else s.merge)
      (by split <;> simp)
    refine ⟨a ++ (A + 1) :: b, ?_⟩
    rw [upd_ne _ _ hpA]
    exact ⟨g1, by simp, by rw [e]; simp; omega, g2, g3⟩

end Mosml.Heap
