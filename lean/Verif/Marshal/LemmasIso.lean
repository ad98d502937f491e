import Verif.Marshal.LemmasRead

/-! The 64-bit reader gives an isomorphic graph. -/
namespace Mosml.Marshal

theorem Graph.writable {W : Nat} {e : Endian} {m : Mem} {S : List Nat} {v : Nat} (h : Graph W e m S v) :
    ∀ a ∈ S, Writable (tag W m a) := by
  intro a ha
  have := h.data a ha
  unfold Writable abstractTag finalTag closureTag
  unfold closureTag stringTag doubleTag at this
  omega

theorem span_eq_total (W : Nat) (m : Mem) : ∀ T : List (Nat × Nat),
    span W m T = total (fun a => size W m a + 1) (T.map Prod.fst)
  | [] => rfl
  | (a, o) :: t => by rw [span, List.map_cons, total, span_eq_total W m t, Nat.add_comm 1]

theorem total_perm {f : Nat → Nat} {l l' : List Nat} (h : l.Perm l') : total f l = total f l' := by
  induction h with
  | nil => rfl
  | cons a _ ih => rw [total, total, ih]
  | swap a b l => simp only [total]; omega
  | trans _ _ h1 h2 => rw [h1, h2]

theorem total_sublist {f : Nat → Nat} {l l' : List Nat} (h : l.Sublist l') : total f l ≤ total f l' := by
  induction h with
  | slnil => exact le_rfl
  | cons a _ ih => rw [total]; omega
  | cons_cons a _ ih => rw [total, total]; omega

theorem total_subset {f : Nat → Nat} {l S : List Nat} (hl : l.Nodup) (hs : ∀ a ∈ l, a ∈ S) : total f l ≤ total f S := by
  obtain ⟨l', hp, hs'⟩ := List.subperm_of_subset hl hs
  rw [← total_perm hp]
  exact total_sublist hs'

theorem TabOk.span_le {W : Nat} {m : Mem} {S : List Nat} {T : List (Nat × Nat)} (h : TabOk W m S T) :
    span W m T ≤ words W m S := by
  rw [span_eq_total]
  apply total_subset h.nodup
  intro a ha
  obtain ⟨x, hx, rfl⟩ := List.mem_map.1 ha
  exact h.sub x hx

theorem lookup_isSome {T : List (Nat × Nat)} {v : Nat} (h : v ∈ T.map Prod.fst) : ∃ o, lookupTab T v = some o := by
  cases hl : lookupTab T v with
  | none => exact absurd h (lookup_none_iff.1 hl)
  | some o => exact ⟨o, rfl⟩

theorem Placed_lookup {W : Nat} {m : Mem} : ∀ (T : List (Nat × Nat)) (s v o : Nat), Placed W m s T →
    lookupTab T v = some o → o = (s + pre (fun b => size W m b + 1) T v + 1) * W
  | [], _, _, _, _, h => by cases h
  | (a, p) :: t, s, v, o, hP, h => by
    rw [lookupTab] at h
    rw [pre]
    obtain ⟨h1, _, _, h2⟩ := hP
    split_ifs at h ⊢ with q
    · cases h; exact h1
    · rw [Placed_lookup t _ v o h2 h]; ring

theorem Placed_le {W : Nat} {m : Mem} : ∀ (T : List (Nat × Nat)) (v : Nat), v ∈ T.map Prod.fst →
    pre (fun b => size W m b + 1) T v + size W m v + 1 ≤ span W m T
  | [], _, h => by simp at h
  | (a, p) :: t, v, h => by
    rw [pre, span]
    split_ifs with q
    · subst q; omega
    · have := Placed_le (W := W) (m := m) t v (by
        simp only [List.map_cons, List.mem_cons] at h
        exact h.resolve_left (Ne.symm q))
      omega

/-- offsets are below the size of the dump -/
theorem enc_lt {W : Nat} {m : Mem} {S : List Nat} {T : List (Nat × Nat)} (hT : TabOk W m S T) (hW : 2 ≤ W) {w : Nat}
    (hw : w < 256 ^ W) (hk : Known W m T w) (hs : span W m T * W < 256 ^ W) : enc W m T w < 256 ^ W := by
  unfold enc
  have h2 : 256 ^ 2 ≤ 256 ^ W := Nat.pow_le_pow_right (by decide) hW
  split_ifs with h1 h3
  · exact hw
  · have := tag_lt W m w
    omega
  · have : lookupTab T w ≠ none := by rcases hk with h | h | h <;> tauto
    cases hl : lookupTab T w with
    | none => exact absurd hl this
    | some o =>
      rw [Option.getD_some, Placed_lookup T 0 w o hT.placed hl]
      have h5 : w ∈ T.map Prod.fst := List.mem_map_of_mem (f := Prod.fst) (lookup_mem hl)
      have := Placed_le (W := W) (m := m) T w h5
      calc _ ≤ span W m T * W := Nat.mul_le_mul_right _ (by omega)
        _ < _ := hs

theorem fits {W : Nat} {e : Endian} {m : Mem} {S : List Nat} {v : Nat} {T : List (Nat × Nat)} (hW : 2 ≤ W)
    (hG : Graph W e m S v) (hT : TabOk W m S T) (hk : ∀ x ∈ T, KnownObj W m T x.1) (hs : span W m T * W < 256 ^ W) :
    Fits W m T T := by
  have hword : ∀ a, m a < 256 ^ W := fun a => by
    have := hG.word a
    rwa [show (2:Nat) ^ (8 * W) = 256 ^ W by rw [pow_mul]; norm_num] at this
  refine ⟨fun x hx => ?_, fun x hx w hw => ?_⟩
  · have h1 := hword (x.1 - W)
    unfold mkHeader size tag wosizeHd tagHd black
    have h2 : (256:Nat) ^ W = 1024 * (256 ^ (W - 2) * 64) := by
      obtain ⟨k, rfl⟩ : ∃ k, W = k + 2 := ⟨W - 2, by omega⟩
      rw [Nat.add_sub_cancel, pow_add]; omega
    omega
  · unfold body at hw
    split_ifs at hw with h1
    · obtain ⟨i, _, rfl⟩ := mem_fields.1 hw
      exact hword _
    · rw [not_or] at h1
      obtain ⟨y, hy, rfl⟩ := List.mem_map.1 hw
      refine enc_lt hT hW ?_ (hk x hx h1.1 h1.2 y hy) hs
      obtain ⟨i, _, rfl⟩ := mem_fields.1 hy
      exact hword _

theorem chunk_words {W : Nat} {m : Mem} {T : List (Nat × Nat)} (h : Fits W m T T) :
    ∀ w ∈ T.flatMap (chunk W m T), w < 256 ^ W := by
  intro w hw
  obtain ⟨x, hx, hw⟩ := List.mem_flatMap.1 hw
  unfold chunk at hw
  rcases List.mem_cons.1 hw with rfl | hw
  · exact h.hdr x hx
  · exact h.bdy x hx w hw

theorem length_le_span (W : Nat) (m : Mem) : ∀ T : List (Nat × Nat), T.length ≤ span W m T
  | [] => Nat.le_refl _
  | (a, o) :: t => by have := length_le_span W m t; rw [span, List.length_cons]; omega

/-- the words of the dump on the reading machine, byte order corrected: 64-bit -/
theorem sw64 {e : Endian} {m : Mem} {S : List Nat} {v : Nat} {T : List (Nat × Nat)}
    (hG : Graph 8 e m S v) (hT : TabOk 8 m S T) (hF : Fits 8 m T T) {fuel : Nat} (hf : T.length ≤ fuel) :
    (if fastMagic 8 e = fastMagic 8 .big then revPointers fuel ((T.flatMap (chunk 8 m T)).map (sw 8 e))
      else (T.flatMap (chunk 8 m T)).map (sw 8 e)) = T.flatMap (chunk1 8 e m T) := by
  cases e
  · rw [if_neg (by decide), map_sw_little]
    apply List.flatMap_congr
    intro x _
    unfold chunk chunk1
    rw [body1_little]
  · rw [if_pos rfl]
    refine rev64 (fun a h1 h2 => ?_) T fuel (fun x hx => hx) hF hf
    obtain ⟨x, hx, rfl⟩ := List.mem_map.1 h2
    have := hG.dbls x.1 (hT.sub x hx) h1
    omega

theorem tag_store {m' : Mem} {b s t color : Nat} (ht : t < 256) (hc : color % 256 = 0) (h : m' (b - 8) = mkHeader s t color) :
    tag 8 m' b = t := by
  unfold tag; rw [h]; exact tag_mk s t color ht hc

theorem size_store {m' : Mem} {b s t color : Nat} (ht : t < 256) (hc : color % 256 = 0) (hc' : color < 1024)
    (h : m' (b - 8) = mkHeader s t color) : size 8 m' b = s := by
  unfold size; rw [h]; exact size_mk s t color ht hc' hc

theorem getElem_fields {W : Nat} {m : Mem} {v n i : Nat} (h : i < n) : (fields W m v n)[i]? = some (m (v + W * i)) := by
  rw [fields_eq]; simp [h]

theorem blockBytes_eq (W : Nat) (e : Endian) (m : Mem) (a : Nat) :
    blockBytes W e m a = (fields W m a (size W m a)).flatMap (wordBytes e W) := by
  unfold blockBytes; rw [fields_eq]

theorem flat_sw (W : Nat) (e : Endian) (l : List Nat) :
    (l.map (sw W e)).flatMap (wordBytes .little W) = l.flatMap (wordBytes e W) := by
  rw [List.flatMap_map]
  apply List.flatMap_congr
  intro w _
  exact leBytes_sw W e w

/-- the encoding of a field, adjusted, is related to it -/
theorem adjust_rel {base start : Nat} {m : Mem} {S : List Nat} {T : List (Nat × Nat)} (hT : TabOk 8 m S T)
    {len : Nat → Nat} (hlen : ∀ a, len a = size 8 m a + 1) {w : Nat} (hk : Known 8 m T w) :
    Rel 8 base m (corr len start T) w (adjustWord base start (enc 8 m T w)) := by
  unfold Rel enc adjustWord
  by_cases h1 : w % 2 = 1
  · left
    rw [if_pos h1, if_neg (by omega), if_neg (by omega)]
    exact ⟨h1, by simp [widen]⟩
  · rw [if_neg h1]
    by_cases h2 : size 8 m w = 0
    · right; left
      rw [if_pos h2, if_neg (by omega), if_pos (by omega)]
      exact ⟨by omega, h2, by congr 1; omega⟩
    · right; right
      rw [if_neg h2]
      have : lookupTab T w ≠ none := by rcases hk with h | h | h <;> tauto
      cases hl : lookupTab T w with
      | none => exact absurd hl this
      | some o =>
        have ho := Placed_lookup T 0 w o hT.placed hl
        rw [Option.getD_some, if_pos (by omega)]
        refine ⟨by omega, h2, ?_⟩
        unfold corr
        rw [if_pos (List.mem_map_of_mem (f := Prod.fst) (lookup_mem hl)), ho]
        have : (fun b => size 8 m b + 1) = len := by funext a; rw [hlen]
        rw [this]
        congr 1; ring

theorem iso64 {e : Endian} {base start color : Nat} {m m0 : Mem} {S : List Nat} {v : Nat} {T : List (Nat × Nat)}
    (hG : Graph 8 e m S v) (hT : TabOk 8 m S T) (hk : ∀ x ∈ T, KnownObj 8 m T x.1)
    (hc : color < 1024) (hc' : color % 256 = 0) {w : Nat}
    (hroot : Rel 8 base m (corr (fun a => size 8 m a + 1) start T) v w) :
    Iso 8 e base m
      (store m0 start (T.flatMap fun x => mkHeader (size 8 m x.1) (tag 8 m x.1) color :: body2 e base start m T x.1))
      (corr (fun a => size 8 m a + 1) start T) v w := by
  have hblen : ∀ a, (body2 e base start m T a).length = size 8 m a := by
    intro a; unfold body2; split_ifs <;> simp [length_body1]
  have hcorr : ∀ a b, corr (fun a => size 8 m a + 1) start T a = some b → a ∈ T.map Prod.fst := by
    intro a b h; unfold corr at h; split_ifs at h with q; exact q
  have hmem : ∀ a b, corr (fun a => size 8 m a + 1) start T a = some b → a ∈ S ∧ KnownObj 8 m T a := by
    intro a b h
    obtain ⟨x, hx, rfl⟩ := List.mem_map.1 (hcorr a b h)
    exact ⟨hT.sub x hx, hk x hx⟩
  have hst : ∀ a b, corr (fun a => size 8 m a + 1) start T a = some b →
      let m' := store m0 start (T.flatMap fun x => mkHeader (size 8 m x.1) (tag 8 m x.1) color :: body2 e base start m T x.1)
      tag 8 m' b = tag 8 m a ∧ size 8 m' b = size 8 m a ∧ fields 8 m' b (size 8 m a) = body2 e base start m T a := by
    intro a b h m'
    have h2 := store_chunk (m := m0) (start := start) (T := T) (hd := fun a => mkHeader (size 8 m a) (tag 8 m a) color)
      (bd := body2 e base start m T) (a := a) (b := b) (by simp only [List.length_cons, hblen]; exact h)
    dsimp only at h2
    rw [hblen] at h2
    exact ⟨tag_store (tag_lt 8 m a) hc' h2.1, size_store (tag_lt 8 m a) hc' hc h2.1, h2.2⟩
  refine ⟨hroot, ?_, ?_, ?_, ?_, ?_⟩
  · intro a a' b h h'
    exact corr_inj (fun _ => Nat.succ_pos _) h h'
  · intro a b h
    exact (hst a b h).1
  · intro a b h ht
    obtain ⟨_, h2, h3⟩ := hst a b h
    unfold strBytes
    rw [blockBytes_eq, blockBytes_eq, h2, h3]
    have : body2 e base start m T a = (fields 8 m a (size 8 m a)).map (sw 8 e) := by
      unfold body2 body1
      rw [if_pos (by rw [ht]; decide), if_pos ht]
    rw [this, flat_sw]
  · intro a b h ht
    obtain ⟨_, h2, h3⟩ := hst a b h
    have hsz : size 8 m a = 1 := by
      have := hG.dbls a (hmem a b h).1 ht; omega
    have : body2 e base start m T a = fields 8 m a (size 8 m a) := by
      unfold body2 body1
      rw [if_pos (by rw [ht]; decide), if_neg (by rw [ht]; decide), if_pos ht, hsz]
      cases e <;> simp [fields]
    unfold dblBits
    rw [blockBytes_eq, blockBytes_eq, h2, h3, this, hsz]
    cases e
    · rfl
    · simp [fields, wordBytes]
  · intro a b h h1 h1'
    obtain ⟨_, h2, h3⟩ := hst a b h
    obtain ⟨hS, hka⟩ := hmem a b h
    refine ⟨h2, ?_⟩
    intro i hi
    have h4 := getElem_fields (W := 8) (m := store m0 start (T.flatMap fun x =>
      mkHeader (size 8 m x.1) (tag 8 m x.1) color :: body2 e base start m T x.1)) (v := b) hi
    rw [h3] at h4
    have hns : ¬ tag 8 m a ≥ noScanTag := by
      have := hG.data a hS
      unfold closureTag stringTag doubleTag at this
      unfold stringTag at h1
      unfold doubleTag at h1'
      unfold noScanTag
      omega
    have hb2 : body2 e base start m T a = ((fields 8 m a (size 8 m a)).map (enc 8 m T)).map (adjustWord base start) := by
      unfold body2 body1
      rw [if_neg hns, if_neg h1, if_neg h1']
    rw [hb2, List.getElem?_map, List.getElem?_map, getElem_fields hi] at h4
    simp only [Option.map_some, Option.some.injEq] at h4
    rw [← h4]
    exact adjust_rel hT (fun _ => rfl) (hka h1 h1' _ (mem_fields.2 ⟨i, hi, rfl⟩))

end Mosml.Marshal
