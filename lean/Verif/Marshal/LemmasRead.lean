import Verif.Marshal.LemmasBytes

/-! The readers on the words written by `emit_all`. -/
namespace Mosml.Marshal

/-- the body of an object once the byte order has been corrected -/
def body1 (W : Nat) (e : Endian) (m : Mem) (U : List (Nat × Nat)) (a : Nat) : List Nat :=
  if tag W m a = stringTag then (fields W m a (size W m a)).map (sw W e)
  else if tag W m a = doubleTag then
    (match e with | .little => fields W m a (size W m a) | .big => (fields W m a (size W m a)).reverse)
  else (fields W m a (size W m a)).map (enc W m U)

def chunk1 (W : Nat) (e : Endian) (m : Mem) (U : List (Nat × Nat)) (x : Nat × Nat) : List Nat :=
  mkHeader (size W m x.1) (tag W m x.1) black :: body1 W e m U x.1

theorem length_body (W : Nat) (m : Mem) (U : List (Nat × Nat)) (a : Nat) : (body W m U a).length = size W m a := by
  unfold body; split_ifs <;> simp [length_fields]

theorem length_body1 (W : Nat) (e : Endian) (m : Mem) (U : List (Nat × Nat)) (a : Nat) :
    (body1 W e m U a).length = size W m a := by
  unfold body1
  split_ifs <;> cases e <;> simp [length_fields]

/-- the bounds that make the words of the dump fit -/
structure Fits (W : Nat) (m : Mem) (U T : List (Nat × Nat)) : Prop where
  hdr : ∀ x ∈ T, mkHeader (size W m x.1) (tag W m x.1) black < 256 ^ W
  bdy : ∀ x ∈ T, ∀ w ∈ body W m U x.1, w < 256 ^ W

theorem Fits.tail {W : Nat} {m : Mem} {U T : List (Nat × Nat)} {x : Nat × Nat} (h : Fits W m U (x :: T)) :
    Fits W m U T :=
  ⟨fun y hy => h.hdr y (List.mem_cons_of_mem _ hy), fun y hy => h.bdy y (List.mem_cons_of_mem _ hy)⟩

theorem body1_little (W : Nat) (m : Mem) (U : List (Nat × Nat)) (a : Nat) : body1 W .little m U a = body W m U a := by
  unfold body1 body
  split_ifs with h1 h2 h3 h4 h5
  · show List.map (fun w => w) _ = _
    simp
  · tauto
  · rfl
  · tauto
  · tauto
  · rfl

theorem map_sw_little (W : Nat) (l : List Nat) : l.map (sw W .little) = l := by
  show List.map (fun w => w) l = l
  simp

theorem map_bswap_bswap {W : Nat} {l : List Nat} (h : ∀ w ∈ l, w < 256 ^ W) : (l.map (bswap W)).map (bswap W) = l := by
  rw [List.map_map]
  conv_rhs => rw [← List.map_id l]
  apply List.map_congr_left
  intro w hw
  exact bswap_bswap (h w hw)

theorem rev64 {m : Mem} {U : List (Nat × Nat)} (hd : ∀ a, tag 8 m a = doubleTag → a ∈ U.map Prod.fst → size 8 m a = 1) :
    ∀ (T : List (Nat × Nat)) (fuel : Nat), (∀ x ∈ T, x ∈ U) → Fits 8 m U T → T.length ≤ fuel →
    revPointers fuel ((T.flatMap (chunk 8 m U)).map (bswap 8)) = T.flatMap (chunk1 8 .big m U)
  | [], 0, _, _, _ => rfl
  | [], fuel + 1, _, _, _ => rfl
  | x :: T, 0, _, _, h => by simp at h
  | x :: T, fuel + 1, hU, hF, h => by
    have hx := hF.hdr x List.mem_cons_self
    have ih := rev64 hd T fuel (fun y hy => hU y (List.mem_cons_of_mem _ hy)) hF.tail (by simpa using h)
    rw [List.flatMap_cons, List.flatMap_cons, List.map_append]
    unfold chunk chunk1
    rw [List.map_cons, List.cons_append, revPointers]
    rw [bswap_bswap hx, tag_mk _ _ _ (tag_lt 8 m x.1) (by decide), size_mk _ _ _ (tag_lt 8 m x.1) (by decide) (by decide)]
    have hl : ((body 8 m U x.1).map (bswap 8)).length = size 8 m x.1 := by simp [length_body]
    rw [List.take_left' hl, List.drop_left' hl]
    unfold chunk chunk1 at ih
    rw [ih, List.cons_append]
    congr 2
    have hbd := hF.bdy x List.mem_cons_self
    unfold body at hbd ⊢
    unfold body1
    by_cases h1 : tag 8 m x.1 = stringTag
    · rw [if_pos h1, if_pos (.inl h1), if_pos h1]; rfl
    · rw [if_neg h1, if_neg h1]
      by_cases h2 : tag 8 m x.1 = doubleTag
      · rw [if_pos h2, if_pos h2, if_pos (.inr h2)]
        rw [if_pos (.inr h2)] at hbd
        have h3 := hd x.1 h2 (List.mem_map_of_mem (hU x List.mem_cons_self))
        rw [h3] at hbd ⊢
        simp only [fields, List.nil_append, List.map_cons, List.map_nil, List.reverse_cons, List.reverse_nil] at hbd ⊢
        rw [bswap_bswap (hbd _ (by simp))]
      · rw [if_neg h2, if_neg h2, if_neg (by tauto)]
        rw [if_neg (by tauto)] at hbd
        exact map_bswap_bswap hbd

theorem sext32_lo {w : Nat} (h : w < 2 ^ 31) : sext32 w = w := if_pos h

theorem rev32 {m : Mem} {U : List (Nat × Nat)} (hd : ∀ a, tag 4 m a = doubleTag → a ∈ U.map Prod.fst → size 4 m a = 2)
    (hs : ∀ a, a ∈ U.map Prod.fst → size 4 m a < 2 ^ 21) :
    ∀ (T : List (Nat × Nat)) (fuel : Nat), (∀ x ∈ T, x ∈ U) → Fits 4 m U T → T.length ≤ fuel →
    revPointers32 fuel ((T.flatMap (chunk 4 m U)).map (bswap 4)) = T.flatMap (chunk1 4 .big m U)
  | [], 0, _, _, _ => rfl
  | [], fuel + 1, _, _, _ => rfl
  | x :: T, 0, _, _, h => by simp at h
  | x :: T, fuel + 1, hU, hF, h => by
    have hx := hF.hdr x List.mem_cons_self
    have hsx := hs x.1 (List.mem_map_of_mem (hU x List.mem_cons_self))
    have htx := tag_lt 4 m x.1
    have hx' : mkHeader (size 4 m x.1) (tag 4 m x.1) black < 2 ^ 31 := by unfold mkHeader black; omega
    have ih := rev32 hd hs T fuel (fun y hy => hU y (List.mem_cons_of_mem _ hy)) hF.tail (by simpa using h)
    rw [List.flatMap_cons, List.flatMap_cons, List.map_append]
    unfold chunk chunk1
    rw [List.map_cons, List.cons_append, revPointers32]
    rw [bswap_bswap hx, sext32_lo hx', tag_mk _ _ _ htx (by decide), size_mk _ _ _ htx (by decide) (by decide)]
    have hl : ((body 4 m U x.1).map (bswap 4)).length = size 4 m x.1 := by simp [length_body]
    rw [List.take_left' hl, List.drop_left' hl]
    unfold chunk chunk1 at ih
    rw [ih, List.cons_append]
    congr 2
    have hbd := hF.bdy x List.mem_cons_self
    unfold body at hbd ⊢
    unfold body1
    by_cases h1 : tag 4 m x.1 = stringTag
    · rw [if_pos h1, if_pos (.inl h1), if_pos h1]; rfl
    · rw [if_neg h1, if_neg h1]
      by_cases h2 : tag 4 m x.1 = doubleTag
      · rw [if_pos h2, if_pos h2, if_pos (.inr h2)]
        rw [if_pos (.inr h2)] at hbd
        have h3 := hd x.1 h2 (List.mem_map_of_mem (hU x List.mem_cons_self))
        rw [h3] at hbd ⊢
        simp only [fields, List.nil_append, List.map_cons, List.map_nil, List.reverse_cons, List.reverse_nil,
          List.cons_append] at hbd ⊢
        rw [bswap_bswap (hbd _ (by simp)), bswap_bswap (hbd _ (by simp))]
      · rw [if_neg h2, if_neg h2, if_neg (by tauto)]
        rw [if_neg (by tauto)] at hbd
        exact map_bswap_bswap hbd

/-- the body of an object of the 64-bit copy -/
def body2 (e : Endian) (base start : Nat) (m : Mem) (U : List (Nat × Nat)) (a : Nat) : List Nat :=
  if tag 8 m a ≥ noScanTag then body1 8 e m U a
  else (body1 8 e m U a).map (adjustWord base start)

theorem adjust64 (e : Endian) (base start color : Nat) (m : Mem) (U : List (Nat × Nat)) :
    ∀ (T : List (Nat × Nat)) (fuel : Nat), T.length ≤ fuel →
    adjustPointers base start color fuel (T.flatMap (chunk1 8 e m U)) =
      T.flatMap (fun x => mkHeader (size 8 m x.1) (tag 8 m x.1) color :: body2 e base start m U x.1)
  | [], 0, _ => rfl
  | [], fuel + 1, _ => rfl
  | x :: T, 0, h => by simp at h
  | x :: T, fuel + 1, h => by
    have ih := adjust64 e base start color m U T fuel (by simpa using h)
    rw [List.flatMap_cons, List.flatMap_cons]
    unfold chunk1
    rw [List.cons_append, adjustPointers]
    rw [tag_mk _ _ _ (tag_lt 8 m x.1) (by decide), size_mk _ _ _ (tag_lt 8 m x.1) (by decide) (by decide)]
    have hl := length_body1 8 e m U x.1
    rw [List.take_left' hl, List.drop_left' hl]
    unfold chunk1 at ih
    rw [ih, List.cons_append]
    rfl

end Mosml.Marshal
