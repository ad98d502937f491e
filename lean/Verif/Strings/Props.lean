import Verif.Strings.LemmasEsc

/-!
C09 string size and concatenation, C10 string comparison, C11 escapes, C12 range copies.
-/
namespace Mosml.Strings
open Mosml.Ints

/-! ### C09 -/

/-- C09: the length and the characters are read back from the block, whatever the contents. -/
theorem C09_size (b : Blk) (s : Bytes) (h : IsStr b s) :
    stringLength b = s.length ∧ contents b = s ∧ ∀ i, i < s.length → some (getChar b i) = s[i]? := by
  refine ⟨stringLength_of_isStr h, contents_of_isStr h, fun i hi => ?_⟩
  have hz := h.size
  rw [← getElem?_of_isStr h i hi, getChar, List.getD_eq_getElem?_getD,
    List.getElem?_eq_getElem (show i < b.bytes.length by omega)]
  rfl

example : IsStr (mkStr [0, 255, 65, 0, 0, 0, 0, 0]) [0, 255, 65, 0, 0, 0, 0, 0] :=
  mkStr_isStr _ (by decide) (by unfold maxlen; simp)

/-- C09: a freshly made string of any admissible length has that size, whatever was in memory before. -/
theorem C09_create (len : Nat) (h : len ≤ maxlen) (fresh : Nat → Nat) (color : Nat) (hcol : color < 4) :
    (∃ s, s.length = len ∧ IsStr (allocString len fresh (color * 256)) s) ∧
    stringLength (allocString len fresh (color * 256)) = len := by
  obtain ⟨s, hl, hs⟩ := allocString_spec len h fresh color hcol
  exact ⟨⟨s, hl, hs⟩, by rw [stringLength_of_isStr hs, hl]⟩

example : (15 : Nat) ≤ maxlen ∧ (2 : Nat) < 4 := by unfold maxlen; omega

/-- C09: storing a character changes just that character, and not the size. -/
theorem C09_update (b : Blk) (s : Bytes) (h : IsStr b s) (i c : Nat) (hi : i < s.length) (hc : c < 256) :
    IsStr (b.setByte i c) (s.set i c) ∧ stringLength (b.setByte i c) = stringLength b := by
  have := setByte_isStr h i c hi hc
  exact ⟨this, by rw [stringLength_of_isStr this, stringLength_of_isStr h, List.length_set]⟩

example : IsStr (mkStr [1, 2, 3]) [1, 2, 3] ∧ 2 < [1, 2, 3].length :=
  ⟨mkStr_isStr _ (by decide) (by unfold maxlen; simp), by decide⟩

/-- C09: `maxSize` is exact: one character more and the size is no longer recovered. -/
theorem C09_maxSize_tight (fresh : Nat → Nat) : stringLength (allocString (maxlen + 1) fresh 0) ≠ maxlen + 1 := by
  have hw : (maxlen + 1 + 8) / 8 = 2 ^ 54 := by unfold maxlen; omega
  have hh : wosizeHd (allocString (maxlen + 1) fresh 0).hd = 0 := by
    simp only [allocString, Blk.setByte, hw, mkHeader, wosizeHd]
    omega
  have : stringLength (allocString (maxlen + 1) fresh 0) ≤ 0 := by
    unfold stringLength
    simp only [hh]
    omega
  unfold maxlen at *
  omega

/-- C09: `s ^ t` is the concatenation, or Size exactly when it would be longer than `String.maxSize`. -/
theorem C09_concat2 (b1 b2 : Blk) (s1 s2 : Bytes) (h1 : IsStr b1 s1) (h2 : IsStr b2 s2)
    (fresh : Nat → Nat) (color : Nat) (hcol : color < 4) :
    (s1.length + s2.length ≤ maxlen →
      ∃ b, smlConcat b1 b2 fresh (color * 256) = some b ∧ IsStr b (s1 ++ s2)) ∧
    (maxlen < s1.length + s2.length → smlConcat b1 b2 fresh (color * 256) = none) :=
  smlConcat_spec h1 h2 fresh color hcol

example : ((smlConcat (mkStr [1, 2, 3, 4, 5]) (mkStr [6, 7, 8, 9]) (fun _ => 77) 0).map contents) =
    some [1, 2, 3, 4, 5, 6, 7, 8, 9] := by decide

/-- C09 (partial): `String.concat` is concatenation and raises Size exactly when the result is longer than
maxSize, PROVIDED every argument is shorter than 2^31; see `C09_concat_violation` for why. -/
theorem C09_concat_partial (bs : List Blk) (ss : List Bytes) (h : List.Forall₂ IsStr bs ss)
    (hsm : ∀ s ∈ ss, s.length < 2 ^ 31) (fresh : Nat → Nat) (color : Nat) (hcol : color < 4) :
    (ss.flatten.length ≤ maxlen →
      ∃ b, stringConcat bs fresh (color * 256) = some b ∧ IsStr b ss.flatten) ∧
    (maxlen < ss.flatten.length → stringConcat bs fresh (color * 256) = none) := by
  have hlen := concatLen_eq bs ss h 0
  rw [Nat.zero_add] at hlen
  unfold stringConcat
  simp only [hlen]
  constructor
  · intro hle
    rw [if_neg (by omega)]
    obtain ⟨s, hl, hs⟩ := allocString_spec ss.flatten.length hle fresh color hcol
    obtain ⟨b, hb, hi⟩ := concatCopy_spec bs ss h hsm _ [] s hs hl
    exact ⟨b, hb, by simpa using hi⟩
  · intro hgt; rw [if_pos hgt]

example : ((stringConcat [mkStr [1, 2, 3, 4, 5], mkStr [], mkStr [6, 7, 8, 9]] (fun _ => 77) 0).map contents) =
    some [1, 2, 3, 4, 5, 6, 7, 8, 9] := by decide

theorem intVal_wrap : intVal (2 ^ 32) = 0 := by
  unfold intVal; dsimp only; rw [Nat.mod_self, if_pos (by omega)]

theorem blit_wrap (b1 b2 : Blk) (n : Nat) (hn : n = 2 ^ 32) : blitString b1 0 b2 0 n = some b2 := by
  unfold blitString
  rw [hn, intVal_wrap]
  simp [memmove]

theorem exists_long (n : Nat) : ∃ s : Bytes, s.length = n ∧ ∀ c ∈ s, c = 65 :=
  ⟨List.replicate n 65, List.length_replicate, fun _ h => (List.mem_replicate.1 h).2⟩

theorem alloc_first (n : Nat) (hn : 8 ≤ n) : (allocString n (fun _ => 0) 0).bytes[0]? = some 0 := by
  unfold allocString Blk.setByte
  dsimp only
  rw [List.getElem?_set_ne (by omega), List.getElem?_append_left (by simp; omega),
    List.getElem?_take_of_lt (by omega), List.getElem?_map, List.getElem?_range (by omega)]
  rfl

/-- C09, FINDING: `String.concat [s]` for a string of length 2^32 copies nothing: the result consists of
whatever the fresh memory held.  (blit_string takes the length through a C int.) -/
theorem C09_concat_violation : ∃ (b : Blk) (s : Bytes) (fresh : Nat → Nat), IsStr b s ∧ s.length = 2 ^ 32 ∧
    ∃ r, stringConcat [b] fresh 0 = some r ∧ ¬ IsStr r s := by
  obtain ⟨n, hn⟩ : ∃ n : Nat, n = 2 ^ 32 := ⟨_, rfl⟩
  rw [← hn]
  obtain ⟨s, hl, hall⟩ := exists_long n
  have hs : IsStr (mkStr s) s :=
    mkStr_isStr _ (fun c hc => by have := hall c hc; omega) (by rw [hl]; unfold maxlen; omega)
  have hsl := stringLength_of_isStr hs
  rw [hl] at hsl
  refine ⟨_, s, fun _ => 0, hs, hl, allocString n (fun _ => 0) 0, ?_, ?_⟩
  · unfold stringConcat
    simp only [concatLen, hsl, Nat.add_zero]
    rw [if_neg (by unfold maxlen; omega)]
    simp only [concatCopy, hsl, blit_wrap _ _ n hn, Option.bind_some]
  · intro hbad
    have h0 := getElem?_of_isStr hbad 0 (by omega)
    rw [alloc_first n (by omega)] at h0
    have := hall 0 (List.mem_of_getElem? h0.symm)
    omega

/-! ### C10 -/

/-- C10: the string order tests decide the lexicographic order of the character codes. -/
theorem C10_order_tests (b1 b2 : Blk) (s t : Bytes) (h1 : IsStr b1 s) (h2 : IsStr b2 t) :
    (ltString b1 b2 = true ↔ s < t) ∧ (gtString b1 b2 = true ↔ t < s) ∧
    (leString b1 b2 = true ↔ s < t ∨ s = t) ∧ (geString b1 b2 = true ↔ t < s ∨ s = t) ∧
    (eqString b1 b2 = true ↔ s = t) := by
  unfold ltString gtString leString geString eqString tagged
  have irr : ∀ l : Bytes, ¬ l < l := List.lt_irrefl
  rcases compareStrings_spec h1 h2 with ⟨h, hl⟩ | ⟨h, hl⟩ | ⟨h, rfl⟩
  · have hn : ¬ t < s := List.lt_asymm hl
    have hne : s ≠ t := fun e => irr t (e ▸ hl)
    rcases h with h | h <;> simp [h, hl, hn, hne]
  · have hn : ¬ s < t := List.lt_asymm hl
    have hne : s ≠ t := fun e => irr t (e ▸ hl)
    rcases h with h | h <;> simp [h, hl, hn, hne]
  · simp [h, irr s]

example : ltString (mkStr [65, 0]) (mkStr [65, 0, 0]) = true ∧ ltString (mkStr [127]) (mkStr [128]) = true ∧
    eqString (mkStr [65, 0, 66]) (mkStr [65, 0, 67]) = false := by decide

/-- C10: `String.compare` agrees with the lexicographic order and never fails. -/
theorem C10_compare (b1 b2 : Blk) (s t : Bytes) (h1 : IsStr b1 s) (h2 : IsStr b2 t) :
    (stringCompare b1 b2 = some .less ∧ s < t) ∨ (stringCompare b1 b2 = some .greater ∧ t < s) ∨
    (stringCompare b1 b2 = some .equal ∧ s = t) := by
  unfold stringCompare
  rcases compareStrings_spec h1 h2 with ⟨h, hl⟩ | ⟨h, hl⟩ | ⟨h, rfl⟩
  · left; rcases h with h | h <;> simp [h, hl]
  · right; left; rcases h with h | h <;> simp [h, hl]
  · right; right; simp [h]

example : stringCompare (mkStr [65, 66]) (mkStr [65]) = some .greater := by decide

/-- C10: the polymorphic comparison of two strings has the sign of the lexicographic order. -/
theorem C10_polymorphic_compare (b1 b2 : Blk) (s t : Bytes) (h1 : IsStr b1 s) (h2 : IsStr b2 t) :
    (compareValString b1 b2 < 0 ↔ s < t) ∧ (0 < compareValString b1 b2 ↔ t < s) ∧
    (compareValString b1 b2 = 0 ↔ s = t) := by
  have key : (compareStrings b1 b2 < 0 → compareValString b1 b2 < 0) ∧
      (0 < compareStrings b1 b2 → 0 < compareValString b1 b2) ∧
      (compareStrings b1 b2 = 0 → compareValString b1 b2 = 0) := by
    unfold compareStrings compareValString
    dsimp only
    generalize (if stringLength b1 ≤ stringLength b2 then stringLength b1 else stringLength b2) = n
    obtain ⟨k1, k2, k3⟩ := cmpValLoop_spec n b1.bytes b2.bytes
    have hval : ∀ (n : Nat) (p q : Bytes), cmpLoop n p q = none ∨ cmpLoop n p q = some (-1) ∨ cmpLoop n p q = some 1 := by
      intro n
      induction n with
      | zero => intro p q; left; rfl
      | succ n ih =>
        intro p q
        unfold cmpLoop
        by_cases h : p.headD 0 ≠ q.headD 0
        · rw [if_pos h]
          by_cases hl : p.headD 0 < q.headD 0
          · rw [if_pos hl]; simp
          · rw [if_neg hl]; simp
        · rw [if_neg h]; exact ih _ _
    rcases hval n b1.bytes b2.bytes with h | h | h
    · rw [h, k1.1 h]
      dsimp only
      by_cases e : stringLength b1 = stringLength b2
      · rw [if_pos e]; omega
      · rw [if_neg e]
        by_cases hl : stringLength b1 < stringLength b2
        · rw [if_pos hl]; omega
        · rw [if_neg hl]; omega
    · obtain ⟨r, hr, hneg⟩ := k2 h
      rw [h, hr]; dsimp only; omega
    · obtain ⟨r, hr, hpos⟩ := k3 h
      rw [h, hr]; dsimp only; omega
  have irr : ∀ l : Bytes, ¬ l < l := List.lt_irrefl
  rcases compareStrings_spec h1 h2 with ⟨h, hl⟩ | ⟨h, hl⟩ | ⟨h, rfl⟩
  · have hn : ¬ t < s := List.lt_asymm hl
    have hne : s ≠ t := fun e => irr t (e ▸ hl)
    have := key.1 (by omega)
    simp only [hl, hn, hne, iff_true, iff_false]; omega
  · have hn : ¬ s < t := List.lt_asymm hl
    have hne : s ≠ t := fun e => irr t (e ▸ hl)
    have := key.2.1 (by omega)
    simp only [hl, hn, hne, iff_true, iff_false]; omega
  · have := key.2.2 h
    simp [this, irr s]

example : compareValString (mkStr [65, 200]) (mkStr [65, 100, 7]) = 100 := by decide

/-! ### C11 -/

/-- C11: String.fromString undoes String.toString on every string. -/
theorem C11_toString_roundtrip (s : Bytes) (h : ∀ c ∈ s, c < 256) : fromString (toString s) = some s := by
  unfold fromString toString
  rw [fromStringLoop_flatMap _ s (fun c hc => toMLescape_reads c (h c hc))]
  rfl

example : toString [0, 10, 34, 92, 65, 200] = [92, 94, 64, 92, 110, 92, 34, 92, 92, 65, 92, 50, 48, 48] := by decide

theorem mem_ite_or {p : Prop} [Decidable p] {a b : Bytes} {c : Nat} (h : c ∈ if p then a else b) :
    (p ∧ c ∈ a) ∨ (¬p ∧ c ∈ b) := by
  by_cases hp : p
  · rw [if_pos hp] at h; exact Or.inl ⟨hp, h⟩
  · rw [if_neg hp] at h; exact Or.inr ⟨hp, h⟩

/-- C11: String.toString yields printable ASCII only, with every quote and backslash escaped form. -/
theorem C11_toString_printable (s : Bytes) (h : ∀ c ∈ s, c < 256) : ∀ c ∈ toString s, 32 ≤ c ∧ c ≤ 126 := by
  intro c hc
  unfold toString at hc
  rw [List.mem_flatMap] at hc
  obtain ⟨d, hd, hc⟩ := hc
  have hd := h d hd
  unfold toMLescape digit at hc
  rcases mem_ite_or hc with ⟨_, hc⟩ | ⟨_, hc⟩
  · simp at hc; omega
  rcases mem_ite_or hc with ⟨_, hc⟩ | ⟨_, hc⟩
  · simp at hc; omega
  rcases mem_ite_or hc with ⟨_, hc⟩ | ⟨_, hc⟩
  · rcases mem_ite_or hc with ⟨_, hc⟩ | ⟨_, hc⟩
    · simp at hc; omega
    · simp at hc; omega
  iterate 7
    rcases mem_ite_or hc with ⟨_, hc⟩ | ⟨_, hc⟩
    · simp at hc; omega
  simp at hc; omega

/-- C11: the runtime's printed form of a string, between its quotes, scans back to the string. -/
theorem C11_printer_roundtrip (s : Bytes) (h : ∀ c ∈ s, c < 256) :
    ∃ body, makestringBytes s = [34] ++ body ++ [34] ∧ fromString body = some s := by
  refine ⟨_, rfl, ?_⟩
  unfold fromString
  rw [fromStringLoop_flatMap _ s (fun c hc => makestringChar_reads c (h c hc))]
  rfl

example : makestringBytes [9, 127, 65] = [34, 92, 116, 92, 49, 50, 55, 65, 34] := by decide

/-- C11: the same for a single character (`#"..."`). -/
theorem C11_char_printer_roundtrip (c : Nat) (h : c < 256) :
    ∃ body, makestringOfChar c = [35, 34] ++ body ++ [34] ∧ fromString body = some [c] := by
  refine ⟨_, rfl, ?_⟩
  have := fromStringLoop_flatMap makestringChar [c] (fun d hd => by
    rw [List.mem_singleton] at hd; subst hd; exact makestringChar_reads d h) []
  simpa [fromString] using this

/-- C11: the printer's second pass writes exactly as many bytes as the first pass counted, so it never writes
outside the string it allocated. -/
theorem C11_printer_exact_size (s : Bytes) : (makestringBytes s).length = makestringAlloc s := by
  unfold makestringBytes makestringAlloc
  simp only [List.length_append, List.length_flatMap, List.length_singleton]
  have : s.map (fun c => (makestringChar c).length) = s.map makestringLen :=
    List.map_congr_left fun c _ => makestring_len_eq c
  rw [this]; omega

/-- C11, FINDING: the runtime's printer is not ASCII-safe, it writes characters 128..254 raw. -/
theorem C11_printer_ascii_violation : ∃ s : Bytes, (∀ c ∈ s, c < 256) ∧ ∃ c ∈ makestringBytes s, 126 < c :=
  ⟨[200], by decide, 200, by decide, by decide⟩

/-- C11: String.fromCString undoes String.toCString on every string, whatever the (uninitialised) contents of
the intermediate buffers. -/
theorem C11_toCString_roundtrip (fresh : Nat → Bytes) (hf : ∀ n, (fresh n).length = n) (s : Bytes)
    (h : ∀ c ∈ s, c < 256) : fromCString fresh (toCString s) = some s := by
  unfold fromCString toCString
  rw [fromCStringLoop_flatMap fresh hf _ s (fun c hc => toCescape_reads c (h c hc)) _ 1 0 (hf 1) (by omega) (by omega)]
  simp

example : toCString [0, 63, 65, 200, 49] = [92, 48, 48, 48, 92, 63, 65, 92, 51, 49, 48, 49] := by decide

/-! ### C12 -/

/-- C12 (partial): copying a range of a string onto a range of another (or the same) string leaves there the
bytes the source range held before, and no other byte changes; PROVIDED the length is below 2^31
(`C12_blit_violation`). -/
theorem C12_blit_partial (b1 b2 : Blk) (s1 s2 : Bytes) (h1 : IsStr b1 s1) (h2 : IsStr b2 s2) (o1 o2 n : Nat)
    (hn : n < 2 ^ 31) (hb1 : o1 + n ≤ s1.length) (hb2 : o2 + n ≤ s2.length) :
    ∃ b t, blitString b1 o1 b2 o2 n = some b ∧ IsStr b t ∧ Copied s1 o1 s2 o2 n t := by
  obtain ⟨bs, hm, hi⟩ := memmove_isStr h1 h2 o1 o2 n hb1 hb2
  refine ⟨_, _, by unfold blitString; rw [intVal_small hn, hm]; rfl, hi, ?_⟩
  exact memmove_copied (memmove_some hb1 hb2)

example : ((blitString (mkStr [1, 2, 3, 4, 5]) 0 (mkStr [1, 2, 3, 4, 5]) 1 4).map contents) = some [1, 1, 2, 3, 4] := by
  decide

/-- C12, FINDING: a copy of 2^32 bytes copies nothing at all. -/
theorem C12_blit_violation (b1 b2 : Blk) : blitString b1 0 b2 0 (2 ^ 32) = some b2 :=
  blit_wrap b1 b2 _ rfl

/-- C12: filling a range sets exactly that range. -/
theorem C12_fill (b : Blk) (s : Bytes) (h : IsStr b s) (offset len c : Nat) (hc : c < 256)
    (hb : offset + len ≤ s.length) :
    ∃ t, IsStr (fillString b offset len c) t ∧ t.length = s.length ∧
      (∀ j, j < len → t[offset + j]? = some c) ∧
      (∀ i, i < offset ∨ offset + len ≤ i → t[i]? = s[i]?) :=
  fillLoop_spec c hc len b s offset h hb

example : contents (fillString (mkStr [1, 2, 3, 4, 5]) 1 3 9) = [1, 9, 9, 9, 5] := by decide

/-- C12: ArraySlice.copy, for any two arrays (also the same one) and any overlap: the destination range gets the
old elements of the slice, nothing else changes; a destination that does not fit is rejected with nothing
copied (with Overflow instead of Subscript when di + n is not representable). -/
theorem C12_slice_copy {α : Type} [Inhabited α] (σ : Arrays α) (a1 i1 n a2 : Nat) (di : Int)
    (hsl : i1 + n ≤ (σ a1).length) (hmax : ∀ a, ((σ a).length : Int) ≤ maxInt) (hdi : InRange di) :
    (0 ≤ di ∧ di + n ≤ (σ a2).length →
      ∃ σ', sliceCopy σ a1 i1 n a2 di = .ok σ' ∧ Copied (σ a1) i1 (σ a2) di.toNat n (σ' a2) ∧
        ∀ b, b ≠ a2 → σ' b = σ b) ∧
    (¬ (0 ≤ di ∧ di + n ≤ (σ a2).length) →
      sliceCopy σ a1 i1 n a2 di = .subscript ∨ (maxInt < di + n ∧ sliceCopy σ a1 i1 n a2 di = .overflow)) := by
  have hm2 := hmax a2
  constructor
  · rintro ⟨h0, hle⟩
    have hadd : iadd di n = some (di + n) := by
      apply chk_some
      unfold InRange at *; unfold minInt at *; omega
    unfold sliceCopy
    rw [if_neg (by omega), hadd]
    simp only
    rw [if_neg (by omega)]
    by_cases hlt : (i1 : Int) < di
    · rw [if_pos hlt]
      obtain ⟨ho, hc⟩ := hi2lo_spec a1 i1 a2 di.toNat (fun _ => by omega) n σ hsl (by omega)
      exact ⟨_, rfl, hc, ho⟩
    · rw [if_neg hlt]
      obtain ⟨ho, hc⟩ := lo2hi_spec a1 i1 a2 di.toNat (fun _ => by omega) n 0 σ (by omega) (by omega)
      exact ⟨_, rfl, by simpa using hc, ho⟩
  · intro hbad
    unfold sliceCopy
    by_cases h0 : di < 0
    · left; rw [if_pos h0]
    rw [if_neg h0]
    by_cases hr : di + n ≤ maxInt
    · left
      have hadd : iadd di n = some (di + n) := by
        apply chk_some
        unfold InRange at *; unfold minInt at *; omega
      rw [hadd]
      simp only
      rw [if_pos (by omega)]
    · right
      have hadd : iadd di n = none := by
        apply chk_none
        unfold InRange; omega
      rw [hadd]
      exact ⟨by omega, rfl⟩

example : (fun r => match r with | CopyRes.ok σ => σ 0 | _ => [])
    (sliceCopy (fun _ => [1, 2, 3, 4, 5, 6]) 0 1 4 0 2) = [1, 2, 2, 3, 4, 5] := by decide
example : (fun r => match r with | CopyRes.ok σ => σ 0 | _ => [])
    (sliceCopy (fun _ => [1, 2, 3, 4, 5, 6]) 0 2 4 0 1) = [1, 3, 4, 5, 6, 6] := by decide

/-- C12: Array.copy. -/
theorem C12_array_copy {α : Type} [Inhabited α] (σ : Arrays α) (a1 a2 : Nat) (di : Int)
    (hmax : ∀ a, ((σ a).length : Int) ≤ maxInt) (hdi : InRange di) :
    (0 ≤ di ∧ di + (σ a1).length ≤ (σ a2).length →
      ∃ σ', arrayCopy σ a1 a2 di = .ok σ' ∧ Copied (σ a1) 0 (σ a2) di.toNat (σ a1).length (σ' a2) ∧
        ∀ b, b ≠ a2 → σ' b = σ b) ∧
    (¬ (0 ≤ di ∧ di + (σ a1).length ≤ (σ a2).length) →
      arrayCopy σ a1 a2 di = .subscript ∨
      (maxInt < di + (σ a1).length ∧ arrayCopy σ a1 a2 di = .overflow)) := by
  have hm2 := hmax a2
  constructor
  · rintro ⟨h0, hle⟩
    have hadd : iadd di ((σ a1).length : Nat) = some (di + (σ a1).length) := by
      apply chk_some
      unfold InRange at *; unfold minInt at *; omega
    unfold arrayCopy
    simp only
    rw [if_neg (by omega), hadd]
    simp only
    rw [if_neg (by omega)]
    obtain ⟨ho, hc⟩ := hi2lo_spec a1 0 a2 di.toNat (fun _ => by omega) (σ a1).length σ (by omega) (by omega)
    exact ⟨_, rfl, hc, ho⟩
  · intro hbad
    unfold arrayCopy
    simp only
    by_cases h0 : di < 0
    · left; rw [if_pos h0]
    rw [if_neg h0]
    by_cases hr : di + (σ a1).length ≤ maxInt
    · left
      have hadd : iadd di ((σ a1).length : Nat) = some (di + (σ a1).length) := by
        apply chk_some
        unfold InRange at *; unfold minInt at *; omega
      rw [hadd]
      simp only
      rw [if_pos (by omega)]
    · right
      have hadd : iadd di ((σ a1).length : Nat) = none := by
        apply chk_none
        unfold InRange; omega
      rw [hadd]
      exact ⟨by omega, rfl⟩

/-- C12, FINDING: an out-of-range destination index near the largest int raises Overflow, not Subscript. -/
theorem C12_copy_exception_violation : ∃ (σ : Arrays Nat) (di : Int), InRange di ∧
    sliceCopy σ 0 0 1 0 di = .overflow :=
  ⟨fun _ => [1, 2], maxInt, by decide, rfl⟩

end Mosml.Strings
