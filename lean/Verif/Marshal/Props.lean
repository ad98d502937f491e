import Verif.Marshal.LemmasTop
import Verif.Marshal.Gdbm

/-! Properties C15–C19: structured output and input. -/
namespace Mosml.Marshal

/-! ### C15 -/

/-- C15: for every value that is a block – any finite graph of data blocks, references, strings and reals, with any
sharing and any cycles – of less than 2^32 bytes, what `output_value` writes (on a 64-bit machine of either byte order) is
read back by `input_value` as an isomorphic graph; the rest of the input is left alone and so is the memory outside the
new block. -/
theorem C15_round_trip_partial {e : Endian} {m m0 : Mem} {S : List Nat} {v : Nat} (hG : Graph 8 e m S v)
    (hv : v % 2 = 0) (hne : size 8 m v ≠ 0) (hw : words 8 m S * 8 < 2 ^ 32) {al : Alloc} (hc : al.color < 1024)
    (hc' : al.color % 256 = 0) {fuel : Nat} (hf : S.length < fuel) (fuel' : Nat) :
    ∃ bs φ m', externVal 8 e m fuel v = .ok bs ∧
      (∀ rest, internVal al m0 fuel' (bs ++ rest) = .ok (al.start + 8, m', rest)) ∧
      Iso 8 e al.base m m' φ v (al.start + 8) ∧
      ∀ a, a < al.start ∨ al.start + 8 * words 8 m S ≤ a → m' a = m0 a :=
  roundTrip64 hG hv hne hf hw hc hc' fuel'

/-- a memory from a list of addresses and words -/
def memOf (l : List (Nat × Nat)) : Mem := fun a => (lookupTab l a).getD 0

theorem memOf_lt {l : List (Nat × Nat)} {b : Nat} (hb : 0 < b) (h : ∀ x ∈ l, x.2 < b) (a : Nat) : memOf l a < b := by
  unfold memOf
  cases hl : lookupTab l a with
  | none => exact hb
  | some x => exact h _ (lookup_mem hl)

/-- a cyclic graph with sharing: a pair at 16 of (itself, a string at 48); the string is "ab" -/
def sample : Mem := memOf [(8, mkHeader 2 3 0), (16, 16), (24, 48), (40, mkHeader 1 253 0), (48, 0x0500000000006261)]

theorem sample_graph : Graph 8 .little sample [16, 48] 16 where
  word := memOf_lt (by decide) (by decide)
  nodup := by decide
  root := by decide
  even := by decide
  nonempty := by decide
  data := by decide
  strs := by decide
  dbls := by decide
  closed := by decide

example : ∃ bs φ m', externVal 8 .little sample 10 16 = .ok bs ∧
    (∀ rest, internVal ⟨2000, 1000, 768⟩ (fun _ => 0) 0 (bs ++ rest) = .ok (1008, m', rest)) ∧
    Iso 8 .little 2000 sample m' φ 16 1008 ∧
    ∀ a, a < 1000 ∨ 1000 + 8 * words 8 sample [16, 48] ≤ a → m' a = 0 :=
  C15_round_trip_partial (al := ⟨2000, 1000, 768⟩) sample_graph (by decide) (by decide) (by decide) (by decide) (by decide)
    (by decide) 0

/-- a weak array (tag 251) at 16 with one element, a block of tag 5 -/
def weakSample : Mem := memOf [(8, mkHeader 1 251 0), (16, 40), (32, mkHeader 1 5 0), (40, 1)]

/-- C15 fails for weak arrays: `output_value` accepts them and relativises their elements, but `input_value` does not
relocate them (tag ≥ No_scan_tag), so the elements are wild pointers. -/
theorem C15_weak_violation : ∃ bs w m',
    externVal 8 .little weakSample 10 16 = .ok bs ∧
    internVal ⟨2000, 1000, 768⟩ (fun _ => 0) 0 bs = .ok (w, m', []) ∧
    ¬ ∃ φ, Iso 8 .little 2000 weakSample m' φ 16 w := by
  refine ⟨_, _, _, rfl, rfl, ?_⟩
  rintro ⟨φ, h⟩
  have hr := h.root
  rcases hr with hr | hr | ⟨-, -, hr⟩
  · exact absurd hr.1 (by decide)
  · exact absurd hr.2.1 (by decide)
  · have h1 := (h.blks _ _ hr (by decide) (by decide)).2 0 (by decide)
    rcases h1 with h1 | h1 | ⟨-, -, h1⟩
    · exact absurd h1.1 (by decide)
    · exact absurd h1.2.1 (by decide)
    · exact absurd (h.tags _ _ h1) (by decide)

/-- C15 fails for values of 2^32 bytes or more: a string of that size is written (its data cut off) without complaint, and
reading it back always fails. -/
theorem C15_large_violation {m m0 : Mem} {v : Nat} (hm : ∀ a, m a < 2 ^ 64) (hv : v % 2 = 0)
    (ht : tag 8 m v = stringTag) (hs : 2 ^ 29 - 1 ≤ size 8 m v) (hs' : size 8 m v < 2 ^ 32 - 1)
    (hp : (blockBytes 8 .little m v).getD (size 8 m v * 8 - 1) 0 < 8) (al : Alloc) (fuel' : Nat) :
    ∃ bs, externVal 8 .little m 2 v = .ok bs ∧
      ∀ rest, internVal al m0 fuel' (bs ++ rest) = .exn "intern : truncated object" := by
  have hne : size 8 m v ≠ 0 := by omega
  have hG : Graph 8 .little m [v] v :=
    ⟨hm, by simp, .inr (.inr (by simp)), by simpa using hv, by simpa using hne, by simp [ht], by simpa using fun _ => hp,
      by intro a ha h; simp only [List.mem_singleton] at ha; subst ha; rw [ht] at h; exact absurd h (by decide),
      by intro a ha h; simp only [List.mem_singleton] at ha; subst ha; exact absurd ht h⟩
  obtain ⟨T, T', h3, hT, -, -, hsp, hl, h1⟩ := externVal_block (fuel := 2) hG hv hne (by simp)
  obtain ⟨g1, g2, g3⟩ := fastMagic_range 8 .little
  have hsp1 : size 8 m v + 1 ≤ span 8 m T := by rw [h3, span]; omega
  have hsp2 : span 8 m T ≤ size 8 m v + 1 := by simpa [words, total] using hsp
  refine ⟨_, h1, fun rest => ?_⟩
  unfold internVal
  rw [List.append_assoc, getword_putword]
  dsimp only
  rw [if_neg g1, if_neg g2, g3]
  unfold internFast
  rw [List.append_assoc, getword_putword, Nat.mod_eq_of_lt (by omega)]
  dsimp only
  rw [if_neg (by omega), if_neg (by decide)]
  unfold getBlock
  rw [if_pos (by omega)]

/-- the hypotheses can be met: a string block of 2^29 words -/
example : ∃ bs, externVal 8 .little (fun a => if a = 8 then mkHeader (2 ^ 29) 253 0 else 0) 2 16 = .ok bs ∧
    ∀ rest, internVal ⟨0, 1000, 0⟩ (fun _ => 0) 0 (bs ++ rest) = .exn "intern : truncated object" := by
  apply C15_large_violation
  · intro a; split_ifs <;> decide
  · decide
  · decide
  · decide
  · decide
  · have : blockBytes 8 .little (fun a => if a = 8 then mkHeader (2 ^ 29) 253 0 else 0) 16 =
        List.replicate (2 ^ 29 * 8) 0 := by
      rw [List.eq_replicate_iff]
      refine ⟨length_blockBytes _ _, fun b hb => ?_⟩
      unfold blockBytes at hb
      obtain ⟨w, hw, hb⟩ := List.mem_flatMap.1 hb
      obtain ⟨i, -, rfl⟩ := List.mem_map.1 hw
      dsimp only at hb
      rw [if_neg (by omega)] at hb
      simp [wordBytes, leBytes] at hb
      exact hb
    rw [this, List.getD_eq_getElem?_getD, List.getElem?_replicate]
    split_ifs <;> simp

/-! ### C16 -/

/-- what comes back for an int is the low 32 bits of its word -/
theorem scalar_back {W : Nat} {e : Endian} {m m0 : Mem} {v : Nat} (hv : v % 2 = 1) (al : Alloc) (fuel fuel' : Nat)
    (rest : Bytes) : ∃ bs, externVal W e m (fuel + 1) v = .ok bs ∧ internVal al m0 fuel' (bs ++ rest) = .ok (v % 2 ^ 32, m0, rest) := by
  obtain ⟨g1, g2, -⟩ := fastMagic_range W e
  refine ⟨putword (fastMagic W e) ++ putword 0 ++ putword v, ?_, ?_⟩
  · unfold externVal emitAll emit scanLoop
    simp [hv]
  · unfold internVal
    rw [List.append_assoc, List.append_assoc, getword_putword]
    dsimp only
    rw [if_neg g1, if_neg g2]
    unfold internFast
    rw [getword_putword, Nat.zero_mod]
    dsimp only
    rw [if_pos rfl, getword_putword]
    dsimp only
    rw [if_pos (by omega)]

/-- C16: an int comes back unchanged exactly when it is in the range 0 .. 2^31 - 1 -/
theorem C16_int_iff {e : Endian} {m m0 : Mem} {n : Int} (hn : -2 ^ 62 ≤ n ∧ n < 2 ^ 62) (al : Alloc) (fuel fuel' : Nat)
    (rest : Bytes) : ∃ bs w, externVal 8 e m (fuel + 1) (valLong n) = .ok bs ∧
      internVal al m0 fuel' (bs ++ rest) = .ok (w, m0, rest) ∧ (w = valLong n ↔ 0 ≤ n ∧ n < 2 ^ 31) := by
  have hodd : valLong n % 2 = 1 := by unfold valLong; omega
  obtain ⟨bs, h1, h2⟩ := scalar_back (W := 8) (e := e) (m := m) (m0 := m0) hodd al fuel fuel' rest
  refine ⟨bs, _, h1, h2, ?_⟩
  unfold valLong
  omega

example : (0 : Int) ≤ 5 ∧ (5 : Int) < 2 ^ 31 := by decide

/-- C16 fails: ~1 is read back as 2147483647 -/
theorem C16_negative_violation (e : Endian) (m m0 : Mem) (al : Alloc) (fuel fuel' : Nat) :
    ∃ bs w, externVal 8 e m (fuel + 1) (valLong (-1)) = .ok bs ∧ internVal al m0 fuel' bs = .ok (w, m0, []) ∧
      longVal w = 2147483647 := by
  obtain ⟨bs, h1, h2⟩ := scalar_back (W := 8) (e := e) (m := m) (m0 := m0) (v := valLong (-1)) (by decide) al fuel fuel' []
  rw [List.append_nil] at h2
  exact ⟨bs, _, h1, h2, by decide⟩

/-- C16: a zero-sized block (a nullary constructor represented by an atom, the empty vector) comes back as the atom with
the same tag -/
theorem C16_atom {W : Nat} {e : Endian} {m m0 : Mem} {v : Nat} (hv : v % 2 = 0) (hz : size W m v = 0) (al : Alloc)
    (fuel fuel' : Nat) (rest : Bytes) : ∃ bs, externVal W e m (fuel + 1) v = .ok bs ∧
      internVal al m0 fuel' (bs ++ rest) = .ok (atomAddr al.base (tag W m v), m0, rest) := by
  obtain ⟨g1, g2, -⟩ := fastMagic_range W e
  have htag := tag_lt W m v
  have hz' : wosizeHd (m (v - W)) = 0 := hz
  refine ⟨putword (fastMagic W e) ++ putword 0 ++ putword (tag W m v * 4 + 2), ?_, ?_⟩
  · unfold externVal emitAll emit scanLoop
    simp [hv, hz', tag]
  · unfold internVal
    rw [List.append_assoc, List.append_assoc, getword_putword]
    dsimp only
    rw [if_neg g1, if_neg g2]
    unfold internFast
    rw [getword_putword, Nat.zero_mod]
    dsimp only
    rw [if_pos rfl, getword_putword]
    dsimp only
    rw [if_neg (by omega), Nat.mod_eq_of_lt (by omega), show (tag W m v * 4 + 2) / 4 = tag W m v by omega]

example : (16 : Nat) % 2 = 0 ∧ size 8 (memOf [(8, mkHeader 0 7 0)]) 16 = 0 := by decide

/-! ### C17 -/

/-- C17: the compact format round trips for every value, scalars included, provided blocks have less than 2^22 fields,
strings less than 2^32 bytes and the whole less than 2^31 words. -/
theorem C17_compact_round_trip_partial {m m0 : Mem} {S : List Nat} {v : Nat} (hG : Graph 8 .little m S v) (hv : v < 2 ^ 64)
    (hw : words 8 m S < 2 ^ 31)
    (hb : ∀ a ∈ S, tag 8 m a ≠ stringTag → tag 8 m a ≠ doubleTag → size 8 m a < 2 ^ 22)
    (hs : ∀ a ∈ S, tag 8 m a = stringTag → size 8 m a ≤ 2 ^ 29)
    {al : Alloc} (hc : al.color < 1024) (hc' : al.color % 256 = 0) (hst : 8 ≤ al.start)
    {fuel : Nat} (hf : S.length < fuel) (rest : Bytes) :
    ∃ bs φ w m', externCompact m fuel v = .ok bs ∧ internVal al m0 fuel (bs ++ rest) = .ok (w, m', rest) ∧
      Iso 8 .little al.base m m' φ v w ∧
      ∀ a, a ≠ 0 → a < al.start ∨ al.start + 8 * words 8 m S ≤ a → m' a = m0 a :=
  roundTripCp hG hv hf rfl (by omega) hb hs hc hc' hst rest

example : ∃ bs φ w m', externCompact sample 10 16 = .ok bs ∧
    internVal ⟨2000, 1000, 768⟩ (fun _ => 0) 10 (bs ++ [1]) = .ok (w, m', [1]) ∧ Iso 8 .little 2000 sample m' φ 16 w ∧
    ∀ a, a ≠ 0 → a < 1000 ∨ 1000 + 8 * words 8 sample [16, 48] ≤ a → m' a = 0 :=
  C17_compact_round_trip_partial (al := ⟨2000, 1000, 768⟩) sample_graph (by decide) (by decide) (by decide) (by decide)
    (by decide) (by decide) (by decide) (by decide) [1]

theorem emitList_ints {m : Mem} {fuel : Nat} : ∀ (vs : List Nat) (st : CpOut), (∀ v ∈ vs, v % 2 = 1) →
    emitList (emitCp m (fuel + 1)) vs st = .ok { st with out := st.out ++ vs.flatMap fun v => cpInt (longVal v) }
  | [], st, _ => by simp [emitList]
  | v :: vs, st, h => by
    rw [emitList, emitCp, if_pos (h v List.mem_cons_self)]
    dsimp only
    rw [emitList_ints vs _ (fun w hw => h w (List.mem_cons_of_mem _ hw))]
    simp

/-- C17 fails for a block of 2^22 fields (a vector of that length is legal): the header is cut to 32 bits, so the size is
lost and the value is read back as a zero-sized block. -/
theorem C17_large_block_violation {m m0 : Mem} {v : Nat} (hm : ∀ a, m a < 2 ^ 64) (hv : v % 2 = 0)
    (hsz : size 8 m v = 2 ^ 22) (ht : tag 8 m v < closureTag) (hi : ∀ i, i < 2 ^ 22 → m (v + 8 * i) % 2 = 1) {al : Alloc}
    (hat : ∀ t, size 8 m0 (atomAddr al.base t) = 0) (hb : 0 < al.base) :
    ∃ bs w m' rest, externCompact m 2 v = .ok bs ∧ internVal al m0 2 bs = .ok (w, m', rest) ∧
      w = atomAddr al.base (tag 8 m v) ∧ ¬ ∃ φ, Iso 8 .little al.base m m' φ v w := by
  have hsz' : wosizeHd (m (v - 8)) = 2 ^ 22 := hsz
  have ht' : tagHd (m (v - 8)) < closureTag := ht
  unfold closureTag at ht'
  have he : emitCp m 2 v ⟨[], [], 0, 0, 0⟩ = .ok ⟨outNumber 8 (m (v - 8)) 4 ++
      (fields 8 m v (2 ^ 22)).flatMap (fun v => cpInt (longVal v)), [(v, 0)], 1, 1 + 2 ^ 22, 1 + 2 ^ 22⟩ := by
    rw [emitCp, if_neg (by omega)]
    dsimp only
    rw [hsz', if_neg (by decide)]
    simp only [lookupTab]
    rw [if_neg (by unfold stringTag; omega), if_neg (by unfold doubleTag; omega),
      if_neg (by unfold abstractTag finalTag; omega), if_neg (by unfold closureTag; omega),
      emitList_ints _ _ (by intro w hw; obtain ⟨i, hi', rfl⟩ := mem_fields.1 hw; exact hi i hi')]
    unfold cpHeader
    rw [if_neg (by rw [hsz']; simp)]
    simp
  obtain ⟨hd, hhd⟩ : ∃ hd, hd = m (v - 8) := ⟨_, rfl⟩
  rw [← hhd] at he hsz' ht'
  have hd64 : hd < 2 ^ 64 := hhd ▸ hm _
  obtain ⟨body, hbody⟩ : ∃ body, body = (fields 8 m v (2 ^ 22)).flatMap (fun v => cpInt (longVal v)) := ⟨_, rfl⟩
  rw [← hbody] at he
  have hmod : (leBytes 4 hd).reverse = (leBytes 4 (hd % 2 ^ 32)).reverse := by
    congr 1
    simp only [leBytes, List.cons.injEq, and_true]
    refine ⟨?_, ?_, ?_, ?_⟩ <;> omega
  have hread : readCp al.base al.color 2 0 ⟨outNumber 8 hd 4 ++ body, m0, al.start, []⟩ =
      .ok ⟨body, upd m0 0 (atomAddr al.base (tagHd hd)), al.start, []⟩ := by
    unfold outNumber
    rw [toNat_cast_mod (by omega), List.cons_append, code_8]
    unfold withBytes
    dsimp only
    rw [hmod, input_unsigned 4 _ body (by decide) (by omega)]
    dsimp only
    unfold readBlock
    rw [if_pos (by unfold wosizeHd at *; omega)]
    have : tagHd ((hd % 2 ^ 32 : Nat) : Int).toNat = tagHd hd := by unfold tagHd; omega
    rw [this]
  have g : (1 + 2 ^ 22) % 2 ^ 32 = 1 + 2 ^ 22 := by decide
  refine ⟨putword compactMagic ++ putword 1 ++ putword (1 + 2 ^ 22) ++ putword (1 + 2 ^ 22) ++ (outNumber 8 hd 4 ++ body),
    _, upd m0 0 (atomAddr al.base (tagHd hd)), body, ?_, ?_, rfl, ?_⟩
  · unfold externCompact
    rw [he]
    dsimp only
    rw [if_neg (by decide)]
  · unfold internVal
    simp only [List.append_assoc]
    rw [getword_putword]
    dsimp only
    rw [if_neg (by decide), if_pos (by decide)]
    unfold internCompact
    rw [getword_putword]
    dsimp only
    rw [getword_putword]
    dsimp only
    rw [getword_putword, g]
    dsimp only
    rw [if_neg (by decide), hread]
    dsimp only
    rw [upd_same, hhd]
    rfl
  · rintro ⟨φ, h⟩
    rcases h.root with hr | hr | ⟨-, -, hr⟩
    · omega
    · omega
    · have := (h.blks _ _ hr (by unfold closureTag at ht; unfold stringTag; omega) (by unfold closureTag at ht; unfold doubleTag; omega)).1
      rw [hsz] at this
      unfold size at this
      rw [upd_other (by unfold atomAddr; omega)] at this
      have h0 := hat (tag 8 m v)
      unfold size at h0
      omega

/-- the hypotheses can be met -/
example : let m : Mem := fun a => if a = 8 then mkHeader (2 ^ 22) 0 0 else 1
    (∀ a, m a < 2 ^ 64) ∧ size 8 m 16 = 2 ^ 22 ∧ tag 8 m 16 < closureTag ∧ ∀ i, i < 2 ^ 22 → m (16 + 8 * i) % 2 = 1 := by
  intro m
  refine ⟨?_, by decide, by decide, ?_⟩
  · intro a; show (if a = 8 then _ else _) < _; split_ifs <;> decide
  · intro i _; show (if 16 + 8 * i = 8 then _ else _) % 2 = 1; rw [if_neg (by omega)]

/-! ### C18 -/

/-- C18: a dump written by a 32-bit machine of either byte order is read on the 64-bit machine as an isomorphic graph: ints
sign-extended, the same strings and reals; provided no block has 2^21 words or more. -/
theorem C18_expand_partial {e : Endian} {m m0 : Mem} {S : List Nat} {v : Nat} (hG : Graph 4 e m S v)
    (hv : v % 2 = 0) (hne : size 4 m v ≠ 0) (hw : words 4 m S * 4 < 2 ^ 32) (hs : ∀ a ∈ S, size 4 m a < 2 ^ 21)
    {al : Alloc} (hc : al.color < 1024) (hc' : al.color % 256 = 0) {fuel : Nat} (hf : S.length < fuel) (fuel' : Nat) :
    ∃ bs φ m', externVal 4 e m fuel v = .ok bs ∧
      (∀ rest, internVal al m0 fuel' (bs ++ rest) = .ok (al.start + 8, m', rest)) ∧
      Iso 4 e al.base m m' φ v (al.start + 8) ∧
      ∀ a, a < al.start ∨ al.start + 8 * words 4 m S ≤ a → m' a = m0 a :=
  roundTrip32 hG hv hne hf hw hs hc hc' fuel'

/-- a 32-bit cyclic graph: a block at 16 of (itself, the string "ab" at 32, the int ~1) -/
def sample32 : Mem := memOf [(12, mkHeader 3 3 0), (16, 16), (20, 32), (24, 2 ^ 32 - 1), (28, mkHeader 1 253 0), (32, 0x01006261)]

theorem sample32_graph : Graph 4 .little sample32 [16, 32] 16 where
  word := memOf_lt (by decide) (by decide)
  nodup := by decide
  root := by decide
  even := by decide
  nonempty := by decide
  data := by decide
  strs := by decide
  dbls := by decide
  closed := by decide

example : ∃ bs φ m', externVal 4 .little sample32 10 16 = .ok bs ∧
    (∀ rest, internVal ⟨2000, 1000, 768⟩ (fun _ => 0) 0 (bs ++ rest) = .ok (1008, m', rest)) ∧
    Iso 4 .little 2000 sample32 m' φ 16 1008 ∧
    ∀ a, a < 1000 ∨ 1000 + 8 * words 4 sample32 [16, 32] ≤ a → m' a = 0 :=
  C18_expand_partial (al := ⟨2000, 1000, 768⟩) sample32_graph (by decide) (by decide) (by decide) (by decide) (by decide)
    (by decide) (by decide) 0

/-- C18 for ints at top level: right exactly for those that are not negative -/
theorem C18_int_iff {e : Endian} {m m0 : Mem} {v : Nat} (hv : v % 2 = 1) (h32 : v < 2 ^ 32) (al : Alloc) (fuel fuel' : Nat)
    (rest : Bytes) : ∃ bs w, externVal 4 e m (fuel + 1) v = .ok bs ∧
      internVal al m0 fuel' (bs ++ rest) = .ok (w, m0, rest) ∧ (w = sext32 v ↔ v < 2 ^ 31) := by
  obtain ⟨bs, h1, h2⟩ := scalar_back (W := 4) (e := e) (m := m) (m0 := m0) hv al fuel fuel' rest
  refine ⟨bs, _, h1, h2, ?_⟩
  unfold sext32
  split_ifs <;> omega

/-- C18 fails for negative ints: the 32-bit ~1 is read as 2147483647 -/
theorem C18_negative_violation (e : Endian) (m m0 : Mem) (al : Alloc) (fuel fuel' : Nat) :
    ∃ bs w, externVal 4 e m (fuel + 1) (2 ^ 32 - 1) = .ok bs ∧ internVal al m0 fuel' bs = .ok (w, m0, []) ∧
      longVal w = 2147483647 := by
  obtain ⟨bs, h1, h2⟩ := scalar_back (W := 4) (e := e) (m := m) (m0 := m0) (v := 2 ^ 32 - 1) (by decide) al fuel fuel' []
  rw [List.append_nil] at h2
  exact ⟨bs, _, h1, h2, by decide⟩

/-- C18 fails for blocks of 2^21 words or more, e.g. a string of 8 megabytes: the 32-bit header is sign-extended, and the
reader asks for more than 2^52 words of memory. -/
theorem C18_large_violation {n t : Nat} (hn : 2 ^ 21 ≤ n) (hn' : n < 2 ^ 22) (ht : t < 256) (ht' : t ≠ doubleTag) (fuel : Nat)
    (ws : List Nat) : 2 ^ 52 < sizeAfter (fuel + 1) (mkHeader n t black :: ws) := by
  have h1 : 2 ^ 53 < wosizeHd (sext32 (mkHeader n t black)) := by
    unfold sext32
    rw [if_neg (by unfold mkHeader black; omega)]
    unfold wosizeHd mkHeader black
    omega
  have h2 : tagHd (sext32 (mkHeader n t black)) = t := by
    unfold sext32
    rw [if_neg (by unfold mkHeader black; omega)]
    unfold tagHd mkHeader black
    omega
  rw [sizeAfter, h2, if_neg ht']
  split_ifs <;> omega

example : 2 ^ 52 < sizeAfter 1 (mkHeader (2 ^ 21) 253 black :: List.replicate (2 ^ 21) 0) :=
  C18_large_violation (by decide) (by decide) (by decide) (by decide) 0 _

/-! ### C19 -/

/-- C19 fails for every value that is a block: `mlval_string` of `string_mlval`'s result always raises an exception.  The
upper half of the word that holds the size is overwritten by the first header, which is never 0. -/
theorem C19_block_violation {m m0 : Mem} {S : List Nat} {v : Nat} (hG : Graph 8 .little m S v)
    (hv : v % 2 = 0) (hne : size 8 m v ≠ 0) (hw : words 8 m S < 2 ^ 32) {fuel : Nat} (hf : S.length < fuel) (al : Alloc) :
    ∃ blk msg, stringMlval m fuel v = .ok blk ∧ mlvalString al m0 blk = .exn msg := by
  obtain ⟨T, h1, hT, hk, hkv, h2, -⟩ := emitAll_spec hG.nodup hG.writable hG.closed hG.root hf
  obtain ⟨T', h3⟩ := h2 hv hne
  have hl := length_flat_chunk 8 m T T
  have hsp := hT.span_le
  have hsp1 : size 8 m v + 1 ≤ span 8 m T := by rw [h3, span]; omega
  obtain ⟨blk, hblk⟩ : ∃ blk, blk = (leBytes 8 (span 8 m T)).take 4 ++ (T.flatMap (chunk 8 m T)).flatMap (leBytes 8) ++ [0, 0, 0, 3] :=
    ⟨_, rfl⟩
  have hext : stringMlval m fuel v = .ok blk := by
    unfold stringMlval
    rw [h1]
    dsimp only
    rw [hl, if_neg (by omega), hblk]
  have hfl : ((T.flatMap (chunk 8 m T)).flatMap (leBytes 8)).length = span 8 m T * 8 := by
    rw [← hl]; exact length_flat_bytes .little 8 _
  have hlen : blk.length = 8 + span 8 m T * 8 := by
    rw [hblk, List.length_append, List.length_append, List.length_take, length_leBytes, hfl]; simp; omega
  have hstr : strLen blk = 4 + span 8 m T * 8 := by
    have : blk.getD (blk.length - 1) 0 = 3 := by
      rw [hlen, hblk, List.getD_append_right _ _ _ _ (by
        rw [List.length_append, List.length_take, length_leBytes, hfl]; omega), List.length_append, List.length_take,
        length_leBytes, hfl, show 8 + span 8 m T * 8 - 1 - (min 4 8 + span 8 m T * 8) = 3 by omega]
      rfl
    unfold strLen
    dsimp only
    rw [this, hlen]
    rw [if_pos (by decide)]
    omega
  have hhead : ∃ tl, blk = leBytes 4 (span 8 m T) ++ (leBytes 4 (mkHeader (size 8 m v) (tag 8 m v) black) ++ tl) := by
    have ht4 : (leBytes 8 (span 8 m T)).take 4 = leBytes 4 (span 8 m T) := by simp [leBytes]
    rw [hblk, ht4, h3, List.flatMap_cons, List.append_assoc]
    unfold chunk
    rw [List.cons_append, List.flatMap_cons]
    have h8 : leBytes 8 (mkHeader (size 8 m v) (tag 8 m v) black) = leBytes 4 (mkHeader (size 8 m v) (tag 8 m v) black) ++
        (leBytes 8 (mkHeader (size 8 m v) (tag 8 m v) black)).drop 4 := by simp [leBytes]
    rw [h8]
    simp only [List.append_assoc]
    exact ⟨_, rfl⟩
  obtain ⟨tl, htl⟩ := hhead
  have hwh : ofLe (blk.take 8) = span 8 m T % 256 ^ 4 + 256 ^ 4 * (mkHeader (size 8 m v) (tag 8 m v) black % 256 ^ 4) := by
    rw [htl, ← List.append_assoc, List.take_left' (by simp [length_leBytes]), ofLe_append, ofLe_leBytes, ofLe_leBytes,
      length_leBytes]
  have hbig : 256 ^ 4 * 768 ≤ ofLe (blk.take 8) := by
    rw [hwh]
    have : 768 ≤ mkHeader (size 8 m v) (tag 8 m v) black % 256 ^ 4 := by
      have := tag_lt 8 m v
      unfold mkHeader black
      omega
    omega
  have hspl : span 8 m T < 2 ^ 32 := by unfold words at hw; unfold words at hsp; omega
  obtain ⟨wh, hwhdef⟩ : ∃ wh, wh = ofLe (blk.take 8) := ⟨_, rfl⟩
  by_cases hc : wh - 1 > 2 ^ 54 - 1
  · refine ⟨blk, "mlval_string: structure too big", hext, ?_⟩
    unfold mlvalString
    rw [← hwhdef] at hbig ⊢
    dsimp only
    rw [if_neg (by omega), if_pos hc]
  · refine ⟨blk, "mlval_string: truncated object", hext, ?_⟩
    unfold mlvalString
    rw [← hwhdef] at hbig ⊢
    dsimp only
    rw [if_neg (by omega), if_neg hc, if_pos (by omega)]

example : ∃ blk msg, stringMlval sample 10 16 = .ok blk ∧ mlvalString ⟨2000, 1000, 768⟩ (fun _ => 0) blk = .exn msg :=
  C19_block_violation sample_graph (by decide) (by decide) (by decide) (by decide) _

theorem stringMlval_int {m : Mem} {v : Nat} (hv : v % 2 = 1) (fuel : Nat) :
    stringMlval m (fuel + 1) v = .ok (leBytes 8 0 ++ leBytes 8 v) := by
  unfold stringMlval emitAll emit scanLoop
  simp [hv]

/-- C19 for ints: those between -2^55 and 2^55 - 1 survive the trip through the database -/
theorem C19_int_partial {m m0 : Mem} {n : Int} (hn : -2 ^ 55 ≤ n ∧ n < 2 ^ 55) (al : Alloc) (fuel : Nat) :
    ∃ blk blk', stringMlval m (fuel + 1) (valLong n) = .ok blk ∧ throughDb blk = some blk' ∧
      mlvalString al m0 blk' = .ok (valLong n, m0) := by
  have hodd : valLong n % 2 = 1 := by unfold valLong; omega
  have hrange : valLong n < 2 ^ 56 ∨ (2 ^ 64 - 2 ^ 56 ≤ valLong n ∧ valLong n < 2 ^ 64) := by unfold valLong; omega
  obtain ⟨v, hv⟩ : ∃ v, v = valLong n := ⟨_, rfl⟩
  rw [← hv] at hodd hrange ⊢
  obtain ⟨l, t, hlt, hl7, ht⟩ : ∃ l t, leBytes 8 v = l ++ [t] ∧ l.length = 7 ∧ (t = 0 ∨ t = 255) := by
    refine ⟨leBytes 7 v, v / 2 ^ 56 % 256, ?_, length_leBytes 7 v, by omega⟩
    simp only [leBytes, List.cons_append, List.nil_append, List.cons.injEq, and_true, true_and]
    omega
  have hback : ofLe (l ++ [t]) = v := by
    rw [← hlt, ofLe_leBytes, Nat.mod_eq_of_lt (by omega)]
  have hgd : (leBytes 8 0 ++ (l ++ [t])).getD 15 0 = t := by
    rw [← List.append_assoc, List.getD_append_right _ _ _ _ (by simp [length_leBytes, hl7])]
    simp [length_leBytes, hl7]
  have hlen : (leBytes 8 0 ++ (l ++ [t])).length = 16 := by simp [length_leBytes, hl7]
  have h0 : leBytes 8 0 = List.replicate 8 0 := by decide
  refine ⟨leBytes 8 0 ++ (l ++ [t]), leBytes 8 0 ++ (l ++ [t]) ++ (if t = 0 then [] else [0, 0, 0, 0, 0, 0, 0, 7]), ?_, ?_, ?_⟩
  · rw [stringMlval_int hodd, hlt]
  · have hs : strLen (leBytes 8 0 ++ (l ++ [t])) = if t = 0 then 15 else 16 := by
      unfold strLen
      dsimp only
      rw [hlen, hgd]
      rcases ht with rfl | rfl <;> decide
    unfold throughDb
    rw [hs, hlen]
    rcases ht with rfl | rfl
    · rw [if_pos rfl, if_pos (by decide), if_pos rfl]
      unfold mkString
      rw [← List.append_assoc, List.take_left' (by simp [length_leBytes, hl7])]
      simp [length_leBytes, hl7]
    · have e16 : (if 255 = 0 then 15 else 16) = 16 := rfl
      rw [e16, if_pos (by decide), if_neg (by decide), List.take_of_length_le (by rw [hlen])]
      unfold mkString
      dsimp only
      rw [hlen]
      simp
  · unfold mlvalString
    dsimp only
    have h8 : (leBytes 8 0).length = 8 := length_leBytes 8 0
    rw [List.append_assoc, List.take_left' h8, List.drop_left' h8, List.take_left' (by simp [hl7]), hback,
      if_pos (by decide), if_pos hodd]

example : (-2 ^ 55 : Int) ≤ -1 ∧ (-1 : Int) < 2 ^ 55 := by decide

/-- C19 fails for large ints: 2^55 + 2^47 comes back as 2^55 -/
theorem C19_large_int_violation (m m0 : Mem) (al : Alloc) (fuel : Nat) :
    ∃ blk blk', stringMlval m (fuel + 1) (valLong (2 ^ 55 + 2 ^ 47)) = .ok blk ∧ throughDb blk = some blk' ∧
      mlvalString al m0 blk' = .ok (valLong (2 ^ 55), m0) := by
  refine ⟨_, mkString ((leBytes 8 0 ++ leBytes 8 (valLong (2 ^ 55 + 2 ^ 47))).take 14),
    stringMlval_int (by decide) fuel, by decide, ?_⟩
  unfold mlvalString
  dsimp only
  rw [if_pos (by decide), if_pos (by decide)]
  congr 1
  
end Mosml.Marshal
