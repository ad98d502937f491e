import Verif.Marshal.LemmasExpand
import Verif.Marshal.LemmasCpSim

/-! The round trips, from the writer's root to the reader's root. -/
namespace Mosml.Marshal

theorem externVal_block {W : Nat} {e : Endian} {m : Mem} {S : List Nat} {v : Nat} (hG : Graph W e m S v)
    (hv : v % 2 = 0) (hne : size W m v ≠ 0) {fuel : Nat} (hf : S.length < fuel) :
    ∃ T T', T = (v, W) :: T' ∧ TabOk W m S T ∧ (∀ x ∈ T, KnownObj W m T x.1) ∧ Known W m T v ∧
      span W m T ≤ words W m S ∧ (T.flatMap (chunk W m T)).length = span W m T ∧
      externVal W e m fuel v = .ok (putword (fastMagic W e) ++ (putword (span W m T) ++
        ((T.flatMap (chunk W m T)).flatMap (wordBytes e W)).take (span W m T * W % 2 ^ 32))) := by
  obtain ⟨T, h1, hT, hk, hkv, h2, -⟩ := emitAll_spec hG.nodup hG.writable hG.closed hG.root hf
  obtain ⟨T', h3⟩ := h2 hv hne
  have hl := length_flat_chunk W m T T
  refine ⟨T, T', h3, hT, hk, hkv, hT.span_le, hl, ?_⟩
  unfold externVal
  rw [h1]
  dsimp only
  rw [hl, if_neg, List.append_assoc]
  rw [h3, span]; omega

theorem fastMagic_range (W : Nat) (e : Endian) :
    ¬ (fastMagic W e % 2 ^ 32 < baseMagic ∨ fastMagic W e % 2 ^ 32 > baseMagic + 4) ∧
    fastMagic W e % 2 ^ 32 ≠ compactMagic ∧ fastMagic W e % 2 ^ 32 = fastMagic W e := by
  unfold fastMagic compactMagic baseMagic
  refine ⟨?_, ?_, ?_⟩ <;> split_ifs <;> simp

theorem corr_root {len : Nat → Nat} {start v o : Nat} {T' : List (Nat × Nat)} :
    corr len start ((v, o) :: T') v = some (start + 8) := by
  unfold corr
  rw [if_pos (by simp)]
  simp [pre]

theorem roundTrip64 {e : Endian} {m m0 : Mem} {S : List Nat} {v : Nat} (hG : Graph 8 e m S v)
    (hv : v % 2 = 0) (hne : size 8 m v ≠ 0) {fuel : Nat} (hf : S.length < fuel) (hw : words 8 m S * 8 < 2 ^ 32)
    {al : Alloc} (hc : al.color < 1024) (hc' : al.color % 256 = 0) (fuel' : Nat) :
    ∃ bs φ m', externVal 8 e m fuel v = .ok bs ∧
      (∀ tl, internVal al m0 fuel' (bs ++ tl) = .ok (al.start + 8, m', tl)) ∧
      Iso 8 e al.base m m' φ v (al.start + 8) ∧
      ∀ a, a < al.start ∨ al.start + 8 * words 8 m S ≤ a → m' a = m0 a := by
  obtain ⟨T, T', h3, hT, hk, hkv, hsp, hl, h1⟩ := externVal_block hG hv hne hf
  obtain ⟨g1, g2, g3⟩ := fastMagic_range 8 e
  have hF : Fits 8 m T T := fits (by decide) hG hT hk (by omega)
  have hlen := length_le_span 8 m T
  refine ⟨_, _, _, h1, ?_, iso64 hG hT hk hc hc' (m0 := m0) (start := al.start) ?_, ?_⟩
  · intro tl
    unfold internVal
    rw [List.append_assoc, getword_putword]
    dsimp only
    rw [if_neg g1, if_neg g2, g3]
    unfold internFast
    rw [List.append_assoc, getword_putword, Nat.mod_eq_of_lt (by omega)]
    dsimp only
    rw [if_neg (by rw [h3, span]; omega), if_neg (by cases e <;> decide)]
    have hb := getBlock_flat (e := e) (W := 8) (tl := tl) (chunk_words hF) (by rw [hl]; omega)
    rw [hl] at hb
    rw [hb]
    dsimp only
    rw [sw64 hG hT hF hlen, adjust64 e al.base al.start al.color m T T _ hlen]
  · refine .inr (.inr ⟨hv, hne, ?_⟩)
    rw [h3]; exact corr_root
  · intro a ha
    apply store_frame
    have : (T.flatMap (fun x => mkHeader (size 8 m x.1) (tag 8 m x.1) al.color :: body2 e al.base al.start m T x.1)).length =
        span 8 m T := by
      have hb : ∀ a, (body2 e al.base al.start m T a).length = size 8 m a := by
        intro a; unfold body2; split_ifs <;> simp [length_body1]
      have : ∀ U : List (Nat × Nat), (U.flatMap (fun x => mkHeader (size 8 m x.1) (tag 8 m x.1) al.color ::
          body2 e al.base al.start m T x.1)).length = span 8 m U := by
        intro U
        induction U with
        | nil => rfl
        | cons x U ih => rw [List.flatMap_cons, List.length_append, ih, span, List.length_cons, hb]; omega
      exact this T
    rw [this]; omega

theorem roundTrip32 {e : Endian} {m m0 : Mem} {S : List Nat} {v : Nat} (hG : Graph 4 e m S v)
    (hv : v % 2 = 0) (hne : size 4 m v ≠ 0) {fuel : Nat} (hf : S.length < fuel) (hw : words 4 m S * 4 < 2 ^ 32)
    (hs : ∀ a ∈ S, size 4 m a < 2 ^ 21)
    {al : Alloc} (hc : al.color < 1024) (hc' : al.color % 256 = 0) (fuel' : Nat) :
    ∃ bs φ m', externVal 4 e m fuel v = .ok bs ∧
      (∀ tl, internVal al m0 fuel' (bs ++ tl) = .ok (al.start + 8, m', tl)) ∧
      Iso 4 e al.base m m' φ v (al.start + 8) ∧
      ∀ a, a < al.start ∨ al.start + 8 * words 4 m S ≤ a → m' a = m0 a := by
  obtain ⟨T, T', h3, hT, hk, hkv, hsp, hl, h1⟩ := externVal_block hG hv hne hf
  obtain ⟨g1, g2, g3⟩ := fastMagic_range 4 e
  have hF : Fits 4 m T T := fits (by decide) hG hT hk (by omega)
  have hO : Ok32 m T := ⟨fun x hx => hG.nonempty _ (hT.sub x hx), fun x hx => hs _ (hT.sub x hx),
    fun x hx h => by have := hG.dbls _ (hT.sub x hx) h; omega⟩
  have hlen := length_le_span 4 m T
  refine ⟨_, _, _, h1, ?_, iso32 hG hT hk hO (by omega) hc hc' (m0 := m0) (start := al.start) ?_, ?_⟩
  · intro tl
    unfold internVal
    rw [List.append_assoc, getword_putword]
    dsimp only
    rw [if_neg g1, if_neg g2, g3]
    unfold internFast
    rw [List.append_assoc, getword_putword, Nat.mod_eq_of_lt (by omega)]
    dsimp only
    rw [if_neg (by rw [h3, span]; omega), if_pos (by cases e <;> decide)]
    have hb := getBlock_flat (e := e) (W := 4) (tl := tl) (chunk_words hF) (by rw [hl]; omega)
    rw [hl] at hb
    rw [hb]
    dsimp only
    rw [sw32 hO hF hlen]
    have he := expand1_spec e al.color m T T (span 4 m T) [] [] hO hlen
    simp only [List.nil_append, List.length_nil] at he
    rw [he]
    dsimp only
    rw [expand2_spec e al.base al.start al.color _ m T hc hc' T _ (sizeAfter_ge e m T T _ hO hlen)]
  · refine .inr (.inr ⟨hv, hne, ?_⟩)
    rw [h3]; exact corr_root
  · intro a ha
    apply store_frame
    have : (T.flatMap (fun x => mkHeader (newSize m x.1) (tag 4 m x.1) al.color ::
        body4 e al.base al.start (fwdSrc e m T 0 T) m T x.1)).length ≤ span 4 m T := by
      have : ∀ U : List (Nat × Nat), Ok32 m U → (U.flatMap (fun x => mkHeader (newSize m x.1) (tag 4 m x.1) al.color ::
          body4 e al.base al.start (fwdSrc e m T 0 T) m T x.1)).length ≤ span 4 m U := by
        intro U
        induction U with
        | nil => intro _; exact Nat.le_refl _
        | cons x U ih =>
          intro hU
          have i1 := ih hU.tail
          have i2 := newSize_le hU (List.mem_cons_self (a := x))
          rw [List.flatMap_cons, List.length_append, span, List.length_cons, length_body4]; omega
      exact this T hO
    omega

theorem cor_mem {K O : List Nat} {a b : Nat} (h : cor K O a = some b) : (a, b) ∈ K.zip O := lookup_mem h

theorem zip_inj : ∀ {K O : List Nat} {a a' b : Nat}, O.Nodup → (a, b) ∈ K.zip O → (a', b) ∈ K.zip O → a = a'
  | [], _, _, _, _, _, h, _ => by simp at h
  | k :: K, [], _, _, _, _, h, _ => by simp at h
  | k :: K, o :: O, a, a', b, hn, h, h' => by
    rw [List.nodup_cons] at hn
    simp only [List.zip_cons_cons, List.mem_cons, Prod.mk.injEq] at h h'
    have hz : ∀ x, (x, b) ∈ K.zip O → b ∈ O := fun x hx => (List.of_mem_zip hx).2
    rcases h with ⟨r1, r2⟩ | h <;> rcases h' with ⟨r3, r4⟩ | h'
    · rw [r1, r3]
    · exact absurd (r2 ▸ hz _ h') hn.1
    · exact absurd (r4 ▸ hz _ h) hn.1
    · exact zip_inj hn.2 h h'

theorem roundTripCp {m m0 : Mem} {S : List Nat} {v : Nat} (hG : Graph 8 .little m S v) (hv : v < 2 ^ 64)
    {fuel fuel' : Nat} (hf : S.length < fuel) (hf' : fuel' = fuel) (hw : 2 * words 8 m S < 2 ^ 32)
    (hb : ∀ a ∈ S, tag 8 m a ≠ stringTag → tag 8 m a ≠ doubleTag → size 8 m a < 2 ^ 22)
    (hs : ∀ a ∈ S, tag 8 m a = stringTag → size 8 m a ≤ 2 ^ 29)
    {al : Alloc} (hc : al.color < 1024) (hc' : al.color % 256 = 0) (hst : 8 ≤ al.start) (tl : Bytes) :
    ∃ bs φ w m', externCompact m fuel v = .ok bs ∧
      internVal al m0 fuel' (bs ++ tl) = .ok (w, m', tl) ∧
      Iso 8 .little al.base m m' φ v w ∧
      ∀ a, a ≠ 0 → a < al.start ∨ al.start + 8 * words 8 m S ≤ a → m' a = m0 a := by
  subst hf'
  have hcount : S.length ≤ words 8 m S := by
    unfold words
    clear * -
    induction S with
    | nil => exact Nat.le_refl _
    | cons a S ih => rw [List.length_cons, total]; omega
  have hF : CpFits m S := ⟨hb, hs, by omega⟩
  obtain ⟨bs, N, N', k, k32, mem', e1, r1, q1, P1, F1, R1⟩ : ∃ bs N N' k k32 mem',
      emitCp m fuel' v ⟨[], [], 0, 0, 0⟩ = .ok ⟨bs, N.zipIdx, N.length, k32, k⟩ ∧
      readCp al.base al.color fuel' 0 ⟨bs ++ tl, m0, al.start, []⟩ = .ok ⟨tl, mem', al.start + 8 * k, N'⟩ ∧
      k32 ≤ 2 * k ∧ Post al.base m S [] [] N N' al.start k m0 mem' ∧
      (∀ a, a < al.start → a ≠ 0 → mem' a = m0 a) ∧
      Rel 8 al.base m (cor N N') v (mem' 0) := by
    obtain ⟨bs, N, N', k, k32, mem', e1, r1, q1, P1, F1, R1⟩ :=
      simV (base := al.base) (color := al.color) hG.word hG.data hG.nonempty hG.even hG.strs
        (fun a h1 h2 => by have := hG.dbls a h1 h2; omega) hG.closed hF hc hc' fuel' v [] [] al.start 0 m0 [] tl 0 0
        (by simp) (by simp) rfl (by simpa using hf) hG.root hv (by omega)
    simp only [List.nil_append, List.zipIdx_nil, List.length_nil, Nat.zero_add] at e1 r1 R1
    exact ⟨bs, N, N', k, k32, mem', e1, r1, q1, P1, F1, R1⟩
  have hk : k ≤ words 8 m S := by
    rw [P1.k_eq]
    have := P1.nodup
    rw [List.nil_append] at this
    exact total_subset this P1.sub
  have hdist : N'.Nodup := P1.dist
  have hobj : ∀ a b, cor N N' a = some b → ObjOk al.base m mem' (cor N N') a b := by
    intro a b h
    have := (P1.objs (a, b) (cor_mem h)).2.2
    rw [List.nil_append, List.nil_append] at this
    exact this
  refine ⟨putword compactMagic ++ putword N.length ++ putword k32 ++ putword k ++ bs, cor N N', mem' 0, mem', ?_, ?_, ?_, ?_⟩
  · unfold externCompact
    rw [e1]
    dsimp only
    rw [if_neg (by omega)]
  · have g : ∀ k, k < 2 ^ 32 → k % 2 ^ 32 = k := fun k h => Nat.mod_eq_of_lt h
    unfold internVal
    simp only [List.append_assoc]
    rw [getword_putword]
    dsimp only
    rw [if_neg (by decide), if_pos (by decide)]
    unfold internCompact
    rw [getword_putword]
    dsimp only
    rw [getword_putword]
    dsimp only
    rw [getword_putword, g k (by omega)]
    dsimp only
    rw [if_neg (by omega), r1]
  · refine ⟨R1, ?_, ?_, ?_, ?_, ?_⟩
    · intro a a' b h h'
      exact zip_inj hdist (cor_mem h) (cor_mem h')
    · intro a b h; exact (hobj a b h).1
    · intro a b h; exact (hobj a b h).3
    · intro a b h; exact (hobj a b h).4
    · intro a b h h1 h2; exact ⟨(hobj a b h).2, (hobj a b h).5 h1 h2⟩
  · intro a h0 ha
    rcases ha with ha | ha
    · exact F1 a ha h0
    · exact P1.above a (by omega)

end Mosml.Marshal
