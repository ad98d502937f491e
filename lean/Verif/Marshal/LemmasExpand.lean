import Verif.Marshal.LemmasIso
import Mathlib.Data.List.GetD

/-! Reading the dump of a 32-bit machine on a 64-bit machine. -/
namespace Mosml.Marshal

def newSize (m : Mem) (a : Nat) : Nat :=
  if tag 4 m a = stringTag then (size 4 m a * 4 + 7) / 8 else if tag 4 m a = doubleTag then 1 else size 4 m a

def ext (w : Nat) : Nat := if w % 2 = 0 then w else sext32 w

/-- the body of an object after the first pass -/
def body3 (e : Endian) (m : Mem) (U : List (Nat × Nat)) (a : Nat) : List Nat :=
  if tag 4 m a = stringTag then expandString (size 4 m a) (body1 4 e m U a)
  else if tag 4 m a = doubleTag then [(body1 4 e m U a).getD 0 0 + 2 ^ 32 * (body1 4 e m U a).getD 1 0]
  else (body1 4 e m U a).map ext

theorem length_readWords (W : Nat) : ∀ n s, (readWords W n s).length = n
  | 0, _ => rfl
  | n + 1, s => by rw [readWords, List.length_cons, length_readWords W n]

theorem length_expandString (sz : Nat) (ws : List Nat) : (expandString sz ws).length = (sz * 4 + 7) / 8 := by
  unfold expandString; exact length_readWords _ _ _

theorem length_body3 (e : Endian) (m : Mem) (U : List (Nat × Nat)) (a : Nat) :
    (body3 e m U a).length = newSize m a := by
  unfold body3 newSize
  split_ifs
  · exact length_expandString _ _
  · rfl
  · rw [List.length_map, length_body1]

/-- the source after the first pass: the first field of every object is its forwarding offset -/
def fwdSrc (e : Endian) (m : Mem) (U : List (Nat × Nat)) : Nat → List (Nat × Nat) → List Nat
  | _, [] => []
  | d, x :: T => (mkHeader (size 4 m x.1) (tag 4 m x.1) black :: (body1 4 e m U x.1).set 0 ((d + 1) % 2 ^ 32)) ++
      fwdSrc e m U (d + 1 + newSize m x.1) T

/-- what the 32-bit machine guarantees about the objects in the table -/
structure Ok32 (m : Mem) (T : List (Nat × Nat)) : Prop where
  ne : ∀ x ∈ T, size 4 m x.1 ≠ 0
  lt : ∀ x ∈ T, size 4 m x.1 < 2 ^ 21
  dbl : ∀ x ∈ T, tag 4 m x.1 = doubleTag → size 4 m x.1 = 2

theorem Ok32.tail {m : Mem} {T : List (Nat × Nat)} {x : Nat × Nat} (h : Ok32 m (x :: T)) : Ok32 m T :=
  ⟨fun y hy => h.ne y (List.mem_cons_of_mem _ hy), fun y hy => h.lt y (List.mem_cons_of_mem _ hy),
    fun y hy => h.dbl y (List.mem_cons_of_mem _ hy)⟩

theorem hdr32 {m : Mem} {a : Nat} (h : size 4 m a < 2 ^ 21) :
    sext32 (mkHeader (size 4 m a) (tag 4 m a) black) = mkHeader (size 4 m a) (tag 4 m a) black := by
  have := tag_lt 4 m a
  apply sext32_lo
  unfold mkHeader black; omega

theorem expandString_take (sz : Nat) (ws tl : List Nat) (h : ws.length = sz) :
    expandString sz (ws ++ tl) = expandString sz ws := by
  unfold expandString
  rw [List.take_left' h, List.take_of_length_le (le_of_eq h)]

theorem expand1_spec (e : Endian) (color : Nat) (m : Mem) (U : List (Nat × Nat)) :
    ∀ (T : List (Nat × Nat)) (fuel : Nat) (P dest : List Nat), Ok32 m T → T.length ≤ fuel →
    expand1 color fuel (P ++ T.flatMap (chunk1 4 e m U)) P.length dest =
      (P ++ fwdSrc e m U dest.length T,
        dest ++ T.flatMap (fun x => mkHeader (newSize m x.1) (tag 4 m x.1) color :: body3 e m U x.1))
  | [], 0, P, dest, _, _ => by simp [expand1, fwdSrc]
  | [], fuel + 1, P, dest, _, _ => by simp [expand1, fwdSrc]
  | x :: T, 0, P, dest, _, h => by simp at h
  | x :: T, fuel + 1, P, dest, hO, h => by
    have hl := length_body1 4 e m U x.1
    have hl3 := length_body3 e m U x.1
    have hne := hO.ne x List.mem_cons_self
    obtain ⟨f, hf⟩ : ∃ f, f = (dest.length + 1) % 2 ^ 32 := ⟨_, rfl⟩
    have hsrc : P ++ (x :: T).flatMap (chunk1 4 e m U) =
        P ++ mkHeader (size 4 m x.1) (tag 4 m x.1) black :: (body1 4 e m U x.1 ++ T.flatMap (chunk1 4 e m U)) := by
      simp [chunk1]
    have hset : (P ++ (x :: T).flatMap (chunk1 4 e m U)).set (P.length + 1) f =
        (P ++ mkHeader (size 4 m x.1) (tag 4 m x.1) black :: (body1 4 e m U x.1).set 0 f) ++
          T.flatMap (chunk1 4 e m U) := by
      rw [hsrc, List.set_append_right _ _ (by omega), Nat.add_sub_cancel_left, List.set_cons_succ]
      rw [List.set_append_left _ _ (by omega)]
      simp
    have hlen2 : (P ++ mkHeader (size 4 m x.1) (tag 4 m x.1) black :: (body1 4 e m U x.1).set 0 f).length =
        P.length + 1 + size 4 m x.1 := by
      simp [hl]; omega
    have hdrop : (P ++ (x :: T).flatMap (chunk1 4 e m U)).drop (P.length + 1) =
        body1 4 e m U x.1 ++ T.flatMap (chunk1 4 e m U) := by
      rw [hsrc]; simp [List.drop_append]
    have hget : (P ++ (x :: T).flatMap (chunk1 4 e m U)).getD P.length 0 = mkHeader (size 4 m x.1) (tag 4 m x.1) black := by
      rw [hsrc]; simp
    have ih := expand1_spec e color m U T fuel
      (P ++ mkHeader (size 4 m x.1) (tag 4 m x.1) black :: (body1 4 e m U x.1).set 0 f)
      (dest ++ mkHeader (newSize m x.1) (tag 4 m x.1) color :: body3 e m U x.1) hO.tail (by simpa using h)
    rw [hlen2] at ih
    have hdl : (dest ++ mkHeader (newSize m x.1) (tag 4 m x.1) color :: body3 e m U x.1).length =
        dest.length + 1 + newSize m x.1 := by
      simp [hl3]; omega
    rw [hdl] at ih
    have hgoal : (P ++ fwdSrc e m U dest.length (x :: T),
        dest ++ (x :: T).flatMap (fun x => mkHeader (newSize m x.1) (tag 4 m x.1) color :: body3 e m U x.1)) =
        (P ++ mkHeader (size 4 m x.1) (tag 4 m x.1) black :: (body1 4 e m U x.1).set 0 f ++
          fwdSrc e m U (dest.length + 1 + newSize m x.1) T,
        dest ++ mkHeader (newSize m x.1) (tag 4 m x.1) color :: body3 e m U x.1 ++
          T.flatMap (fun x => mkHeader (newSize m x.1) (tag 4 m x.1) color :: body3 e m U x.1)) := by
      rw [hf, fwdSrc, List.flatMap_cons]; simp
    rw [hgoal, ← ih, expand1, if_pos (by rw [hsrc]; simp)]
    dsimp only
    rw [hget, hdr32 (hO.lt x List.mem_cons_self), tag_mk _ _ _ (tag_lt 4 m x.1) (by decide),
      size_mk _ _ _ (tag_lt 4 m x.1) (by decide) (by decide), ← hf, hset, hdrop]
    by_cases h1 : tag 4 m x.1 = stringTag
    · rw [if_pos h1, expandString_take _ _ _ hl]
      unfold body3 newSize
      rw [if_pos h1, if_pos h1, h1]
    · rw [if_neg h1]
      by_cases h2 : tag 4 m x.1 = doubleTag
      · have hs := hO.dbl x List.mem_cons_self h2
        rw [if_pos h2]
        unfold body3 newSize
        rw [if_neg h1, if_neg h1, if_pos h2, if_pos h2, h2, hs]
        rw [hs] at hl
        have g0 : (body1 4 e m U x.1 ++ T.flatMap (chunk1 4 e m U)).getD 0 0 = (body1 4 e m U x.1).getD 0 0 :=
          List.getD_append _ _ _ _ (by omega)
        have g1 : (body1 4 e m U x.1 ++ T.flatMap (chunk1 4 e m U)).getD 1 0 = (body1 4 e m U x.1).getD 1 0 :=
          List.getD_append _ _ _ _ (by omega)
        rw [g0, g1]
      · rw [if_neg h2, List.take_left' hl]
        unfold body3 newSize
        rw [if_neg h1, if_neg h1, if_neg h2, if_neg h2]
        rfl

theorem newSize_le {m : Mem} {T : List (Nat × Nat)} (hO : Ok32 m T) {x : Nat × Nat} (hx : x ∈ T) :
    newSize m x.1 ≤ size 4 m x.1 := by
  have := hO.ne x hx
  unfold newSize
  split_ifs
  · omega
  · omega
  · exact le_rfl

theorem pre_new_le {m : Mem} : ∀ {T : List (Nat × Nat)} (_ : Ok32 m T) (a : Nat),
    pre (fun b => newSize m b + 1) T a ≤ pre (fun b => size 4 m b + 1) T a
  | [], _, _ => le_rfl
  | (b, o) :: T, hO, a => by
    rw [pre, pre]
    have h1 := newSize_le hO (x := (b, o)) List.mem_cons_self
    have h2 := pre_new_le hO.tail a
    split_ifs
    · exact le_rfl
    · dsimp only at h1 ⊢; omega

theorem fwdSrc_get (e : Endian) (m : Mem) (U : List (Nat × Nat)) : ∀ (T : List (Nat × Nat)) (d a : Nat),
    Ok32 m T → a ∈ T.map Prod.fst →
    (fwdSrc e m U d T).getD (pre (fun b => size 4 m b + 1) T a + 1) 0 =
      (d + pre (fun b => newSize m b + 1) T a + 1) % 2 ^ 32
  | [], _, _, _, h => by simp at h
  | (b, o) :: T, d, a, hO, h => by
    have hl := length_body1 4 e m U b
    have hne := hO.ne (b, o) List.mem_cons_self
    rw [pre, pre, fwdSrc]
    by_cases hb : b = a
    · rw [if_pos hb, if_pos hb]
      dsimp only
      cases hbd : body1 4 e m U b with
      | nil => rw [hbd] at hl; simp only [List.length_nil] at hl; exact absurd hl.symm hne
      | cons y ys => simp
    · rw [if_neg hb, if_neg hb]
      have h' : a ∈ T.map Prod.fst := by
        simp only [List.map_cons, List.mem_cons] at h
        exact h.resolve_left (Ne.symm hb)
      have ih := fwdSrc_get e m U T (d + 1 + newSize m b) a hO.tail h'
      rw [List.getD_append_right _ _ _ _ (by simp [hl]; omega)]
      rw [show size 4 m b + 1 + pre (fun b => size 4 m b + 1) T a + 1 -
          (mkHeader (size 4 m (b, o).1) (tag 4 m (b, o).1) black ::
            (body1 4 e m U (b, o).1).set 0 ((d + 1) % 2 ^ 32)).length =
          pre (fun b => size 4 m b + 1) T a + 1 by simp [hl]; omega, ih]
      congr 1
      omega

theorem sizeAfter_ge (e : Endian) (m : Mem) (U : List (Nat × Nat)) : ∀ (T : List (Nat × Nat)) (fuel : Nat),
    Ok32 m T → T.length ≤ fuel → T.length ≤ sizeAfter fuel (T.flatMap (chunk1 4 e m U))
  | [], _, _, _ => Nat.zero_le _
  | x :: T, 0, _, h => by simp at h
  | x :: T, fuel + 1, hO, h => by
    have ih := sizeAfter_ge e m U T fuel hO.tail (by simpa using h)
    rw [List.flatMap_cons]
    unfold chunk1
    rw [List.cons_append, sizeAfter, hdr32 (hO.lt x List.mem_cons_self), size_mk _ _ _ (tag_lt 4 m x.1) (by decide) (by decide),
      List.drop_left' (length_body1 4 e m U x.1), List.length_cons]
    unfold chunk1 at ih
    omega

/-- the body of an object of the copy -/
def body4 (e : Endian) (base start : Nat) (src : List Nat) (m : Mem) (U : List (Nat × Nat)) (a : Nat) : List Nat :=
  if tag 4 m a ≥ noScanTag then body3 e m U a else (body3 e m U a).map (expandWord base start src)

theorem length_body4 (e : Endian) (base start : Nat) (src : List Nat) (m : Mem) (U : List (Nat × Nat)) (a : Nat) :
    (body4 e base start src m U a).length = newSize m a := by
  unfold body4; split_ifs <;> simp [length_body3]

theorem expand2_spec (e : Endian) (base start color : Nat) (src : List Nat) (m : Mem) (U : List (Nat × Nat))
    (hc : color < 1024) (hc' : color % 256 = 0) :
    ∀ (T : List (Nat × Nat)) (fuel : Nat), T.length ≤ fuel →
    expand2 base start src fuel (T.flatMap (fun x => mkHeader (newSize m x.1) (tag 4 m x.1) color :: body3 e m U x.1)) =
      T.flatMap (fun x => mkHeader (newSize m x.1) (tag 4 m x.1) color :: body4 e base start src m U x.1)
  | [], 0, _ => rfl
  | [], fuel + 1, _ => rfl
  | x :: T, 0, h => by simp at h
  | x :: T, fuel + 1, h => by
    have ih := expand2_spec e base start color src m U hc hc' T fuel (by simpa using h)
    rw [List.flatMap_cons, List.flatMap_cons, List.cons_append, expand2, tag_mk _ _ _ (tag_lt 4 m x.1) hc',
      size_mk _ _ _ (tag_lt 4 m x.1) hc hc', List.take_left' (length_body3 e m U x.1),
      List.drop_left' (length_body3 e m U x.1), ih, List.cons_append]
    rfl

theorem flat_readWords (n : Nat) : ∀ s : Bytes, s.length = n * 8 → (∀ b ∈ s, b < 256) →
    (readWords 8 n s).flatMap (wordBytes .little 8) = s := by
  induction n with
  | zero => intro s h _; simp at h; simp [readWords, h]
  | succ n ih =>
    intro s h hb
    rw [readWords, List.flatMap_cons, ih (s.drop 8) (by rw [List.length_drop]; omega)
      (fun b h' => hb b (List.mem_of_mem_drop h'))]
    have h8 : (s.take 8).length = 8 := by rw [List.length_take]; omega
    have := leBytes_ofLe (s.take 8) (fun b h' => hb b (List.mem_of_mem_take h'))
    rw [h8] at this
    show leBytes 8 (ofLe (s.take 8)) ++ s.drop 8 = s
    rw [this, List.take_append_drop]

theorem length_flat4 : ∀ ws : List Nat, (ws.flatMap (leBytes 4)).length = ws.length * 4
  | ws => length_flat_bytes .little 4 ws

/-- expanding a string keeps its characters -/
theorem expandString_spec {sz : Nat} {ws : List Nat} (hs : sz ≠ 0) (hl : ws.length = sz)
    (hp : (ws.flatMap (leBytes 4)).getD (sz * 4 - 1) 0 < 4) :
    let bs := (expandString sz ws).flatMap (wordBytes .little 8)
    bs.take ((sz * 4 + 7) / 8 * 8 - 1 - bs.getD ((sz * 4 + 7) / 8 * 8 - 1) 0) =
      (ws.flatMap (leBytes 4)).take (sz * 4 - 1 - (ws.flatMap (leBytes 4)).getD (sz * 4 - 1) 0) := by
  unfold expandString
  rw [List.take_of_length_le (le_of_eq hl)]
  have hbl := length_flat4 ws
  obtain ⟨bs, hbs⟩ : ∃ bs, bs = ws.flatMap (leBytes 4) := ⟨_, rfl⟩
  have hb256 : ∀ b ∈ bs, b < 256 := by
    intro b hb
    rw [hbs] at hb
    obtain ⟨w, _, hw⟩ := List.mem_flatMap.1 hb
    exact leBytes_lt 4 w b hw
  rw [← hbs] at hp hbl ⊢
  obtain ⟨p, hpd⟩ : ∃ p, p = bs.getD (sz * 4 - 1) 0 := ⟨_, rfl⟩
  obtain ⟨n, hn⟩ : ∃ n, n = (sz * 4 + 7) / 8 := ⟨_, rfl⟩
  dsimp only
  rw [← hpd] at hp ⊢
  rw [← hn]
  obtain ⟨k, hk⟩ : ∃ k, k = n * 8 - 1 - (sz * 4 - 1 - p) := ⟨_, rfl⟩
  rw [← hk]
  have hlen : (bs.take (sz * 4 - 1 - p) ++ List.replicate k 0).length = n * 8 - 1 := by
    rw [List.length_append, List.length_take, List.length_replicate, hbl, hl, hk]; omega
  rw [flat_readWords]
  · rw [List.getD_append_right _ _ _ _ (le_of_eq hlen), hlen, Nat.sub_self, List.getD_cons_zero,
      List.append_assoc, List.take_left']
    rw [List.length_take, hbl, hl]
    omega
  · rw [List.length_append, hlen, List.length_singleton]; omega
  · intro b hb
    simp only [List.mem_append, List.mem_replicate, List.mem_singleton] at hb
    rcases hb with (hb | hb) | hb
    · exact hb256 b (List.mem_of_mem_take hb)
    · omega
    · omega

theorem sw32 {e : Endian} {m : Mem} {T : List (Nat × Nat)} (hO : Ok32 m T) (hF : Fits 4 m T T) {fuel : Nat}
    (hf : T.length ≤ fuel) :
    (if fastMagic 4 e = fastMagic 4 .big then revPointers32 fuel ((T.flatMap (chunk 4 m T)).map (sw 4 e))
      else (T.flatMap (chunk 4 m T)).map (sw 4 e)) = T.flatMap (chunk1 4 e m T) := by
  cases e
  · rw [if_neg (by decide), map_sw_little]
    apply List.flatMap_congr
    intro x _
    unfold chunk chunk1
    rw [body1_little]
  · rw [if_pos rfl]
    refine rev32 (fun a h1 h2 => ?_) (fun a h2 => ?_) T fuel (fun x hx => hx) hF hf
    · obtain ⟨x, hx, rfl⟩ := List.mem_map.1 h2
      exact hO.dbl x hx h1
    · obtain ⟨x, hx, rfl⟩ := List.mem_map.1 h2
      exact hO.lt x hx

theorem sext32_parity (w : Nat) (h : w % 2 = 1) : sext32 w % 4 = 1 ∨ sext32 w % 4 = 3 := by
  unfold sext32; split_ifs <;> omega

theorem expand_rel {e : Endian} {base start : Nat} {m : Mem} {S : List Nat} {T : List (Nat × Nat)} (hT : TabOk 4 m S T)
    (hO : Ok32 m T) (hs : span 4 m T < 2 ^ 32) {w : Nat} (hk : Known 4 m T w) :
    Rel 4 base m (corr (fun a => newSize m a + 1) start T) w
      (expandWord base start (fwdSrc e m T 0 T) (ext (enc 4 m T w))) := by
  unfold Rel enc
  by_cases h1 : w % 2 = 1
  · left
    have := sext32_parity w h1
    have hx : ext w = sext32 w := if_neg (by omega)
    rw [if_pos h1, hx]
    unfold expandWord
    rw [if_neg (by omega), if_neg (by omega)]
    exact ⟨h1, by simp [widen]⟩
  · rw [if_neg h1]
    by_cases h2 : size 4 m w = 0
    · right; left
      have hx : ext (tag 4 m w * 4 + 2) = tag 4 m w * 4 + 2 := if_pos (by omega)
      rw [if_pos h2, hx]
      unfold expandWord
      rw [if_neg (by omega), if_pos (by omega)]
      exact ⟨by omega, h2, by congr 1; omega⟩
    · right; right
      rw [if_neg h2]
      have : lookupTab T w ≠ none := by rcases hk with h | h | h <;> tauto
      cases hl : lookupTab T w with
      | none => exact absurd hl this
      | some o =>
        have ho := Placed_lookup T 0 w o hT.placed hl
        have hmem : w ∈ T.map Prod.fst := List.mem_map_of_mem (f := Prod.fst) (lookup_mem hl)
        have hx : ext o = o := if_pos (by omega)
        rw [Option.getD_some, hx]
        unfold expandWord
        rw [if_pos (by omega)]
        refine ⟨by omega, h2, ?_⟩
        unfold corr
        rw [if_pos hmem, ho, Nat.mul_div_cancel _ (by decide), Nat.zero_add, fwdSrc_get e m T T 0 w hO hmem]
        have q1 := Placed_le (W := 4) (m := m) T w hmem
        have q2 := pre_new_le hO w
        rw [Nat.mod_eq_of_lt (by omega), Nat.zero_add]

theorem ofLe_append : ∀ a b : Bytes, ofLe (a ++ b) = ofLe a + 256 ^ a.length * ofLe b
  | [], b => by simp [ofLe]
  | x :: a, b => by rw [List.cons_append, ofLe, ofLe, ofLe_append a b, List.length_cons, pow_succ']; ring

theorem join32 (x y : Nat) (hx : x < 2 ^ (8 * 4)) (_hy : y < 2 ^ (8 * 4)) :
    ofLe (leBytes 8 (x + 2 ^ 32 * y)) = ofLe (leBytes 4 x ++ leBytes 4 y) := by
  rw [ofLe_leBytes, ofLe_append, length_leBytes, ofLe_leBytes, ofLe_leBytes]
  omega

theorem iso32 {e : Endian} {base start color : Nat} {m m0 : Mem} {S : List Nat} {v : Nat} {T : List (Nat × Nat)}
    (hG : Graph 4 e m S v) (hT : TabOk 4 m S T) (hk : ∀ x ∈ T, KnownObj 4 m T x.1) (hO : Ok32 m T)
    (hs : span 4 m T < 2 ^ 32) (hc : color < 1024) (hc' : color % 256 = 0) {w : Nat}
    (hroot : Rel 4 base m (corr (fun a => newSize m a + 1) start T) v w) :
    Iso 4 e base m
      (store m0 start (T.flatMap fun x => mkHeader (newSize m x.1) (tag 4 m x.1) color ::
        body4 e base start (fwdSrc e m T 0 T) m T x.1))
      (corr (fun a => newSize m a + 1) start T) v w := by
  have hblen := length_body4 e base start (fwdSrc e m T 0 T) m T
  have hmem : ∀ a b, corr (fun a => newSize m a + 1) start T a = some b →
      a ∈ S ∧ KnownObj 4 m T a ∧ (tag 4 m a = doubleTag → size 4 m a = 2) ∧ size 4 m a ≠ 0 := by
    intro a b h
    unfold corr at h; split_ifs at h with q
    obtain ⟨x, hx, rfl⟩ := List.mem_map.1 q
    exact ⟨hT.sub x hx, hk x hx, hO.dbl x hx, hO.ne x hx⟩
  have hst : ∀ a b, corr (fun a => newSize m a + 1) start T a = some b →
      let m' := store m0 start (T.flatMap fun x => mkHeader (newSize m x.1) (tag 4 m x.1) color ::
        body4 e base start (fwdSrc e m T 0 T) m T x.1)
      tag 8 m' b = tag 4 m a ∧ size 8 m' b = newSize m a ∧
        fields 8 m' b (newSize m a) = body4 e base start (fwdSrc e m T 0 T) m T a := by
    intro a b h m'
    have h2 := store_chunk (m := m0) (start := start) (T := T) (hd := fun a => mkHeader (newSize m a) (tag 4 m a) color)
      (bd := body4 e base start (fwdSrc e m T 0 T) m T) (a := a) (b := b)
      (by simp only [List.length_cons, hblen]; exact h)
    dsimp only at h2
    rw [hblen] at h2
    exact ⟨tag_store (tag_lt 4 m a) hc' h2.1, size_store (tag_lt 4 m a) hc' hc h2.1, h2.2⟩
  refine ⟨hroot, ?_, ?_, ?_, ?_, ?_⟩
  · intro a a' b h h'
    exact corr_inj (fun _ => Nat.succ_pos _) h h'
  · intro a b h
    exact (hst a b h).1
  · intro a b h ht
    obtain ⟨_, h2, h3⟩ := hst a b h
    obtain ⟨hS, _, _, hne⟩ := hmem a b h
    have hpad := hG.strs a hS ht
    unfold strBytes
    rw [blockBytes_eq] at hpad
    rw [blockBytes_eq, blockBytes_eq, h2, h3]
    have hb : body4 e base start (fwdSrc e m T 0 T) m T a =
        expandString (size 4 m a) ((fields 4 m a (size 4 m a)).map (sw 4 e)) := by
      unfold body4 body3 body1
      rw [if_pos (by rw [ht]; decide), if_pos ht, if_pos ht]
    have hn : newSize m a = (size 4 m a * 4 + 7) / 8 := by unfold newSize; rw [if_pos ht]
    have hfl : ((fields 4 m a (size 4 m a)).map (sw 4 e)).flatMap (leBytes 4) =
        (fields 4 m a (size 4 m a)).flatMap (wordBytes e 4) := flat_sw 4 e _
    have := expandString_spec (sz := size 4 m a) (ws := (fields 4 m a (size 4 m a)).map (sw 4 e)) hne
      (by simp [length_fields]) (by rw [hfl]; exact hpad)
    rw [hfl] at this
    rw [hb, hn]
    exact this
  · intro a b h ht
    obtain ⟨_, h2, h3⟩ := hst a b h
    have hsz := (hmem a b h).2.2.1 ht
    have hn : newSize m a = 1 := by unfold newSize; rw [if_neg (by rw [ht]; decide), if_pos ht]
    have hw := hG.word
    have hb : body4 e base start (fwdSrc e m T 0 T) m T a =
        [(body1 4 e m T a).getD 0 0 + 2 ^ 32 * (body1 4 e m T a).getD 1 0] := by
      unfold body4 body3
      rw [if_pos (by rw [ht]; decide), if_neg (by rw [ht]; decide), if_pos ht]
    have hb1 : body1 4 e m T a = (match e with
        | .little => [m (a + 4 * 0), m (a + 4 * 1)] | .big => [m (a + 4 * 1), m (a + 4 * 0)]) := by
      unfold body1
      rw [if_neg (by rw [ht]; decide), if_pos ht, hsz]
      cases e <;> rfl
    have hw0 := hw (a + 4 * 0)
    have hw1 := hw (a + 4 * 1)
    unfold dblBits
    rw [blockBytes_eq, blockBytes_eq, h2, hn]
    rw [hn] at h3
    rw [h3, hb, hsz, hb1]
    cases e
    · have hf : fields 4 m a 2 = [m (a + 4 * 0), m (a + 4 * 1)] := rfl
      simp only [hf, List.flatMap_cons, List.flatMap_nil, List.append_nil, wordBytes, List.getD_cons_zero,
        List.getD_cons_succ]
      exact join32 _ _ hw0 hw1
    · have hf : fields 4 m a 2 = [m (a + 4 * 0), m (a + 4 * 1)] := rfl
      simp only [hf, List.flatMap_cons, List.flatMap_nil, List.append_nil, wordBytes, List.getD_cons_zero,
        List.getD_cons_succ, List.reverse_append, List.reverse_reverse]
      exact join32 _ _ hw1 hw0
  · intro a b h h1 h1'
    obtain ⟨_, h2, h3⟩ := hst a b h
    obtain ⟨hS, hka, _⟩ := hmem a b h
    have hn : newSize m a = size 4 m a := by unfold newSize; rw [if_neg h1, if_neg h1']
    rw [hn] at h2 h3
    refine ⟨h2, ?_⟩
    intro i hi
    have h4 := getElem_fields (W := 8) (m := store m0 start (T.flatMap fun x =>
      mkHeader (newSize m x.1) (tag 4 m x.1) color :: body4 e base start (fwdSrc e m T 0 T) m T x.1)) (v := b) hi
    rw [h3] at h4
    have hns : ¬ tag 4 m a ≥ noScanTag := by
      have := hG.data a hS
      unfold closureTag stringTag doubleTag at this
      unfold stringTag at h1
      unfold doubleTag at h1'
      unfold noScanTag
      omega
    have hb2 : body4 e base start (fwdSrc e m T 0 T) m T a =
        (((fields 4 m a (size 4 m a)).map (enc 4 m T)).map ext).map (expandWord base start (fwdSrc e m T 0 T)) := by
      unfold body4 body3 body1
      rw [if_neg hns, if_neg h1, if_neg h1', if_neg h1, if_neg h1']
    rw [hb2, List.getElem?_map, List.getElem?_map, List.getElem?_map, getElem_fields hi] at h4
    simp only [Option.map_some, Option.some.injEq] at h4
    rw [← h4]
    exact expand_rel hT hO hs (hka h1 h1' _ (mem_fields.2 ⟨i, hi, rfl⟩))

end Mosml.Marshal
