import Verif.Marshal.LemmasExt

/-! Bytes and words. -/
namespace Mosml.Marshal

theorem length_leBytes : ∀ n w, (leBytes n w).length = n
  | 0, _ => rfl
  | n + 1, w => by rw [leBytes, List.length_cons, length_leBytes n]

theorem leBytes_lt : ∀ n w, ∀ b ∈ leBytes n w, b < 256
  | 0, _ => by simp [leBytes]
  | n + 1, w => by
    intro b hb
    rw [leBytes, List.mem_cons] at hb
    rcases hb with rfl | hb
    · exact Nat.mod_lt _ (by decide)
    · exact leBytes_lt n _ b hb

theorem ofLe_leBytes : ∀ n w, ofLe (leBytes n w) = w % 256 ^ n
  | 0, w => by simp [leBytes, ofLe, Nat.mod_one]
  | n + 1, w => by
    rw [leBytes, ofLe, ofLe_leBytes n, pow_succ', Nat.mod_mul]

theorem ofLe_lt : ∀ bs : Bytes, (∀ b ∈ bs, b < 256) → ofLe bs < 256 ^ bs.length
  | [], _ => by simp [ofLe]
  | b :: bs, h => by
    have h1 := ofLe_lt bs (fun x hx => h x (List.mem_cons_of_mem _ hx))
    have h2 := h b List.mem_cons_self
    rw [ofLe, List.length_cons, pow_succ']
    omega

theorem leBytes_ofLe : ∀ bs : Bytes, (∀ b ∈ bs, b < 256) → leBytes bs.length (ofLe bs) = bs
  | [], _ => rfl
  | b :: bs, h => by
    have h2 := h b List.mem_cons_self
    rw [List.length_cons, leBytes, ofLe, show (b + 256 * ofLe bs) % 256 = b by omega,
      show (b + 256 * ofLe bs) / 256 = ofLe bs by omega,
      leBytes_ofLe bs (fun x hx => h x (List.mem_cons_of_mem _ hx))]

theorem length_wordBytes (e : Endian) (W w : Nat) : (wordBytes e W w).length = W := by
  cases e <;> simp [wordBytes, length_leBytes]

theorem leBytes_bswap (W w : Nat) : leBytes W (bswap W w) = (leBytes W w).reverse := by
  unfold bswap
  have := leBytes_ofLe (leBytes W w).reverse (by
    intro b hb; exact leBytes_lt W w b (List.mem_reverse.1 hb))
  rwa [List.length_reverse, length_leBytes] at this

theorem bswap_lt (W w : Nat) : bswap W w < 256 ^ W := by
  have := ofLe_lt (leBytes W w).reverse (by
    intro b hb; exact leBytes_lt W w b (List.mem_reverse.1 hb))
  rwa [List.length_reverse, length_leBytes] at this

theorem bswap_bswap {W w : Nat} (h : w < 256 ^ W) : bswap W (bswap W w) = w := by
  unfold bswap
  rw [show leBytes W (ofLe (leBytes W w).reverse) = (leBytes W w).reverse from leBytes_bswap W w,
    List.reverse_reverse, ofLe_leBytes, Nat.mod_eq_of_lt h]

/-- what the little-endian machine sees of a word written by a machine of byte order `e` -/
def sw (W : Nat) (e : Endian) (w : Nat) : Nat :=
  match e with
  | .little => w
  | .big => bswap W w

theorem sw_sw {W : Nat} {e : Endian} {w : Nat} (h : w < 256 ^ W) : sw W e (sw W e w) = w := by
  cases e
  · rfl
  · exact bswap_bswap h

theorem leBytes_sw (W : Nat) (e : Endian) (w : Nat) : leBytes W (sw W e w) = wordBytes e W w := by
  cases e
  · rfl
  · exact leBytes_bswap W w

theorem length_flat_bytes (e : Endian) (W : Nat) : ∀ ws : List Nat, (ws.flatMap (wordBytes e W)).length = ws.length * W
  | [] => by simp
  | w :: ws => by
    rw [List.flatMap_cons, List.length_append, length_wordBytes, length_flat_bytes e W ws, List.length_cons]; ring

theorem readWords_flat (e : Endian) (W : Nat) (tl : Bytes) : ∀ ws : List Nat, (∀ w ∈ ws, w < 256 ^ W) →
    readWords W ws.length (ws.flatMap (wordBytes e W) ++ tl) = ws.map (sw W e)
  | [], _ => rfl
  | w :: ws, h => by
    rw [List.length_cons, readWords, List.flatMap_cons, List.append_assoc, List.take_left' (length_wordBytes e W w),
      List.drop_left' (length_wordBytes e W w), readWords_flat e W tl ws (fun x hx => h x (List.mem_cons_of_mem _ hx)),
      List.map_cons]
    congr 1
    rw [← leBytes_sw, ofLe_leBytes, Nat.mod_eq_of_lt]
    cases e
    · exact h w List.mem_cons_self
    · exact bswap_lt W w

theorem length_putword (w : Nat) : (putword w).length = 4 := by
  simp [putword, length_leBytes]

theorem getword_putword (w : Nat) (tl : Bytes) : getword (putword w ++ tl) = some (w % 2 ^ 32, tl) := by
  unfold getword
  rw [if_neg (by rw [List.length_append, length_putword]; omega), List.take_left' (length_putword w),
    List.drop_left' (length_putword w)]
  unfold putword
  rw [List.reverse_reverse, ofLe_leBytes]
  norm_num

theorem getBlock_flat {e : Endian} {W : Nat} {tl : Bytes} {ws : List Nat} (h : ∀ w ∈ ws, w < 256 ^ W)
    (hl : ws.length * W < 2 ^ 32) :
    getBlock W ws.length ((ws.flatMap (wordBytes e W)).take (ws.length * W % 2 ^ 32) ++ tl) =
      some (ws.map (sw W e), tl) := by
  unfold getBlock
  have hf := length_flat_bytes e W ws
  rw [Nat.mod_eq_of_lt hl, if_neg (by omega), List.take_of_length_le (le_of_eq hf),
    if_neg (by rw [List.length_append, hf]; omega), List.take_left' hf, List.drop_left' hf]
  have := readWords_flat e W [] ws h
  rw [List.append_nil] at this
  rw [this]

/-! ### The list of words in memory -/

theorem store_at (m : Mem) (start : Nat) (X Y : List Nat) (w : Nat) :
    store m start (X ++ w :: Y) (start + 8 * X.length) = w := by
  unfold store
  rw [if_pos (by simp), show (start + 8 * X.length - start) / 8 = X.length by omega]
  simp

theorem fields_store (m : Mem) (start : Nat) : ∀ (B X Y : List Nat),
    fields 8 (store m start (X ++ B ++ Y)) (start + 8 * X.length) B.length = B := by
  intro B X Y
  rw [fields_eq]
  apply List.ext_getElem
  · simp
  · intro i h1 h2
    simp only [List.getElem_map, List.getElem_range]
    have hB : B = B.take i ++ B[i] :: B.drop (i + 1) := by simp
    have hL : X ++ B ++ Y = (X ++ B.take i) ++ B[i] :: (B.drop (i + 1) ++ Y) := by
      have := congrArg (fun l => X ++ l ++ Y) hB
      simp only [List.append_assoc, List.cons_append] at this ⊢
      exact this
    rw [hL, show start + 8 * X.length + 8 * i = start + 8 * (X ++ B.take i).length by
      rw [List.length_append, List.length_take]
      rw [Nat.min_eq_left (by omega)]; ring]
    exact store_at _ _ _ _ _

/-- index of the chunk of `a` -/
def pre (len : Nat → Nat) : List (Nat × Nat) → Nat → Nat
  | [], _ => 0
  | (b, _) :: t, a => if b = a then 0 else len b + pre len t a

theorem chunk_split (c : Nat → List Nat) : ∀ (T : List (Nat × Nat)) (a : Nat), a ∈ T.map Prod.fst →
    ∃ X Y, T.flatMap (fun x => c x.1) = X ++ c a ++ Y ∧ X.length = pre (fun b => (c b).length) T a
  | [], a, h => by simp at h
  | (b, o) :: t, a, h => by
    rw [pre]
    by_cases hb : b = a
    · subst hb
      exact ⟨[], t.flatMap (fun x => c x.1), by simp, by simp⟩
    · rw [if_neg hb]
      have h' : a ∈ t.map Prod.fst := by
        simp only [List.map_cons, List.mem_cons] at h
        rcases h with h | h
        · exact absurd h.symm hb
        · exact h
      obtain ⟨X, Y, h1, h2⟩ := chunk_split c t a h'
      exact ⟨c b ++ X, Y, by rw [List.flatMap_cons, h1]; simp, by rw [List.length_append, h2]⟩

theorem pre_inj (len : Nat → Nat) (hl : ∀ b, 0 < len b) : ∀ (T : List (Nat × Nat)) (a a' : Nat),
    a ∈ T.map Prod.fst → a' ∈ T.map Prod.fst → pre len T a = pre len T a' → a = a'
  | [], a, a', h, _, _ => by simp at h
  | (b, o) :: t, a, a', h, h', he => by
    rw [pre, pre] at he
    have := hl b
    simp only [List.map_cons, List.mem_cons] at h h'
    by_cases hb : b = a <;> by_cases hb' : b = a'
    · rw [← hb, ← hb']
    · rw [if_pos hb, if_neg hb'] at he; omega
    · rw [if_neg hb, if_pos hb'] at he; omega
    · rw [if_neg hb, if_neg hb'] at he
      exact pre_inj len hl t a a' (h.resolve_left (Ne.symm hb)) (h'.resolve_left (Ne.symm hb')) (by omega)

/-- the correspondence of blocks induced by laying out chunks from `start` -/
noncomputable def corr (len : Nat → Nat) (start : Nat) (T : List (Nat × Nat)) (a : Nat) : Option Nat :=
  if a ∈ T.map Prod.fst then some (start + 8 * (pre len T a + 1)) else none

theorem corr_inj {len : Nat → Nat} (hl : ∀ b, 0 < len b) {start : Nat} {T : List (Nat × Nat)} {a a' b : Nat}
    (h : corr len start T a = some b) (h' : corr len start T a' = some b) : a = a' := by
  unfold corr at h h'
  split_ifs at h h' with q q'
  injection h with h
  injection h' with h'
  exact pre_inj len hl T a a' q q' (by omega)

/-- reading back a chunk -/
theorem store_chunk {m : Mem} {start : Nat} {T : List (Nat × Nat)} {hd : Nat → Nat} {bd : Nat → List Nat} {a b : Nat}
    (h : corr (fun x => (hd x :: bd x).length) start T a = some b) :
    let m' := store m start (T.flatMap fun x => hd x.1 :: bd x.1)
    m' (b - 8) = hd a ∧ fields 8 m' b (bd a).length = bd a := by
  unfold corr at h
  split_ifs at h with q
  injection h with h
  obtain ⟨X, Y, h1, h2⟩ := chunk_split (fun x => hd x :: bd x) T a q
  dsimp only
  rw [h1, ← h, ← h2]
  refine ⟨?_, ?_⟩
  · rw [show start + 8 * (X.length + 1) - 8 = start + 8 * X.length by omega, List.append_assoc, List.cons_append]
    exact store_at _ _ _ _ _
  · have := fields_store m start (bd a) (X ++ [hd a]) Y
    rw [List.length_append, List.length_singleton] at this
    rw [show X ++ hd a :: bd a ++ Y = X ++ [hd a] ++ bd a ++ Y by simp]
    exact this

/-- the memory outside the new block is unchanged -/
theorem store_frame (m : Mem) (start : Nat) (ws : List Nat) (a : Nat) (h : a < start ∨ start + 8 * ws.length ≤ a) :
    store m start ws a = m a := by
  unfold store; rw [if_neg (by omega)]

end Mosml.Marshal
