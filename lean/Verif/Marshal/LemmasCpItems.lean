import Verif.Marshal.LemmasCp

/-! The compact format: reading back one item. -/
namespace Mosml.Marshal
variable (base color f dest ptr : Nat) (mem : Mem) (O : List Nat) (tl : Bytes)

theorem code_block (c : Nat) (h : 128 ≤ c) : readCp base color (f + 1) dest ⟨c :: tl, mem, ptr, O⟩ =
    readBlock base color (readCp base color f) dest (c % 16) (c / 16 % 8) ⟨tl, mem, ptr, O⟩ := by
  rw [readCp]; dsimp only; rw [if_pos h]

theorem code_int (c : Nat) (h : c < 128) (h' : 64 ≤ c) : readCp base color (f + 1) dest ⟨c :: tl, mem, ptr, O⟩ =
    .ok ⟨tl, upd mem dest (valLong (c % 64 : Nat)), ptr, O⟩ := by
  rw [readCp]; dsimp only; rw [if_neg (by omega), if_pos h']

theorem code_str (c : Nat) (h : c < 64) (h' : 32 ≤ c) : readCp base color (f + 1) dest ⟨c :: tl, mem, ptr, O⟩ =
    readString color dest (c % 32) ⟨tl, mem, ptr, O⟩ := by
  rw [readCp]; dsimp only; rw [if_neg (by omega), if_neg (by omega), if_pos h']

theorem code_0 : readCp base color (f + 1) dest ⟨0 :: tl, mem, ptr, O⟩ =
    withBytes 1 true ⟨tl, mem, ptr, O⟩ fun n st => .ok { st with mem := upd st.mem dest (valLong n) } := rfl
theorem code_1 : readCp base color (f + 1) dest ⟨1 :: tl, mem, ptr, O⟩ =
    withBytes 2 true ⟨tl, mem, ptr, O⟩ fun n st => .ok { st with mem := upd st.mem dest (valLong n) } := rfl
theorem code_2 : readCp base color (f + 1) dest ⟨2 :: tl, mem, ptr, O⟩ =
    withBytes 4 true ⟨tl, mem, ptr, O⟩ fun n st => .ok { st with mem := upd st.mem dest (valLong n) } := rfl
theorem code_3 : readCp base color (f + 1) dest ⟨3 :: tl, mem, ptr, O⟩ =
    withBytes 8 true ⟨tl, mem, ptr, O⟩ fun n st => .ok { st with mem := upd st.mem dest (valLong n) } := rfl
theorem code_4 : readCp base color (f + 1) dest ⟨4 :: tl, mem, ptr, O⟩ =
    withBytes 1 false ⟨tl, mem, ptr, O⟩ (readShared dest) := rfl
theorem code_5 : readCp base color (f + 1) dest ⟨5 :: tl, mem, ptr, O⟩ =
    withBytes 2 false ⟨tl, mem, ptr, O⟩ (readShared dest) := rfl
theorem code_6 : readCp base color (f + 1) dest ⟨6 :: tl, mem, ptr, O⟩ =
    withBytes 4 false ⟨tl, mem, ptr, O⟩ (readShared dest) := rfl
theorem code_8 : readCp base color (f + 1) dest ⟨8 :: tl, mem, ptr, O⟩ =
    withBytes 4 false ⟨tl, mem, ptr, O⟩ fun hd st =>
      readBlock base color (readCp base color f) dest (tagHd hd.toNat) (wosizeHd hd.toNat) st := rfl
theorem code_9 : readCp base color (f + 1) dest ⟨9 :: tl, mem, ptr, O⟩ =
    withBytes 1 false ⟨tl, mem, ptr, O⟩ fun len st => readString color dest len.toNat st := rfl
theorem code_10 : readCp base color (f + 1) dest ⟨10 :: tl, mem, ptr, O⟩ =
    withBytes 4 false ⟨tl, mem, ptr, O⟩ fun len st => readString color dest len.toNat st := rfl
theorem code_11 : readCp base color (f + 1) dest ⟨11 :: tl, mem, ptr, O⟩ =
    if tl.length < 8 then .exn "end of file" else
      .ok ⟨tl.drop 8, upd (upds mem ptr [mkHeader 1 doubleTag color, ofLe (tl.take 8).reverse]) dest (ptr + 8),
        ptr + 16, O ++ [ptr + 8]⟩ := rfl

theorem read_int {v : Nat} (hv : v < 2 ^ 64) (ho : v % 2 = 1) :
    readCp base color (f + 1) dest ⟨cpInt (longVal v) ++ tl, mem, ptr, O⟩ = .ok ⟨tl, upd mem dest v, ptr, O⟩ := by
  have hr := longVal_range hv
  have hl := valLong_longVal hv ho
  obtain ⟨n, hn⟩ : ∃ n, n = longVal v := ⟨_, rfl⟩
  rw [← hn] at hr hl ⊢
  unfold cpInt outNumber
  by_cases h1 : 0 ≤ n ∧ n < 64
  · rw [if_pos h1]
    show readCp base color (f + 1) dest ⟨(64 + n.toNat) :: tl, mem, ptr, O⟩ = _
    rw [code_int _ _ _ _ _ _ _ _ _ (by omega) (by omega)]
    have : (((64 + n.toNat) % 64 : Nat) : Int) = n := by omega
    rw [this, hl]
  · rw [if_neg h1]
    by_cases h2 : -(2 ^ 7) ≤ n ∧ n < 2 ^ 7
    · rw [if_pos h2, List.cons_append, code_0]
      unfold withBytes
      dsimp only
      rw [input_signed 1 n tl (by decide) (by decide) (by norm_num at *; omega) (by norm_num at *; omega)]
      dsimp only
      rw [hl]
    · rw [if_neg h2]
      by_cases h3 : -(2 ^ 15) ≤ n ∧ n < 2 ^ 15
      · rw [if_pos h3, List.cons_append, code_1]
        unfold withBytes
        dsimp only
        rw [input_signed 2 n tl (by decide) (by decide) (by norm_num at *; omega) (by norm_num at *; omega)]
        dsimp only
        rw [hl]
      · rw [if_neg h3]
        by_cases h4 : n < -(2 ^ 31) ∨ n ≥ 2 ^ 31
        · rw [if_pos h4, List.cons_append, code_3]
          unfold withBytes
          dsimp only
          rw [input_signed 8 n tl (by decide) (by decide) (by norm_num at *; omega) (by norm_num at *; omega)]
          dsimp only
          rw [hl]
        · rw [if_neg h4, List.cons_append, code_2]
          unfold withBytes
          dsimp only
          rw [input_signed 4 n tl (by decide) (by decide) (by norm_num at *; omega) (by norm_num at *; omega)]
          dsimp only
          rw [hl]

theorem toNat_cast_mod {d : Nat} (h : d < 2 ^ 64) : (((d : Nat) : Int) % 2 ^ 64).toNat = d := by omega

theorem read_shared {d : Nat} (hd : d < 2 ^ 32) :
    readCp base color (f + 1) dest ⟨cpShared d ++ tl, mem, ptr, O⟩ =
      .ok ⟨tl, upd mem dest (O.getD (O.length - d) 0), ptr, O⟩ := by
  unfold cpShared outNumber
  rw [toNat_cast_mod (by omega)]
  by_cases h1 : d < 256
  · rw [if_pos h1, List.cons_append, code_4]
    unfold withBytes
    dsimp only
    rw [input_unsigned 1 d tl (by decide) (by omega)]
    rfl
  · rw [if_neg h1]
    by_cases h2 : d < 65536
    · rw [if_pos h2, List.cons_append, code_5]
      unfold withBytes
      dsimp only
      rw [input_unsigned 2 d tl (by decide) (by omega)]
      rfl
    · rw [if_neg h2, List.cons_append, code_6]
      unfold withBytes
      dsimp only
      rw [input_unsigned 4 d tl (by decide) (by omega)]
      rfl

theorem read_str {s : Bytes} (hd : s.length < 2 ^ 32) :
    readCp base color (f + 1) dest ⟨cpString s ++ tl, mem, ptr, O⟩ =
      readString color dest s.length ⟨s ++ tl, mem, ptr, O⟩ := by
  unfold cpString outNumber
  rw [toNat_cast_mod (by omega)]
  by_cases h1 : s.length < 32
  · rw [if_pos h1]
    show readCp base color (f + 1) dest ⟨(32 + s.length) :: (s ++ tl), mem, ptr, O⟩ = _
    rw [code_str _ _ _ _ _ _ _ _ _ (by omega) (by omega), show (32 + s.length) % 32 = s.length by omega]
  · rw [if_neg h1]
    by_cases h2 : s.length < 256
    · rw [if_pos h2, List.cons_append, List.cons_append, List.append_assoc, code_9]
      unfold withBytes
      dsimp only
      rw [input_unsigned 1 s.length (s ++ tl) (by decide) (by omega)]
      rfl
    · rw [if_neg h2, List.cons_append, List.cons_append, List.append_assoc, code_10]
      unfold withBytes
      dsimp only
      rw [input_unsigned 4 s.length (s ++ tl) (by decide) (by omega)]
      rfl

theorem read_header {hd : Nat} (h : hd < 2 ^ 32) :
    readCp base color (f + 1) dest ⟨cpHeader hd ++ tl, mem, ptr, O⟩ =
      readBlock base color (readCp base color f) dest (tagHd hd) (wosizeHd hd) ⟨tl, mem, ptr, O⟩ := by
  unfold cpHeader outNumber
  rw [toNat_cast_mod (by omega)]
  by_cases h1 : tagHd hd < 16 ∧ wosizeHd hd < 8
  · rw [if_pos h1]
    show readCp base color (f + 1) dest ⟨(128 + tagHd hd + wosizeHd hd * 16) :: tl, mem, ptr, O⟩ = _
    rw [code_block _ _ _ _ _ _ _ _ _ (by omega), show (128 + tagHd hd + wosizeHd hd * 16) % 16 = tagHd hd by omega,
      show (128 + tagHd hd + wosizeHd hd * 16) / 16 % 8 = wosizeHd hd by omega]
  · rw [if_neg h1, List.cons_append, code_8]
    unfold withBytes
    dsimp only
    rw [input_unsigned 4 hd tl (by decide) (by omega)]
    rfl

theorem read_double {w : Nat} (hw : w < 2 ^ 64) :
    readCp base color (f + 1) dest ⟨11 :: (leBytes 8 w).reverse ++ tl, mem, ptr, O⟩ =
      .ok ⟨tl, upd (upds mem ptr [mkHeader 1 doubleTag color, w]) dest (ptr + 8), ptr + 16, O ++ [ptr + 8]⟩ := by
  have hl : (leBytes 8 w).reverse.length = 8 := by simp [length_leBytes]
  rw [List.cons_append, code_11, if_neg (by rw [List.length_append, hl]; omega), List.take_left' hl, List.drop_left' hl,
    List.reverse_reverse, ofLe_leBytes, Nat.mod_eq_of_lt (by norm_num at *; omega)]

end Mosml.Marshal
