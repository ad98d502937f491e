import Verif.Ints.Model
import Verif.Ints.Spec

/-! Helper lemmas for the integer instructions: everything is pushed to `Int` with `bmod`. -/
namespace Mosml.Ints

theorem bmod64 (n : Int) : n.bmod (2^64) =
    if n % 18446744073709551616 < 9223372036854775808 then n % 18446744073709551616
    else n % 18446744073709551616 - 18446744073709551616 := by
  unfold Int.bmod; simp

theorem bmod_self {n : Int} (h1 : -9223372036854775808 ≤ n) (h2 : n < 9223372036854775808) :
    n.bmod (2^64) = n := by
  rw [bmod64]; omega

theorem toInt_range (v : Value) : -9223372036854775808 ≤ v.toInt ∧ v.toInt < 9223372036854775808 := by
  have := v.isLt
  simp only [BitVec.toInt]
  split <;> omega

theorem toInt_valLong (x : Value) : (valLong x).toInt = (2 * x.toInt + 1).bmod (2^64) := by
  unfold valLong
  have : x <<< 1 = x + x := by
    apply BitVec.eq_of_toNat_eq
    simp [BitVec.toNat_shiftLeft, BitVec.toNat_add, Nat.shiftLeft_eq]
    omega
  rw [this, BitVec.toInt_add, BitVec.toInt_add]
  have h1 : (1 : Value).toInt = 1 := by decide
  rw [h1, bmod64, bmod64, bmod64]
  omega

theorem toInt_longVal (v : Value) : (longVal v).toInt = v.toInt / 2 := by
  unfold longVal
  rw [BitVec.toInt_sshiftRight]
  simp [Int.shiftRight_eq_div_pow]

theorem toInt_enc {n : Int} (h : InRange n) : (enc n).toInt = 2 * n + 1 := by
  unfold InRange minInt maxInt at h
  unfold enc
  rw [BitVec.toInt_ofInt, bmod64]
  omega

theorem longVal_enc {n : Int} (h : InRange n) : (longVal (enc n)).toInt = n := by
  rw [toInt_longVal, toInt_enc h]; omega

theorem longVal_enc_range {n : Int} (h : InRange n) :
    -4611686018427387904 ≤ (longVal (enc n)).toInt ∧
      (longVal (enc n)).toInt < 4611686018427387904 := by
  rw [longVal_enc h]; unfold InRange minInt maxInt at h; omega

theorem valLong_eq_enc (x : Value) : valLong x = enc x.toInt := by
  apply BitVec.eq_of_toInt_eq
  rw [toInt_valLong, enc, BitVec.toInt_ofInt]

theorem checked_eq (tmp : Value) : checked tmp = exactOr tmp.toInt := by
  have hr := toInt_range tmp
  unfold checked exactOr
  have key : longVal (valLong tmp) = tmp ↔ InRange tmp.toInt := by
    rw [← BitVec.toInt_inj, toInt_longVal, toInt_valLong, bmod64]
    unfold InRange minInt maxInt
    omega
  by_cases h : InRange tmp.toInt
  · rw [if_pos h]
    have := key.mpr h
    rw [valLong_eq_enc] at this ⊢
    simp [this]
  · rw [if_neg h]
    have : ¬ longVal (valLong tmp) = tmp := fun hh => h (key.mp hh)
    simp [this]

theorem toInt_neg' (x : Value) (h : -9223372036854775808 < x.toInt) : (-x).toInt = - x.toInt := by
  have := toInt_range x
  rw [BitVec.toInt_neg, bmod_self] <;> omega

theorem toInt_add' (x y : Value) (h1 : -9223372036854775808 ≤ x.toInt + y.toInt)
    (h2 : x.toInt + y.toInt < 9223372036854775808) : (x + y).toInt = x.toInt + y.toInt := by
  rw [BitVec.toInt_add, bmod_self] <;> omega

theorem toInt_sub' (x y : Value) (h1 : -9223372036854775808 ≤ x.toInt - y.toInt)
    (h2 : x.toInt - y.toInt < 9223372036854775808) : (x - y).toInt = x.toInt - y.toInt := by
  rw [BitVec.toInt_sub, bmod_self] <;> omega

theorem toInt_mul' (x y : Value) (h1 : -9223372036854775808 ≤ x.toInt * y.toInt)
    (h2 : x.toInt * y.toInt < 9223372036854775808) : (x * y).toInt = x.toInt * y.toInt := by
  rw [BitVec.toInt_mul, bmod_self] <;> omega

theorem one_toInt : (1 : Value).toInt = 1 := by decide
theorem zero_toInt : (0 : Value).toInt = 0 := by decide

theorem slt_zero (x : Value) : x.slt 0 = decide (x.toInt < 0) := by
  rw [BitVec.slt_eq_decide]; rfl

theorem zero_sle (x : Value) : (0 : Value).sle x = decide (0 ≤ x.toInt) := by
  rw [BitVec.sle_eq_decide]; rfl

/-- magnitude of a word -/
theorem toInt_absval (x : Value) (h : -9223372036854775808 < x.toInt) :
    (if x.slt 0 then -x else x).toInt = if x.toInt < 0 then - x.toInt else x.toInt := by
  rw [slt_zero]
  by_cases hx : x.toInt < 0
  · simp [hx, toInt_neg' x h]
  · simp [hx]

theorem maxChunk_toInt : maxChunk.toInt = 2147483647 := by decide
theorem maxChunk1_toInt : (maxChunk + 1).toInt = 2147483648 := by decide

theorem toInt_shiftLeft_chunk (x : Value) (h0 : 0 ≤ x.toInt) (h : x.toInt ≤ 2147483648) :
    (x <<< chunkLen).toInt = x.toInt * 2147483648 := by
  have hx : x.toNat = x.toInt := by
    have := x.isLt; simp only [BitVec.toInt] at h0 ⊢; split at h0 <;> split <;> omega
  have hn : (x <<< chunkLen).toNat = x.toNat * 2147483648 := by
    simp only [BitVec.toNat_shiftLeft, Nat.shiftLeft_eq, chunkLen]
    omega
  rw [BitVec.toInt_eq_toNat_of_lt (by omega)]
  omega

theorem toInt_and_chunk (x : Value) (h0 : 0 ≤ x.toInt) :
    (x &&& maxChunk).toInt = x.toInt % 2147483648 := by
  have hx : x.toNat = x.toInt := by
    have := x.isLt; simp only [BitVec.toInt] at h0 ⊢; split at h0 <;> split <;> omega
  have hn : (x &&& maxChunk).toNat = x.toNat % 2147483648 := by
    rw [BitVec.toNat_and]
    have : maxChunk.toNat = 2^31 - 1 := by decide
    rw [this, Nat.and_two_pow_sub_one_eq_mod]
  rw [BitVec.toInt_eq_toNat_of_lt (by omega)]
  omega

theorem toInt_sar_chunk (x : Value) :
    (x.sshiftRight chunkLen).toInt = x.toInt / 2147483648 := by
  rw [BitVec.toInt_sshiftRight]
  simp [Int.shiftRight_eq_div_pow, chunkLen]

/-- Absolute value as the multiplication code computes it. -/
def mag (n : Int) : Int := if n < 0 then -n else n

/-- The chunked product of two magnitudes `a ≥ b`. -/
theorem chunk_product (x y : Value) (hx0 : 2147483648 ≤ x.toInt)
    (hx : x.toInt ≤ 4611686018427387904) (hy0 : 0 ≤ y.toInt) (hy : y.toInt ≤ 2147483647) :
    (((x.sshiftRight chunkLen) * y).toInt = (x.toInt / 2147483648) * y.toInt) ∧
    ((maxChunk + 1).slt ((x.sshiftRight chunkLen) * y) = true →
        4611686018427387904 < x.toInt * y.toInt) ∧
    ((maxChunk + 1).slt ((x.sshiftRight chunkLen) * y) = false →
        ((((x.sshiftRight chunkLen) * y) <<< chunkLen) + (x &&& maxChunk) * y).toInt
          = x.toInt * y.toInt ∧ x.toInt * y.toInt < 9223372036854775808) := by
  generalize hX : x.toInt = X at *
  generalize hY : y.toInt = Y at *
  have e1 : (x.sshiftRight chunkLen).toInt = X / 2147483648 := by rw [toInt_sar_chunk, hX]
  have hh0 : 0 ≤ X / 2147483648 := by omega
  have hh1 : X / 2147483648 ≤ 2147483648 := by omega
  have hp0 : 0 ≤ (X / 2147483648) * Y := Int.mul_nonneg hh0 hy0
  have hp1 : (X / 2147483648) * Y ≤ 2147483648 * 2147483647 :=
    Int.mul_le_mul hh1 hy hy0 (by omega)
  have e2 : ((x.sshiftRight chunkLen) * y).toInt = (X / 2147483648) * Y := by
    rw [toInt_mul', e1, hY] <;> rw [e1, hY] <;> omega
  have hl0 : 0 ≤ X % 2147483648 := by omega
  have hl1 : X % 2147483648 ≤ 2147483647 := by omega
  have hq0 : 0 ≤ (X % 2147483648) * Y := Int.mul_nonneg hl0 hy0
  have hq1 : (X % 2147483648) * Y ≤ 2147483647 * 2147483647 :=
    Int.mul_le_mul hl1 hy hy0 (by omega)
  have e3 : (x &&& maxChunk).toInt = X % 2147483648 := by rw [toInt_and_chunk x (by omega), hX]
  have e4 : ((x &&& maxChunk) * y).toInt = (X % 2147483648) * Y := by
    rw [toInt_mul', e3, hY] <;> rw [e3, hY] <;> omega
  have split : X * Y = ((X / 2147483648) * Y) * 2147483648 + (X % 2147483648) * Y := by
    have hd : X = 2147483648 * (X / 2147483648) + X % 2147483648 := (Int.mul_ediv_add_emod X _).symm
    calc X * Y = (2147483648 * (X / 2147483648) + X % 2147483648) * Y := by rw [← hd]
      _ = _ := by rw [Int.add_mul]; congr 1; rw [Int.mul_assoc, Int.mul_comm]
  refine ⟨e2, ?_, ?_⟩
  · rw [BitVec.slt_eq_decide, maxChunk1_toInt, e2]
    intro h
    have h := of_decide_eq_true h
    rw [split]; omega
  · rw [BitVec.slt_eq_decide, maxChunk1_toInt, e2]
    intro h
    have h := of_decide_eq_false h
    have e5 : (((x.sshiftRight chunkLen) * y) <<< chunkLen).toInt
        = ((X / 2147483648) * Y) * 2147483648 := by
      rw [toInt_shiftLeft_chunk _ (by omega) (by omega), e2]
    constructor
    · rw [toInt_add', e4, e5, ← split] <;> rw [e4, e5] <;> omega
    · rw [split]; omega

end Mosml.Ints

namespace Mosml.Ints

/-- `mulMag` on ordered magnitudes. -/
theorem mulMag_ordered (neg : Bool) (x y : Value) (hx : x.toInt ≤ 4611686018427387904)
    (hy0 : 0 ≤ y.toInt) (hyx : y.toInt ≤ x.toInt) :
    mulMag neg x y =
      if 2147483648 ≤ y.toInt then .overflow
      else exactOr (if neg then -(x.toInt * y.toInt) else x.toInt * y.toInt) := by
  unfold mulMag
  have h1 : x.slt y = false := by rw [BitVec.slt_eq_decide]; simp; omega
  simp only [h1, Bool.false_eq_true, if_false]
  by_cases hy : 2147483648 ≤ y.toInt
  · have : maxChunk.slt y = true := by rw [BitVec.slt_eq_decide, maxChunk_toInt]; simp; omega
    simp [this, hy]
  · have : maxChunk.slt y = false := by rw [BitVec.slt_eq_decide, maxChunk_toInt]; simp; omega
    simp only [this, Bool.false_eq_true, if_false, if_neg hy]
    by_cases hc : x.toInt ≤ 2147483647
    · have h2 : x.sle maxChunk = true := by
        rw [BitVec.sle_eq_decide, maxChunk_toInt]; simp; omega
      simp only [h2, if_true]
      have hm0 : 0 ≤ x.toInt * y.toInt := Int.mul_nonneg (by omega) hy0
      have hm1 : x.toInt * y.toInt ≤ 2147483647 * 2147483647 :=
        Int.mul_le_mul hc (by omega) hy0 (by omega)
      have e : (x * y).toInt = x.toInt * y.toInt := toInt_mul' _ _ (by omega) (by omega)
      rw [valLong_eq_enc]
      cases neg
      · simp only [Bool.false_eq_true, if_false]
        rw [e, exactOr, if_pos]; unfold InRange minInt maxInt; omega
      · simp only [if_true]
        rw [toInt_neg' _ (by omega), e, exactOr, if_pos]; unfold InRange minInt maxInt; omega
    · have h2 : x.sle maxChunk = false := by
        rw [BitVec.sle_eq_decide, maxChunk_toInt]; simp; omega
      simp only [h2, Bool.false_eq_true, if_false]
      obtain ⟨_, hbig, hsmall⟩ := chunk_product x y (by omega) hx hy0 (by omega)
      by_cases hs : (maxChunk + 1).slt (x.sshiftRight chunkLen * y) = true
      · have := hbig hs
        rw [if_pos hs, exactOr, if_neg]
        unfold InRange minInt maxInt
        split <;> omega
      · have hs' := Bool.eq_false_iff.mpr hs
        obtain ⟨e, hlt⟩ := hsmall hs'
        have hm0 : 0 ≤ x.toInt * y.toInt := Int.mul_nonneg (by omega) hy0
        rw [if_neg hs, checked_eq]
        cases neg
        · simp only [Bool.false_eq_true, if_false]; rw [e]
        · simp only [if_true]; rw [toInt_neg' _ (by omega), e]

theorem mulMag_swap (neg : Bool) (x y : Value) (h : x.toInt < y.toInt) :
    mulMag neg x y = mulMag neg y x := by
  unfold mulMag
  have h1 : x.slt y = true := by rw [BitVec.slt_eq_decide]; simp; omega
  have h2 : y.slt x = false := by rw [BitVec.slt_eq_decide]; simp; omega
  simp [h1, h2]

theorem mulMag_eq (neg : Bool) (x y : Value) (hx0 : 0 ≤ x.toInt)
    (hx : x.toInt ≤ 4611686018427387904) (hy0 : 0 ≤ y.toInt) (hy : y.toInt ≤ 4611686018427387904) :
    mulMag neg x y =
      if 2147483648 ≤ x.toInt ∧ 2147483648 ≤ y.toInt then .overflow
      else exactOr (if neg then -(x.toInt * y.toInt) else x.toInt * y.toInt) := by
  by_cases h : x.toInt < y.toInt
  · rw [mulMag_swap _ _ _ h, mulMag_ordered neg y x hy hx0 (by omega), Int.mul_comm y.toInt]
    by_cases h2 : 2147483648 ≤ x.toInt
    · rw [if_pos h2, if_pos ⟨h2, by omega⟩]
    · rw [if_neg h2, if_neg (fun hh : _ ∧ _ => h2 hh.1)]
  · rw [mulMag_ordered neg x y hx hy0 (by omega)]
    by_cases h2 : 2147483648 ≤ y.toInt
    · rw [if_pos h2, if_pos ⟨by omega, h2⟩]
    · rw [if_neg h2, if_neg (fun hh : _ ∧ _ => h2 hh.2)]

/-- Complete description of SMLMULINT. -/
theorem smlMul_eq {a b : Int} (ha : InRange a) (hb : InRange b) :
    smlMul (enc a) (enc b) =
      if 2147483648 ≤ mag a ∧ 2147483648 ≤ mag b then .overflow else exactOr (a * b) := by
  have ea := longVal_enc ha
  have eb := longVal_enc hb
  unfold InRange minInt maxInt at ha hb
  have hxa : (if (longVal (enc a)).slt 0 then - longVal (enc a) else longVal (enc a)).toInt
      = mag a := by rw [toInt_absval _ (by omega), ea]; rfl
  have hxb : (if (longVal (enc b)).slt 0 then - longVal (enc b) else longVal (enc b)).toInt
      = mag b := by rw [toInt_absval _ (by omega), eb]; rfl
  have ra : 0 ≤ mag a ∧ mag a ≤ 4611686018427387904 := by unfold mag; split <;> omega
  have rb : 0 ≤ mag b ∧ mag b ≤ 4611686018427387904 := by unfold mag; split <;> omega
  unfold smlMul
  simp only
  rw [mulMag_eq _ _ _ (by omega) (by omega) (by omega) (by omega), hxa, hxb]
  have hs : (if (longVal (enc b)).slt 0 = true then !(longVal (enc a)).slt 0
      else (longVal (enc a)).slt 0) = ((decide (a < 0)) != (decide (b < 0))) := by
    rw [slt_zero, slt_zero, ea, eb]
    by_cases h1 : a < 0 <;> by_cases h2 : b < 0 <;> simp [h1, h2]
  rw [hs]
  have hp : (if ((decide (a < 0)) != (decide (b < 0))) = true then -(mag a * mag b)
      else mag a * mag b) = a * b := by
    unfold mag
    by_cases h1 : a < 0 <;> by_cases h2 : b < 0 <;>
      simp [h1, h2, Int.neg_mul, Int.mul_neg]
  rw [hp]

/-- Two magnitudes of at least 2^31 have a product of at least 2^62, with equality only at 2^31. -/
theorem big_product {x y : Int} (hx : 2147483648 ≤ x) (hy : 2147483648 ≤ y) :
    4611686018427387904 ≤ x * y ∧ (x * y = 4611686018427387904 → x = 2147483648 ∧ y = 2147483648) := by
  have h1 : 2147483648 * 2147483648 ≤ x * y :=
    Int.mul_le_mul hx hy (by omega) (by omega)
  refine ⟨by omega, fun h => ?_⟩
  by_cases hx' : x = 2147483648
  · subst hx'; omega
  · have h2 : 2147483649 * 2147483648 ≤ x * y :=
      Int.mul_le_mul (by omega) hy (by omega) (by omega)
    omega


theorem eq_zero_iff (x : Value) : x = 0 ↔ x.toInt = 0 := by
  rw [← BitVec.toInt_inj]; rfl

theorem cDiv_pos (a b : Value) (ha : 0 ≤ a.toInt) (hb : 0 < b.toInt) :
    ∃ q, cDiv a b = .val q ∧ q.toInt = a.toInt / b.toInt := by
  have hr := toInt_range a
  have hb0 : ¬ (b = 0 ∨ (a = BitVec.intMin 64 ∧ b = -1)) := by
    rintro (h | ⟨_, h⟩)
    · rw [h] at hb; exact absurd hb (by decide)
    · rw [h] at hb; exact absurd hb (by decide)
  refine ⟨a.sdiv b, by rw [cDiv, if_neg hb0], ?_⟩
  rw [BitVec.toInt_sdiv, Int.tdiv_eq_ediv_of_nonneg ha]
  have h1 : 0 ≤ a.toInt / b.toInt := Int.ediv_nonneg ha (by omega)
  have h2 : a.toInt / b.toInt ≤ a.toInt := Int.ediv_le_self _ ha
  apply bmod_self <;> omega

theorem cMod_pos (a b : Value) (ha : 0 ≤ a.toInt) (hb : 0 < b.toInt) :
    ∃ q, cMod a b = .val q ∧ q.toInt = a.toInt % b.toInt := by
  have hb0 : ¬ (b = 0 ∨ (a = BitVec.intMin 64 ∧ b = -1)) := by
    rintro (h | ⟨_, h⟩)
    · rw [h] at hb; exact absurd hb (by decide)
    · rw [h] at hb; exact absurd hb (by decide)
  refine ⟨a.srem b, by rw [cMod, if_neg hb0], ?_⟩
  rw [BitVec.toInt_srem, Int.tmod_eq_emod_of_nonneg ha]

/-- floor division of a negative number by a positive one, as SMLDIVINT computes it -/
theorem neg_floor {a b : Int} (hb : 0 < b) :
    (if (-a) % b = 0 then -((-a) / b) else -((-a) / b) - 1) = a / b := by
  have h := Int.neg_ediv (a := -a) (b := b)
  rw [Int.neg_neg] at h
  rw [h, Int.sign_eq_one_of_pos hb]
  by_cases hd : b ∣ -a
  · rw [if_pos (Int.emod_eq_zero_of_dvd hd), if_pos hd]; omega
  · rw [if_neg (fun h => hd (Int.dvd_of_emod_eq_zero h)), if_neg hd]

theorem neg_floor_mod {a b : Int} (hb : 0 < b) :
    (if (-a) % b = 0 then 0 else b - (-a) % b) = a % b := by
  have h1 := Int.mul_ediv_add_emod a b
  have h2 := Int.mul_ediv_add_emod (-a) b
  have h3 := neg_floor (a := a) hb
  have r := Int.emod_nonneg (-a) (by omega : b ≠ 0)
  split
  · rename_i h0
    rw [if_pos h0] at h3
    rw [← h3, Int.mul_neg] at h1
    omega
  · rename_i h0
    rw [if_neg h0] at h3
    rw [← h3, Int.mul_sub, Int.mul_neg, Int.mul_one] at h1
    omega

theorem fdiv_signs (a b : Int) (_hb : b ≠ 0) :
    a.fdiv b = (if b < 0 then -a else a) / (if b < 0 then -b else b) := by
  split
  · rw [← Int.neg_fdiv_neg, Int.fdiv_eq_ediv_of_nonneg _ (by omega)]
  · rw [Int.fdiv_eq_ediv_of_nonneg _ (by omega)]

theorem fmod_signs (a b : Int) (hb : b ≠ 0) :
    a.fmod b = (if b < 0 then -((-a) % (-b)) else a % b) := by
  have h := Int.mul_fdiv_add_fmod a b
  have h' := fdiv_signs a b hb
  split
  · rename_i hb'
    rw [if_pos hb', if_pos hb'] at h'
    have h2 := Int.mul_ediv_add_emod (-a) (-b)
    rw [h'] at h
    rw [Int.neg_mul] at h2
    omega
  · rename_i hb'
    rw [Int.fmod_eq_emod_of_nonneg _ (by omega)]

theorem smlDiv_eq {a b : Int} (ha : InRange a) (hb : InRange b) :
    smlDiv (enc a) (enc b) = if b = 0 then .div else exactOr (a.fdiv b) := by
  have ea := longVal_enc ha
  have eb := longVal_enc hb
  unfold smlDiv
  simp only [eq_zero_iff, eb]
  unfold InRange minInt maxInt at ha hb
  by_cases hb0 : b = 0
  · simp [hb0]
  simp only [if_neg hb0]
  rw [fdiv_signs a b hb0]
  have hta : (if (longVal (enc b)).slt 0 then - longVal (enc a) else longVal (enc a)).toInt
      = if b < 0 then -a else a := by
    rw [slt_zero, eb]
    by_cases h : b < 0
    · simp only [h, decide_true, if_true]; rw [toInt_neg' _ (by omega), ea]
    · simp [h, ea]
  have htb : (if (longVal (enc b)).slt 0 then - longVal (enc b) else longVal (enc b)).toInt
      = if b < 0 then -b else b := by rw [toInt_absval _ (by omega), eb]
  have hA : -4611686018427387904 ≤ (if b < 0 then -a else a) ∧
      (if b < 0 then -a else a) ≤ 4611686018427387904 := by split <;> omega
  have hB : 0 < (if b < 0 then -b else b) ∧
      (if b < 0 then -b else b) ≤ 4611686018427387904 := by split <;> omega
  generalize (if b < 0 then -a else a) = A at *
  generalize (if b < 0 then -b else b) = B at *
  generalize (if (longVal (enc b)).slt 0 then - longVal (enc a) else longVal (enc a)) = va at *
  generalize (if (longVal (enc b)).slt 0 then - longVal (enc b) else longVal (enc b)) = vb at *
  rw [zero_sle, hta]
  by_cases h0 : 0 ≤ A
  · simp only [h0, decide_true, if_true]
    obtain ⟨q, hq, hqi⟩ := cDiv_pos va vb (by omega) (by omega)
    rw [hq, Out.bind, checked_eq, hqi, hta, htb]
  · simp only [h0, decide_false, Bool.false_eq_true, if_false]
    have hn : (-va).toInt = -A := by rw [toInt_neg' _ (by omega), hta]
    obtain ⟨q, hq, hqi⟩ := cDiv_pos (-va) vb (by omega) (by omega)
    obtain ⟨r, hr, hri⟩ := cMod_pos (-va) vb (by omega) (by omega)
    rw [hr, Out.bind, hq, Out.bind, checked_eq]
    rw [hn, htb] at hqi hri
    have hq0 : 0 ≤ (-A) / B := Int.ediv_nonneg (by omega) (by omega)
    have hq1 : (-A) / B ≤ -A := Int.ediv_le_self _ (by omega)
    have hqn : (-q).toInt = -((-A) / B) := by rw [toInt_neg' _ (by omega), hqi]
    have e : (if r.toInt = 0 then -q else -q - 1).toInt = A / B := by
      rw [← neg_floor hB.1, hri]
      split
      · exact hqn
      · rw [toInt_sub', hqn, one_toInt] <;> rw [hqn, one_toInt] <;> omega
    rw [e]

theorem smlMod_eq {a b : Int} (ha : InRange a) (hb : InRange b) :
    smlMod (enc a) (enc b) = if b = 0 then .div else .val (enc (a.fmod b)) := by
  have ea := longVal_enc ha
  have eb := longVal_enc hb
  unfold smlMod
  simp only [eq_zero_iff, eb]
  unfold InRange minInt maxInt at ha hb
  by_cases hb0 : b = 0
  · simp [hb0]
  simp only [if_neg hb0]
  rw [fmod_signs a b hb0]
  have hta : (if (longVal (enc b)).slt 0 then - longVal (enc a) else longVal (enc a)).toInt
      = if b < 0 then -a else a := by
    rw [slt_zero, eb]
    by_cases h : b < 0
    · simp only [h, decide_true, if_true]; rw [toInt_neg' _ (by omega), ea]
    · simp [h, ea]
  have htb : (if (longVal (enc b)).slt 0 then - longVal (enc b) else longVal (enc b)).toInt
      = if b < 0 then -b else b := by rw [toInt_absval _ (by omega), eb]
  have hA : -4611686018427387904 ≤ (if b < 0 then -a else a) ∧
      (if b < 0 then -a else a) ≤ 4611686018427387904 := by split <;> omega
  have hB : 0 < (if b < 0 then -b else b) ∧
      (if b < 0 then -b else b) ≤ 4611686018427387904 := by split <;> omega
  have hres : (if b < 0 then -((-a) % (-b)) else a % b)
      = if b < 0 then -((if b < 0 then -a else a) % (if b < 0 then -b else b))
        else (if b < 0 then -a else a) % (if b < 0 then -b else b) := by
    split <;> rfl
  rw [hres]
  generalize (if b < 0 then -a else a) = A at *
  generalize (if b < 0 then -b else b) = B at *
  generalize (if (longVal (enc b)).slt 0 then - longVal (enc a) else longVal (enc a)) = va at *
  generalize (if (longVal (enc b)).slt 0 then - longVal (enc b) else longVal (enc b)) = vb at *
  have hm0 : 0 ≤ A % B := Int.emod_nonneg _ (by omega)
  have hm1 : A % B < B := Int.emod_lt_of_pos _ hB.1
  have key : ∃ t, (if (0 : Value).sle va then cMod va vb
     else (cMod (-va) vb).bind fun r => .val (if r.toInt = 0 then 0 else vb - r)) = .val t ∧
       t.toInt = A % B := by
    rw [zero_sle, hta]
    by_cases h0 : 0 ≤ A
    · simp only [h0, decide_true, if_true]
      obtain ⟨q, hq, hqi⟩ := cMod_pos va vb (by omega) (by omega)
      exact ⟨q, hq, by rw [hqi, hta, htb]⟩
    · simp only [h0, decide_false, Bool.false_eq_true, if_false]
      have hn : (-va).toInt = -A := by rw [toInt_neg' _ (by omega), hta]
      obtain ⟨r, hr, hri⟩ := cMod_pos (-va) vb (by omega) (by omega)
      rw [hn, htb] at hri
      refine ⟨_, by rw [hr, Out.bind], ?_⟩
      rw [← neg_floor_mod hB.1, hri]
      have hr0 : 0 ≤ (-A) % B := Int.emod_nonneg _ (by omega)
      have hr1 : (-A) % B < B := Int.emod_lt_of_pos _ hB.1
      split
      · rfl
      · rw [toInt_sub', hri, htb] <;> rw [hri, htb] <;> omega
  obtain ⟨t, ht, hti⟩ := key
  rw [ht, Out.bind, checked_eq]
  have hf : (if (longVal (enc b)).slt 0 then -t else t).toInt
      = if b < 0 then -(A % B) else A % B := by
    rw [slt_zero, eb]
    by_cases h : b < 0
    · simp only [h, decide_true, if_true]; rw [toInt_neg' _ (by omega), hti]
    · simp [h, hti]
  rw [hf, exactOr, if_pos]
  unfold InRange minInt maxInt
  split <;> omega

theorem enc_sub_one {a : Int} (ha : InRange a) : (enc a - 1).toInt = 2 * a := by
  have h := toInt_enc ha
  unfold InRange minInt maxInt at ha
  rw [toInt_sub', h, one_toInt] <;> (try rw [h, one_toInt]) <;> omega

theorem no_trap {a b : Int} (_ha : InRange a) (hb : InRange b) (hb0 : b ≠ 0) :
    ¬ (enc b - 1 = 0 ∨ (enc a - 1 = BitVec.intMin 64 ∧ enc b - 1 = -1)) := by
  have e := enc_sub_one hb
  rintro (h | ⟨_, h⟩)
  · rw [h] at e; have : (0 : Value).toInt = 0 := rfl; omega
  · rw [h] at e; have : (-1 : Value).toInt = -1 := by decide
    omega

theorem smlQuot_eq {a b : Int} (ha : InRange a) (hb : InRange b) :
    smlQuot (enc a) (enc b) = if b = 0 then .div else exactOr (a.tdiv b) := by
  unfold smlQuot
  simp only [eq_zero_iff, enc_sub_one hb]
  by_cases hb0 : b = 0
  · simp [hb0]
  rw [if_neg (by omega), if_neg hb0, cDiv, if_neg (no_trap ha hb hb0), Out.bind, checked_eq,
    BitVec.toInt_sdiv, enc_sub_one ha, enc_sub_one hb, Int.mul_tdiv_mul_of_pos _ _ (by omega)]
  congr 1
  have h : (a.tdiv b).natAbs ≤ a.natAbs := by
    rw [Int.natAbs_tdiv]; exact Nat.div_le_self _ _
  unfold InRange minInt maxInt at ha
  apply bmod_self <;> omega

theorem smlRem_eq {a b : Int} (ha : InRange a) (hb : InRange b) :
    smlRem (enc a) (enc b) = if b = 0 then .div else .val (enc (a.tmod b)) := by
  unfold smlRem
  simp only [eq_zero_iff, enc_sub_one hb]
  by_cases hb0 : b = 0
  · simp [hb0]
  rw [if_neg (by omega), if_neg hb0, cMod, if_neg (no_trap ha hb hb0), Out.bind]
  congr 1
  apply BitVec.eq_of_toInt_eq
  have h : (a.tmod b).natAbs ≤ a.natAbs := by
    rw [Int.natAbs_tmod]; exact Nat.mod_le _ _
  have hs : (a.tmod b) = a - b * a.tdiv b := by have := Int.mul_tdiv_add_tmod a b; omega
  have hr : InRange (a.tmod b) := by
    have h1 := Int.tmod_eq_emod_of_nonneg (a := a) (b := b)
    by_cases h0 : 0 ≤ a
    · have h2 := Int.tmod_nonneg b h0
      unfold InRange minInt maxInt at ha ⊢; omega
    · unfold InRange minInt maxInt at ha ⊢
      have h2 : (-a).tmod b = - a.tmod b := Int.neg_tmod a b
      have h3 := Int.tmod_nonneg b (show 0 ≤ -a by omega)
      omega
  rw [toInt_enc hr]
  have e : ((enc a - 1).srem (enc b - 1)).toInt = 2 * a.tmod b := by
    rw [BitVec.toInt_srem, enc_sub_one ha, enc_sub_one hb, Int.mul_tmod_mul_of_pos _ _ (by omega)]
  unfold InRange minInt maxInt at hr
  rw [toInt_add', e, one_toInt, Int.add_comm] <;> rw [e, one_toInt] <;> omega

end Mosml.Ints
