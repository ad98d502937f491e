import Verif.Ints.Lemmas

/-! Helper lemmas for the word instructions. -/
namespace Mosml.Ints

theorem toNat_encW {w : Nat} (h : w < W) : (encW w).toNat = 2 * w + 1 := by
  unfold W at h
  simp [encW, BitVec.toNat_ofNat]; omega

theorem encW_eq {v : Value} {w : Nat} (h : v.toNat % 18446744073709551616 = (2 * w + 1) % 18446744073709551616) : v = encW w := by
  apply BitVec.eq_of_toNat_eq
  have := v.isLt
  simp [encW, BitVec.toNat_ofNat]
  omega

theorem encW_sub_one {w : Nat} (h : w < W) : (encW w - 1).toNat = 2 * w := by
  have e := toNat_encW h
  unfold W at h
  rw [BitVec.toNat_sub, e]
  have : (1 : Value).toNat = 1 := rfl
  rw [this]; omega

theorem encW_sub_one_zero {w : Nat} (h : w < W) : encW w - 1 = 0 ↔ w = 0 := by
  have e := encW_sub_one h
  rw [← BitVec.toNat_inj, e]
  have : (0 : Value).toNat = 0 := rfl
  rw [this]; omega

theorem wAdd_eq {x y : Nat} (hx : x < W) (hy : y < W) : wAdd (encW x) (encW y) = encW ((x + y) % W) := by
  apply encW_eq
  rw [wAdd, BitVec.toNat_add, toNat_encW hx, encW_sub_one hy]
  unfold W at *; omega

theorem wSub_eq {x y : Nat} (hx : x < W) (hy : y < W) :
    wSub (encW x) (encW y) = encW ((x + (W - y)) % W) := by
  apply encW_eq
  rw [wSub, BitVec.toNat_sub, toNat_encW hx, encW_sub_one hy]
  unfold W at *; omega

theorem toNat_sar1 {x : Nat} (hx : x < W) :
    ((encW x).sshiftRight 1).toNat = x ∨ ((encW x).sshiftRight 1).toNat = x + 9223372036854775808 := by
  have h := toInt_longVal (encW x)
  have e := toNat_encW hx
  unfold longVal at h
  have l1 := ((encW x).sshiftRight 1).isLt
  unfold W at hx
  simp only [BitVec.toInt] at h
  split at h <;> split at h <;> omega

theorem wMul_eq {x y : Nat} (hx : x < W) (hy : y < W) :
    wMul (encW x) (encW y) = encW ((x * y) % W) := by
  apply encW_eq
  rw [wMul, BitVec.toNat_add, BitVec.toNat_mul, encW_sub_one hy]
  have h1 : (1 : Value).toNat = 1 := rfl
  rw [h1]
  have assoc : x * (2 * y) = 2 * (x * y) := by rw [Nat.mul_left_comm]
  rcases toNat_sar1 hx with h | h <;> rw [h]
  · rw [assoc]; unfold W; omega
  · rw [Nat.add_mul, assoc]; unfold W; omega

theorem wDiv_eq {x y : Nat} (hx : x < W) (hy : y < W) :
    wDiv (encW x) (encW y) = if y = 0 then .div else .val (encW (x / y)) := by
  unfold wDiv
  simp only [encW_sub_one_zero hy]
  by_cases h0 : y = 0
  · simp [h0]
  rw [if_neg h0, if_neg h0]
  congr 1
  apply encW_eq
  have hd : ((encW x - 1).udiv (encW y - 1)).toNat = x / y := by
    rw [BitVec.udiv_eq, BitVec.toNat_udiv, encW_sub_one hx, encW_sub_one hy,
      Nat.mul_div_mul_left _ _ (by omega)]
  have hle : x / y ≤ x := Nat.div_le_self _ _
  unfold valLong
  rw [BitVec.toNat_add, BitVec.toNat_shiftLeft, hd, Nat.shiftLeft_eq]
  have h1 : (1 : Value).toNat = 1 := rfl
  rw [h1]; unfold W at *; omega

theorem wMod_eq {x y : Nat} (hx : x < W) (hy : y < W) :
    wMod (encW x) (encW y) = if y = 0 then .div else .val (encW (x % y)) := by
  unfold wMod
  simp only [encW_sub_one_zero hy]
  by_cases h0 : y = 0
  · simp [h0]
  rw [if_neg h0, if_neg h0]
  congr 1
  apply encW_eq
  have hd : ((encW x - 1).umod (encW y - 1)).toNat = 2 * (x % y) := by
    rw [BitVec.umod_eq, BitVec.toNat_umod, encW_sub_one hx, encW_sub_one hy, Nat.mul_mod_mul_left]
  rw [BitVec.toNat_add, hd]
  have h1 : (1 : Value).toNat = 1 := rfl
  rw [h1]; unfold W at *; omega

theorem and_odd (x y : Nat) : (2 * x + 1) &&& (2 * y + 1) = 2 * (x &&& y) + 1 := by
  apply Nat.eq_of_testBit_eq
  intro i
  cases i with
  | zero => simp [Nat.testBit_zero]
  | succ i =>
    rw [Nat.testBit_and]
    simp only [Nat.testBit_succ]
    rw [show (2 * x + 1) / 2 = x by omega, show (2 * y + 1) / 2 = y by omega,
      show (2 * (x &&& y) + 1) / 2 = x &&& y by omega, Nat.testBit_and]

theorem or_odd (x y : Nat) : (2 * x + 1) ||| (2 * y + 1) = 2 * (x ||| y) + 1 := by
  apply Nat.eq_of_testBit_eq
  intro i
  cases i with
  | zero => simp [Nat.testBit_zero]
  | succ i =>
    rw [Nat.testBit_or]
    simp only [Nat.testBit_succ]
    rw [show (2 * x + 1) / 2 = x by omega, show (2 * y + 1) / 2 = y by omega,
      show (2 * (x ||| y) + 1) / 2 = x ||| y by omega, Nat.testBit_or]

theorem xor_odd (x y : Nat) : (2 * x + 1) ^^^ (2 * y + 1) = 2 * (x ^^^ y) := by
  apply Nat.eq_of_testBit_eq
  intro i
  cases i with
  | zero => simp [Nat.testBit_zero]
  | succ i =>
    rw [Nat.testBit_xor]
    simp only [Nat.testBit_succ]
    rw [show (2 * x + 1) / 2 = x by omega, show (2 * y + 1) / 2 = y by omega,
      show (2 * (x ^^^ y)) / 2 = x ^^^ y by omega, Nat.testBit_xor]

theorem or_one_even (x : Nat) : 1 ||| (2 * x) = 2 * x + 1 := by
  apply Nat.eq_of_testBit_eq
  intro i
  cases i with
  | zero => simp [Nat.testBit_zero]
  | succ i =>
    rw [Nat.testBit_or]
    simp only [Nat.testBit_succ]
    rw [show (2 * x + 1) / 2 = x by omega, show (2 * x) / 2 = x by omega]
    simp

theorem or_one_odd (x : Nat) : 1 ||| (2 * x + 1) = 2 * x + 1 := by
  apply Nat.eq_of_testBit_eq
  intro i
  cases i with
  | zero => simp [Nat.testBit_zero]
  | succ i =>
    rw [Nat.testBit_or]
    simp only [Nat.testBit_succ]
    rw [show (2 * x + 1) / 2 = x by omega]
    simp

theorem or_one (n : Nat) : 1 ||| n = 2 * (n / 2) + 1 := by
  rcases Nat.mod_two_eq_zero_or_one n with h | h
  · have : n = 2 * (n / 2) := by omega
    rw (config := {occs := .pos [1]}) [this]; rw [or_one_even]
  · have : n = 2 * (n / 2) + 1 := by omega
    rw (config := {occs := .pos [1]}) [this]; rw [or_one_odd]

theorem wAnd_eq {x y : Nat} (hx : x < W) (hy : y < W) : wAnd (encW x) (encW y) = encW (x &&& y) := by
  apply encW_eq
  rw [wAnd, BitVec.toNat_and, toNat_encW hx, toNat_encW hy, and_odd, Nat.and_comm]

theorem wOr_eq {x y : Nat} (hx : x < W) (hy : y < W) : wOr (encW x) (encW y) = encW (x ||| y) := by
  apply encW_eq
  rw [wOr, BitVec.toNat_or, toNat_encW hx, toNat_encW hy, or_odd, Nat.or_comm]

theorem wXor_eq {x y : Nat} (hx : x < W) (hy : y < W) : wXor (encW x) (encW y) = encW (x ^^^ y) := by
  apply encW_eq
  rw [wXor, BitVec.toNat_add, BitVec.toNat_xor, toNat_encW hx, toNat_encW hy, xor_odd, Nat.xor_comm]
  have h1 : (1 : Value).toNat = 1 := rfl
  rw [h1]; omega

/-- the representation of a word read as an SML `int` (two's complement) -/
def asInt (w : Nat) : Int := if w < 4611686018427387904 then w else (w : Int) - 9223372036854775808

theorem toInt_encW {w : Nat} (h : w < W) : (encW w).toInt = 2 * asInt w + 1 := by
  have e := toNat_encW h
  unfold asInt W at *
  simp only [BitVec.toInt, e]
  split <;> split <;> omega

theorem asInt_range {w : Nat} (h : w < W) : InRange (asInt w) := by
  unfold InRange minInt maxInt asInt W at *; split <;> omega

theorem encW_eq_enc {w : Nat} (h : w < W) : encW w = enc (asInt w) := by
  apply BitVec.eq_of_toInt_eq
  rw [toInt_encW h, toInt_enc (asInt_range h)]

theorem cst_enc (i : Int) : cst i = enc i := rfl

theorem longVal_encW {k : Nat} (h : k < 63) : longVal (encW k) = BitVec.ofNat 64 k := by
  apply BitVec.eq_of_toInt_eq
  have hW : k < W := by unfold W; omega
  rw [toInt_longVal, toInt_encW hW]
  unfold asInt
  rw [if_pos (by omega), BitVec.toInt_eq_toNat_of_lt (by simp; omega)]
  simp; omega

theorem shiftCount_eq {k : Nat} (h : k < 63) (f : Nat → Value) :
    shiftCount (longVal (encW k)) f = .val (f k) := by
  rw [longVal_encW h, shiftCount]
  have : (BitVec.ofNat 64 k).toInt = k := by
    rw [BitVec.toInt_eq_toNat_of_lt (by simp; omega)]; simp; omega
  rw [this, if_pos (by omega)]
  congr 2
  simp; omega

theorem guard_eq {k : Nat} (h : k < W) :
    (geInt (encW k) (cst 63) || ltInt (encW k) (cst 0)) = decide (63 ≤ k) := by
  have h63 : (cst 63).toInt = 127 := by decide
  have h0 : (cst 0).toInt = 1 := by decide
  unfold geInt ltInt
  rw [BitVec.sle_eq_decide, BitVec.slt_eq_decide, toInt_encW h, h63, h0]
  unfold asInt W at *
  by_cases hk : 63 ≤ k
  · simp only [hk, decide_true, Bool.or_eq_true, decide_eq_true_eq]
    split <;> omega
  · simp only [hk, decide_false, Bool.or_eq_false_iff, decide_eq_false_iff_not]
    split <;> omega

theorem two_pow_dvd_step (w k : Nat) : (2 * w) * 2 ^ k = 2 * (w * 2 ^ k) := by
  rw [Nat.mul_assoc]

theorem wordShl_eq {w k : Nat} (hw : w < W) (hk : k < W) :
    wordShl (encW w) (encW k) = .val (encW (w * 2 ^ k % W)) := by
  unfold wordShl
  rw [guard_eq hk]
  by_cases h : 63 ≤ k
  · simp only [h, decide_true, if_true]
    have : w * 2 ^ k % W = 0 := by
      have : W ∣ 2 ^ k := by
        have : W = 2 ^ 63 := by decide
        rw [this]; exact Nat.pow_dvd_pow 2 h
      exact Nat.mod_eq_zero_of_dvd (Nat.dvd_trans this (Nat.dvd_mul_left _ _))
    rw [this]; congr 1
  · simp only [h, decide_false, Bool.false_eq_true, if_false]
    unfold wShl
    rw [shiftCount_eq (by omega)]
    congr 1
    apply encW_eq
    rw [BitVec.toNat_add, BitVec.toNat_shiftLeft, encW_sub_one hw, Nat.shiftLeft_eq, two_pow_dvd_step]
    have h1 : (1 : Value).toNat = 1 := rfl
    rw [h1]; unfold W at *; omega

theorem wordShr_eq {w k : Nat} (hw : w < W) (hk : k < W) :
    wordShr (encW w) (encW k) = .val (encW (w / 2 ^ k)) := by
  unfold wordShr
  rw [guard_eq hk]
  by_cases h : 63 ≤ k
  · simp only [h, decide_true, if_true]
    have : w / 2 ^ k = 0 := by
      apply Nat.div_eq_of_lt
      have : 2 ^ 63 ≤ 2 ^ k := Nat.pow_le_pow_right (by omega) h
      unfold W at hw; omega
    rw [this]; congr 1
  · simp only [h, decide_false, Bool.false_eq_true, if_false]
    unfold wShr
    rw [shiftCount_eq (by omega)]
    congr 1
    apply encW_eq
    rw [BitVec.toNat_or, BitVec.toNat_ushiftRight, encW_sub_one hw, Nat.shiftRight_eq_div_pow]
    have h1 : (1 : Value).toNat = 1 := rfl
    rw [h1, or_one]
    congr 2
    rw [Nat.div_div_eq_div_mul, Nat.mul_comm (2 ^ k) 2, Nat.mul_div_mul_left _ _ (by omega)]

theorem toInt_or_one (v : Value) : (1 ||| v).toInt = 2 * (v.toInt / 2) + 1 := by
  have hn : (1 ||| v).toNat = 2 * (v.toNat / 2) + 1 := by
    rw [BitVec.toNat_or]; exact or_one _
  have := v.isLt
  simp only [BitVec.toInt, hn]
  split <;> split <;> omega

theorem wordSar_eq {w k : Nat} (hw : w < W) (hk : k < W) :
    wordSar (encW w) (encW k) = .val (enc (asInt w / 2 ^ k)) := by
  unfold wordSar
  rw [guard_eq hk]
  have hr := asInt_range hw
  unfold InRange minInt maxInt at hr
  by_cases h : 63 ≤ k
  · simp only [h, decide_true, if_true]
    have hp : (2 : Int) ^ 63 ≤ 2 ^ k := by
      have : 2 ^ 63 ≤ 2 ^ k := Nat.pow_le_pow_right (by omega) h
      exact_mod_cast this
    have h0 : (cst 0).toInt = 1 := by decide
    have : geInt (encW w) (cst 0) = decide (0 ≤ asInt w) := by
      unfold geInt
      rw [BitVec.sle_eq_decide, h0, toInt_encW hw]
      congr 1; apply propext; omega
    rw [this]
    by_cases hs : 0 ≤ asInt w
    · simp only [hs, decide_true, if_true]
      rw [Int.ediv_eq_zero_of_lt hs (by omega)]; rfl
    · simp only [hs, decide_false, Bool.false_eq_true, if_false]
      have : asInt w / 2 ^ k = -1 := by
        rw [Int.ediv_eq_iff_of_pos (by omega)]
        constructor <;> omega
      rw [this]; rfl
  · simp only [h, decide_false, Bool.false_eq_true, if_false]
    unfold wSar
    rw [shiftCount_eq (by omega)]
    congr 1
    apply BitVec.eq_of_toInt_eq
    have hle : InRange (asInt w / 2 ^ k) := by
      have hpos : (0 : Int) < 2 ^ k := Int.pow_pos (by omega)
      have a1 : asInt w / 2 ^ k < 4611686018427387904 := by
        rw [Int.ediv_lt_iff_lt_mul hpos]
        omega
      have a2 : -4611686018427387904 ≤ asInt w / 2 ^ k := by
        rw [Int.le_ediv_iff_mul_le hpos]
        omega
      unfold InRange minInt maxInt; omega
    rw [toInt_enc hle, toInt_or_one, BitVec.toInt_sshiftRight, encW_eq_enc hw,
      enc_sub_one (asInt_range hw), Int.shiftRight_eq_div_pow]
    have : (2 * asInt w) / ((2 ^ k : Nat) : Int) / 2 = asInt w / 2 ^ k := by
      rw [Int.ediv_ediv_of_nonneg (by exact_mod_cast Nat.zero_le _)]
      push_cast
      rw [Int.mul_comm (2 ^ k) 2, Int.mul_ediv_mul_of_pos _ _ (by omega)]
    rw [this]

theorem wordNotb_eq {w : Nat} (hw : w < W) : wordNotb (encW w) = encW (W - 1 - w) := by
  unfold wordNotb
  have : cst (-1) = encW (W - 1) := by decide
  rw [this, wXor_eq hw (by decide)]
  congr 1
  have hw' : w < 2 ^ 63 := by unfold W at hw; omega
  have h : (BitVec.ofNat 63 w ^^^ BitVec.allOnes 63).toNat = 9223372036854775807 - w := by
    rw [BitVec.xor_allOnes, BitVec.toNat_not, BitVec.toNat_ofNat, Nat.mod_eq_of_lt hw']
  rw [BitVec.toNat_xor, BitVec.toNat_ofNat, Nat.mod_eq_of_lt hw', BitVec.toNat_allOnes] at h
  exact h

end Mosml.Ints
