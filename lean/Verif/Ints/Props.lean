import Verif.Ints.LemmasW

/-!
Properties C01-C04: SML integer and word arithmetic on a 64-bit system.

`enc n` is the machine word for the SML int `n`, `encW w` the one for the SML word `w`.  Outcomes are
`val`, `overflow` (exception Overflow), `div` (exception Div) and `trap` (undefined behaviour of the C
code); every theorem gives the complete outcome, so absence of traps is included.
-/
namespace Mosml.Ints

/-- Distinct representable ints have distinct representations, so the theorems below, which give the
result as `enc n`, determine the result. -/
theorem C01_enc_injective {a b : Int} (ha : InRange a) (hb : InRange b) (h : enc a = enc b) : a = b := by
  have e := congrArg BitVec.toInt h
  rw [toInt_enc ha, toInt_enc hb] at e; omega
example : InRange 4611686018427387903 ∧ InRange (-4611686018427387904) := by decide

/-- C01: `x + y` is exact or raises Overflow. -/
theorem C01_add {x y : Int} (hx : InRange x) (hy : InRange y) :
    smlAdd (enc x) (enc y) =
      if minInt ≤ x + y ∧ x + y ≤ maxInt then .val (enc (x + y)) else .overflow := by
  have rx := longVal_enc hx; have ry := longVal_enc hy
  rw [smlAdd, checked_eq]
  unfold InRange minInt maxInt at hx hy
  rw [toInt_add' _ _ (by omega) (by omega), rx, ry]; rfl
example : InRange 4611686018427387903 ∧ InRange 1 ∧
    smlAdd (enc 4611686018427387903) (enc 1) = .overflow ∧
    smlAdd (enc 4611686018427387903) (enc (-1)) = .val (enc 4611686018427387902) := by decide

/-- C01: `x - y` is exact or raises Overflow. -/
theorem C01_sub {x y : Int} (hx : InRange x) (hy : InRange y) :
    smlSub (enc x) (enc y) =
      if minInt ≤ x - y ∧ x - y ≤ maxInt then .val (enc (x - y)) else .overflow := by
  have rx := longVal_enc hx; have ry := longVal_enc hy
  rw [smlSub, checked_eq]
  unfold InRange minInt maxInt at hx hy
  rw [toInt_sub' _ _ (by omega) (by omega), rx, ry]; rfl
example : smlSub (enc (-4611686018427387904)) (enc 1) = .overflow ∧
    smlSub (enc 3) (enc 10) = .val (enc (-7)) := by decide

/-- C01: `~x` is exact or raises Overflow. -/
theorem C01_neg {x : Int} (hx : InRange x) :
    smlNeg (enc x) = if minInt ≤ -x ∧ -x ≤ maxInt then .val (enc (-x)) else .overflow := by
  have rx := longVal_enc hx
  rw [smlNeg, checked_eq]
  unfold InRange minInt maxInt at hx
  rw [toInt_neg' _ (by omega), rx]; rfl
example : smlNeg (enc (-4611686018427387904)) = .overflow ∧ smlNeg (enc 5) = .val (enc (-5)) := by decide

/-- C01: the specialised instructions for `x + 1` and `x - 1`. -/
theorem C01_succ {x : Int} (hx : InRange x) :
    smlSucc (enc x) = if minInt ≤ x + 1 ∧ x + 1 ≤ maxInt then .val (enc (x + 1)) else .overflow := by
  have rx := longVal_enc hx
  rw [smlSucc, checked_eq]
  unfold InRange minInt maxInt at hx
  have : (1 : Value).toInt = 1 := rfl
  rw [toInt_add' _ _ (by omega) (by omega), rx]; rfl

theorem C01_pred {x : Int} (hx : InRange x) :
    smlPred (enc x) = if minInt ≤ x - 1 ∧ x - 1 ≤ maxInt then .val (enc (x - 1)) else .overflow := by
  have rx := longVal_enc hx
  rw [smlPred, checked_eq]
  unfold InRange minInt maxInt at hx
  have : (1 : Value).toInt = 1 := rfl
  rw [toInt_sub' _ _ (by omega) (by omega), rx]; rfl
example : smlPred (enc (-4611686018427387904)) = .overflow ∧
    smlSucc (enc 4611686018427387903) = .overflow := by decide

/-- C01: `abs x` is exact or raises Overflow. -/
theorem C01_abs {x : Int} (hx : InRange x) :
    smlAbs (enc x) =
      if (x.natAbs : Int) ≤ maxInt then .val (enc x.natAbs) else .overflow := by
  have rx := longVal_enc hx
  unfold smlAbs
  simp only
  rw [checked_eq, toInt_absval _ (by unfold InRange minInt maxInt at hx; omega), rx]
  unfold InRange minInt maxInt at hx
  have : (if x < 0 then -x else x) = (x.natAbs : Int) := by split <;> omega
  rw [this, exactOr]
  by_cases h : (x.natAbs : Int) ≤ maxInt
  · rw [if_pos h, if_pos ⟨by unfold minInt; omega, h⟩]
  · rw [if_neg h, if_neg (fun hh => h hh.2)]
example : smlAbs (enc (-4611686018427387904)) = .overflow ∧ smlAbs (enc (-7)) = .val (enc 7) := by decide

/-- C01: `<`, `<=`, `>`, `>=`, `=` on ints compare the mathematical integers. -/
theorem C01_compare {x y : Int} (hx : InRange x) (hy : InRange y) :
    ltInt (enc x) (enc y) = decide (x < y) ∧ leInt (enc x) (enc y) = decide (x ≤ y) ∧
    gtInt (enc x) (enc y) = decide (x > y) ∧ geInt (enc x) (enc y) = decide (x ≥ y) ∧
    eqInt (enc x) (enc y) = decide (x = y) := by
  unfold ltInt leInt gtInt geInt eqInt
  rw [BitVec.slt_eq_decide, BitVec.sle_eq_decide, BitVec.slt_eq_decide, BitVec.sle_eq_decide,
    toInt_enc hx, toInt_enc hy]
  refine ⟨?_, ?_, ?_, ?_, ?_⟩ <;> try (congr 1; apply propext; omega)
  by_cases h : x = y
  · simp [h]
  · simp [h]; intro hh; exact h (C01_enc_injective hx hy hh)
example : ltInt (enc (-3)) (enc 2) = true ∧ gtInt (enc (-3)) (enc 2) = false := by decide

/-- C02 (partial): multiplication is exact or raises Overflow, except for the operand pairs
`{2^31, ~2^31}`.  Missing from the full claim: exactly those two pairs, where the code is wrong, see
`C02_mul_violation`. -/
theorem C02_mul_partial {x y : Int} (hx : InRange x) (hy : InRange y)
    (h : ¬ ((x = 2147483648 ∧ y = -2147483648) ∨ (x = -2147483648 ∧ y = 2147483648))) :
    smlMul (enc x) (enc y) =
      if minInt ≤ x * y ∧ x * y ≤ maxInt then .val (enc (x * y)) else .overflow := by
  rw [smlMul_eq hx hy]
  by_cases hb : 2147483648 ≤ mag x ∧ 2147483648 ≤ mag y
  · rw [if_pos hb, if_neg]
    obtain ⟨h1, h2⟩ := big_product hb.1 hb.2
    unfold minInt maxInt
    intro hr
    have hc : x * y = mag x * mag y ∨ x * y = -(mag x * mag y) := by
      unfold mag
      by_cases c1 : x < 0 <;> by_cases c2 : y < 0 <;> simp [c1, c2, Int.neg_mul, Int.mul_neg]
    rcases hc with hc | hc
    · omega
    · have h3 := h2 (by omega)
      have hxy : x * y = -4611686018427387904 := by omega
      unfold mag at h3
      have : (x = 2147483648 ∨ x = -2147483648) ∧ (y = 2147483648 ∨ y = -2147483648) := by
        obtain ⟨ha, hb'⟩ := h3
        constructor
        · split at ha <;> omega
        · split at hb' <;> omega
      rcases this with ⟨rfl | rfl, rfl | rfl⟩ <;> simp_all
  · rw [if_neg hb]; rfl
example : smlMul (enc 3037000499) (enc 1518500249) = .val (enc (3037000499 * 1518500249)) ∧
    smlMul (enc 3037000500) (enc (-1518500250)) = .overflow ∧
    smlMul (enc (-4611686018427387904)) (enc 1) = .val (enc (-4611686018427387904)) := by decide

/-- C02 is violated by the code: `2147483648 * ~2147483648` is `Int.minInt`, which is representable,
but Overflow is raised. -/
theorem C02_mul_violation :
    InRange 2147483648 ∧ InRange (-2147483648) ∧ InRange (2147483648 * (-2147483648)) ∧
    smlMul (enc 2147483648) (enc (-2147483648)) = .overflow ∧
    smlMul (enc (-2147483648)) (enc 2147483648) = .overflow := by decide

/-- C03: `x div y` is the floor of the quotient; Div for `y = 0`; Overflow only when the quotient is not
representable. -/
theorem C03_div {x y : Int} (hx : InRange x) (hy : InRange y) :
    smlDiv (enc x) (enc y) =
      if y = 0 then .div
      else if minInt ≤ x.fdiv y ∧ x.fdiv y ≤ maxInt then .val (enc (x.fdiv y)) else .overflow := by
  rw [smlDiv_eq hx hy]; rfl
example : smlDiv (enc (-7)) (enc 2) = .val (enc (-4)) ∧ smlDiv (enc 7) (enc (-2)) = .val (enc (-4)) ∧
    smlDiv (enc 7) (enc 0) = .div ∧ smlDiv (enc (-4611686018427387904)) (enc (-1)) = .overflow := by decide

/-- C03: `x mod y` is `x - y * floor (x / y)` (it has the sign of the divisor); it never overflows. -/
theorem C03_mod {x y : Int} (hx : InRange x) (hy : InRange y) :
    smlMod (enc x) (enc y) = if y = 0 then .div else .val (enc (x - y * x.fdiv y)) := by
  rw [smlMod_eq hx hy]
  have : x.fmod y = x - y * x.fdiv y := by have := Int.mul_fdiv_add_fmod x y; omega
  rw [this]
example : smlMod (enc (-7)) (enc 2) = .val (enc 1) ∧ smlMod (enc 7) (enc (-2)) = .val (enc (-1)) ∧
    smlMod (enc (-4611686018427387904)) (enc (-1)) = .val (enc 0) := by decide

/-- C03: `quot` truncates toward zero. -/
theorem C03_quot {x y : Int} (hx : InRange x) (hy : InRange y) :
    smlQuot (enc x) (enc y) =
      if y = 0 then .div
      else if minInt ≤ x.tdiv y ∧ x.tdiv y ≤ maxInt then .val (enc (x.tdiv y)) else .overflow := by
  rw [smlQuot_eq hx hy]; rfl
example : smlQuot (enc (-7)) (enc 2) = .val (enc (-3)) ∧
    smlQuot (enc (-4611686018427387904)) (enc (-1)) = .overflow := by decide

/-- C03: `rem` is `x - y * quot`; it has the sign of the dividend and never overflows or traps. -/
theorem C03_rem {x y : Int} (hx : InRange x) (hy : InRange y) :
    smlRem (enc x) (enc y) = if y = 0 then .div else .val (enc (x - y * x.tdiv y)) := by
  rw [smlRem_eq hx hy]
  have : x.tmod y = x - y * x.tdiv y := by have := Int.mul_tdiv_add_tmod x y; omega
  rw [this]
example : smlRem (enc (-7)) (enc 2) = .val (enc (-1)) ∧
    smlRem (enc (-4611686018427387904)) (enc (-1)) = .val (enc 0) := by decide

/-- C03: the only quotient of representable numbers that is not representable is `minInt / ~1`, for both
roundings, so the Overflow cases above are exactly the documented ones. -/
theorem C03_overflow_cases {x y : Int} (hx : InRange x) (_hy : InRange y) (hy0 : y ≠ 0) :
    (InRange (x.fdiv y) ↔ ¬ (x = minInt ∧ y = -1)) ∧ (InRange (x.tdiv y) ↔ ¬ (x = minInt ∧ y = -1)) := by
  unfold InRange minInt maxInt at *
  have key : (y = 1 ∨ y = -1) ∨ 2 ≤ y.natAbs := by omega
  rcases key with (rfl | rfl) | h2
  · simp only [Int.tdiv_one, Int.fdiv_one]; omega
  · rw [Int.tdiv_neg, Int.tdiv_one, fdiv_signs x (-1) (by omega)]; simp; omega
  · have ht : (x.tdiv y).natAbs ≤ x.natAbs / 2 := by
      rw [Int.natAbs_tdiv]; exact Nat.div_le_div_left h2 (by omega)
    have hf : -((x.natAbs / 2 : Nat) : Int) - 1 ≤ x.fdiv y ∧ x.fdiv y ≤ (x.natAbs / 2 : Nat) := by
      rw [fdiv_signs x y hy0]
      generalize hA : (if y < 0 then -x else x) = A
      generalize hB : (if y < 0 then -y else y) = B
      have hBp : 2 ≤ B := by rw [← hB]; split <;> omega
      have hAb : A.natAbs = x.natAbs := by rw [← hA]; split <;> omega
      have hfl : A / 2 ≤ A / B ∨ 0 ≤ A := by
        by_cases h0 : 0 ≤ A
        · right; exact h0
        · left
          rw [Int.le_ediv_iff_mul_le (by omega)]
          have h3 : (A / 2) * B ≤ (A / 2) * 2 := Int.mul_le_mul_of_nonpos_left (by omega) (by omega)
          omega
      have hfu : A / B ≤ A / 2 ∨ A < 0 := by
        by_cases h0 : 0 ≤ A
        · left
          have : A / B < A / 2 + 1 := by
            rw [Int.ediv_lt_iff_lt_mul (by omega)]
            have h3 : (A / 2 + 1) * 2 ≤ (A / 2 + 1) * B := Int.mul_le_mul_of_nonneg_left hBp (by omega)
            omega
          omega
        · right; omega
      have hz : 0 ≤ A → 0 ≤ A / B := fun h => Int.ediv_nonneg h (by omega)
      have hn : A < 0 → A / B < 0 := fun h => Int.ediv_neg_of_neg_of_pos h (by omega)
      omega
    omega
example : InRange minInt ∧ InRange (-1) ∧ ¬ InRange (minInt.fdiv (-1)) := by decide

/-- C04: word `+`, `-`, `*` are arithmetic modulo `2^63`. -/
theorem C04_arith {x y : Nat} (hx : x < W) (hy : y < W) :
    wAdd (encW x) (encW y) = encW ((x + y) % 2 ^ 63) ∧
    wSub (encW x) (encW y) = encW ((x + (2 ^ 63 - y)) % 2 ^ 63) ∧
    wMul (encW x) (encW y) = encW ((x * y) % 2 ^ 63) :=
  ⟨wAdd_eq hx hy, wSub_eq hx hy, wMul_eq hx hy⟩
example : 9223372036854775807 < W ∧
    wMul (encW 9223372036854775807) (encW 3) = encW 9223372036854775805 ∧
    wSub (encW 3) (encW 5) = encW 9223372036854775806 := by decide

/-- Word representations are injective. -/
theorem C04_encW_injective {x y : Nat} (hx : x < W) (hy : y < W) (h : encW x = encW y) : x = y := by
  have e := congrArg BitVec.toNat h
  rw [toNat_encW hx, toNat_encW hy] at e; omega

/-- C04: word `div` and `mod` are unsigned. -/
theorem C04_divmod {x y : Nat} (hx : x < W) (hy : y < W) :
    wDiv (encW x) (encW y) = (if y = 0 then .div else .val (encW (x / y))) ∧
    wMod (encW x) (encW y) = (if y = 0 then .div else .val (encW (x % y))) :=
  ⟨wDiv_eq hx hy, wMod_eq hx hy⟩
example : wDiv (encW 9223372036854775807) (encW 2) = .val (encW 4611686018427387903) ∧
    wMod (encW 9223372036854775807) (encW 10) = .val (encW 7) ∧ wDiv (encW 1) (encW 0) = .div := by decide

/-- C04: word comparisons are unsigned. -/
theorem C04_compare {x y : Nat} (hx : x < W) (hy : y < W) :
    ltUnsign (encW x) (encW y) = decide (x < y) ∧ leUnsign (encW x) (encW y) = decide (x ≤ y) ∧
    gtUnsign (encW x) (encW y) = decide (x > y) ∧ geUnsign (encW x) (encW y) = decide (x ≥ y) := by
  unfold ltUnsign leUnsign gtUnsign geUnsign
  simp only [BitVec.ult_eq_decide, BitVec.ule_eq_decide, toNat_encW hx, toNat_encW hy]
  refine ⟨?_, ?_, ?_, ?_⟩ <;> (congr 1; apply propext; omega)
example : ltUnsign (encW 1) (encW 9223372036854775807) = true := by decide

/-- C04: `andb`, `orb`, `xorb`, `notb` act on each of the 63 bits. -/
theorem C04_bitwise {x y : Nat} (hx : x < W) (hy : y < W) :
    wAnd (encW x) (encW y) = encW (x &&& y) ∧ wOr (encW x) (encW y) = encW (x ||| y) ∧
    wXor (encW x) (encW y) = encW (x ^^^ y) ∧ wordNotb (encW x) = encW (2 ^ 63 - 1 - x) :=
  ⟨wAnd_eq hx hy, wOr_eq hx hy, wXor_eq hx hy, wordNotb_eq hx⟩
example : wXor (encW 12) (encW 10) = encW 6 ∧ wordNotb (encW 0) = encW 9223372036854775807 := by decide

/-- C04: shifts, for every shift count (also counts of `wordSize` or more). `>>` and `<<` give
`floor (w / 2^k)` and `w * 2^k mod 2^63`; `~>>` gives `floor (asInt w / 2^k)` where `asInt` reads the word
as a two's complement number. -/
theorem C04_shifts {w k : Nat} (hw : w < W) (hk : k < W) :
    wordShl (encW w) (encW k) = .val (encW (w * 2 ^ k % 2 ^ 63)) ∧
    wordShr (encW w) (encW k) = .val (encW (w / 2 ^ k)) ∧
    wordSar (encW w) (encW k) =
      .val (enc ((if w < 2 ^ 62 then (w : Int) else w - 2 ^ 63) / 2 ^ k)) :=
  ⟨wordShl_eq hw hk, wordShr_eq hw hk, wordSar_eq hw hk⟩
example : wordShl (encW 5) (encW 62) = .val (encW 4611686018427387904) ∧
    wordShl (encW 5) (encW 64) = .val (encW 0) ∧
    wordSar (encW 9223372036854775800) (encW 2) = .val (encW 9223372036854775806) := by decide

/-- C04 (partial): `Word.~ w` is negation modulo `2^63`, for every word but `2^62`.  Missing: the word
`2^62`, where the code raises Overflow, see `C04_neg_violation`. -/
theorem C04_neg_partial {w : Nat} (hw : w < W) (h : w ≠ 2 ^ 62) :
    wordNeg (encW w) = .val (encW ((2 ^ 63 - w) % 2 ^ 63)) := by
  unfold wordNeg
  rw [encW_eq_enc hw, C01_neg (asInt_range hw), if_pos]
  · congr 1
    have hm : (2 ^ 63 - w) % 2 ^ 63 < W := Nat.mod_lt _ (by decide)
    rw [encW_eq_enc hm]
    congr 1
    unfold asInt W at *
    split <;> split <;> omega
  · unfold asInt minInt maxInt W at *
    split <;> omega
example : wordNeg (encW 1) = .val (encW 9223372036854775807) := by decide

/-- C04 is violated by `Word.~` at `0wx4000000000000000`: negation modulo `2^63` should give the same word
back, but Overflow is raised. -/
theorem C04_neg_violation :
    2 ^ 62 < W ∧ (2 ^ 63 - 2 ^ 62) % 2 ^ 63 = 2 ^ 62 ∧ wordNeg (encW (2 ^ 62)) = .overflow := by decide

/-- C04: `Word.toInt` returns the word's value when it is a representable int and raises Overflow otherwise. -/
theorem C04_toInt {w : Nat} (hw : w < W) :
    wordToInt (encW w) = if (w : Int) ≤ maxInt then .val (enc w) else .overflow := by
  unfold wordToInt
  have : cst 0x3FFFFFFFFFFFFFFF = encW 4611686018427387903 := by decide
  rw [this, (C04_compare hw (by decide)).2.2.1]
  unfold maxInt W at *
  by_cases h : (w : Int) ≤ 4611686018427387903
  · rw [if_neg (by simp; omega), if_pos h, encW_eq_enc hw, asInt, if_pos (by omega)]
  · rw [if_pos (by simp; omega), if_neg h]
example : wordToInt (encW 4611686018427387904) = .overflow := by decide

end Mosml.Ints
