import Verif.IntInf.Model
import Verif.Num.LemmasScan
import Mathlib.Data.Nat.Log
import Mathlib.Data.List.Induction

/-! # C92: unbounded integers compute exactly, and read back what they print -/
namespace Mosml.IntInf
open Mosml.Ints Mosml.Num

theorem cmp_lt (a b : Int) : largeintCmp a b < 0 ↔ a < b := by unfold largeintCmp; split_ifs <;> constructor <;> intro h <;>
  first | omega | exact absurd h (by decide) | rfl
theorem cmp_gt (a b : Int) : largeintCmp a b > 0 ↔ a > b := by unfold largeintCmp; split_ifs <;> constructor <;> intro h <;>
  first | omega | exact absurd h (by decide) | rfl
theorem cmp_eq (a b : Int) : largeintCmp a b = 0 ↔ a = b := by unfold largeintCmp; split_ifs <;> constructor <;> intro h <;>
  first | omega | exact absurd h (by decide) | rfl
theorem cmp_m1 (a b : Int) : largeintCmp a b = -1 ↔ a < b := by unfold largeintCmp; split_ifs <;> constructor <;> intro h <;>
  first | omega | exact absurd h (by decide) | rfl
theorem cmp_1 (a b : Int) : largeintCmp a b = 1 ↔ a > b := by unfold largeintCmp; split_ifs <;> constructor <;> intro h <;>
  first | omega | exact absurd h (by decide) | rfl
theorem sign_zero (a : Int) : sign a = 0 ↔ a = 0 := cmp_eq a 0
theorem sign_neg (a : Int) : sign a = -1 ↔ a < 0 := cmp_m1 a 0

/-- Addition, subtraction, multiplication, negation, absolute value, minimum, maximum and the comparisons
are those of the integers, without any overflow. -/
theorem C92_arith (a b : Int) :
    add a b = a + b ∧ sub a b = a - b ∧ mul a b = a * b ∧ neg a = -a ∧ abs a = |a| ∧
    IntInf.min a b = Min.min a b ∧ IntInf.max a b = Max.max a b ∧ sign a = Int.sign a ∧
    (sameSign a b = true ↔ Int.sign a = Int.sign b) ∧
    compare a b = .val (Ord.compare a b) ∧
    (lt a b = true ↔ a < b) ∧ (le a b = true ↔ a ≤ b) ∧ (gt a b = true ↔ a > b) ∧ (ge a b = true ↔ a ≥ b) ∧
    (eq a b = true ↔ a = b) ∧ (ne a b = true ↔ a ≠ b) := by
  have hs : ∀ a, sign a = Int.sign a := by
    intro a
    rcases lt_trichotomy a 0 with h | h | h
    · rw [(sign_neg a).mpr h, Int.sign_eq_neg_one_of_neg h]
    · rw [(sign_zero a).mpr h, h]; rfl
    · rw [Int.sign_eq_one_of_pos h]; exact (cmp_1 a 0).mpr h
  refine ⟨rfl, rfl, rfl, rfl, ?_, ?_, ?_, hs a, ?_, ?_, ?_, ?_, ?_, ?_, ?_, ?_⟩
  · unfold IntInf.abs
    by_cases h : a < 0
    · rw [if_pos ((sign_neg a).mpr h), abs_of_neg h]; rfl
    · rw [if_neg (fun e => h ((sign_neg a).mp e)), abs_of_nonneg (by omega)]
  · unfold IntInf.min lt
    by_cases h : a < b
    · rw [if_pos (by simpa using (cmp_lt a b).mpr h)]; omega
    · rw [if_neg (by simpa using fun e => h ((cmp_lt a b).mp e))]; omega
  · unfold IntInf.max gt
    by_cases h : a > b
    · rw [if_pos (by simpa using (cmp_gt a b).mpr h)]; omega
    · rw [if_neg (by simpa using fun e => h ((cmp_gt a b).mp e))]; omega
  · simp [sameSign, hs]
  · unfold IntInf.compare
    rcases lt_trichotomy a b with h | h | h
    · rw [if_pos ((cmp_m1 a b).mpr h), Int.compare_eq_lt.mpr h]
    · rw [if_neg (by rw [cmp_m1]; omega), if_pos ((cmp_eq a b).mpr h), Int.compare_eq_eq.mpr h]
    · rw [if_neg (by rw [cmp_m1]; omega), if_neg (by rw [cmp_eq]; omega), if_pos ((cmp_1 a b).mpr h),
        Int.compare_eq_gt.mpr h]
  · rw [lt, decide_eq_true_iff]; exact cmp_lt a b
  · have := cmp_gt a b
    rw [le, decide_eq_true_iff]; omega
  · rw [gt, decide_eq_true_iff]; exact cmp_gt a b
  · have := cmp_lt a b
    rw [ge, decide_eq_true_iff]; omega
  · rw [eq, decide_eq_true_iff]; exact cmp_eq a b
  · rw [ne, decide_eq_true_iff, Ne, cmp_eq]

example : mul 4611686018427387903 4611686018427387903 = 21267647932558653957237540927630737409 ∧
    compare (-5) 3 = .val .lt := by decide

/-- `div` and `mod` round down: the remainder has the sign of the divisor and is smaller; `quot` and `rem`
round towards zero: the remainder has the sign of the dividend. Each pair satisfies the division law and the
combined operations agree with the single ones. -/
theorem C92_divmod (a b : Int) (hb : b ≠ 0) :
    (∃ q m, div a b = .val q ∧ mod a b = .val m ∧ divMod a b = .val (q, m) ∧ a = b * q + m ∧
      (0 < b → 0 ≤ m ∧ m < b) ∧ (b < 0 → b < m ∧ m ≤ 0)) ∧
    (∃ q m, quot a b = .val q ∧ rem a b = .val m ∧ quotRem a b = .val (q, m) ∧ a = b * q + m ∧
      |m| < |b| ∧ (0 ≤ a → 0 ≤ m) ∧ (a ≤ 0 → m ≤ 0)) := by
  have hs : sign b ≠ 0 := fun e => hb ((sign_zero b).mp e)
  refine ⟨⟨Int.fdiv a b, Int.fmod a b, ?_, ?_, ?_, ?_, ?_, ?_⟩,
    ⟨Int.tdiv a b, Int.tmod a b, ?_, ?_, ?_, ?_, ?_, ?_, ?_⟩⟩
  · rw [div, if_neg hs]
  · rw [mod, if_neg hs]
  · rw [divMod, if_neg hs]
  · exact (Int.mul_fdiv_add_fmod a b).symm
  · intro h; exact ⟨Int.fmod_nonneg_of_pos a h, Int.fmod_lt_of_pos a h⟩
  · intro h
    have h1 : Int.fmod (-a) (-b) = -(Int.fmod a b) := Int.neg_fmod_neg a b
    have h2 := Int.fmod_nonneg_of_pos (-a) (show 0 < -b by omega)
    have h3 := Int.fmod_lt_of_pos (-a) (show 0 < -b by omega)
    omega
  · rw [quot, if_neg hs]
  · rw [rem, if_neg hs]
  · rw [quotRem, if_neg hs]
  · exact (Int.mul_tdiv_add_tmod a b).symm
  · have h1 : (Int.tmod a b).natAbs = a.natAbs % b.natAbs := Int.natAbs_tmod a b
    have h2 := Nat.mod_lt a.natAbs (show b.natAbs > 0 by omega)
    rw [Int.abs_eq_natAbs, Int.abs_eq_natAbs, h1]
    exact_mod_cast h2
  · intro h; exact Int.tmod_nonneg b h
  · intro h
    have h1 : Int.tmod (-a) b = -(Int.tmod a b) := Int.neg_tmod a b
    have h2 := Int.tmod_nonneg b (show 0 ≤ -a by omega)
    omega

example : div (-7) 2 = .val (-4) ∧ mod (-7) 2 = .val 1 ∧ mod 7 (-2) = .val (-1) ∧ quot (-7) 2 = .val (-3) ∧
    rem (-7) 2 = .val (-1) := by decide

/-- `Div` is raised exactly for divisor zero. -/
theorem C92_div_zero (a b : Int) :
    (div a b = .div ↔ b = 0) ∧ (mod a b = .div ↔ b = 0) ∧ (quot a b = .div ↔ b = 0) ∧
    (rem a b = .div ↔ b = 0) ∧ (divMod a b = .div ↔ b = 0) ∧ (quotRem a b = .div ↔ b = 0) := by
  have h := sign_zero b
  refine ⟨?_, ?_, ?_, ?_, ?_, ?_⟩
  all_goals first | unfold div | unfold mod | unfold quot | unfold rem | unfold divMod | unfold quotRem
  all_goals
    by_cases hb : b = 0
    · rw [if_pos (h.mpr hb)]; simp [hb]
    · rw [if_neg (fun e => hb (h.mp e))]; simp [hb]

example : div 7 0 = .div ∧ div 7 (-1) = .val (-7) := by decide

theorem toSi_val {a : Int} (h : InRange a) : largeintToSi a = .val a := by
  obtain ⟨h1, h2⟩ := h
  unfold minInt at h1; unfold maxInt at h2
  have b1 : a.bmod (2 ^ 64) = a := Int.bmod_eq_of_le (by norm_num; omega) (by norm_num; omega)
  have b2 : (2 * a + 1).bmod (2 ^ 64) = 2 * a + 1 := Int.bmod_eq_of_le (by norm_num; omega) (by norm_num; omega)
  have hk : ((BitVec.ofInt 64 a <<< 1 + 1).sshiftRight 1) = BitVec.ofInt 64 a := by
    have e : (BitVec.ofInt 64 a <<< 1 + 1) = BitVec.ofInt 64 (2 * a + 1) := by
      rw [BitVec.shiftLeft_eq_mul_twoPow]
      have : BitVec.twoPow 64 1 = BitVec.ofInt 64 2 := by decide
      rw [this, BitVec.mul_comm, ← BitVec.ofInt_mul, BitVec.ofInt_add]
      rfl
    rw [e, ← BitVec.toInt_inj, BitVec.toInt_sshiftRight, BitVec.toInt_ofInt, BitVec.toInt_ofInt,
      Int.shiftRight_eq_div_pow, b1, b2]
    omega
  unfold largeintToSi
  simp only [hk]
  rw [if_neg (by simp), BitVec.toInt_ofInt, b1]

/-- `toInt` is exact on every number that an `int` can represent and raises `Overflow` on every other;
`fromInt` keeps the number. -/
theorem C92_toInt (a : Int) :
    toInt a = (if InRange a then .val a else .overflow) ∧ fromInt a = a ∧
    (InRange a → toInt (fromInt a) = .val a) := by
  have hf : fromInt a = a := by unfold fromInt; split_ifs <;> omega
  have ht : toInt a = (if InRange a then .val a else .overflow) := by
    unfold toInt
    by_cases h : InRange a
    · have h' := h
      obtain ⟨h1, h2⟩ := h
      rw [if_pos h', if_pos ⟨fun e => by have := (cmp_m1 a minInt).mp e; omega,
        fun e => by have := (cmp_1 a maxInt).mp e; omega⟩, toSi_val h']
    · rw [if_neg h, if_neg]
      rintro ⟨h1, h2⟩
      apply h
      constructor
      · by_contra hc; exact h1 ((cmp_m1 a minInt).mpr (by omega))
      · by_contra hc; exact h2 ((cmp_1 a maxInt).mpr (by omega))
  exact ⟨ht, hf, fun h => by rw [hf, ht, if_pos h]⟩

example : toInt 4611686018427387904 = .overflow ∧ toInt (-4611686018427387904) = .val (-4611686018427387904) := by
  decide +kernel

/-- `pow(i, n)` is the power for `n ≥ 0`; for `n < 0` it raises `Div` at 0, is 1 at 1 and 0 when `|i| > 1`.
Missing: `i = ~1` with a negative even exponent, see `C92_pow_violation`. -/
theorem C92_pow_partial (i n : Int) :
    (0 ≤ n → pow i n = .val (i ^ n.toNat)) ∧
    (n < 0 → (i = 0 → pow i n = .div) ∧ (i = 1 → pow i n = .val 1) ∧ (1 < |i| → pow i n = .val 0) ∧
      (i = -1 → n % 2 = 1 → pow i n = .val ((-1) ^ n.natAbs))) := by
  constructor
  · intro h
    unfold pow
    rw [if_neg (by omega)]
    by_cases h0 : n = 0
    · rw [if_pos h0, h0]; simp
    · rw [if_neg h0]
  · intro h
    unfold pow
    rw [if_pos h]
    refine ⟨?_, ?_, ?_, ?_⟩
    · intro e; rw [if_pos ((sign_zero i).mpr e)]
    · intro e; subst e; rfl
    · intro e
      have : i ≠ 0 ∧ i ≠ 1 ∧ i ≠ -1 := by
        refine ⟨?_, ?_, ?_⟩ <;> (rintro rfl; revert e; decide)
      rw [if_neg (fun e => this.1 ((sign_zero i).mp e)), if_neg (fun e => this.2.1 ((cmp_eq i 1).mp e)),
        if_neg (fun e => this.2.2 ((cmp_eq i (-1)).mp e))]
    · intro e ho
      subst e
      have hodd : Odd n.natAbs := by rw [Nat.odd_iff]; omega
      rw [hodd.neg_one_pow]
      rfl

example : pow (-3) 3 = .val (-27) ∧ pow 0 (-1) = .div ∧ pow 0 0 = .val 1 ∧ pow (-2) (-3) = .val 0 := by decide

/-- Finding: `pow(~1, n)` is ~1 for every negative even `n`, where the power is 1. -/
theorem C92_pow_violation (n : Int) (hn : n < 0) (he : n % 2 = 0) :
    pow (-1) n = .val (-1) ∧ ((-1 : Int)) ^ n.natAbs = 1 := by
  constructor
  · unfold pow; rw [if_pos hn]; rfl
  · have : Even n.natAbs := by rw [Nat.even_iff]; omega
    exact this.neg_one_pow

example : pow (-1) (-2) = .val (-1) := by decide

/-- `log2` raises `Domain` exactly on the numbers that are not positive. For a positive number its result
`k` satisfies `2^(k-1) ≤ i < 2^k`: it is the number of bits. -/
theorem C92_log2_partial (i : Int) :
    (log2 i = .domain ↔ i ≤ 0) ∧
    (0 < i → ∃ k, log2 i = .val (k + 1) ∧ (2 : Int) ^ k ≤ i ∧ i < 2 ^ (k + 1)) := by
  have hs : sign i ≤ 0 ↔ i ≤ 0 := by
    have := cmp_gt i 0
    show largeintCmpSi i 0 ≤ 0 ↔ _
    change largeintCmp i 0 ≤ 0 ↔ _
    omega
  unfold log2
  constructor
  · by_cases h : i ≤ 0
    · simp [if_pos (hs.mpr h), h]
    · rw [if_neg (fun e => h (hs.mp e))]; simp [h]
  · intro h
    rw [if_neg (fun e => absurd (hs.mp e) (by omega))]
    refine ⟨Nat.log2 i.natAbs, ?_, ?_, ?_⟩
    · rw [sizeinbase2, if_neg (by omega)]
    · have := Nat.log2_self_le (show i.natAbs ≠ 0 by omega)
      have h2 : ((2 ^ Nat.log2 i.natAbs : Nat) : Int) ≤ (i.natAbs : Int) := by exact_mod_cast this
      push_cast at h2
      rw [abs_of_pos h] at h2
      exact h2
    · have := Nat.lt_log2_self (n := i.natAbs)
      have h2 : (i.natAbs : Int) < ((2 ^ (Nat.log2 i.natAbs + 1) : Nat) : Int) := by exact_mod_cast this
      push_cast at h2
      rw [abs_of_pos h] at h2
      exact h2

example : log2 8 = .val 4 ∧ log2 0 = .domain := by decide +kernel

/-- Finding: for every positive number, `log2` is one more than the `k` with `2^k ≤ i < 2^(k+1)`. -/
theorem C92_log2_violation (i : Int) (hi : 0 < i) (k : Nat) (h1 : (2 : Int) ^ k ≤ i) (h2 : i < 2 ^ (k + 1)) :
    log2 i = .val (k + 1) := by
  obtain ⟨k', h, h3, h4⟩ := (C92_log2_partial i).2 hi
  have hlt : ∀ {a b : Nat}, (2 : Int) ^ a < 2 ^ (b + 1) → a ≤ b := by
    intro a b hab
    have : (2 : Nat) ^ a < 2 ^ (b + 1) := by exact_mod_cast hab
    exact Nat.lt_succ_iff.mp ((Nat.pow_lt_pow_iff_right (by decide)).mp this)
  have ha : k' ≤ k := hlt (lt_of_le_of_lt h3 h2)
  have hb : k ≤ k' := hlt (lt_of_le_of_lt h1 h4)
  rw [h, le_antisymm ha hb]

example : (2 : Int) ^ 0 ≤ 1 ∧ (1 : Int) < 2 ^ 1 ∧ log2 1 = .val 1 := by decide +kernel

/-! ## text -/

theorem digr_eq (r : Radix) (s acc : Str) :
    digr r acc s = makelarge r ((s.takeWhile r.isDigit).reverse ++ acc) (s.dropWhile r.isDigit) := by
  induction s generalizing acc with
  | nil => simp [digr]
  | cons c s ih =>
    rw [digr]
    by_cases h : r.isDigit c = true
    · rw [if_pos h, ih]; simp [h]
    · rw [if_neg h]; simp [h]

theorem split_digits {r : Radix} {ds rest : Str} (hd : ∀ c ∈ ds, IsDig r.factor c)
    (hr : ∀ c, rest.head? = some c → ¬ IsDig r.factor c) :
    (ds ++ rest).takeWhile r.isDigit = ds ∧ (ds ++ rest).dropWhile r.isDigit = rest := by
  have hd' : ∀ c ∈ ds, r.isDigit c = true := fun c hc => (isDigit_iff r c).mpr (hd c hc)
  rw [List.takeWhile_append_of_pos hd', List.dropWhile_append_of_pos hd']
  cases rest with
  | nil => simp
  | cons c rest =>
    have : ¬ r.isDigit c = true := fun e => hr c rfl ((isDigit_iff r c).mp e)
    simp [this]

theorem dig_ne {b c : Nat} (h : IsDig b c) : c ≠ 45 ∧ c ≠ 126 ∧ c ≠ 43 ∧ isSpace c = false := by
  obtain ⟨d, hd, _⟩ := h
  refine ⟨?_, ?_, ?_, ?_⟩
  · rintro rfl; revert hd; simp [digitVal]
  · rintro rfl; revert hd; simp [digitVal]
  · rintro rfl; revert hd; simp [digitVal]
  · by_contra hc
    have hc : isSpace c = true := by simpa using hc
    have hle : c ≤ 32 := by
      unfold isSpace at hc
      simp at hc
      omega
    have hn : digitVal c = none := by
      have e : '0'.toNat = 48 ∧ 'a'.toNat = 97 ∧ 'A'.toNat = 65 := by decide
      unfold digitVal
      rw [e.1, e.2.1, e.2.2, if_neg (by omega), if_neg (by omega), if_neg (by omega)]
    rw [hn] at hd; cases hd

theorem setStr_pos {b : Nat} {ds : Str} (hne : ds ≠ []) (hd : ∀ c ∈ ds, IsDig b c) :
    setStr ds b = some (numVal b ds : Int) := by
  obtain ⟨c, cs, rfl⟩ := List.exists_cons_of_ne_nil hne
  have h := dig_ne (hd c (by simp))
  unfold setStr
  split
  · next e => cases e; exact absurd rfl h.2.1
  · unfold mpzSetStr
    split
    · next e => cases e; exact absurd rfl h.1
    · rw [if_pos ⟨hne, hd⟩]

theorem setStr_neg {b : Nat} {ds : Str} (hne : ds ≠ []) (hd : ∀ c ∈ ds, IsDig b c) :
    setStr (45 :: ds) b = some (-(numVal b ds : Int)) := by
  show mpzSetStr (45 :: ds) b = _
  show (if _ then _ else _) = _
  rw [if_pos ⟨hne, hd⟩]

theorem dig1_digits {r : Radix} {acc ds rest : Str} (hne : ds ≠ []) (hd : ∀ c ∈ ds, IsDig r.factor c)
    (hr : ∀ c, rest.head? = some c → ¬ IsDig r.factor c) :
    dig1 r acc (ds ++ rest) = makelarge r (ds.reverse ++ acc) rest := by
  obtain ⟨c, cs, rfl⟩ := List.exists_cons_of_ne_nil hne
  have hs := split_digits (r := r) (ds := cs) (fun c hc => hd c (by simp [hc])) hr
  show (if r.isDigit c then digr r (c :: acc) (cs ++ rest) else none) = _
  rw [if_pos ((isDigit_iff r c).mpr (hd c (by simp))), digr_eq, hs.1, hs.2]
  simp

theorem dropWhile_ws {ws s : Str} (hw : ∀ c ∈ ws, isSpace c = true) (hs : ∀ c, s.head? = some c → isSpace c = false) :
    (ws ++ s).dropWhile isSpace = s := by
  rw [List.dropWhile_append_of_pos hw]
  cases s with
  | nil => rfl
  | cons c s => simp [hs c rfl]

/-- `scan` skips blanks, takes an optional sign (`~`, `-` or `+`) and all the digits that follow, and
yields their value and the rest. Missing: the prefix `0x` in base 16, see `C92_hex_violation`. -/
theorem C92_scan_partial (r : Radix) (ws sg ds rest : Str) (hw : ∀ c ∈ ws, isSpace c = true)
    (hsg : sg = [] ∨ sg = ['~'.toNat] ∨ sg = ['-'.toNat] ∨ sg = ['+'.toNat])
    (hne : ds ≠ []) (hd : ∀ c ∈ ds, IsDig r.factor c)
    (hr : ∀ c, rest.head? = some c → ¬ IsDig r.factor c) :
    scan r (ws ++ (sg ++ (ds ++ rest))) =
      some (if sg = ['~'.toNat] ∨ sg = ['-'.toNat] then -(numVal r.factor ds : Int) else numVal r.factor ds,
        rest) := by
  have hpos : dig1 r [] (ds ++ rest) = some ((numVal r.factor ds : Int), rest) := by
    rw [dig1_digits hne hd hr, makelarge]
    simp [setStr_pos hne hd]
  have hneg : dig1 r [45] (ds ++ rest) = some (-(numVal r.factor ds : Int), rest) := by
    rw [dig1_digits hne hd hr, makelarge]
    simp [setStr_neg hne hd]
  obtain ⟨c, cs, e⟩ := List.exists_cons_of_ne_nil hne
  have hc := dig_ne (hd c (by rw [e]; simp))
  unfold scan
  have n1 : '~'.toNat = 126 := by decide
  have n2 : '-'.toNat = 45 := by decide
  have n3 : '+'.toNat = 43 := by decide
  rw [n1, n2, n3] at hsg
  rw [n1, n2]
  rcases hsg with rfl | rfl | rfl | rfl
  · rw [dropWhile_ws hw (by
      intro x hx
      rw [e] at hx
      simp at hx
      subst hx; exact hc.2.2.2)]
    have : scanSign r ([] ++ (ds ++ rest)) = dig1 r [] (ds ++ rest) := by
      rw [List.nil_append, e, List.cons_append]
      unfold scanSign
      split
      · next h => cases h
      · next h => cases h; exact absurd rfl hc.2.1
      · next h => cases h; exact absurd rfl hc.1
      · next h => cases h; exact absurd rfl hc.2.2.1
      · rfl
    rw [this, hpos]; simp
  · rw [dropWhile_ws hw (by intro x hx; simp at hx; subst hx; decide)]
    show dig1 r [45] (ds ++ rest) = _
    rw [hneg]; simp
  · rw [dropWhile_ws hw (by intro x hx; simp at hx; subst hx; decide)]
    show dig1 r [45] (ds ++ rest) = _
    rw [hneg]; simp
  · rw [dropWhile_ws hw (by intro x hx; simp at hx; subst hx; decide)]
    show dig1 r [] (ds ++ rest) = _
    rw [hpos]; simp

example : scan .dec (chars "  ~12x") = some (-12, chars "x") := by decide +kernel

/-- Without a digit after blanks and sign there is no number. -/
theorem C92_scan_none (r : Radix) (ws sg rest : Str) (hw : ∀ c ∈ ws, isSpace c = true)
    (hsg : sg = ['~'.toNat] ∨ sg = ['-'.toNat] ∨ sg = ['+'.toNat])
    (hr : ∀ c, rest.head? = some c → ¬ IsDig r.factor c) :
    scan r (ws ++ (sg ++ rest)) = none ∧
    ((∀ c, rest.head? = some c → isSpace c = false ∧ c ≠ 126 ∧ c ≠ 45 ∧ c ≠ 43) →
      scan r (ws ++ rest) = none) := by
  have hnone : ∀ acc, dig1 r acc rest = none := by
    intro acc
    cases rest with
    | nil => rfl
    | cons c rest =>
      show (if r.isDigit c then _ else none) = _
      rw [if_neg (fun e => hr c rfl ((isDigit_iff r c).mp e))]
  constructor
  · unfold scan
    rcases hsg with rfl | rfl | rfl
    all_goals
      rw [dropWhile_ws hw (by intro x hx; simp at hx; subst hx; decide)]
      exact hnone _
  · intro h
    unfold scan
    rw [dropWhile_ws hw (fun c hc => (h c hc).1)]
    cases rest with
    | nil => rfl
    | cons c rest =>
      have hc := (h c rfl).2
      unfold scanSign
      split
      · rfl
      · next e => cases e; exact absurd rfl hc.1
      · next e => cases e; exact absurd rfl hc.2.1
      · next e => cases e; exact absurd rfl hc.2.2
      · exact hnone _

example : scan .dec (chars " ~ 1") = none ∧ scan .bin (chars "2") = none := by decide +kernel

theorem digitVal_lower (c : Nat) (d : Nat) (h : digitVal c = some d) : digitVal (lower c) = some d := by
  have e : '0'.toNat = 48 ∧ '9'.toNat = 57 ∧ 'a'.toNat = 97 ∧ 'f'.toNat = 102 ∧ 'A'.toNat = 65 ∧
      'F'.toNat = 70 := by decide
  obtain ⟨e1, e2, e3, e4, e5, e6⟩ := e
  unfold lower
  by_cases hc : 65 ≤ c ∧ c ≤ 70
  · rw [if_pos hc]
    unfold digitVal at h ⊢
    rw [e1, e2, e3, e4, e5, e6] at h
    rw [e1, e2, e3, e4, e5, e6]
    rw [if_neg (by omega), if_neg (by omega), if_pos hc] at h
    rw [if_neg (by omega), if_pos (by omega), ← h]
    congr 2
  · rw [if_neg hc]; exact h

theorem numVal_lower {b : Nat} (ds : Str) (hd : ∀ c ∈ ds, IsDig b c) : numVal b (ds.map lower) = numVal b ds := by
  induction ds using List.reverseRecOn with
  | nil => rfl
  | append_singleton ds c ih =>
    obtain ⟨d, h, _⟩ := hd c (by simp)
    rw [List.map_append, List.map_singleton, numVal_snoc, numVal_snoc, ih (fun c hc => hd c (by simp [hc])),
      digitVal_lower c d h, h]

theorem fmt_eq (r : Radix) (a : Int) :
    fmt r a = (if a < 0 then [126] else []) ++ (printfDigits r.factor a.natAbs).map lower := by
  have hg : ∀ b, 2 ≤ b → b ≤ 16 →
      getStr a b = (if a < 0 then [126] else []) ++ (printfDigits b a.natAbs).map lower := by
    intro b h2 h16
    unfold getStr mpzGetStr
    by_cases h : a < 0
    · rw [if_pos h, if_pos h]; rfl
    · rw [if_neg h, if_neg h, List.nil_append]
      split
      · next ds e =>
        exfalso
        have hm : 45 ∈ (printfDigits b a.natAbs).map lower := by rw [e]; simp
        obtain ⟨c, hc, he⟩ := List.mem_map.mp hm
        obtain ⟨d, hd, hlt⟩ := printfDigits_dig h2 h16 _ c hc
        exact (dig_ne ⟨d, digitVal_lower c d hd, hlt⟩).1 he
      · rfl
  cases r <;> exact hg _ (by decide) (by decide)

/-- In every radix the printed number reads back as itself, whatever follows it (except a further digit);
so `fromString (toString i) = SOME i`. -/
theorem C92_roundtrip (r : Radix) (a : Int) (rest : Str) (hr : ∀ c, rest.head? = some c → ¬ IsDig r.factor c) :
    scan r (fmt r a ++ rest) = some (a, rest) ∧ fromString (toString a) = some a := by
  have key : ∀ (r : Radix) (rest : Str), (∀ c, rest.head? = some c → ¬ IsDig r.factor c) →
      scan r (fmt r a ++ rest) = some (a, rest) := by
    intro r rest hr
    obtain ⟨h2, h16⟩ := factor_range r
    have hd : ∀ c ∈ (printfDigits r.factor a.natAbs).map lower, IsDig r.factor c := by
      intro c hc
      obtain ⟨c', hc', rfl⟩ := List.mem_map.mp hc
      obtain ⟨d, hd, hlt⟩ := printfDigits_dig h2 h16 _ c' hc'
      exact ⟨d, digitVal_lower c' d hd, hlt⟩
    have hne : (printfDigits r.factor a.natAbs).map lower ≠ [] := by
      simpa using printfDigits_ne _ _
    have hv : numVal r.factor ((printfDigits r.factor a.natAbs).map lower) = a.natAbs := by
      rw [numVal_lower _ (printfDigits_dig h2 h16 _), printfDigits_val h2 h16]
    have hs := C92_scan_partial r [] (if a < 0 then [126] else []) _ rest (by simp)
      (by by_cases h : a < 0
          · rw [if_pos h]; exact Or.inr (Or.inl rfl)
          · rw [if_neg h]; exact Or.inl rfl) hne hd hr
    rw [fmt_eq, List.append_assoc]
    rw [List.nil_append] at hs
    rw [hs, hv]
    congr 2
    by_cases h : a < 0
    · rw [if_pos h, if_pos (Or.inl (by decide))]; omega
    · rw [if_neg h, if_neg (by simp)]; omega
  refine ⟨key r rest hr, ?_⟩
  have := key .dec [] (by simp)
  rw [List.append_nil] at this
  show (scan .dec (fmt .dec a)).map Prod.fst = _
  rw [this]; rfl

example : fmt .hex (-255) = chars "~ff" ∧ scan .hex (chars "~ffg") = some (-255, chars "g") := by decide +kernel

/-- Finding: `fmt HEX` writes `ff` where `Int.fmt HEX` writes `FF`; and `scan HEX` reads `0xFF` as 0,
leaving `xFF`, where `Int.scan HEX` reads 255. -/
theorem C92_hex_violation :
    fmt .hex 255 = chars "ff" ∧ intFmt .hex 255 = chars "FF" ∧
    scan .hex (chars "0xFF") = some (0, chars "xFF") ∧ intScan .hex (chars "0xFF") = .some 255 [] := by
  decide +kernel

end Mosml.IntInf
