import Verif.RealConv.Model
import Verif.Ints.Props
import Verif.Util

/-! C08: real to int conversions. -/
namespace Mosml.RealConv
open Mosml.Ints

/-! ## Specification -/

/-- `r` is a finite double: a 53-bit integer times a power of two (the lower bound on the exponent of
actual doubles is not needed). -/
def IsDouble (r : ℚ) : Prop := ∃ (m : Int) (e : Int), m.natAbs < 2 ^ 53 ∧ r = m * (2 : ℚ) ^ e

/-- `n` is the integer nearest to `r`, and even if there are two nearest ones -/
def NearestEven (r : ℚ) (n : Int) : Prop := |r - n| ≤ 1 / 2 ∧ (|r - n| = 1 / 2 → Even n)

/-- `n` is `r` truncated toward zero -/
def Truncated (r : ℚ) (n : Int) : Prop := (0 ≤ r → n = ⌊r⌋) ∧ (r < 0 → n = ⌈r⌉)

/-! ## Lemmas -/

theorem toDouble_consts : toDouble maxLong = 4611686018427387904 ∧
    toDouble (toDouble maxLong + 1) = 4611686018427387904 ∧
    toDouble minLong = -4611686018427387904 ∧ toDouble (minLong - 1) = -4611686018427387904 ∧
    toDouble (maxLong + 1) = 4611686018427387904 := by decide +kernel

theorem roundMag_exact {n m e : Nat} (hm : m < 2 ^ 53) (h : n = m * 2 ^ e) : roundMag n = n := by
  unfold roundMag
  by_cases hn : n < 2 ^ 53
  · rw [if_pos hn]
  · rw [if_neg hn]
    dsimp only
    have hn0 : n ≠ 0 := by omega
    have hle := Nat.log2_self_le hn0
    generalize Nat.log2 n = L at *
    have hL : L < 53 + e := by
      by_contra hh
      have : 2 ^ (53 + e) ≤ 2 ^ L := Nat.pow_le_pow_right (by omega) (by omega)
      have h2 : m * 2 ^ e < 2 ^ 53 * 2 ^ e := Nat.mul_lt_mul_of_pos_right hm (Nat.two_pow_pos e)
      rw [← Nat.pow_add] at h2
      omega
    have hdvd : 2 ^ (L - 52) ∣ n := by
      rw [h]
      exact Dvd.dvd.mul_left (Nat.pow_dvd_pow 2 (by omega)) m
    have hmod : n % 2 ^ (L - 52) = 0 := Nat.mod_eq_zero_of_dvd hdvd
    have hpos : 0 < 2 ^ (L - 52) := Nat.two_pow_pos _
    rw [hmod, if_pos (by omega)]
    exact Nat.div_mul_cancel hdvd

theorem toDouble_exact {i : Int} {m e : Nat} (hm : m < 2 ^ 53) (h : i.natAbs = m * 2 ^ e) :
    toDouble i = i := by
  unfold toDouble
  rw [roundMag_exact hm h]
  split <;> omega

theorem toDouble_small {i : Int} (h : i.natAbs < 2 ^ 53) : toDouble i = i :=
  toDouble_exact (e := 0) h (by simp)

/-- a double is either small or an integer -/
theorem double_cases {r : ℚ} (h : IsDouble r) :
    |r| < 2 ^ 53 ∨ ∃ (m e : Nat) (n : Int), m < 2 ^ 53 ∧ r = n ∧ n.natAbs = m * 2 ^ e := by
  obtain ⟨m, e, hm, rfl⟩ := h
  by_cases he : 0 ≤ e
  · right
    obtain ⟨k, rfl⟩ := Int.eq_ofNat_of_zero_le he
    refine ⟨m.natAbs, k, m * 2 ^ k, hm, ?_, ?_⟩
    · push_cast; simp
    · rw [Int.natAbs_mul, Int.natAbs_pow]; rfl
  · left
    have h1 : (2 : ℚ) ^ e ≤ 1 := zpow_le_one_of_nonpos₀ (by norm_num) (by omega)
    have h0 : (0 : ℚ) < (2 : ℚ) ^ e := zpow_pos (by norm_num) e
    have h2 : |(m : ℚ)| < 2 ^ 53 := by
      rw [← Int.cast_abs, Int.abs_eq_natAbs]
      exact_mod_cast hm
    rw [abs_mul, abs_of_pos h0]
    calc |(m : ℚ)| * 2 ^ e ≤ |(m : ℚ)| * 1 := by
          apply mul_le_mul_of_nonneg_left h1 (abs_nonneg _)
      _ < 2 ^ 53 := by rw [mul_one]; exact h2


theorem double_int_of_big {r : ℚ} (h : IsDouble r) (hb : 2 ^ 53 ≤ |r|) : ∃ n : Int, r = n := by
  rcases double_cases h with h1 | ⟨_, _, n, _, h2, _⟩
  · exact absurd hb (not_le.mpr h1)
  · exact ⟨n, h2⟩

theorem toDouble_floor {r : ℚ} (h : IsDouble r) (h0 : 0 ≤ r) : toDouble ⌊r⌋ = ⌊r⌋ := by
  rcases double_cases h with h1 | ⟨m, e, n, hm, rfl, hn⟩
  · apply toDouble_small
    rw [abs_of_nonneg h0] at h1
    have h2 : (⌊r⌋ : ℚ) ≤ r := Int.floor_le r
    have h3 : 0 ≤ ⌊r⌋ := Int.floor_nonneg.mpr h0
    have h4 : ⌊r⌋ < 2 ^ 53 := by
      have : (⌊r⌋ : ℚ) < 2 ^ 53 := lt_of_le_of_lt h2 h1
      exact_mod_cast this
    omega
  · rw [Int.floor_intCast]
    exact toDouble_exact hm hn

theorem toDouble_ceil {r : ℚ} (h : IsDouble r) (h0 : r < 0) : toDouble ⌈r⌉ = ⌈r⌉ := by
  rcases double_cases h with h1 | ⟨m, e, n, hm, rfl, hn⟩
  · apply toDouble_small
    rw [abs_of_neg h0] at h1
    have h2 : r ≤ (⌈r⌉ : ℚ) := Int.le_ceil r
    have h3 : ⌈r⌉ ≤ 0 := by rw [Int.ceil_le]; exact_mod_cast h0.le
    have h4 : -2 ^ 53 < ⌈r⌉ := by
      have : (-2 ^ 53 : ℚ) < (⌈r⌉ : ℚ) := by linarith
      exact_mod_cast this
    omega
  · rw [Int.ceil_intCast]
    exact toDouble_exact hm hn

theorem retChecked_eq {i : Int} (h1 : -9223372036854775808 ≤ i) (h2 : i < 9223372036854775808) :
    retChecked i = exactOr i := by
  have : retChecked i = checked (BitVec.ofInt 64 i) := rfl
  rw [this, checked_eq, BitVec.toInt_ofInt, bmod_self h1 h2]

theorem valLong_ofInt {i : Int} (h : InRange i) : Out.val (valLong (BitVec.ofInt 64 i)) = exactOr i := by
  have h' := h
  unfold InRange minInt maxInt at h'
  rw [valLong_eq_enc, BitVec.toInt_ofInt, bmod_self (by omega) (by omega), exactOr, if_pos h]

theorem castLong_nonneg {r : ℚ} (h0 : 0 ≤ r) (h : r < 9223372036854775808) :
    castLong (.fin r) = some ⌊r⌋ := by
  have h3 : 0 ≤ ⌊r⌋ := Int.floor_nonneg.mpr h0
  have h4 : ⌊r⌋ < 9223372036854775808 := by
    have : (⌊r⌋ : ℚ) < 9223372036854775808 := lt_of_le_of_lt (Int.floor_le r) h
    exact_mod_cast this
  unfold castLong
  dsimp only
  rw [if_neg (not_lt.mpr h0), if_pos ⟨by omega, h4⟩]

theorem castLong_neg {r : ℚ} (h0 : r < 0) (h : -9223372036854775808 ≤ r) :
    castLong (.fin r) = some ⌈r⌉ := by
  have h3 : ⌈r⌉ ≤ 0 := by rw [Int.ceil_le]; exact_mod_cast h0.le
  have h4 : -9223372036854775808 ≤ ⌈r⌉ := by
    have : (-9223372036854775808 : ℚ) ≤ (⌈r⌉ : ℚ) := le_trans h (Int.le_ceil r)
    exact_mod_cast this
  unfold castLong
  dsimp only
  rw [if_pos h0, if_pos ⟨h4, by omega⟩]

theorem exactOr_ov {n : Int} (h : ¬ InRange n) : exactOr n = .overflow := by rw [exactOr, if_neg h]

theorem floor_ge_of {r : ℚ} {n : Int} (h : (n : ℚ) ≤ r) : n ≤ ⌊r⌋ := Int.le_floor.mpr h

/-! ## Theorems -/

/-- C08: `floor` is exact or raises Overflow, for every finite double. -/
theorem C08_floor {r : ℚ} (hr : IsDouble r) : smlFloor (.fin r) = exactOr ⌊r⌋ := by
  obtain ⟨-, c2, c3, -, -⟩ := toDouble_consts
  unfold smlFloor dbl
  rw [c2, c3]
  simp only [Dbl.le, Dbl.lt, decide_eq_true_eq]
  push_cast
  by_cases h0 : (0 : ℚ) ≤ r
  · rw [if_pos h0]
    by_cases h1 : (4611686018427387904 : ℚ) ≤ r
    · rw [if_pos h1, exactOr_ov]
      have : (4611686018427387904 : Int) ≤ ⌊r⌋ := floor_ge_of (by exact_mod_cast h1)
      unfold InRange maxInt; omega
    · have h1' := not_le.mp h1
      rw [if_neg h1, castLong_nonneg h0 (by linarith)]
      have h2 : (⌊r⌋ : ℚ) < 4611686018427387904 := lt_of_le_of_lt (Int.floor_le r) h1'
      have h2' : ⌊r⌋ < 4611686018427387904 := by exact_mod_cast h2
      have h3 : 0 ≤ ⌊r⌋ := Int.floor_nonneg.mpr h0
      exact retChecked_eq (by omega) (by omega)
  · have h0' := not_le.mp h0
    rw [if_neg h0]
    by_cases h1 : r < (-4611686018427387904 : ℚ)
    · rw [if_pos h1, exactOr_ov]
      have h2 : (⌊r⌋ : ℚ) < -4611686018427387904 := lt_of_le_of_lt (Int.floor_le r) h1
      have h2' : ⌊r⌋ < -4611686018427387904 := by exact_mod_cast h2
      unfold InRange minInt; omega
    · have h1' := not_lt.mp h1
      rw [if_neg h1, castLong_neg h0' (by linarith)]
      dsimp only
      rw [toDouble_ceil hr h0']
      have hf : (-4611686018427387904 : Int) ≤ ⌊r⌋ := floor_ge_of (by exact_mod_cast h1')
      have hfc := Int.floor_le_ceil r
      have hc0 : ⌈r⌉ ≤ 0 := by rw [Int.ceil_le]; exact_mod_cast h0'.le
      by_cases h2 : r < (⌈r⌉ : ℚ)
      · rw [if_pos h2]
        have h3 : ⌊r⌋ < ⌈r⌉ := Int.floor_lt.mpr h2
        have h4 := Int.ceil_le_floor_add_one r
        have h5 : ⌈r⌉ - 1 = ⌊r⌋ := by omega
        rw [h5]
        exact retChecked_eq (by omega) (by omega)
      · rw [if_neg h2]
        have h3 : r = (⌈r⌉ : ℚ) := le_antisymm (Int.le_ceil r) (not_lt.mp h2)
        have h5 : ⌊r⌋ = ⌈r⌉ := by
          conv_lhs => rw [h3]
          exact Int.floor_intCast _
        rw [h5] at hf ⊢
        exact retChecked_eq (by omega) (by omega)

theorem neg_of_small {r : ℚ} (hr : IsDouble r) (h : r < -4611686018427387904 + 1)
    (hne : r ≠ -4611686018427387904) : ∃ n : Int, r = n ∧ (n < -4611686018427387904) := by
  obtain ⟨n, rfl⟩ := double_int_of_big hr (by rw [abs_of_neg (by linarith)]; norm_num; linarith)
  refine ⟨n, rfl, ?_⟩
  have h1 : n < -4611686018427387904 + 1 := by exact_mod_cast h
  have h2 : n ≠ -4611686018427387904 := by
    intro hh; apply hne; rw [hh]; norm_num
  omega

/-- C08: `ceil`, for every finite double except ~2^62 (see `C08_violation_ceil`). -/
theorem C08_ceil_partial {r : ℚ} (hr : IsDouble r) (hne : r ≠ -4611686018427387904) :
    smlCeil (.fin r) = exactOr ⌈r⌉ := by
  obtain ⟨c1, -, -, c4, -⟩ := toDouble_consts
  unfold smlCeil dbl
  rw [c1, c4]
  simp only [Dbl.le, Dbl.lt, decide_eq_true_eq]
  push_cast
  by_cases h0 : (0 : ℚ) ≤ r
  · rw [if_pos h0]
    by_cases h1 : (4611686018427387904 : ℚ) < r
    · rw [if_pos h1, exactOr_ov]
      have h2 : (4611686018427387904 : ℚ) < (⌈r⌉ : ℚ) := lt_of_lt_of_le h1 (Int.le_ceil r)
      have h2' : 4611686018427387904 < ⌈r⌉ := by exact_mod_cast h2
      unfold InRange maxInt; omega
    · have h1' := not_lt.mp h1
      rw [if_neg h1, castLong_nonneg h0 (by linarith)]
      dsimp only
      rw [toDouble_floor hr h0]
      have hc : ⌈r⌉ ≤ 4611686018427387904 := by rw [Int.ceil_le]; exact_mod_cast h1'
      have hf0 : 0 ≤ ⌊r⌋ := Int.floor_nonneg.mpr h0
      have hfc := Int.floor_le_ceil r
      by_cases h2 : (⌊r⌋ : ℚ) < r
      · rw [if_pos h2]
        have h3 : ⌊r⌋ < ⌈r⌉ := Int.lt_ceil.mpr h2
        have h4 := Int.ceil_le_floor_add_one r
        have h5 : ⌊r⌋ + 1 = ⌈r⌉ := by omega
        rw [h5]
        exact retChecked_eq (by omega) (by omega)
      · rw [if_neg h2]
        have h3 : r = (⌊r⌋ : ℚ) := le_antisymm (not_lt.mp h2) (Int.floor_le r)
        have h5 : ⌈r⌉ = ⌊r⌋ := by
          conv_lhs => rw [h3]
          exact Int.ceil_intCast _
        rw [h5] at hc ⊢
        exact retChecked_eq (by omega) (by omega)
  · have h0' := not_le.mp h0
    rw [if_neg h0]
    by_cases h1 : r ≤ (-4611686018427387904 : ℚ)
    · rw [if_pos h1, exactOr_ov]
      obtain ⟨n, rfl, hn⟩ := neg_of_small hr (by linarith) hne
      rw [Int.ceil_intCast]
      unfold InRange minInt; omega
    · have h1' := not_le.mp h1
      rw [if_neg h1, castLong_neg h0' (by linarith)]
      dsimp only
      have h2 : (-4611686018427387904 : ℚ) < (⌈r⌉ : ℚ) := lt_of_lt_of_le h1' (Int.le_ceil r)
      have h2' : -4611686018427387904 < ⌈r⌉ := by exact_mod_cast h2
      have hc0 : ⌈r⌉ ≤ 0 := by rw [Int.ceil_le]; exact_mod_cast h0'.le
      exact retChecked_eq (by omega) (by omega)

/-- C08: `trunc`, for every finite double except ~2^62 (see `C08_violation_trunc`). -/
theorem C08_trunc_partial {r : ℚ} {n : Int} (hr : IsDouble r) (hne : r ≠ -4611686018427387904)
    (hn : Truncated r n) : smlTrunc (.fin r) = exactOr n := by
  obtain ⟨-, -, -, c4, c5⟩ := toDouble_consts
  unfold smlTrunc dbl
  rw [c4, c5]
  simp only [Dbl.le, Bool.or_eq_true, decide_eq_true_eq]
  push_cast
  by_cases h0 : (0 : ℚ) ≤ r
  · rw [hn.1 h0]
    have hf0 : 0 ≤ ⌊r⌋ := Int.floor_nonneg.mpr h0
    by_cases h1 : (4611686018427387904 : ℚ) ≤ r
    · rw [if_pos (Or.inl h1), exactOr_ov]
      have : (4611686018427387904 : Int) ≤ ⌊r⌋ := floor_ge_of (by exact_mod_cast h1)
      unfold InRange maxInt; omega
    · have h1' := not_le.mp h1
      rw [if_neg (by push Not; exact ⟨h1', by linarith⟩), castLong_nonneg h0 (by linarith)]
      have h2 : (⌊r⌋ : ℚ) < 4611686018427387904 := lt_of_le_of_lt (Int.floor_le r) h1'
      have h2' : ⌊r⌋ < 4611686018427387904 := by exact_mod_cast h2
      exact valLong_ofInt (by unfold InRange minInt maxInt; omega)
  · have h0' := not_le.mp h0
    rw [hn.2 h0']
    by_cases h1 : r ≤ (-4611686018427387904 : ℚ)
    · rw [if_pos (Or.inr h1), exactOr_ov]
      obtain ⟨n, rfl, hn⟩ := neg_of_small hr (by linarith) hne
      rw [Int.ceil_intCast]
      unfold InRange minInt; omega
    · have h1' := not_le.mp h1
      rw [if_neg (by push Not; exact ⟨by linarith, h1'⟩), castLong_neg h0' (by linarith)]
      have h2 : (-4611686018427387904 : ℚ) < (⌈r⌉ : ℚ) := lt_of_lt_of_le h1' (Int.le_ceil r)
      have h2' : -4611686018427387904 < ⌈r⌉ := by exact_mod_cast h2
      have hc0 : ⌈r⌉ ≤ 0 := by rw [Int.ceil_le]; exact_mod_cast h0'.le
      exact valLong_ofInt (by unfold InRange minInt maxInt; omega)

theorem rint_nearest (r : ℚ) : ∃ n : Int, rint (.fin r) = .fin n ∧ NearestEven r n := by
  have h1 := Int.floor_le r
  have h2 := Int.lt_floor_add_one r
  unfold rint
  dsimp only
  split_ifs with a b c
  · refine ⟨_, rfl, ?_, ?_⟩
    · rw [abs_of_nonneg (by linarith)]; linarith
    · rw [abs_of_nonneg (by linarith)]; intro h; linarith
  · refine ⟨_, rfl, ?_, ?_⟩
    · push_cast; rw [abs_of_nonpos (by linarith)]; linarith
    · push_cast; rw [abs_of_nonpos (by linarith)]; intro h; linarith
  · refine ⟨_, rfl, ?_, ?_⟩
    · rw [abs_of_nonneg (by linarith)]; linarith
    · intro _; exact Int.even_iff.mpr c
  · refine ⟨_, rfl, ?_, ?_⟩
    · push_cast; rw [abs_of_nonpos (by linarith)]; linarith
    · intro _; rw [Int.even_iff]; omega

theorem nearest_unique {r : ℚ} {n m : Int} (hn : NearestEven r n) (hm : NearestEven r m) : n = m := by
  have key : ∀ {a b : Int}, NearestEven r a → NearestEven r b → ¬ a < b := by
    rintro a b ⟨ha, ha'⟩ ⟨hb, hb'⟩ hlt
    rw [abs_le] at ha hb
    have h1 : (a : ℚ) + 1 ≤ b := by exact_mod_cast hlt
    have e1 : r - a = 1 / 2 := by linarith [ha.2, hb.1]
    have e2 : r - b = -(1 / 2) := by linarith [ha.2, hb.1]
    have e3 : (b : ℚ) = a + 1 := by linarith
    have e4 : b = a + 1 := by exact_mod_cast e3
    have h5 := ha' (by rw [e1]; norm_num)
    have h6 := hb' (by rw [e2]; norm_num)
    rw [Int.even_iff] at h5 h6
    omega
  rcases lt_trichotomy n m with h | h | h
  · exact absurd h (key hn hm)
  · exact h
  · exact absurd h (key hm hn)

/-- C08: `round`, for every finite double except 2^62 (see `C08_violation_round`). -/
theorem C08_round_partial {r : ℚ} {n : Int} (hr : IsDouble r) (hne : r ≠ 4611686018427387904)
    (hn : NearestEven r n) : smlRound (.fin r) = exactOr n := by
  obtain ⟨c1, -, c3, -, -⟩ := toDouble_consts
  obtain ⟨m, hm, hm'⟩ := rint_nearest r
  have := nearest_unique hm' hn
  subst this
  unfold smlRound dbl
  rw [c1, c3, hm]
  simp only [Dbl.lt, Bool.or_eq_true, decide_eq_true_eq]
  push_cast
  have hm2 : m ≠ 4611686018427387904 := by
    rintro rfl
    have ha := hn.1
    rw [abs_le] at ha
    push_cast at ha
    obtain ⟨k, rfl⟩ := double_int_of_big hr (by rw [abs_of_nonneg (by linarith)]; norm_num; linarith)
    apply hne
    have h1 : k < 4611686018427387904 + 1 := by
      have : (k : ℚ) < 4611686018427387904 + 1 := by linarith
      exact_mod_cast this
    have h2 : 4611686018427387904 - 1 < k := by
      have : (4611686018427387904 - 1 : ℚ) < k := by linarith
      exact_mod_cast this
    have : k = 4611686018427387904 := by omega
    rw [this]; norm_num
  have q1 : (4611686018427387904 : ℚ) < m ↔ 4611686018427387904 < m := by
    constructor <;> intro h <;> exact_mod_cast h
  have q2 : (m : ℚ) < -4611686018427387904 ↔ m < -4611686018427387904 := by
    constructor <;> intro h <;> exact_mod_cast h
  simp only [q1, q2]
  by_cases h1 : (4611686018427387904 : Int) < m
  · rw [if_pos (Or.inl h1), exactOr_ov]
    unfold InRange maxInt; omega
  · by_cases h2 : m < (-4611686018427387904 : Int)
    · rw [if_pos (Or.inr h2), exactOr_ov]
      unfold InRange minInt; omega
    · rw [if_neg (by omega)]
      have hc : castLong (.fin (m : ℚ)) = some m := by
        unfold castLong
        simp only [Int.ceil_intCast, Int.floor_intCast, ite_self]
        rw [if_pos (by omega)]
      rw [hc]
      exact valLong_ofInt (by unfold InRange minInt maxInt; omega)

/-- C08: infinities raise Overflow. -/
theorem C08_infinities : ∀ r, r = Dbl.pinf ∨ r = Dbl.ninf →
    smlFloor r = .overflow ∧ smlCeil r = .overflow ∧ smlRound r = .overflow ∧ smlTrunc r = .overflow := by
  rintro r (rfl | rfl) <;> exact ⟨rfl, rfl, rfl, rfl⟩

/-- Violation: ~2^62 is representable, but `ceil` raises Overflow on it. -/
theorem C08_violation_ceil : IsDouble (-4611686018427387904) ∧ InRange ⌈(-4611686018427387904 : ℚ)⌉ ∧
    smlCeil (.fin (-4611686018427387904)) = .overflow := by
  refine ⟨⟨-1, 62, by decide, by norm_num⟩, ?_, ?_⟩
  · have : ⌈(-4611686018427387904 : ℚ)⌉ = -4611686018427387904 := by
      have := Int.ceil_intCast (R := ℚ) (-4611686018427387904)
      push_cast at this; exact this
    rw [this]; decide
  · obtain ⟨-, -, -, c4, -⟩ := toDouble_consts
    unfold smlCeil dbl
    rw [c4]
    simp only [Dbl.le, Dbl.lt, decide_eq_true_eq]
    norm_num

/-- Violation: `trunc ~2^62` raises Overflow. -/
theorem C08_violation_trunc : smlTrunc (.fin (-4611686018427387904)) = .overflow := by
  obtain ⟨-, -, -, c4, c5⟩ := toDouble_consts
  unfold smlTrunc dbl
  rw [c4, c5]
  simp [Dbl.le]

/-- Violation: `round 2^62` returns minInt instead of raising Overflow. -/
theorem C08_violation_round : IsDouble 4611686018427387904 ∧ NearestEven 4611686018427387904 4611686018427387904 ∧
    smlRound (.fin 4611686018427387904) = .val (enc minInt) := by
  refine ⟨⟨1, 62, by decide, by norm_num⟩, ⟨by norm_num, by norm_num⟩, ?_⟩
  obtain ⟨c1, -, c3, -, -⟩ := toDouble_consts
  have hf : ⌊(4611686018427387904 : ℚ)⌋ = 4611686018427387904 := by
    have := Int.floor_intCast (R := ℚ) 4611686018427387904
    push_cast at this; exact this
  have hr : rint (.fin 4611686018427387904) = .fin 4611686018427387904 := by
    unfold rint; dsimp only; rw [hf]; norm_num
  have hc : castLong (.fin 4611686018427387904) = some 4611686018427387904 := by
    unfold castLong; dsimp only; rw [hf]; norm_num
  unfold smlRound dbl
  rw [c1, c3, hr]
  dsimp only
  rw [hc]
  simp only [Dbl.lt]
  norm_num
  decide

/-- Violation: a NaN reaches the conversion `(long) r`, which is undefined behaviour in C. -/
theorem C08_violation_nan : smlFloor .nan = .trap ∧ smlCeil .nan = .trap ∧ smlRound .nan = .trap ∧
    smlTrunc .nan = .trap := ⟨rfl, rfl, rfl, rfl⟩

example : IsDouble (-7 / 2) := ⟨-7, -1, by decide, by norm_num⟩
example : NearestEven (-7 / 2) (-4) := by
  refine ⟨by norm_num [abs_le], fun _ => by decide⟩
example : Truncated (-7 / 2) (-3) := by
  refine ⟨fun h => by norm_num at h, fun _ => ?_⟩
  norm_num [Int.ceil_eq_iff, eq_comm]

end Mosml.RealConv
