import Verif.Floats.Model
import Verif.Util

namespace Mosml.Floats
open Mosml.RealConv (IsDouble)

/-- `m·2^e` with |m| ≤ 2^53 is a double -/
theorem isDouble_of_le {m e : Int} (h : |m| ≤ 2 ^ 53) : IsDouble ((m : ℚ) * (2 : ℚ) ^ e) := by
  by_cases h1 : m.natAbs < 2 ^ 53
  · exact ⟨m, e, h1, rfl⟩
  · have h2 : m.natAbs = 2 ^ 53 := by rw [Int.abs_eq_natAbs] at h; omega
    rcases Int.natAbs_eq m with h3 | h3
    · refine ⟨1, e + 53, by decide, ?_⟩
      rw [h3, h2, zpow_add₀ (by norm_num)]
      norm_num
      ring
    · refine ⟨-1, e + 53, by decide, ?_⟩
      rw [h3, h2, zpow_add₀ (by norm_num)]
      norm_num
      ring

theorem isDouble_int {n : Int} (h : |n| ≤ 2 ^ 53) : IsDouble (n : ℚ) := by
  have := isDouble_of_le (m := n) (e := 0) h
  simpa using this

theorem isDouble_neg {x : ℚ} (h : IsDouble x) : IsDouble (-x) := by
  obtain ⟨m, e, hm, rfl⟩ := h
  exact ⟨-m, e, by rw [Int.natAbs_neg]; exact hm, by push_cast; ring⟩

namespace Nearest
variable {fl : ℚ → ℚ} (H : Nearest fl)
include H

theorem exact {x : ℚ} (h : IsDouble x) : fl x = x := by
  have := H.near x x h
  rw [sub_self, abs_zero] at this
  have := abs_nonpos_iff.mp this
  linarith

theorem int {n : Int} (h : |n| ≤ 2 ^ 53) : fl n = n := H.exact (isDouble_int h)

theorem le_of_le {x r : ℚ} (hr : IsDouble r) (h : x ≤ r) : fl x ≤ r := by
  by_contra hc
  push Not at hc
  have := H.near x r hr
  rw [abs_of_nonneg (by linarith), abs_of_nonneg (by linarith)] at this
  linarith

theorem ge_of_ge {x r : ℚ} (hr : IsDouble r) (h : r ≤ x) : r ≤ fl x := by
  by_contra hc
  push Not at hc
  have := H.near x r hr
  rw [abs_of_nonpos (by linarith), abs_of_nonpos (by linarith)] at this
  linarith

theorem zero : fl 0 = 0 := by
  have := H.int (n := 0) (by norm_num)
  simpa using this

theorem nonneg {x : ℚ} (h : 0 ≤ x) : 0 ≤ fl x := by
  have := H.ge_of_ge (r := ((0 : Int) : ℚ)) (isDouble_int (by norm_num)) (x := x) (by simpa using h)
  simpa using this

/-- rounding to nearest does not change a number by more than a part in 2^53 -/
theorem abs_err (x : ℚ) : |fl x - x| ≤ |x| / 2 ^ 53 := by
  by_cases hx : x = 0
  · subst hx; rw [H.zero]; simp
  have h : 0 < |x| := abs_pos.mpr hx
  have hlog1 : (2 : ℚ) ^ (Int.log 2 |x|) ≤ |x| := by exact_mod_cast Int.zpow_log_le_self (b := 2) (by norm_num) h
  have hlog2 : |x| < (2 : ℚ) ^ (Int.log 2 |x| + 1) := by exact_mod_cast Int.lt_zpow_succ_log_self (b := 2) (by norm_num) |x|
  set L := Int.log 2 |x|
  set u : ℚ := (2 : ℚ) ^ (L - 52) with hu
  have hu0 : 0 < u := zpow_pos (by norm_num) _
  have e1 : (2 : ℚ) ^ L = u * 2 ^ 52 := by
    rw [hu, ← zpow_natCast, ← zpow_add₀ (by norm_num)]; congr 1; push_cast; ring
  have e2 : (2 : ℚ) ^ (L + 1) = u * 2 ^ 53 := by
    rw [hu, ← zpow_natCast, ← zpow_add₀ (by norm_num)]; congr 1; push_cast; ring
  have hr : |round (x / u)| ≤ 2 ^ 53 := by
    have h2 : |x / u| < 2 ^ 53 := by
      rw [abs_div, abs_of_pos hu0, div_lt_iff₀ hu0]; rw [e2] at hlog2; linarith
    rw [abs_lt] at h2
    have h3 := abs_le.mp (abs_sub_round (x / u))
    have h4 : (round (x / u) : ℚ) < ((2 ^ 53 + 1 : Int) : ℚ) := by push_cast; linarith
    have h5 : ((-2 ^ 53 - 1 : Int) : ℚ) < (round (x / u) : ℚ) := by push_cast; linarith
    have := Int.cast_lt.mp h4
    have := Int.cast_lt.mp h5
    rw [abs_le]
    omega
  have hn := H.near x ((round (x / u) : Int) * (2 : ℚ) ^ (L - 52)) (isDouble_of_le hr)
  rw [← hu] at hn
  have h5 : |(round (x / u) : ℚ) * u - x| ≤ u / 2 := by
    have h6 := abs_sub_round (x / u)
    have h7 : (round (x / u) : ℚ) * u - x = -((x / u - round (x / u)) * u) := by field_simp; ring
    rw [h7, abs_neg, abs_mul, abs_of_pos hu0]
    nlinarith
  have h9 : u ≤ |x| / 2 ^ 52 := by rw [le_div_iff₀ (by positivity)]; rw [e1] at hlog1; exact hlog1
  have h10 : |x| / 2 ^ 52 / 2 = |x| / 2 ^ 53 := by ring
  linarith

theorem le_mul {x : ℚ} (h : 0 < x) : fl x ≤ x * (1 + 1 / 2 ^ 53) := by
  have := le_trans (le_abs_self _) (H.abs_err x)
  rw [abs_of_pos h] at this
  have e : x * (1 + 1 / 2 ^ 53) = x + x / 2 ^ 53 := by ring
  linarith

/-- the error of a rounded approximation -/
theorem close {x v a : ℚ} (hv : 0 ≤ v) (h : |x - v| ≤ a * v) : |fl x - v| ≤ (a + (1 + a) / 2 ^ 53) * v := by
  have h1 := H.abs_err x
  have h2 : |x| ≤ (1 + a) * v := by
    have : |x| ≤ |x - v| + |v| := by
      have := abs_add_le (x - v) v
      rwa [sub_add_cancel] at this
    rw [abs_of_nonneg hv] at this
    linarith
  have h3 : |fl x - v| ≤ |fl x - x| + |x - v| := by
    have := abs_add_le (fl x - x) (x - v)
    rwa [sub_add_sub_cancel] at this
  have h4 : |x| / 2 ^ 53 ≤ (1 + a) * v / 2 ^ 53 := div_le_div_of_nonneg_right h2 (by positivity)
  have h5 : (a + (1 + a) / 2 ^ 53) * v = a * v + (1 + a) * v / 2 ^ 53 := by ring
  linarith

end Nearest

theorem rne_le (x : ℚ) (z : Int) : |x - rne x| ≤ |x - z| := by
  have h0 := Int.floor_le x
  have h1 := Int.lt_floor_add_one x
  have hz : (z : ℚ) ≤ ⌊x⌋ ∨ ((⌊x⌋ : ℚ) + 1 ≤ z) := by
    rcases lt_or_ge ⌊x⌋ z with h | h
    · right; exact_mod_cast h
    · left; exact_mod_cast h
  have lo : x - ⌊x⌋ ≤ 1 / 2 → |x - ⌊x⌋| ≤ |x - z| := by
    intro h
    rcases hz with h2 | h2
    · rw [abs_of_nonneg (by linarith), abs_of_nonneg (by linarith)]; linarith
    · rw [abs_of_nonneg (by linarith), abs_of_nonpos (by linarith)]; linarith
  have hi : 1 / 2 ≤ x - ⌊x⌋ → |x - ((⌊x⌋ + 1 : Int) : ℚ)| ≤ |x - z| := by
    intro h
    push_cast
    rcases hz with h2 | h2
    · rw [abs_of_nonpos (by linarith), abs_of_nonneg (by linarith)]; linarith
    · rw [abs_of_nonpos (by linarith), abs_of_nonpos (by linarith)]; linarith
  unfold rne
  dsimp only
  split
  · next h => exact lo h.le
  · next h =>
    push Not at h
    split
    · exact hi h
    · next h' =>
      push Not at h'
      split
      · exact lo h'
      · exact hi h

/-- what the hardware computes is a nearest double -/
theorem rnd_nearest : Nearest rnd := by
  have hgrid : ∀ x : ℚ, x ≠ 0 → ∀ z : Int, |rnd x - x| ≤ |(z : ℚ) * ulp x - x| := by
    intro x hx z
    have hu0 : 0 < ulp x := zpow_pos (by norm_num) _
    have h := rne_le (x / ulp x) z
    have e1 : ∀ w : Int, (w : ℚ) * ulp x - x = -((x / ulp x - w) * ulp x) := by
      intro w; field_simp; ring
    rw [rnd, if_neg hx, e1, e1, abs_neg, abs_neg, abs_mul, abs_mul, abs_of_pos hu0]
    exact mul_le_mul_of_nonneg_right h hu0.le
  have hlo : ∀ x : ℚ, x ≠ 0 → ulp x * 2 ^ 52 ≤ |x| := by
    intro x hx
    have : (2 : ℚ) ^ (Int.log 2 |x|) ≤ |x| := by
      exact_mod_cast Int.zpow_log_le_self (b := 2) (by norm_num) (abs_pos.mpr hx)
    rwa [ulp, ← zpow_natCast, ← zpow_add₀ (by norm_num), show Int.log 2 |x| - 52 + ((52 : ℕ) : Int) = Int.log 2 |x| by push_cast; ring]
  have hhi : ∀ x : ℚ, |x| < ulp x * 2 ^ 53 := by
    intro x
    have : |x| < (2 : ℚ) ^ (Int.log 2 |x| + 1) := by exact_mod_cast Int.lt_zpow_succ_log_self (b := 2) (by norm_num) |x|
    rwa [ulp, ← zpow_natCast, ← zpow_add₀ (by norm_num), show Int.log 2 |x| - 52 + ((53 : ℕ) : Int) = Int.log 2 |x| + 1 by push_cast; ring]
  constructor
  · intro x
    by_cases hx : x = 0
    · rw [rnd, if_pos hx]; have := isDouble_int (n := 0) (by norm_num); simpa using this
    · rw [rnd, if_neg hx]
      have hu0 : 0 < ulp x := zpow_pos (by norm_num) _
      apply isDouble_of_le
      have h1 : |x / ulp x| < 2 ^ 53 := by
        rw [abs_div, abs_of_pos hu0, div_lt_iff₀ hu0]; linarith [hhi x]
      rw [abs_lt] at h1
      norm_num at h1
      have a1 := rne_le (x / ulp x) (2 ^ 53)
      have a2 := rne_le (x / ulp x) (-2 ^ 53)
      push_cast at a1 a2
      rw [abs_of_nonpos (a := x / ulp x - 9007199254740992) (by linarith)] at a1
      rw [abs_of_nonneg (a := x / ulp x - -9007199254740992) (by linarith)] at a2
      have b1 := le_trans (le_abs_self _) a2
      have b2 := le_trans (neg_le_abs _) a1
      have c1 : (-2 ^ 53 : ℚ) ≤ (rne (x / ulp x) : ℚ) := by linarith
      have c2 : (rne (x / ulp x) : ℚ) ≤ 2 ^ 53 := by linarith
      rw [abs_le]
      constructor
      · exact_mod_cast c1
      · exact_mod_cast c2
  · intro x y hy
    by_cases hx : x = 0
    · rw [rnd, if_pos hx, hx]; simp
    obtain ⟨m, e, hm, rfl⟩ := hy
    have hu0 : 0 < ulp x := zpow_pos (by norm_num) _
    by_cases he : Int.log 2 |x| - 52 ≤ e
    · obtain ⟨k, hk⟩ := Int.eq_ofNat_of_zero_le (Int.sub_nonneg.mpr he)
      have : (m : ℚ) * (2 : ℚ) ^ e = ((m * 2 ^ k : Int) : ℚ) * ulp x := by
        rw [ulp]
        push_cast
        rw [mul_assoc, ← zpow_natCast, ← zpow_add₀ (by norm_num)]
        congr 2
        push_cast at hk ⊢
        omega
      rw [this]
      exact hgrid x hx _
    · have hy : |(m : ℚ) * (2 : ℚ) ^ e| ≤ ulp x * 2 ^ 52 := by
        have h1 : (2 : ℚ) ^ e ≤ ulp x / 2 := by
          have : ulp x / 2 = (2 : ℚ) ^ (Int.log 2 |x| - 52 - 1) := by
            rw [ulp, zpow_sub_one₀ (by norm_num)]; ring
          rw [this]
          exact zpow_le_zpow_right₀ (by norm_num) (by omega)
        have h2 : |(m : ℚ)| ≤ 2 ^ 53 := by
          rw [← Int.cast_abs, Int.abs_eq_natAbs]; exact_mod_cast hm.le
        have h0 : (0 : ℚ) < (2 : ℚ) ^ e := zpow_pos (by norm_num) e
        rw [abs_mul, abs_of_pos h0]
        nlinarith [abs_nonneg (m : ℚ)]
      have hx1 := hlo x hx
      rw [abs_le] at hy
      rcases le_total 0 x with h | h
      · refine le_trans (hgrid x hx (2 ^ 52)) ?_
        push_cast
        rw [abs_of_nonneg h] at hx1
        rw [abs_of_nonpos (by linarith), abs_of_nonpos (by linarith)]
        linarith
      · refine le_trans (hgrid x hx (-2 ^ 52)) ?_
        push_cast
        rw [abs_of_nonpos h] at hx1
        rw [abs_of_nonneg (by linarith), abs_of_nonneg (by linarith)]
        linarith

end Mosml.Floats
