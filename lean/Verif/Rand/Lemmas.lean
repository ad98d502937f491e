import Verif.Rand.Model
import Verif.Rand.Period
import Verif.Floats.Lemmas

namespace Mosml.Rand
open Mosml.RealConv (IsDouble)
open Mosml.Floats

variable {fl : ℚ → ℚ}

theorem floor_ok {x : ℚ} {k : Int} (h : ⌊x⌋ = k) (h1 : -4611686018427387904 ≤ k) (h2 : k ≤ 4611686018427387903) :
    floor x = .ok k := by
  rw [floor, h, if_pos ⟨h1, h2⟩]

theorem isDouble_sub_small {n : Int} (h : |n| ≤ 2 ^ 20) : IsDouble ((n : ℚ) + 1 - 1 / 2 ^ 32) := by
  have : (n : ℚ) + 1 - 1 / 2 ^ 32 = (((n + 1) * 2 ^ 32 - 1 : Int) : ℚ) * (2 : ℚ) ^ (-32 : Int) := by
    push_cast
    rw [zpow_neg]
    norm_num
    ring
  rw [this]
  apply isDouble_of_le
  rw [abs_le] at *
  omega

/-- one step on an integral seed -/
theorem nextrand_int (H : Nearest fl) {s : Int} (hs : |s| ≤ 2 ^ 36) :
    nextrand fl s = .ok ((16807 * s % 2147483647 : Int) : ℚ) := by
  have hs' := abs_le.mp hs
  have t1 : fl (a * s) = ((16807 * s : Int) : ℚ) := by
    have := H.int (n := 16807 * s) (by rw [abs_le]; omega)
    unfold a
    push_cast at this ⊢
    exact this
  have hk : 16807 * s = 2147483647 * (16807 * s / 2147483647) + 16807 * s % 2147483647 := (Int.mul_ediv_add_emod _ _).symm
  have hr0 : 0 ≤ 16807 * s % 2147483647 := Int.emod_nonneg _ (by omega)
  have hr : 16807 * s % 2147483647 < 2147483647 := Int.emod_lt_of_pos _ (by omega)
  generalize 16807 * s / 2147483647 = k at *
  generalize 16807 * s % 2147483647 = r at *
  have hk2 : |k| ≤ 2 ^ 20 := by rw [abs_le]; omega
  have hk3 := abs_le.mp hk2
  have hq : ((16807 * s : Int) : ℚ) / m = k + r / 2147483647 := by
    rw [hk]; unfold m; push_cast; field_simp
  have hr2 : (r : ℚ) ≤ 2147483646 := by exact_mod_cast Int.le_of_lt_add_one hr
  have hr1 : (0 : ℚ) ≤ r := by exact_mod_cast hr0
  have hfloor : ⌊fl (((16807 * s : Int) : ℚ) / m)⌋ = k := by
    rw [hq, Int.floor_eq_iff]
    constructor
    · apply H.ge_of_ge (isDouble_int (by omega))
      have : (0 : ℚ) ≤ (r : ℚ) / 2147483647 := by positivity
      linarith
    · have h1 : fl ((k : ℚ) + r / 2147483647) ≤ (k : ℚ) + 1 - 1 / 2 ^ 32 := by
        apply H.le_of_le (isDouble_sub_small hk2)
        have : (r : ℚ) / 2147483647 ≤ 2147483646 / 2147483647 := by
          apply div_le_div_of_nonneg_right hr2; norm_num
        have : (2147483646 : ℚ) / 2147483647 ≤ 1 - 1 / 2 ^ 32 := by norm_num
        linarith
      have : (0 : ℚ) < 1 / 2 ^ 32 := by norm_num
      linarith
  unfold nextrand
  dsimp only
  rw [t1, floor_ok hfloor (by omega) (by omega)]
  dsimp only
  have e1 : real fl k = (k : ℚ) := H.int (by omega)
  have e2 : fl (m * (k : ℚ)) = ((2147483647 * k : Int) : ℚ) := by
    have := H.int (n := 2147483647 * k) (by rw [abs_le]; omega)
    unfold m
    push_cast at this ⊢
    exact this
  have e3 : fl (((16807 * s : Int) : ℚ) - ((2147483647 * k : Int) : ℚ)) = (r : ℚ) := by
    have := H.int (n := r) (by rw [abs_le]; omega)
    rw [hk]
    push_cast at this ⊢
    rw [add_sub_cancel_left]
    exact this
  rw [e1, e2, e3]

theorem nextrand_nat (H : Nearest fl) {s : Nat} (hs : s < M) : nextrand fl s = .ok ((16807 * s % M : Nat) : ℚ) := by
  have := nextrand_int H (s := (s : Int)) (by unfold M at hs; rw [abs_le]; omega)
  rw [Int.cast_natCast] at this
  rw [this]
  unfold M
  push_cast
  congr 1

/-- the next seed is again in 1..M-1 -/
theorem next_range {s : Nat} (h0 : 0 < s) (hs : s < M) : 0 < 16807 * s % M ∧ 16807 * s % M < M := by
  refine ⟨?_, Nat.mod_lt _ (by decide)⟩
  apply Nat.pos_of_ne_zero
  intro h
  have hd := Nat.dvd_of_mod_eq_zero h
  rcases (M_prime.dvd_mul).mp hd with h1 | h1
  · exact absurd (Nat.le_of_dvd (by decide) h1) (by decide)
  · exact absurd (Nat.le_of_dvd h0 h1) (by omega)

/-- the real random number -/
theorem random_bounds (H : Nearest fl) {s : Nat} (h0 : 0 < s) (hs : s < M) :
    0 < fl ((s : ℚ) / m) ∧ fl ((s : ℚ) / m) < 1 := by
  unfold M at hs
  have hs2 : (s : ℚ) ≤ 2147483646 := by exact_mod_cast Nat.le_of_lt_succ hs
  have hs1 : (1 : ℚ) ≤ s := by exact_mod_cast h0
  constructor
  · have h1 : (((1 : Int) : ℚ) * (2 : ℚ) ^ (-31 : Int)) ≤ fl ((s : ℚ) / m) := by
      apply H.ge_of_ge (isDouble_of_le (by norm_num))
      unfold m
      rw [le_div_iff₀ (by norm_num), zpow_neg]
      norm_num
      linarith
    have : (0 : ℚ) < ((1 : Int) : ℚ) * (2 : ℚ) ^ (-31 : Int) := by rw [zpow_neg]; norm_num
    linarith
  · have h1 : fl ((s : ℚ) / m) ≤ ((0 : Int) : ℚ) + 1 - 1 / 2 ^ 32 := by
      apply H.le_of_le (isDouble_sub_small (by norm_num))
      unfold m
      rw [div_le_iff₀ (by norm_num)]
      norm_num
      linarith
    have : (0 : ℚ) < 1 / 2 ^ 32 := by norm_num
    push_cast at h1
    linarith

/-- the integral random number, when the bounds are not too large compared to their distance -/
theorem pick_bounds (H : Nearest fl) {s k : Nat} {min max : Int} (hs : s < M)
    (hk : 2 ^ k ≤ max - min) (h1 : |min| ≤ 2 ^ (21 + k)) (h2 : |max| ≤ 2 ^ (21 + k))
    (h3 : |min| ≤ 2 ^ 52) (h4 : |max| ≤ 2 ^ 52) :
    ∃ v : Int, pick fl min max s = .ok v ∧ min ≤ v ∧ v < max := by
  have e1 : real fl min = min := H.int (by omega)
  have e2 : real fl max = max := H.int (by omega)
  have e3 : fl ((max : ℚ) - min) = ((max - min : Int) : ℚ) := by
    rw [← H.int (n := max - min) (by rw [abs_le] at *; omega)]
    push_cast; rfl
  have hkpos : (0 : Int) < 2 ^ k := by positivity
  have hD0 : 0 < max - min := by omega
  have hDq : (0 : ℚ) < ((max - min : Int) : ℚ) := by exact_mod_cast hD0
  have hDk : (2 : ℚ) ^ k ≤ ((max - min : Int) : ℚ) := by exact_mod_cast hk
  have e4 : scale fl min max = fl (((max - min : Int) : ℚ) / m) := by rw [scale, e1, e2, e3]
  have hmpos : (0 : ℚ) < m := by unfold m; norm_num
  have hsc : scale fl min max ≤ ((max - min : Int) : ℚ) / m * (1 + 1 / 2 ^ 53) := by
    rw [e4]; exact H.le_mul (div_pos hDq hmpos)
  have hsc0 : 0 ≤ scale fl min max := by rw [e4]; exact H.nonneg (div_pos hDq hmpos).le
  have hs2 : (s : ℚ) ≤ 2147483646 := by unfold M at hs; exact_mod_cast Nat.le_of_lt_succ hs
  have hs0 : (0 : ℚ) ≤ s := by positivity
  set D : ℚ := ((max - min : Int) : ℚ) with hD
  have hprod0 : 0 ≤ scale fl min max * s := mul_nonneg hsc0 hs0
  have hprod : scale fl min max * s ≤ D * (1 - 1 / 2 ^ 31 + 1 / 2 ^ 50) := by
    calc scale fl min max * s ≤ (D / m * (1 + 1 / 2 ^ 53)) * 2147483646 :=
          mul_le_mul hsc hs2 hs0 (le_trans hsc0 hsc)
      _ = D * (2147483646 / m * (1 + 1 / 2 ^ 53)) := by ring
      _ ≤ D * (1 - 1 / 2 ^ 31 + 1 / 2 ^ 50) := by
          apply mul_le_mul_of_nonneg_left _ hDq.le
          unfold m; norm_num
  have hfl : fl (scale fl min max * s) ≤ D * (1 - 1 / 2 ^ 32) := by
    rcases hprod0.eq_or_lt with h | h
    · rw [← h, H.zero]; apply mul_nonneg hDq.le; norm_num
    · refine le_trans (H.le_mul h) ?_
      calc scale fl min max * s * (1 + 1 / 2 ^ 53) ≤ (D * (1 - 1 / 2 ^ 31 + 1 / 2 ^ 50)) * (1 + 1 / 2 ^ 53) := by
            apply mul_le_mul_of_nonneg_right hprod; norm_num
        _ = D * ((1 - 1 / 2 ^ 31 + 1 / 2 ^ 50) * (1 + 1 / 2 ^ 53)) := by ring
        _ ≤ D * (1 - 1 / 2 ^ 32) := by
            apply mul_le_mul_of_nonneg_left _ hDq.le
            norm_num
  have hfl0 : 0 ≤ fl (scale fl min max * s) := H.nonneg hprod0
  have hDm : (max : ℚ) = min + D := by rw [hD]; push_cast; ring
  have hlo : (min : ℚ) ≤ fl ((min : ℚ) + fl (scale fl min max * s)) :=
    H.ge_of_ge (isDouble_int (by omega)) (by linarith)
  have hy : IsDouble ((max : ℚ) - 2 ^ k / 2 ^ 32) := by
    by_cases hk32 : 32 ≤ k
    · obtain ⟨j, rfl⟩ := Nat.exists_eq_add_of_le hk32
      have : (max : ℚ) - 2 ^ (32 + j) / 2 ^ 32 = ((max - 2 ^ j : Int) : ℚ) := by
        rw [pow_add]; push_cast; field_simp
      rw [this]
      have hj : (2 : Int) ^ j * 1 ≤ 2 ^ j * 2 ^ 32 := by
        apply mul_le_mul_of_nonneg_left (by norm_num) (by positivity)
      have hj2 : (2 : Int) ^ (32 + j) = 2 ^ j * 2 ^ 32 := by rw [pow_add]; ring
      have hj0 : (0 : Int) < 2 ^ j := by positivity
      apply isDouble_int
      rw [abs_le] at *
      omega
    · have hk' : k ≤ 31 := by omega
      have : (max : ℚ) - 2 ^ k / 2 ^ 32 = ((max * 2 ^ (32 - k) - 1 : Int) : ℚ) * (2 : ℚ) ^ ((k : Int) - 32) := by
        rw [zpow_sub₀ (by norm_num)]
        have h5 : (2 : ℚ) ^ (32 - k) * 2 ^ k = 2 ^ 32 := by rw [← pow_add]; congr 1; omega
        push_cast
        rw [zpow_natCast]
        have h11 : ((max : ℚ) * 2 ^ (32 - k) - 1) * (2 ^ k / 4294967296) =
            ((max : ℚ) * (2 ^ (32 - k) * 2 ^ k) - 2 ^ k) / 4294967296 := by ring
        rw [h11, h5]
        norm_num
        ring
      rw [this]
      apply isDouble_of_le
      have h6 : |max| * 2 ^ (32 - k) ≤ 2 ^ (21 + k) * 2 ^ (32 - k) :=
        mul_le_mul_of_nonneg_right h2 (by positivity)
      rw [← pow_add, show 21 + k + (32 - k) = 53 by omega] at h6
      have h7 : |max * 2 ^ (32 - k)| ≤ 2 ^ 53 := by rw [abs_mul, abs_of_pos (a := (2 : Int) ^ (32 - k)) (by positivity)]; exact h6
      -- the only value out of range is -2^53 - 1, which is excluded because max > min ≥ -2^(21+k)
      have h8 : max ≠ -2 ^ (21 + k) := by rw [abs_le] at h1; omega
      have h9 : -2 ^ 53 < max * 2 ^ (32 - k) := by
        have : -2 ^ (21 + k) < max := by rw [abs_le] at h2; omega
        have h10 := mul_lt_mul_of_pos_right this (show (0 : Int) < 2 ^ (32 - k) by positivity)
        rw [neg_mul, ← pow_add, show 21 + k + (32 - k) = 53 by omega] at h10
        exact h10
      rw [abs_le] at *
      omega
  have hhi : fl ((min : ℚ) + fl (scale fl min max * s)) ≤ (max : ℚ) - 2 ^ k / 2 ^ 32 := by
    apply H.le_of_le hy
    rw [hDm]
    have : (2 : ℚ) ^ k / 2 ^ 32 ≤ D / 2 ^ 32 := div_le_div_of_nonneg_right hDk (by norm_num)
    have : D * (1 - 1 / 2 ^ 32) = D - D / 2 ^ 32 := by ring
    linarith
  have hkq : (0 : ℚ) < 2 ^ k / 2 ^ 32 := by positivity
  have hv1 : min ≤ ⌊fl ((min : ℚ) + fl (scale fl min max * s))⌋ := Int.le_floor.mpr hlo
  have hv2 : ⌊fl ((min : ℚ) + fl (scale fl min max * s))⌋ < max := Int.floor_lt.mpr (by linarith)
  refine ⟨_, ?_, hv1, hv2⟩
  rw [pick, e1]
  apply floor_ok rfl
  · rw [abs_le] at *; omega
  · rw [abs_le] at *; omega

end Mosml.Rand
