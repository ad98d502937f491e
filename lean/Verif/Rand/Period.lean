import Verif.Util
import Mathlib.NumberTheory.LucasPrimality
import Mathlib.Tactic.NormNum.Prime

/-! 16807 is a primitive root modulo the prime 2^31 - 1 -/
namespace Mosml.Rand

/-- a^n mod k by squaring; `f` bounds the number of binary digits of n -/
def powMod (k : Nat) : Nat → Nat → Nat → Nat
  | 0, _, _ => 1 % k
  | f + 1, b, n => if n % 2 = 1 then b * powMod k f (b * b % k) (n / 2) % k else powMod k f (b * b % k) (n / 2)

theorem powMod_eq (k : Nat) : ∀ f b n, n < 2 ^ f → powMod k f b n = b ^ n % k := by
  intro f
  induction f with
  | zero => intro b n h; have : n = 0 := by omega
            subst this; simp [powMod]
  | succ f ih =>
    intro b n h
    have h2 : n / 2 < 2 ^ f := by rw [pow_succ] at h; omega
    have e : (b * b % k) ^ (n / 2) % k = (b * b) ^ (n / 2) % k := by rw [← Nat.pow_mod]
    simp only [powMod, ih _ _ h2]
    split
    · next h1 =>
      rw [Nat.mul_mod, Nat.mod_mod, ← Nat.mul_mod, Nat.mul_mod, e, ← Nat.mul_mod]
      congr 1
      conv_rhs => rw [show n = 2 * (n / 2) + 1 by omega, pow_succ, pow_mul, pow_two]
      ring
    · next h1 =>
      rw [e]
      congr 1
      conv_rhs => rw [show n = 2 * (n / 2) by omega, pow_mul, pow_two]

def M : Nat := 2147483647

theorem pow_val (n : Nat) (h : n < 2 ^ 31) : ((16807 : ZMod M) ^ n) = ((powMod M 31 16807 n : Nat) : ZMod M) := by
  rw [powMod_eq _ _ _ _ h, ZMod.natCast_mod]
  push_cast
  rfl

theorem prime_factor (q : Nat) (hq : q.Prime) (h : q ∣ M - 1) :
    q = 2 ∨ q = 3 ∨ q = 7 ∨ q = 11 ∨ q = 31 ∨ q = 151 ∨ q = 331 := by
  have e : M - 1 = 2 * (3 * (3 * (7 * (11 * (31 * (151 * 331)))))) := by decide
  rw [e] at h
  have pr : ∀ p : Nat, p.Prime → q ∣ p → q = p := fun p hp hd => (Nat.prime_dvd_prime_iff_eq hq hp).mp hd
  rcases (hq.dvd_mul).mp h with h | h
  · left; exact pr _ (by norm_num) h
  rcases (hq.dvd_mul).mp h with h | h
  · right; left; exact pr _ (by norm_num) h
  rcases (hq.dvd_mul).mp h with h | h
  · right; left; exact pr _ (by norm_num) h
  rcases (hq.dvd_mul).mp h with h | h
  · right; right; left; exact pr _ (by norm_num) h
  rcases (hq.dvd_mul).mp h with h | h
  · right; right; right; left; exact pr _ (by norm_num) h
  rcases (hq.dvd_mul).mp h with h | h
  · right; right; right; right; left; exact pr _ (by norm_num) h
  rcases (hq.dvd_mul).mp h with h | h
  · right; right; right; right; right; left; exact pr _ (by norm_num) h
  · right; right; right; right; right; right; exact pr _ (by norm_num) h

theorem cast_ne_one {n : Nat} (h1 : n < M) (h2 : n ≠ 1) : ((n : Nat) : ZMod M) ≠ 1 := by
  intro h
  have : ((n : Nat) : ZMod M) = ((1 : Nat) : ZMod M) := by rw [h]; simp
  rw [ZMod.natCast_eq_natCast_iff, Nat.ModEq, Nat.mod_eq_of_lt h1, Nat.mod_eq_of_lt (by decide)] at this
  exact h2 this

theorem pow_full : (16807 : ZMod M) ^ (M - 1) = 1 := by
  rw [pow_val _ (by decide), show powMod M 31 16807 (M - 1) = 1 by decide +kernel]
  simp

theorem pow_div_ne (q : Nat) (hq : q.Prime) (h : q ∣ M - 1) : (16807 : ZMod M) ^ ((M - 1) / q) ≠ 1 := by
  rcases prime_factor q hq h with rfl | rfl | rfl | rfl | rfl | rfl | rfl <;>
  · rw [pow_val _ (by decide)]
    exact cast_ne_one (by decide +kernel) (by decide +kernel)

theorem M_prime : M.Prime := lucas_primality M 16807 pow_full pow_div_ne

theorem order_a : orderOf (16807 : ZMod M) = M - 1 :=
  orderOf_eq_of_pow_and_pow_div_prime (by decide) pow_full pow_div_ne

/-- multiplication by 16807 modulo M takes every number of 1..M-1 to every other one -/
theorem reach {s t : Nat} (hs : 0 < s) (hsM : s < M) (ht : 0 < t) (htM : t < M) :
    ∃ n, n < M - 1 ∧ 16807 ^ n * s % M = t := by
  have : Fact M.Prime := ⟨M_prime⟩
  have : NeZero M := ⟨by decide⟩
  have ha : (16807 : ZMod M) ≠ 0 := by
    intro h
    have := order_a
    rw [h] at this
    have h0 := pow_full
    rw [h, zero_pow (by decide)] at h0
    exact zero_ne_one h0
  have hs0 : ((s : Nat) : ZMod M) ≠ 0 := by
    intro h
    rw [ZMod.natCast_eq_zero_iff] at h
    exact absurd (Nat.le_of_dvd hs h) (by omega)
  have ht0 : ((t : Nat) : ZMod M) ≠ 0 := by
    intro h
    rw [ZMod.natCast_eq_zero_iff] at h
    exact absurd (Nat.le_of_dvd ht h) (by omega)
  let u : (ZMod M)ˣ := Units.mk0 _ ha
  have hou : orderOf u = M - 1 := by
    rw [← order_a, ← orderOf_units]; rfl
  have hcard : Nat.card (ZMod M)ˣ = M - 1 := by
    rw [Nat.card_eq_fintype_card, ZMod.card_units_eq_totient, Nat.totient_prime M_prime]
  have htop : Subgroup.zpowers u = ⊤ := by
    apply Subgroup.eq_top_of_card_eq
    rw [Nat.card_zpowers, hou, hcard]
  let w : (ZMod M)ˣ := Units.mk0 _ ht0 / Units.mk0 _ hs0
  have hw : w ∈ Subgroup.zpowers u := by rw [htop]; trivial
  obtain ⟨n, hn, hnw⟩ := (isOfFinOrder_of_finite u).mem_zpowers_iff_mem_range_orderOf.mp hw |> Finset.mem_image.mp
  refine ⟨n, ?_, ?_⟩
  · rw [Finset.mem_range, hou] at hn; exact hn
  · have h1 : u ^ n * Units.mk0 _ hs0 = Units.mk0 _ ht0 := by
      have : u ^ n = w := hnw
      rw [this]; simp [w]
    have h2 := congrArg (Units.val) h1
    simp only [Units.val_mul, Units.val_pow_eq_pow_val, Units.val_mk0, u] at h2
    have h3 : ((16807 ^ n * s : Nat) : ZMod M) = ((t : Nat) : ZMod M) := by
      push_cast; exact h2
    rw [ZMod.natCast_eq_natCast_iff, Nat.ModEq, Nat.mod_eq_of_lt htM] at h3
    exact h3

/-- the powers of 16807 below the (M-1)-th give different numbers -/
theorem no_return {s n : Nat} (hs : 0 < s) (hsM : s < M) : 16807 ^ n * s % M = s ↔ (M - 1) ∣ n := by
  have : Fact M.Prime := ⟨M_prime⟩
  have hs0 : ((s : Nat) : ZMod M) ≠ 0 := by
    intro h
    rw [ZMod.natCast_eq_zero_iff] at h
    exact absurd (Nat.le_of_dvd hs h) (by omega)
  rw [← order_a, orderOf_dvd_iff_pow_eq_one]
  have h1 : 16807 ^ n * s % M = s ↔ ((16807 ^ n * s : Nat) : ZMod M) = ((s : Nat) : ZMod M) := by
    rw [ZMod.natCast_eq_natCast_iff, Nat.ModEq, Nat.mod_eq_of_lt hsM]
  rw [h1]
  push_cast
  constructor
  · intro h
    exact mul_right_cancel₀ hs0 (by rw [one_mul]; exact h)
  · intro h; rw [h, one_mul]

end Mosml.Rand
