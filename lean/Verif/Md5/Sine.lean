import Verif.Md5.Spec
import Mathlib.Analysis.Complex.Exponential
import Mathlib.Analysis.Complex.Trigonometric
import Mathlib.Tactic.NormNum
import Mathlib.Tactic.FieldSimp
import Mathlib.Tactic.Positivity
import Mathlib.Tactic.GCongr

/-!
The table `T` of the specification of MD5 is what RFC 1321 defines it to be, the integer part of 4294967296 times abs(sin(i)).

`exp i` is approximated by twenty terms of its series, a Gaussian rational `(P + Q i)/D`; `sin n` is then close to the imaginary part of
the `n`-th power of it.
-/
namespace Mosml.Md5.Sine
open Complex

def P : Int := 65725128248453315
def Q : Int := 102360822438075317
def D : Int := 121645100408832000

/-- the `n`-th power of `P + Q i` -/
def gpow : Nat → Int × Int
  | 0 => (1, 0)
  | n + 1 => let (a, b) := gpow n; (a * P - b * Q, a * Q + b * P)

/-- the approximation -/
noncomputable def w : ℂ := ((P : ℂ) + (Q : ℂ) * I) / (D : ℂ)

noncomputable def ε : ℝ := 1 / 10 ^ 18

theorem w_approx : ‖exp I - w‖ ≤ ε := by
  have h := Complex.exp_bound (x := I) (by simp) (n := 20) (by norm_num)
  have hs : ∑ m ∈ Finset.range 20, I ^ m / (m.factorial : ℂ) = w := by
    have h2 : I ^ 2 = -1 := I_sq
    have h3 : I ^ 3 = -I := by rw [pow_succ, h2]; ring
    have e : ∀ n, I ^ n = I ^ (n % 4) := fun n => Complex.I_pow_eq_pow_mod n
    simp only [Finset.sum_range_succ, Finset.sum_range_zero, Nat.factorial]
    rw [e 4, e 5, e 6, e 7, e 8, e 9, e 10, e 11, e 12, e 13, e 14, e 15, e 16, e 17, e 18, e 19]
    norm_num [h2, h3, w, P, Q, D]
    ring
  rw [hs] at h
  refine h.trans ?_
  simp only [norm_I, one_pow, one_mul, ε]
  norm_num [Nat.factorial]

theorem w_norm : ‖w‖ ≤ 1 + ε := by
  have h1 : ‖exp I‖ = 1 := by
    have := Complex.norm_exp_ofReal_mul_I 1
    simpa using this
  have h2 : w = exp I - (exp I - w) := by ring
  rw [h2]
  refine (norm_sub_le _ _).trans ?_
  rw [h1]
  have := w_approx
  linarith

theorem pow_approx (n : Nat) : ‖exp I ^ n - w ^ n‖ ≤ n * ε * (1 + ε) ^ n := by
  have h1 : ‖exp I‖ = 1 := by
    have := Complex.norm_exp_ofReal_mul_I 1
    simpa using this
  have he : 0 ≤ ε := by unfold ε; positivity
  induction n with
  | zero => simp
  | succ n ih =>
    have e : exp I ^ (n + 1) - w ^ (n + 1) = exp I ^ n * (exp I - w) + (exp I ^ n - w ^ n) * w := by ring
    rw [e]
    refine (norm_add_le _ _).trans ?_
    rw [Complex.norm_mul, Complex.norm_mul, Complex.norm_pow, h1, one_pow, one_mul]
    have k1 : ‖exp I ^ n - w ^ n‖ * ‖w‖ ≤ (n * ε * (1 + ε) ^ n) * (1 + ε) :=
      mul_le_mul ih w_norm (norm_nonneg _) (by positivity)
    have k2 : ε ≤ ε * (1 + ε) ^ (n + 1) := by
      have : (1 : ℝ) ≤ (1 + ε) ^ (n + 1) := one_le_pow₀ (by linarith)
      nlinarith
    have k3 := w_approx
    calc ‖exp I - w‖ + ‖exp I ^ n - w ^ n‖ * ‖w‖ ≤ ε * (1 + ε) ^ (n + 1) + (n * ε * (1 + ε) ^ n) * (1 + ε) := by linarith
      _ = ((n + 1 : ℕ) : ℝ) * ε * (1 + ε) ^ (n + 1) := by push_cast; ring

theorem eps_pow (n : Nat) (h : n ≤ 64) : (1 + ε) ^ n ≤ 2 := by
  have he : 0 ≤ ε := by unfold ε; positivity
  have h1 : (1 + ε) ^ n ≤ (1 + ε) ^ 64 := pow_le_pow_right₀ (by linarith) h
  have h2 : (1 + ε) ^ 64 ≤ 2 := by unfold ε; norm_num
  linarith

theorem w_pow (n : Nat) : w ^ n = (((gpow n).1 : ℂ) + ((gpow n).2 : ℂ) * I) / (D : ℂ) ^ n := by
  induction n with
  | zero => simp [gpow]
  | succ n ih =>
    have hD : (D : ℂ) ≠ 0 := by norm_num [D]
    rw [pow_succ, ih]
    simp only [gpow, w]
    push_cast
    field_simp
    ring_nf
    rw [I_sq]
    ring

theorem w_pow_im (n : Nat) : (w ^ n).im = ((gpow n).2 : ℝ) / (D : ℝ) ^ n := by
  rw [w_pow]
  have : (((gpow n).1 : ℂ) + ((gpow n).2 : ℂ) * I) / (D : ℂ) ^ n = (((gpow n).1 / (D : ℝ) ^ n : ℝ) : ℂ) + (((gpow n).2 / (D : ℝ) ^ n : ℝ) : ℂ) * I := by
    push_cast
    ring
  rw [this, Complex.add_im, Complex.ofReal_im, Complex.im_ofReal_mul, Complex.I_im]
  ring

theorem sin_approx (n : Nat) (h : n ≤ 64) : |Real.sin n - ((gpow n).2 : ℝ) / (D : ℝ) ^ n| ≤ 2 * n * ε := by
  have he : 0 ≤ ε := by unfold ε; positivity
  have h1 : exp I ^ n = exp ((n : ℝ) * I) := by
    rw [← Complex.exp_nat_mul]; push_cast; rfl
  have h2 : (exp I ^ n).im = Real.sin n := by
    rw [h1, Complex.exp_ofReal_mul_I_im]
  have h3 := Complex.abs_im_le_norm (exp I ^ n - w ^ n)
  rw [Complex.sub_im, h2, w_pow_im] at h3
  refine h3.trans ((pow_approx n).trans ?_)
  have := eps_pow n h
  have hn : (0 : ℝ) ≤ n * ε := by positivity
  nlinarith

/-- the comparison of integers that settles the matter -/
def check (n : Nat) : Bool :=
  let t : Int := (Spec.T.getD (n - 1) 0 : Nat)
  let b : Int := (gpow n).2.natAbs
  decide (t * 10 ^ 18 * D ^ n ≤ 2 ^ 32 * (b * 10 ^ 18 - 2 * n * D ^ n)) && decide (2 ^ 32 * (b * 10 ^ 18 + 2 * n * D ^ n) < (t + 1) * 10 ^ 18 * D ^ n)

theorem check_all : ∀ n < 65, 1 ≤ n → check n = true := by decide +kernel

/-- `T[i]` is the integer part of 4294967296 times abs(sin(i)), for i = 1..64. -/
theorem C30_table (n : Nat) (h1 : 1 ≤ n) (h64 : n ≤ 64) : ⌊(4294967296 : ℝ) * |Real.sin n|⌋ = (Spec.T.getD (n - 1) 0 : Nat) := by
  have hc := check_all n (by omega) h1
  unfold check at hc
  dsimp only at hc
  generalize (Spec.T.getD (n - 1) 0 : Nat) = t at *
  rw [Bool.and_eq_true, decide_eq_true_eq, decide_eq_true_eq] at hc
  obtain ⟨c1, c2⟩ := hc
  have ha := sin_approx n h64
  have hD : (0 : ℝ) < (D : ℝ) ^ n := by
    have : (0 : ℝ) < (D : ℝ) := by norm_num [D]
    positivity
  have c1' : ((t : ℤ) : ℝ) * 10 ^ 18 * (D : ℝ) ^ n ≤ 2 ^ 32 * ((((gpow n).2.natAbs : ℤ) : ℝ) * 10 ^ 18 - 2 * n * (D : ℝ) ^ n) := by exact_mod_cast c1
  have c2' : 2 ^ 32 * ((((gpow n).2.natAbs : ℤ) : ℝ) * 10 ^ 18 + 2 * n * (D : ℝ) ^ n) < (((t : ℤ) : ℝ) + 1) * 10 ^ 18 * (D : ℝ) ^ n := by exact_mod_cast c2
  have hb : (((gpow n).2.natAbs : ℤ) : ℝ) = |((gpow n).2 : ℝ)| := by
    rw [Int.natCast_natAbs, Int.cast_abs]
  rw [hb] at c1' c2'
  have habs : |(|Real.sin n| - |((gpow n).2 : ℝ)| / (D : ℝ) ^ n)| ≤ 2 * n * ε := by
    have e : |((gpow n).2 : ℝ)| / (D : ℝ) ^ n = |((gpow n).2 : ℝ) / (D : ℝ) ^ n| := by rw [abs_div, abs_of_pos hD]
    rw [e]
    exact (abs_abs_sub_abs_le_abs_sub _ _).trans ha
  obtain ⟨l1, l2⟩ := abs_le.mp habs
  generalize |((gpow n).2 : ℝ)| = b at *
  generalize |Real.sin n| = s at *
  generalize (D : ℝ) ^ n = d at *
  have hε : ε = 1 / 10 ^ 18 := rfl
  rw [hε] at l1 l2
  have hbd : b = b / d * d := by field_simp
  generalize b / d = q at *
  rw [hbd] at c1' c2'
  have d1 : (t : ℤ) * 10 ^ 18 ≤ (2 : ℝ) ^ 32 * (q * 10 ^ 18 - 2 * n) := by
    have : ((t : ℤ) : ℝ) * 10 ^ 18 * d ≤ (2 : ℝ) ^ 32 * (q * 10 ^ 18 - 2 * n) * d := by linarith
    exact le_of_mul_le_mul_right this hD
  have d2 : (2 : ℝ) ^ 32 * (q * 10 ^ 18 + 2 * n) < (((t : ℤ) : ℝ) + 1) * 10 ^ 18 := by
    have : (2 : ℝ) ^ 32 * (q * 10 ^ 18 + 2 * n) * d < (((t : ℤ) : ℝ) + 1) * 10 ^ 18 * d := by linarith
    exact lt_of_mul_lt_mul_right this hD.le
  rw [Int.floor_eq_iff]
  constructor
  · linarith
  · linarith

end Mosml.Md5.Sine
