import Verif.Rand.Lemmas

/-!
C71: the random number generator.  `fl` is any rounding to nearest (so the theorems hold whatever the rule for ties);
`rnd` is the one with ties to even.
-/
namespace Mosml.Rand
open Mosml.Floats

/-! ## Specification -/

/-- n numbers drawn one after the other with the same function `draw` (state to value and state) -/
def draws {α : Type} (draw : ℚ → Res (α × ℚ)) : Nat → ℚ → Res (List α × ℚ)
  | 0, g => .ok ([], g)
  | n + 1, g => match draw g with
    | .ok (x, g') => match draws draw n g' with
      | .ok (l, g'') => .ok (x :: l, g'')
      | .fail => .fail
      | .ovf => .ovf
    | .fail => .fail
    | .ovf => .ovf

/-- the states of a generator: the integers 1 … 2^31 - 2 -/
def Good (g : ℚ) : Prop := ∃ s : Nat, 0 < s ∧ s < 2147483647 ∧ g = s

/-! ## Theorems -/

/-- C71: `newgenseed` on an integral seed that is not a multiple of 2^31 - 1 makes a generator whose state is the
seed times 16807 modulo 2^31 - 1. -/
theorem C71_newgenseed_partial {fl : ℚ → ℚ} (H : Nearest fl) {r : Int} (hr : |r| ≤ 2 ^ 36) (hm : r % 2147483647 ≠ 0) :
    newgenseed fl r = .ok ((16807 * r % 2147483647 : Int) : ℚ) ∧ Good ((16807 * r % 2147483647 : Int) : ℚ) := by
  have hr0 : r ≠ 0 := by rintro rfl; exact hm rfl
  have hq : (r : ℚ) ≠ 0 := by exact_mod_cast hr0
  refine ⟨by rw [newgenseed, if_neg hq, nextrand_int H hr], ?_⟩
  have h0 : 0 ≤ 16807 * r % 2147483647 := Int.emod_nonneg _ (by omega)
  have h1 : 16807 * r % 2147483647 < 2147483647 := Int.emod_lt_of_pos _ (by omega)
  refine ⟨(16807 * r % 2147483647).toNat, ?_, by omega, ?_⟩
  · have hr1 := (next_range (s := (r % 2147483647).toNat) (by omega) (by unfold M; omega)).1
    unfold M at hr1
    omega
  · rw [← Int.cast_natCast, Int.toNat_of_nonneg h0]

/-- C71: every generator in a good state yields a real strictly between 0 and 1, and stays in a good state. -/
theorem C71_random {fl : ℚ → ℚ} (H : Nearest fl) {g : ℚ} (hg : Good g) :
    ∃ x g', random fl g = .ok (x, g') ∧ 0 < x ∧ x < 1 ∧ Good g' := by
  obtain ⟨s, h0, hs, rfl⟩ := hg
  have hb := random_bounds H h0 hs
  have hn := next_range h0 hs
  exact ⟨_, _, by rw [random, nextrand_nat H hs], hb.1, hb.2, _, hn.1, hn.2, rfl⟩

/-- C71: `range (min, max)` yields an integer in [min, max) when the bounds are at most 2^21 times as large as the
power of two 2^k below their distance (and below 2^52). -/
theorem C71_range_partial {fl : ℚ → ℚ} (H : Nearest fl) {g : ℚ} (hg : Good g) {min max : Int} {k : Nat}
    (hk : 2 ^ k ≤ max - min) (h1 : |min| ≤ 2 ^ (21 + k)) (h2 : |max| ≤ 2 ^ (21 + k))
    (h3 : |min| ≤ 2 ^ 52) (h4 : |max| ≤ 2 ^ 52) :
    ∃ v g', range fl min max g = .ok (v, g') ∧ min ≤ v ∧ v < max ∧ Good g' := by
  obtain ⟨s, h0, hs, rfl⟩ := hg
  obtain ⟨v, hv, hv1, hv2⟩ := pick_bounds H (s := s) hs hk h1 h2 h3 h4
  have hn := next_range h0 hs
  have hkpos : (0 : Int) < 2 ^ k := by positivity
  refine ⟨v, _, ?_, hv1, hv2, _, hn.1, hn.2, rfl⟩
  rw [range, if_neg (by omega), nextrand_nat H hs, hv]

/-- C71: all bounds up to 2^21 in magnitude are fine. -/
theorem C71_range_small_partial {fl : ℚ → ℚ} (H : Nearest fl) {g : ℚ} (hg : Good g) {min max : Int} (h : min < max)
    (h1 : |min| ≤ 2097152) (h2 : |max| ≤ 2097152) :
    ∃ v g', range fl min max g = .ok (v, g') ∧ min ≤ v ∧ v < max ∧ Good g' :=
  C71_range_partial H hg (k := 0) (by omega) (by simpa using h1) (by simpa using h2) (by omega) (by omega)

/-- C71: `range (0, n)` is fine for all n up to 2^52. -/
theorem C71_range_zero_partial {fl : ℚ → ℚ} (H : Nearest fl) {g : ℚ} (hg : Good g) {n : Int} (h : 0 < n) (h1 : n ≤ 2 ^ 52) :
    ∃ v g', range fl 0 n g = .ok (v, g') ∧ 0 ≤ v ∧ v < n ∧ Good g' := by
  obtain ⟨N, rfl⟩ := Int.eq_ofNat_of_zero_le h.le
  have hN : N ≠ 0 := by omega
  have hle := Nat.log2_self_le hN
  have hlt := Nat.lt_log2_self (n := N)
  refine C71_range_partial H hg (k := Nat.log2 N) ?_ ?_ ?_ (by norm_num) (by rw [abs_of_nonneg h.le]; exact h1)
  · rw [sub_zero]; exact_mod_cast hle
  · rw [abs_zero]; positivity
  · rw [abs_of_nonneg h.le]
    have : 2 ^ (Nat.log2 N + 1) ≤ 2 ^ (21 + Nat.log2 N) := Nat.pow_le_pow_right (by omega) (by omega)
    exact_mod_cast (le_trans hlt.le this)

/-- C71: `range` and `rangelist` raise Fail on an empty range, and only then. -/
theorem C71_range_empty {fl : ℚ → ℚ} (g : ℚ) (min max : Int) (n : Nat) (h : max ≤ min) :
    range fl min max g = .fail ∧ rangelist fl min max n g = .fail := by
  rw [range, rangelist, if_pos h, if_pos h]
  exact ⟨rfl, rfl⟩

theorem randomlistH_eq (fl : ℚ → ℚ) : ∀ n g acc, randomlistH fl n g acc =
    match draws (random fl) n g with
    | .ok (l, g') => .ok (l.reverse ++ acc, g')
    | .fail => .fail
    | .ovf => .ovf := by
  intro n
  induction n with
  | zero => intro g acc; simp [randomlistH, draws]
  | succ n ih =>
    intro g acc
    simp only [randomlistH, draws, random]
    cases h : nextrand fl g with
    | fail => rfl
    | ovf => rfl
    | ok s =>
      dsimp only
      rw [ih]
      cases h2 : draws (random fl) n s with
      | fail => rfl
      | ovf => rfl
      | ok p => obtain ⟨l, g'⟩ := p; simp

theorem rangelistH_eq (fl : ℚ → ℚ) (min max : Int) (hmm : min < max) : ∀ n g acc, rangelistH fl min max n g acc =
    match draws (range fl min max) n g with
    | .ok (l, g') => .ok (l.reverse ++ acc, g')
    | .fail => .fail
    | .ovf => .ovf := by
  intro n
  induction n with
  | zero => intro g acc; simp [rangelistH, draws]
  | succ n ih =>
    intro g acc
    simp only [rangelistH, draws, range, if_neg (not_le.mpr hmm)]
    cases h : nextrand fl g with
    | fail => rfl
    | ovf => rfl
    | ok s =>
      dsimp only
      cases h1 : pick fl min max g with
      | fail => rfl
      | ovf => rfl
      | ok v =>
        dsimp only
        rw [ih]
        cases h2 : draws (range fl min max) n s with
        | fail => rfl
        | ovf => rfl
        | ok p => obtain ⟨l, g'⟩ := p; simp

/-- C71: `randomlist (n, gen)` is n calls of `random gen`, the last number first. -/
theorem C71_randomlist (fl : ℚ → ℚ) (n : Nat) (g : ℚ) : randomlist fl n g =
    match draws (random fl) n g with
    | .ok (l, g') => .ok (l.reverse, g')
    | .fail => .fail
    | .ovf => .ovf := by
  rw [randomlist, randomlistH_eq]
  simp

/-- C71: `rangelist (min, max) (n, gen)` is n calls of `range (min, max) gen`, the last number first. -/
theorem C71_rangelist (fl : ℚ → ℚ) (min max : Int) (h : min < max) (n : Nat) (g : ℚ) : rangelist fl min max n g =
    match draws (range fl min max) n g with
    | .ok (l, g') => .ok (l.reverse, g')
    | .fail => .fail
    | .ovf => .ovf := by
  rw [rangelist, if_neg (not_le.mpr h), rangelistH_eq fl min max h]
  simp

/-- the numbers drawn: the i-th is 16807^i·s mod (2^31 - 1), divided by 2^31 - 1 -/
theorem draws_random {fl : ℚ → ℚ} (H : Nearest fl) : ∀ (n s : Nat), 0 < s → s < M →
    ∃ l, draws (random fl) n s = .ok (l, ((16807 ^ n * s % M : Nat) : ℚ)) ∧ l.length = n ∧
      ∀ i, i < n → l[i]? = some (fl (((16807 ^ i * s % M : Nat) : ℚ) / 2147483647)) := by
  intro n
  induction n with
  | zero => intro s h0 hs; exact ⟨[], by rw [draws, pow_zero, one_mul, Nat.mod_eq_of_lt hs], rfl, by omega⟩
  | succ n ih =>
    intro s h0 hs
    have hn := next_range h0 hs
    have e : ∀ j, 16807 ^ j * (16807 * s % M) % M = 16807 ^ (j + 1) * s % M := by
      intro j
      rw [Nat.mul_mod, Nat.mod_mod, ← Nat.mul_mod]
      congr 1; ring
    obtain ⟨l, hl, hlen, hget⟩ := ih _ hn.1 hn.2
    refine ⟨fl ((s : ℚ) / m) :: l, ?_, by simp [hlen], ?_⟩
    · simp only [draws, random]
      rw [nextrand_nat H hs]
      dsimp only
      rw [hl, e]
    · intro i hi
      cases i with
      | zero => simp [Nat.mod_eq_of_lt hs, m]
      | succ i =>
        rw [List.getElem?_cons_succ, hget i (by omega), e]

/-- C71: the period is full: a generator is back in its first state after n numbers if and only if n is a multiple of
2^31 - 2 … -/
theorem C71_period {fl : ℚ → ℚ} (H : Nearest fl) {g : ℚ} (hg : Good g) (n : Nat) :
    ∃ l g', draws (random fl) n g = .ok (l, g') ∧ (g' = g ↔ 2147483646 ∣ n) := by
  obtain ⟨s, h0, hs, rfl⟩ := hg
  obtain ⟨l, hl, -, -⟩ := draws_random H n s h0 hs
  refine ⟨l, _, hl, ?_⟩
  rw [Nat.cast_inj]
  exact no_return h0 hs

/-- C71: … and during a period every multiple of 1/(2^31 - 1) in the open interval (0, 1) is drawn (as rounded). -/
theorem C71_all_values {fl : ℚ → ℚ} (H : Nearest fl) {g : ℚ} (hg : Good g) {t : Nat} (h0 : 0 < t) (h1 : t < 2147483647) :
    ∃ l g', draws (random fl) 2147483646 g = .ok (l, g') ∧ fl ((t : ℚ) / 2147483647) ∈ l := by
  obtain ⟨s, hs0, hs, rfl⟩ := hg
  obtain ⟨l, hl, hlen, hget⟩ := draws_random H 2147483646 s hs0 hs
  obtain ⟨n, hn, ht⟩ := reach hs0 hs h0 h1
  refine ⟨l, _, hl, ?_⟩
  have := hget n hn
  rw [ht] at this
  exact List.mem_of_getElem? this

/-! ## The sentences of Random.sig that do not hold -/

/-- C71: `range (10000000, 10000001)` yields 10000001 in one state of the generator, whatever the seed it was made with:
the documentation says [min, max). -/
theorem C71_range_violation : Good 2147483646 ∧ range rnd 10000000 10000001 2147483646 = .ok (10000001, 2147466840) := by
  refine ⟨⟨2147483646, by norm_num, by norm_num, by norm_num⟩, ?_⟩
  decide +kernel

/-- C71: with a seed that is not integral the state can become 2^31 - 1; then `random` yields 1.0 and `range` yields
its upper bound. -/
theorem C71_seed_violation : newgenseed rnd (-1 / 2 ^ 67) = .ok 2147483647 ∧
    random rnd 2147483647 = .ok (1, 0) ∧ range rnd 0 10 2147483647 = .ok (10, 0) := by
  refine ⟨?_, ?_, ?_⟩ <;> decide +kernel

/-- C71: seed 0.0 is refused because of its degenerate sequence, but the seed 2^31 - 1 is not, and has it too. -/
theorem C71_degenerate_violation : newgenseed rnd 0 = .fail ∧ newgenseed rnd 2147483647 = .ok 0 ∧
    random rnd 0 = .ok (0, 0) := by
  refine ⟨?_, ?_, ?_⟩ <;> decide +kernel

/-! ## Examples: the hypotheses can be met -/

example : Nearest rnd := rnd_nearest
example : Good 1 := ⟨1, by norm_num, by norm_num, by norm_num⟩
example : newgenseed rnd 42 = .ok 705894 := by decide +kernel
example : random rnd 705894 = .ok (rnd (705894 / 2147483647), 1126542223) := by decide +kernel
example : range rnd 1 7 1126542223 = .ok (4, 1579310009) := by decide +kernel
example : rangelist rnd 1 7 3 705894 = .ok ([5, 4, 1], 565444343) := by decide +kernel
example : (2 : Int) ^ 10 ≤ 2000 - 5 ∧ |(5 : Int)| ≤ 2 ^ 31 := by norm_num
example : ∃ v g', range rnd 0 6 1 = .ok (v, g') ∧ 0 ≤ v ∧ v < 6 ∧ Good g' :=
  C71_range_zero_partial rnd_nearest ⟨1, by norm_num, by norm_num, by norm_num⟩ (by norm_num) (by norm_num)

end Mosml.Rand
