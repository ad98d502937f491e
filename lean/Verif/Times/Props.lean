import Verif.Times.Lemmas

/-! C73: times. -/
namespace Mosml.Times
open Mosml.RealText
open Mosml.Num (IsDig numVal isSpace chars)
open Mosml.Floats
open Mosml.RealConv (IsDouble)

variable {fl : ℚ → ℚ}

theorem trunc_div (H : Nearest fl) {u c : Int} (hc : 0 < c) (hu : |u| ≤ 2 ^ 52) :
    (do let q ← chkf fl ((u : ℚ) / c); trunc q) = .ok (u.tdiv c) := by
  have hc0 : (0 : ℚ) < c := by exact_mod_cast hc
  have hc1 : (1 : ℚ) ≤ c := by exact_mod_cast hc
  have huq : |(u : ℚ)| ≤ 2 ^ 52 := by exact_mod_cast hu
  have hx : |(u : ℚ) / c| ≤ 2 ^ 52 := by
    rw [abs_div, abs_of_pos hc0, div_le_iff₀ hc0]
    nlinarith
  rw [chkf_ok H (hx.trans (by norm_num)), ok_bind]
  have herr := H.abs_err ((u : ℚ) / c)
  have herr2 : |(u : ℚ) / c| / 2 ^ 53 ≤ 1 / (2 * c) := by
    rw [abs_div, abs_of_pos hc0, div_div, div_le_div_iff₀ (by positivity) (by positivity)]
    nlinarith
  have herr' := abs_le.mp (herr.trans herr2)
  have hhalf : (1 : ℚ) / (2 * c) < 1 / c := by
    rw [div_lt_div_iff₀ (by positivity) hc0]; linarith
  -- the quotient of the absolute value
  obtain ⟨m, hm⟩ : ∃ m : Int, m = |u| := ⟨_, rfl⟩
  have hm0 : 0 ≤ m := by rw [hm]; exact abs_nonneg u
  set q := m / c with hq
  have hq0 : 0 ≤ q := Int.ediv_nonneg hm0 hc.le
  have hqm : q ≤ m := Int.ediv_le_self c hm0
  have hq1 : (q : ℚ) ≤ m / c := by
    rw [le_div_iff₀ hc0]; exact_mod_cast Int.ediv_mul_le m hc.ne'
  have hq2 : (m : ℚ) / c ≤ q + 1 - 1 / c := by
    have h1 : m + 1 ≤ (q + 1) * c := Int.lt_ediv_add_one_mul_self m hc
    have h2 : (m : ℚ) + 1 ≤ (q + 1) * c := by exact_mod_cast h1
    have h3 : ((q : ℚ) + 1 - 1 / c) * c = (q + 1) * c - 1 := by field_simp
    rw [div_le_iff₀ hc0, h3]
    linarith
  have hqd : IsDouble ((q : Int) : ℚ) := isDouble_int (by rw [abs_of_nonneg hq0]; omega)
  have hqlt : (q : ℚ) ≤ 2 ^ 52 := by
    have : q ≤ 2 ^ 52 := by omega
    exact_mod_cast this
  by_cases h0 : 0 ≤ u
  · have hum : u = m := by rw [hm, abs_of_nonneg h0]
    rw [hum] at herr' ⊢
    have l1 : (q : ℚ) ≤ fl ((m : ℚ) / c) := H.ge_of_ge hqd hq1
    have l2 : fl ((m : ℚ) / c) < q + 1 := by linarith [herr'.2]
    have l0 : (0 : ℚ) ≤ q := by exact_mod_cast hq0
    have big : ((2 : ℚ) ^ 52 + 1) < 2 ^ 62 := by norm_num
    have nb : (0 : ℚ) < 2 ^ 62 := by norm_num
    unfold trunc
    rw [if_neg (by push Not; constructor <;> linarith), if_pos (by linarith)]
    rw [Int.tdiv_eq_ediv_of_nonneg hm0]
    congr 1
    exact Int.floor_eq_iff.mpr ⟨l1, l2⟩
  · have hum : u = -m := by rw [hm, abs_of_neg (by omega)]; ring
    have e : ((-m : Int) : ℚ) / c = -((m : ℚ) / c) := by push_cast; ring
    rw [hum, e] at herr' ⊢
    have l1 : fl (-((m : ℚ) / c)) ≤ ((-q : Int) : ℚ) := by
      refine H.le_of_le ?_ ?_
      · push_cast; exact isDouble_neg hqd
      · push_cast; linarith
    have l2 : -((q : ℚ) + 1) < fl (-((m : ℚ) / c)) := by linarith [herr'.1]
    push_cast at l1
    have l0 : (0 : ℚ) ≤ q := by exact_mod_cast hq0
    have big : ((2 : ℚ) ^ 52 + 1) < 2 ^ 62 := by norm_num
    have nb : (0 : ℚ) < 2 ^ 62 := by norm_num
    unfold trunc
    rw [if_neg (by push Not; constructor <;> linarith)]
    rw [Int.neg_tdiv, Int.tdiv_eq_ediv_of_nonneg hm0]
    congr 1
    by_cases hz : 0 ≤ fl (-((m : ℚ) / c))
    · rw [if_pos hz]
      have hq00 : q = 0 := by
        have : (q : ℚ) ≤ 0 := by linarith
        have : q ≤ 0 := by exact_mod_cast this
        omega
      rw [← hq, hq00] at *
      rw [Int.floor_eq_iff]
      push_cast at *
      constructor <;> linarith
    · rw [if_neg hz, Int.ceil_eq_iff]
      push_cast
      constructor <;> linarith

theorem val_usec {l : Lit} (hw : l.WF) (hx : l.ex = none) :
    ⌊|l.val| * 1000000 + 1 / 2⌋ = ((numVal 10 l.D * 1000000 + usecF l.F : Nat) : Int) := by
  have hv : |l.val| = (numVal 10 l.D : ℚ) + (numVal 10 l.F : ℚ) / 10 ^ l.F.length := by
    have h0 : (0 : ℚ) ≤ (numVal 10 l.D : ℚ) + (numVal 10 l.F : ℚ) / 10 ^ l.F.length := by positivity
    unfold Lit.val
    rw [hx]
    dsimp only
    rw [mul_one]
    cases isMinus l.sg
    · simp only [Bool.false_eq_true, if_false, one_mul]; exact abs_of_nonneg h0
    · simp only [if_true]; rw [neg_one_mul, abs_neg]; exact abs_of_nonneg h0
  rw [hv]
  push_cast
  rw [usecF_floor hw.F]
  have e : ((numVal 10 l.D : ℚ) + (numVal 10 l.F : ℚ) / 10 ^ l.F.length) * 1000000 + 1 / 2 =
      ((numVal 10 l.D * 1000000 : Int) : ℚ) + ((numVal 10 l.F : ℚ) / 10 ^ l.F.length * 1000000 + 1 / 2) := by
    push_cast; ring
  rw [e, Int.floor_intCast_add]

/-! ## Theorems -/

/-- C73: whole numbers of seconds, milliseconds and microseconds become times exactly. -/
theorem C73_from (H : Nearest fl) (n : Int) (h : |n| ≤ 9000000000) :
    fromSeconds fl n = .ok ((n * 1000000 : Int) : ℚ) ∧ fromMilliseconds fl n = .ok ((n * 1000 : Int) : ℚ) ∧
      fromMicroseconds fl n = n := by
  have h' := abs_le.mp h
  have e : fl n = n := H.int (by rw [abs_le]; omega)
  have key : ∀ k : Int, |k| ≤ 2 ^ 53 → chkf fl ((k : Int) : ℚ) = .ok ((k : Int) : ℚ) := by
    intro k hk
    have hq : |(k : ℚ)| ≤ 2 ^ 53 := by exact_mod_cast hk
    rw [chkf_ok H (hq.trans (by norm_num)), H.int hk]
  refine ⟨?_, ?_, e⟩
  · rw [fromSeconds, e, show (1000000 : ℚ) * n = ((n * 1000000 : Int) : ℚ) by push_cast; ring]
    exact key _ (by rw [abs_le]; omega)
  · rw [fromMilliseconds, e, show (1000 : ℚ) * n = ((n * 1000 : Int) : ℚ) by push_cast; ring]
    exact key _ (by rw [abs_le]; omega)

/-- C73: a time of u microseconds is that many seconds, milliseconds and microseconds, truncated towards zero. -/
theorem C73_to_partial (H : Nearest fl) (u : Int) (h : |u| ≤ 2 ^ 52) :
    toSeconds fl u = .ok (u.tdiv 1000000) ∧ toMilliseconds fl u = .ok (u.tdiv 1000) ∧ toMicroseconds u = .ok u := by
  refine ⟨?_, ?_, ?_⟩
  · have := trunc_div H (c := 1000000) (by omega) h
    rw [Int.cast_ofNat] at this
    exact this
  · have := trunc_div H (c := 1000) (by omega) h
    rw [Int.cast_ofNat] at this
    exact this
  have h1 := abs_le.mp h
  have hq1 : (u : ℚ) ≤ 2 ^ 52 := by exact_mod_cast h1.2
  have hq2 : -(2 : ℚ) ^ 52 ≤ u := by exact_mod_cast h1.1
  have b : (2 : ℚ) ^ 52 < 2 ^ 62 := by norm_num
  unfold toMicroseconds trunc
  rw [if_neg (by push Not; constructor <;> linarith)]
  simp

/-- C73: seconds, milliseconds and microseconds come back. -/
theorem C73_inverse (H : Nearest fl) (n : Int) (h : |n| ≤ 2 ^ 32) :
    (do let t ← fromSeconds fl n; toSeconds fl t) = .ok n ∧ (do let t ← fromMilliseconds fl n; toMilliseconds fl t) = .ok n ∧
      toMicroseconds (fromMicroseconds fl n) = .ok n := by
  have h' := abs_le.mp h
  obtain ⟨h1, h2, h3⟩ := C73_from H n (by rw [abs_le]; omega)
  rw [h1, h2, h3, ok_bind, ok_bind, (C73_to_partial H (n * 1000000) (by rw [abs_le]; omega)).1,
    (C73_to_partial H (n * 1000) (by rw [abs_le]; omega)).2.1, (C73_to_partial H n (by rw [abs_le]; omega)).2.2]
  exact ⟨by rw [Int.mul_tdiv_cancel _ (by omega)], by rw [Int.mul_tdiv_cancel _ (by omega)], rfl⟩

/-- C73: times of whole microseconds are added and subtracted exactly. -/
theorem C73_add_sub (H : Nearest fl) (u v : Int) (h1 : |u| ≤ 2 ^ 52) (h2 : |v| ≤ 2 ^ 52) :
    add fl u v = .ok ((u + v : Int) : ℚ) ∧ sub fl u v = .ok ((u - v : Int) : ℚ) := by
  have a := abs_le.mp h1
  have b := abs_le.mp h2
  have key : ∀ k : Int, |k| ≤ 2 ^ 53 → chkf fl ((k : Int) : ℚ) = .ok ((k : Int) : ℚ) := by
    intro k hk
    have hq : |(k : ℚ)| ≤ 2 ^ 53 := by exact_mod_cast hk
    rw [chkf_ok H (hq.trans (by norm_num)), H.int hk]
  unfold add sub
  rw [← Int.cast_add, ← Int.cast_sub]
  exact ⟨key _ (by rw [abs_le]; omega), key _ (by rw [abs_le]; omega)⟩

/-- C73: `compare` is the order of the numbers. -/
theorem C73_compare (x y : ℚ) : (compare x y = .lt ↔ x < y) ∧ (compare x y = .gt ↔ y < x) ∧ (compare x y = .eq ↔ x = y) := by
  unfold compare
  rcases lt_trichotomy x y with h | h | h
  · simp [h, h.ne, not_lt.mpr h.le]
  · subst h; simp
  · simp [h, h.ne', not_lt.mpr h.le]

/-- the text that `fmt` prints, and the number it denotes in units of its last digit -/
theorem fmt_units (H : Nearest fl) (t : Int) (ht : |t| < 2 ^ 52) (p : Int) (hp : p ≤ 6) :
    ∃ x, fmt fl p t = .ok (.str (fixLit p.toNat x).str) ∧ (decide (x < 0) = decide (t < 0)) ∧
      |((units p.toNat x : Nat) : ℚ) - |(t : ℚ)| / 10 ^ (6 - p.toNat)| ≤ 1 / 2 := by
  have htq : |(t : ℚ)| < 2 ^ 52 := by exact_mod_cast ht
  have hx : |(t : ℚ) / 1000000| ≤ 2 ^ 52 / 1000000 := by
    rw [abs_div, abs_of_pos (by norm_num : (0 : ℚ) < 1000000)]
    exact div_le_div_of_nonneg_right htq.le (by norm_num)
  set x := fl ((t : ℚ) / 1000000) with hxd
  have herr : |x - (t : ℚ) / 1000000| ≤ |(t : ℚ) / 1000000| / 2 ^ 53 := H.abs_err _
  have hxb : |x| < 10 ^ 10 := by
    have h1 : |x| ≤ |x - (t : ℚ) / 1000000| + |(t : ℚ) / 1000000| := by
      have := abs_add_le (x - (t : ℚ) / 1000000) ((t : ℚ) / 1000000)
      rwa [sub_add_cancel] at this
    have h2 : |(t : ℚ) / 1000000| / 2 ^ 53 ≤ |(t : ℚ) / 1000000| := by
      rw [div_le_iff₀ (by norm_num)]
      nlinarith [abs_nonneg ((t : ℚ) / 1000000)]
    have h3 : (2 : ℚ) ^ 52 / 1000000 + 2 ^ 52 / 1000000 < 10 ^ 10 := by norm_num
    linarith
  have hpp : (if p > 0 then p else 0) = (p.toNat : Int) := by split <;> omega
  have hn : p.toNat ≤ 6 := by omega
  refine ⟨x, ?_, ?_, ?_⟩
  · unfold fmt
    rw [chkf_ok H (hx.trans (by norm_num)), ok_bind, hpp, ← hxd]
    have hlen := fixAbs_length p.toNat 10 x hxb
    rw [fmtFix, if_neg (by omega), generalString]
    rw [if_neg, Int.toNat_natCast, mkSML_sprintf]
    rw [Int.toNat_natCast]
    unfold sprintfF
    split
    · rw [List.length_cons]; omega
    · omega
  · rw [decide_eq_decide]
    constructor
    · intro h
      by_contra hc
      have : (0 : ℚ) ≤ t := by exact_mod_cast not_lt.mp hc
      have := H.nonneg (div_nonneg this (by norm_num : (0 : ℚ) ≤ 1000000))
      linarith
    · intro h
      have h0 : (t : ℚ) < 0 := by exact_mod_cast h
      have h1 : (t : ℚ) / 1000000 < 0 := div_neg_of_neg_of_pos h0 (by norm_num)
      rw [abs_of_neg h1] at herr
      have := (abs_le.mp herr).2
      have h2 : -((t : ℚ) / 1000000) / 2 ^ 53 < -((t : ℚ) / 1000000) := by
        rw [div_lt_iff₀ (by norm_num)]; nlinarith
      linarith
  · set n := p.toNat
    set N := units n x
    have hnear := units_near n x
    obtain ⟨T, hT⟩ : ∃ T : Nat, T = t.natAbs := ⟨_, rfl⟩
    have hTq : |(t : ℚ)| = (T : ℚ) := by rw [hT, Nat.cast_natAbs]; push_cast; rfl
    have hTlt : (T : ℚ) < 2 ^ 52 := by rw [← hTq]; exact htq
    have hD0 : (0 : ℚ) < 10 ^ (6 - n) := by positivity
    have hn0 : (0 : ℚ) < 10 ^ n := by positivity
    have e6 : (10 : ℚ) ^ (6 - n) * 10 ^ n = 1000000 := by rw [← pow_add, show 6 - n + n = 6 by omega]; norm_num
    -- the number to be printed, in units
    have hy : |(|x|) * 10 ^ n - (T : ℚ) / 10 ^ (6 - n)| ≤ (T : ℚ) / 10 ^ (6 - n) / 2 ^ 53 := by
      have h1 : |(|x|) - (|(t : ℚ) / 1000000|)| ≤ |(t : ℚ) / 1000000| / 2 ^ 53 := (abs_abs_sub_abs_le _ _).trans herr
      rw [abs_div, hTq, abs_of_pos (by norm_num : (0 : ℚ) < 1000000)] at h1
      have e1 : (|x|) * 10 ^ n - (T : ℚ) / 10 ^ (6 - n) = ((|x|) - (T : ℚ) / 1000000) * 10 ^ n := by
        rw [← e6]; field_simp
      have e2 : (T : ℚ) / 10 ^ (6 - n) / 2 ^ 53 = (T : ℚ) / 1000000 / 2 ^ 53 * 10 ^ n := by
        rw [← e6]; field_simp
      rw [e1, e2, abs_mul, abs_of_pos hn0]
      exact mul_le_mul_of_nonneg_right h1 hn0.le
    rw [hTq]
    by_contra hc
    rw [not_le] at hc
    obtain ⟨D, hD⟩ : ∃ D : Nat, D = 10 ^ (6 - n) := ⟨_, rfl⟩
    have hDq : (10 : ℚ) ^ (6 - n) = (D : ℚ) := by rw [hD]; push_cast; rfl
    rw [hDq] at hc hy hD0
    -- distances are multiples of 1/D
    have hint : (D : Int) + 1 ≤ 2 * |(N : Int) * D - T| := by
      have h1 : (D : ℚ) < 2 * |(N : ℚ) * D - T| := by
        have e : (N : ℚ) * D - T = ((N : ℚ) - T / D) * D := by field_simp
        rw [e, abs_mul, abs_of_pos hD0]
        nlinarith
      have h2 : (D : Int) < 2 * |(N : Int) * D - T| := by exact_mod_cast h1
      omega
    have hq : (D : ℚ) + 1 ≤ 2 * |(N : ℚ) * D - T| := by exact_mod_cast hint
    have hN : 1 / 2 + 1 / (2 * D) ≤ |(N : ℚ) - T / D| := by
      have e : |(N : ℚ) - T / D| = |(N : ℚ) * D - T| / D := by
        rw [eq_div_iff hD0.ne', ← abs_of_pos hD0, ← abs_mul, abs_of_pos hD0]
        congr 1
        field_simp
      have e2 : (1 : ℚ) / 2 + 1 / (2 * D) = ((D : ℚ) + 1) / 2 / D := by field_simp
      rw [e, e2]
      apply div_le_div_of_nonneg_right _ hD0.le
      linarith
    have hs : (T : ℚ) / D / 2 ^ 53 < 1 / (2 * D) := by
      rw [div_div, div_lt_div_iff₀ (by positivity) (by positivity)]
      nlinarith
    have htri : |(N : ℚ) - T / D| ≤ |(N : ℚ) - |x| * 10 ^ n| + |(|x|) * 10 ^ n - (T : ℚ) / D| := by
      have := abs_add_le ((N : ℚ) - |x| * 10 ^ n) ((|x|) * 10 ^ n - (T : ℚ) / D)
      rwa [sub_add_sub_cancel] at this
    linarith

/-- C73: `fmt p t` prints the seconds of t rounded to p decimals (to none, if p is negative). -/
theorem C73_fmt_partial (H : Nearest fl) (t : Int) (ht : |t| < 2 ^ 52) (p : Int) (hp : p ≤ 6) :
    ∃ s N, fmt fl p t = .ok (.str s) ∧ FixNumeral (decide (t < 0)) p.toNat N s ∧
      |(N : ℚ) - |(t : ℚ)| / 10 ^ (6 - p.toNat)| ≤ 1 / 2 := by
  obtain ⟨x, h1, h2, h3⟩ := fmt_units H t ht p hp
  refine ⟨_, _, h1, ?_, h3⟩
  rw [← h2]
  refine ⟨_, fracDigits p.toNat (units p.toNat x), ?_, digits_allDig (units p.toNat x / 10 ^ p.toNat), fracDigits_dig _ _,
    Num.printfDigits_ne _ _, ?_, fracDigits_length _ _, ?_⟩
  · have hff : (fracDigits p.toNat (units p.toNat x) = []) ↔ p.toNat = 0 := by
      rw [← List.length_eq_zero_iff, fracDigits_length]
    unfold Lit.str Lit.fracStr Lit.exStr fixLit
    simp only [List.append_nil, hff, decide_eq_true_eq]
    rfl
  · intro hh
    rw [Num.printfDigits_val (by omega) (by omega)]
    exact Num.printfDigits_head (by omega) (by omega) _ hh
  · rw [numVal_append, fracDigits_val, fracDigits_length, Num.printfDigits_val (by omega) (by omega)]
    exact Nat.div_add_mod' _ _

/-- C73: `toString` prints the seconds rounded to milliseconds. -/
theorem C73_toString_partial (H : Nearest fl) (t : Int) (ht : |t| < 2 ^ 52) :
    ∃ s N, toString fl t = .ok (.str s) ∧ FixNumeral (decide (t < 0)) 3 N s ∧ |(N : ℚ) - |(t : ℚ)| / 1000| ≤ 1 / 2 := by
  obtain ⟨s, N, h1, h2, h3⟩ := C73_fmt_partial H t ht 3 (by omega)
  exact ⟨s, N, h1, h2, by simpa [show (10 : ℚ) ^ 3 = 1000 by norm_num] using h3⟩

example : toString rnd 1234567 = .ok (.str (chars "1.235")) := by decide +kernel

/-- C73: `scan` reads the longest numeral after blanks, however many decimals it has, and rounds it to microseconds. -/
theorem C73_scan_partial (H : Nearest fl) {src rest : Str} {l : Lit} (hl : LongestTime (src.dropWhile isSpace) l rest)
    (hD : numVal 10 l.D ≤ 9000000000) :
    scan fl src = .ok (some ((if isMinus l.sg then -1 else 1) * (⌊|l.val| * 1000000 + 1 / 2⌋ : ℚ),
      if l.F = [] ∧ rest.head? = some '.'.toNat then rest.tail else rest)) := by
  rw [scan_eq, longest_parseT hl]
  dsimp only
  rw [natR_ok H hl.1.1.D (by omega), ok_bind, mk_ok H hD (usecF_le hl.1.1.F), ok_bind, val_usec hl.1.1 hl.1.2]
  have er : restOf l.F rest = if l.F = [] ∧ rest.head? = some '.'.toNat then rest.tail else rest := by
    unfold restOf
    by_cases h : l.F = []
    · rw [if_pos h]
      split
      · rw [if_pos ⟨h, rfl⟩]; rfl
      · next hne =>
        rw [if_neg]
        rintro ⟨-, h2⟩
        cases rest with
        | nil => cases h2
        | cons c t =>
          simp only [List.head?_cons, Option.some.injEq] at h2
          exact hne t (by rw [h2]; rfl)
    · rw [if_neg h, if_neg (by simp [h])]
  rw [er]
  cases isMinus l.sg <;> simp

/-- C73: `scan` returns NONE exactly for texts that do not begin with a numeral; it raises only Overflow. -/
theorem C73_scan_none (fl : ℚ → ℚ) (src : Str) : scan fl src = .ok none ↔ ¬ BeginsTime (src.dropWhile isSpace) := by
  rw [scan_eq, ← parseT_none]
  cases hp : parseT (src.dropWhile isSpace) with
  | none => simp
  | some p =>
    obtain ⟨l, rest⟩ := p
    simp only [reduceCtorEq, iff_false]
    cases natR fl l.D with
    | error e => intro h; cases h
    | ok i =>
      rw [ok_bind]
      cases mk fl (isMinus l.sg) i (usecF l.F : Int) with
      | error e => intro h; cases h
      | ok i => rw [ok_bind]; intro h; cases h

theorem fixLit_noblank (n : Nat) (x : ℚ) : (fixLit n x).str.dropWhile isSpace = (fixLit n x).str := by
  have hw := fixLit_wf n x
  have hD : (fixLit n x).D ≠ [] := Num.printfDigits_ne _ _
  generalize fixLit n x = l at *
  cases hs : l.str with
  | nil => rfl
  | cons c t =>
    have hc : Num.isSpace c = false := by
      have hsg := hw.sg
      rw [Lit.str] at hs
      rcases isSign_cases hsg with h | h | h | h <;> rw [h] at hs
      · obtain ⟨d, D', hD'⟩ := List.exists_cons_of_ne_nil hD
        rw [hD', List.nil_append, List.cons_append] at hs
        cases hs
        have := (Num.isDig10 c).mp (hw.D c (by rw [hD']; simp))
        simp [Num.isSpace]
        omega
      all_goals
        rw [List.singleton_append] at hs
        cases hs
        rfl
    rw [List.dropWhile_cons, hc]; rfl

/-- C73: a printed time read back is the time rounded to the decimals printed. -/
theorem C73_roundtrip_partial (H : Nearest fl) (t : Int) (ht : |t| < 2 ^ 52) (p : Int) (hp : p ≤ 6) :
    ∃ s, ∃ k : Int, fmt fl p t = .ok (.str s) ∧ fromString fl s = .ok (some ((k * 10 ^ (6 - p.toNat) : Int) : ℚ)) ∧
      |(k : ℚ) - (t : ℚ) / 10 ^ (6 - p.toNat)| ≤ 1 / 2 := by
  obtain ⟨x, h1, h2, h3⟩ := fmt_units H t ht p hp
  have htq : |(t : ℚ)| < 2 ^ 52 := by exact_mod_cast ht
  have hn : p.toNat ≤ 6 := by omega
  generalize p.toNat = n at *
  set l := fixLit n x with hl
  have hw : l.WF := fixLit_wf n x
  have hlong : LongestTime l.str l [] := by
    refine ⟨⟨hw, rfl⟩, (List.append_nil _).symm, ?_⟩
    intro l' rest' _ _ h
    rw [h, List.length_append]; omega
  set N := units n x
  have hE0 : (0 : ℚ) < 10 ^ (6 - n) := by positivity
  have hE1 : (1 : ℚ) ≤ 10 ^ (6 - n) := one_le_pow₀ (by norm_num)
  have e6 : (10 : Nat) ^ (6 - n) * 10 ^ n = 1000000 := by rw [← pow_add, show 6 - n + n = 6 by omega]; norm_num
  have hN : N * 10 ^ (6 - n) ≤ 4503599627370496 + 1000000 := by
    have h4 := (abs_le.mp h3).2
    have h5 : (N : ℚ) ≤ |(t : ℚ)| / 10 ^ (6 - n) + 1 / 2 := by linarith
    have h6 : (N : ℚ) * 10 ^ (6 - n) ≤ |(t : ℚ)| + 1 / 2 * 10 ^ (6 - n) := by
      have := mul_le_mul_of_nonneg_right h5 hE0.le
      rw [add_mul, div_mul_cancel₀ _ hE0.ne'] at this
      exact this
    have h7 : (10 : ℚ) ^ (6 - n) ≤ 10 ^ 6 := pow_le_pow_right₀ (by norm_num) (by omega)
    have h8 : (N : ℚ) * 10 ^ (6 - n) ≤ ((4503599627370496 + 1000000 : Nat) : ℚ) := by
      push_cast
      norm_num at htq h7
      linarith
    exact_mod_cast h8
  have hD : numVal 10 l.D ≤ 9000000000 := by
    have e : numVal 10 l.D = N / 10 ^ n := Num.printfDigits_val (by omega) (by omega) _
    rw [e]
    have h4 : N / 10 ^ n * 10 ^ n ≤ N := Nat.div_mul_le_self _ _
    have h5 : N / 10 ^ n * (10 ^ (6 - n) * 10 ^ n) ≤ N * 10 ^ (6 - n) := by
      calc N / 10 ^ n * (10 ^ (6 - n) * 10 ^ n) = N / 10 ^ n * 10 ^ n * 10 ^ (6 - n) := by ring
        _ ≤ _ := Nat.mul_le_mul_right _ h4
    rw [e6] at h5
    omega
  have hsc := C73_scan_partial H (src := l.str) (rest := []) (l := l) (by rw [fixLit_noblank]; exact hlong) hD
  have hmagv : |l.val| = (N : ℚ) / 10 ^ n := by
    rw [val_eq_mag, ← fixLit_mag, ← hl]
    have h0 := mag_nonneg l
    cases isMinus l.sg <;> simp [abs_of_nonneg h0]
  have hfl : ⌊|l.val| * 1000000 + 1 / 2⌋ = ((N * 10 ^ (6 - n) : Nat) : Int) := by
    rw [hmagv, Int.floor_eq_iff]
    have e : (N : ℚ) / 10 ^ n * 1000000 = ((N * 10 ^ (6 - n) : Nat) : ℚ) := by
      rw [show (1000000 : ℚ) = ((10 ^ (6 - n) * 10 ^ n : Nat) : ℚ) by rw [e6]; norm_num]
      push_cast
      field_simp
    rw [e, Int.cast_natCast]
    constructor <;> linarith
  rw [hfl] at hsc
  have hsg : isMinus l.sg = decide (x < 0) := by
    show isMinus (if x < 0 then [126] else []) = _
    by_cases h : x < 0
    · rw [if_pos h, decide_eq_true h]; decide
    · rw [if_neg h, decide_eq_false h]; decide
  rw [hsg, h2] at hsc
  refine ⟨l.str, (if t < 0 then -1 else 1) * N, h1, ?_, ?_⟩
  · rw [fromString, hsc, ok_bind]
    dsimp only
    congr 2
    by_cases h : t < 0
    · simp [h]
    · simp [h]
  · by_cases h : t < 0
    · have h0 : (t : ℚ) < 0 := by exact_mod_cast h
      rw [abs_of_neg h0] at h3
      rw [if_pos h]
      push_cast
      rw [← abs_neg]
      have e : -(-1 * (N : ℚ) - (t : ℚ) / 10 ^ (6 - n)) = (N : ℚ) - -(t : ℚ) / 10 ^ (6 - n) := by ring
      rw [e]
      exact h3
    · have h0 : (0 : ℚ) ≤ t := by exact_mod_cast not_lt.mp h
      rw [abs_of_nonneg h0] at h3
      rw [if_neg h]
      push_cast
      rw [one_mul]
      exact h3

/-- C73: with six decimals the very same time is read back. -/
theorem C73_roundtrip_exact (H : Nearest fl) (t : Int) (ht : |t| < 2 ^ 52) :
    ∃ s, fmt fl 6 t = .ok (.str s) ∧ fromString fl s = .ok (some (t : ℚ)) := by
  obtain ⟨s, k, h1, h2, h3⟩ := C73_roundtrip_partial H t ht 6 (by omega)
  refine ⟨s, h1, ?_⟩
  have hk : k = t := by
    have e : (k : ℚ) - (t : ℚ) / 10 ^ (6 - (6 : Int).toNat) = ((k - t : Int) : ℚ) := by simp
    rw [e] at h3
    have h4 : |((k - t : Int) : ℚ)| < 1 := lt_of_le_of_lt h3 (by norm_num)
    have h5 : |k - t| < 1 := by exact_mod_cast h4
    rw [Int.abs_lt_one_iff] at h5
    omega
  rw [h2, hk]
  simp

/-! ## The sentences of Time.sig that do not hold -/

/-- C73: fromReal and toReal are not inverses of each other: 123 microseconds are not 123 microseconds afterwards. -/
theorem C73_inverse_violation : ∃ r, toReal rnd 123 = .ok r ∧ fromReal rnd r ≠ .ok 123 := by
  refine ⟨rnd (123 / 1000000), ?_, ?_⟩ <;> decide +kernel

/-- C73: fromReal r1 + fromReal r2 = fromReal (r1 + r2) fails for the reals 0.01 and 0.05. -/
theorem C73_sum_violation : ∃ r1 r2 t1 t2 r3, r1 = rnd (1 / 100) ∧ r2 = rnd (5 / 100) ∧ fromReal rnd r1 = .ok t1 ∧
    fromReal rnd r2 = .ok t2 ∧ chkf rnd (r1 + r2) = .ok r3 ∧ add rnd t1 t2 ≠ fromReal rnd r3 := by
  refine ⟨_, _, rnd (rnd (1 / 100) * 1000000), rnd (rnd (5 / 100) * 1000000), rnd (rnd (1 / 100) + rnd (5 / 100)), rfl, rfl, ?_, ?_, ?_, ?_⟩ <;>
    decide +kernel

/-- C73: two different reals (0.47 and the next double) give the same time, so `<` is not preserved. -/
theorem C73_less_violation : ∃ r1 r2, r1 = rnd (47 / 100) ∧ IsDouble r2 ∧ r1 < r2 ∧ fromReal rnd r1 = fromReal rnd r2 := by
  refine ⟨_, 8466767299456533 / 18014398509481984, rfl, ?_, ?_, ?_⟩
  · have := isDouble_of_le (m := 8466767299456533) (e := -54) (by norm_num)
    convert this using 1
    norm_num
  · decide +kernel
  · decide +kernel

/-- C73: above 2^52 microseconds the last of six decimals may be wrong. -/
theorem C73_fmt_violation : fmt rnd 6 8738734697736806 = .ok (.str (chars "8738734697.736807")) := by decide +kernel

/-- C73: a point without digits after it is taken away, although the numeral ends before it. -/
theorem C73_point_violation : scan rnd (chars "1.x") = .ok (some (1000000, chars "x")) ∧
    LongestTime (chars "1.x") ⟨[], chars "1", [], none⟩ (chars ".x") := by
  refine ⟨by decide +kernel, parseT_longest (by rfl)⟩

/-- C73: more than 400 decimals raise Size, which Time.sig does not mention. -/
theorem C73_size_violation : fmt rnd 401 1000000 = .ok .size := by decide +kernel

/-! ## Examples -/

example : fmt rnd 3 1234567 = .ok (.str (chars "1.235")) := by decide +kernel
example : fmt rnd (-2) (-1234567) = .ok (.str (chars "~1")) := by decide +kernel
example : fromString rnd (chars " ~.00000050") = .ok (some (-1)) := by decide +kernel
example : scan rnd (chars "12.3456784999999e") = .ok (some (12345678, chars "e")) := by decide +kernel
example : toSeconds rnd (-1999999) = .ok (-1) := by decide +kernel
example : Nearest rnd := rnd_nearest
example : ¬ BeginsTime (chars "x") := parseT_none.mp (by decide)

end Mosml.Times
