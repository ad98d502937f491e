import Verif.RealText.LemmasFmt

/-! C72: text conversion of reals: `Real.fmt (FIX _)`, `Real.scan`, `Real.fromString`. -/
namespace Mosml.RealText
open Mosml.Num (IsDig numVal chars)
open Mosml.Floats

/-! ## Specification of the printed text -/

/-- `s` is the decimal notation of `N / 10^n` with n digits after the point, preceded by `~` if `neg` -/
def FixNumeral (neg : Bool) (n N : Nat) (s : Str) : Prop :=
  ∃ ip fp, s = (if neg then ['~'.toNat] else []) ++ (ip ++ if n = 0 then [] else '.'.toNat :: fp) ∧
    AllDig ip ∧ AllDig fp ∧ ip ≠ [] ∧ (ip.head? = some '0'.toNat → numVal 10 ip = 0) ∧ fp.length = n ∧
    numVal 10 (ip ++ fp) = N

/-! ## Theorems -/

/-- C72: `fmt (FIX (SOME n)) x` is the number with n decimals nearest to x, as long as the text fits in the buffer. -/
theorem C72_fmt_partial {n : Int} {k : Nat} {x : ℚ} (h0 : 0 ≤ n) (h1 : n ≤ 400) (hx : |x| < 10 ^ k) (hk : k + n ≤ 508) :
    ∃ s N, fmtFix n x = .str s ∧ FixNumeral (decide (x < 0)) n.toNat N s ∧ |(N : ℚ) - |x| * 10 ^ n.toNat| ≤ 1 / 2 := by
  have hlen := fixAbs_length n.toNat k x hx
  refine ⟨(fixLit n.toNat x).str, units n.toNat x, ?_, ?_, units_near _ _⟩
  · rw [fmtFix, if_neg (by omega), generalString]
    rw [if_neg, mkSML_sprintf]
    unfold sprintfF
    split
    · rw [List.length_cons]; omega
    · omega
  · refine ⟨_, fracDigits n.toNat (units n.toNat x), ?_, digits_allDig (units n.toNat x / 10 ^ n.toNat), fracDigits_dig _ _,
      Num.printfDigits_ne _ _, ?_, fracDigits_length _ _, ?_⟩
    · have hff : (fracDigits n.toNat (units n.toNat x) = []) ↔ n.toNat = 0 := by
        rw [← List.length_eq_zero_iff, fracDigits_length]
      unfold Lit.str Lit.fracStr Lit.exStr fixLit
      simp only [List.append_nil, hff, decide_eq_true_eq]
      rfl
    · intro hh
      rw [Num.printfDigits_val (by omega) (by omega)]
      exact Num.printfDigits_head (by omega) (by omega) _ hh
    · rw [numVal_append, fracDigits_val, fracDigits_length, Num.printfDigits_val (by omega) (by omega)]
      exact Nat.div_add_mod' _ _

/-- C72: Size is raised for a negative number of digits (also for more than 400, see the violation below). -/
theorem C72_size (n : Int) (x : ℚ) : fmtFix n x = .size ↔ n < 0 ∨ 400 < n := by
  unfold fmtFix generalString
  constructor
  · intro h
    by_contra hc
    have hc' : ¬ (n < 0 ∨ n > 400) := hc
    rw [if_neg hc'] at h
    dsimp only at h
    split at h <;> cases h
  · intro h
    have : n < 0 ∨ n > 400 := h
    rw [if_pos this]

/-- C72: what `scan` returns is a number read from the longest numeral at the start of the text, after blanks, and the
rest of the text; nothing is returned unless the text begins with a numeral. -/
theorem C72_scan_longest (fl : ℚ → ℚ) {src rest : Str} {r : ℚ} (h : scan fl src = .ok (some (r, rest))) :
    ∃ ws s l, src = ws ++ s ∧ (∀ c ∈ ws, IsBlank c) ∧ (∀ c t, s = c :: t → ¬ IsBlank c) ∧ LongestLit s l rest := by
  have hbl : ∀ c, Num.isSpace c = true ↔ IsBlank c := by
    intro c; unfold Num.isSpace IsBlank; simp
  refine ⟨src.takeWhile Num.isSpace, src.dropWhile Num.isSpace, ?_⟩
  rw [scan_eq] at h
  cases hp : parse (src.dropWhile Num.isSpace) with
  | none => rw [hp] at h; cases h
  | some p =>
    obtain ⟨l, rest'⟩ := p
    rw [hp] at h
    dsimp only at h
    have hrest : rest' = rest := by
      split at h
      · cases hm : manR fl l.D l.F with
        | error e => rw [hm] at h; cases h
        | ok m =>
          rw [hm, ok_bind] at h
          cases hx : expR ((splitSign rest').2.takeWhile isDigit) with
          | error e => rw [hx] at h; cases h
          | ok x => rw [hx, ok_bind] at h; cases h
      · cases hm : litR fl l with
        | error e => rw [hm] at h; cases h
        | ok m => rw [hm, ok_bind, mkres] at h; cases h; rfl
    subst hrest
    refine ⟨l, (List.takeWhile_append_dropWhile).symm, ?_, ?_, parse_longest hp⟩
    · intro c hc
      exact (hbl c).mp (List.all_eq_true.mp (List.all_takeWhile (p := Num.isSpace) (l := src)) c hc)
    · intro c t hc hb
      have : ∀ q : Str, q.dropWhile Num.isSpace = c :: t → Num.isSpace c = false := by
        intro q
        induction q with
        | nil => intro hq; simp at hq
        | cons a q ih =>
          intro hq
          by_cases ha : Num.isSpace a = true
          · rw [List.dropWhile_cons, if_pos ha] at hq; exact ih hq
          · rw [List.dropWhile_cons, if_neg ha] at hq; cases hq; simpa using ha
      have h2 := this src hc
      rw [(hbl c).mpr hb] at h2
      cases h2

/-- C72: `scan` returns NONE only if the text does not begin with a numeral, or if the longest numeral has no exponent and
is followed by a sign and a digit. -/
theorem C72_scan_none_partial (fl : ℚ → ℚ) {src : Str} (h : scan fl src = .ok none) :
    ¬ BeginsLit (src.dropWhile Num.isSpace) ∨
      ∃ l rest, LongestLit (src.dropWhile Num.isSpace) l rest ∧ l.ex = none ∧ SignDigit rest := by
  rw [scan_eq] at h
  cases hp : parse (src.dropWhile Num.isSpace) with
  | none => exact Or.inl (parse_none.mp hp)
  | some p =>
    obtain ⟨l, rest⟩ := p
    rw [hp] at h
    dsimp only at h
    by_cases hc : l.ex = none ∧ SignDigit rest
    · exact Or.inr ⟨l, rest, parse_longest hp, hc.1, hc.2⟩
    · rw [if_neg hc] at h
      cases hm : litR fl l with
      | error e => rw [hm] at h; cases h
      | ok m => rw [hm, ok_bind, mkres] at h; cases h

/-- C72: `scan` never raises and returns NONE on a text that does not begin with a numeral. -/
theorem C72_scan_no_numeral (fl : ℚ → ℚ) {src : Str} (h : ¬ BeginsLit (src.dropWhile Num.isSpace)) :
    scan fl src = .ok none := by
  rw [scan_eq, parse_none.mpr h]

/-- C72: a numeral of moderate size that is not followed by a sign and a digit is read with a relative error of at most
2^-51, and exactly if it has neither a point nor an exponent. -/
theorem C72_scan_value_partial {fl : ℚ → ℚ} (H : Nearest fl) {src rest : Str} {l : Lit}
    (hl : LongestLit (src.dropWhile Num.isSpace) l rest) (hsd : ¬ (l.ex = none ∧ SignDigit rest))
    (h1 : numVal 10 l.D ≤ 2 ^ 53) (h2 : l.F.length ≤ 15) (h3 : ∀ e s X, l.ex = some (e, s, X) → numVal 10 X ≤ 22) :
    ∃ r, scan fl src = .ok (some (r, rest)) ∧ |r - l.val| ≤ |l.val| / 2 ^ 51 ∧ (l.F = [] → l.ex = none → r = l.val) := by
  obtain ⟨v, hv, hve, hvc⟩ := litR_ok H hl.1 h1 h2 h3
  have h0 := mag_nonneg l
  rw [scan_eq, longest_parse hl]
  dsimp only
  rw [if_neg hsd, hv, ok_bind, val_eq_mag]
  refine ⟨_, rfl, ?_, ?_⟩
  · cases isMinus l.sg
    · simp only [Bool.not_false, if_true, Bool.false_eq_true, if_false, one_mul]
      rw [abs_of_nonneg h0]; linarith
    · simp only [Bool.not_true, Bool.false_eq_true, if_false, if_true]
      rw [neg_one_mul, abs_neg, abs_of_nonneg h0, neg_sub_neg, abs_sub_comm]; linarith
  · intro hF hx
    rw [hve hF hx]
    cases isMinus l.sg <;> simp

/-- C72: reading back what `fmt (FIX (SOME n))` printed gives a number close to the one printed … -/
theorem C72_roundtrip {fl : ℚ → ℚ} (H : Nearest fl) {n : Int} {x : ℚ} (h0 : 0 ≤ n) (h1 : n ≤ 15) (hx : |x| ≤ 2 ^ 53 - 1) :
    ∃ s r, fmtFix n x = .str s ∧ fromString fl s = .ok (some r) ∧
      |r - x| ≤ 1 / (2 * 10 ^ n.toNat) + (|x| + 1) / 2 ^ 51 := by
  have hx16 : |x| < 10 ^ 16 := lt_of_le_of_lt hx (by norm_num)
  have hlen := fixAbs_length n.toNat 16 x hx16
  set l := fixLit n.toNat x with hl
  have hw := fixLit_wf n.toNat x
  rw [← hl] at hw
  have hfmt : fmtFix n x = .str l.str := by
    rw [fmtFix, if_neg (by omega), generalString]
    rw [if_neg, mkSML_sprintf]
    unfold sprintfF
    split
    · rw [List.length_cons]; omega
    · omega
  have hlong : LongestLit l.str l [] := parse_longest (parse_str hw)
  have hnb : l.str.dropWhile Num.isSpace = l.str := by
    have hD : l.D ≠ [] := Num.printfDigits_ne _ _
    cases hs : l.str with
    | nil => rfl
    | cons c t =>
      have hc : Num.isSpace c = false := by
        have hsg := hw.sg
        rw [Lit.str] at hs
        rcases isSign_cases hsg with h | h | h | h <;> rw [h] at hs
        · obtain ⟨d, D', hD'⟩ := List.exists_cons_of_ne_nil hD
          rw [hD', List.nil_append, List.cons_append] at hs
          cases hs
          have := (Num.isDig10 c).mp (hw.D c (by rw [hD']; simp))
          simp [Num.isSpace]
          omega
        all_goals
          rw [List.singleton_append] at hs
          cases hs
          rfl
      rw [List.dropWhile_cons, hc]; rfl
  have hnear := units_near n.toNat x
  set N := units n.toNat x
  have hp : (0 : ℚ) < 10 ^ n.toNat := by positivity
  have hp1 : (1 : ℚ) ≤ 10 ^ n.toNat := one_le_pow₀ (by norm_num)
  have hmag : l.mag = (N : ℚ) / 10 ^ n.toNat := fixLit_mag _ _
  have hmx : |l.mag - (|x|)| ≤ 1 / (2 * 10 ^ n.toNat) := by
    rw [hmag]
    have e : (N : ℚ) / 10 ^ n.toNat - |x| = ((N : ℚ) - |x| * 10 ^ n.toNat) / 10 ^ n.toNat := by field_simp
    rw [e, abs_div, abs_of_pos hp, div_le_div_iff₀ hp (by positivity)]
    linarith [mul_le_mul_of_nonneg_right hnear hp.le]
  have hhalf : (1 : ℚ) / (2 * 10 ^ n.toNat) ≤ 1 / 2 := by
    rw [div_le_div_iff₀ (by positivity) (by norm_num)]; linarith
  have hmag1 : l.mag ≤ |x| + 1 / 2 := by have := (abs_le.mp hmx).2; linarith
  have hDn : numVal 10 l.D ≤ 2 ^ 53 := by
    have e : numVal 10 l.D = N / 10 ^ n.toNat := Num.printfDigits_val (by omega) (by omega) _
    have h2 : ((N / 10 ^ n.toNat : Nat) : ℚ) ≤ (N : ℚ) / 10 ^ n.toNat := by
      rw [le_div_iff₀ hp]
      exact_mod_cast Nat.div_mul_le_self N (10 ^ n.toNat)
    rw [← hmag] at h2
    have h3 : ((numVal 10 l.D : Nat) : ℚ) ≤ ((2 ^ 53 : Nat) : ℚ) := by
      rw [e]; push_cast; linarith
    exact_mod_cast h3
  have hFl : l.F.length ≤ 15 := by
    have : l.F.length = n.toNat := fracDigits_length _ _
    omega
  obtain ⟨r, hr, hrc, -⟩ := C72_scan_value_partial H (src := l.str) (rest := []) (l := l) (by rw [hnb]; exact hlong)
    (by rintro ⟨-, g, d, t, h, -⟩; cases h) hDn hFl (by intro e s X h; cases h)
  refine ⟨l.str, r, hfmt, by rw [fromString, hr]; rfl, ?_⟩
  have h0m := mag_nonneg l
  have hval : |l.val| = l.mag := by
    rw [val_eq_mag]; cases isMinus l.sg <;> simp [abs_of_nonneg h0m]
  have hvx : |l.val - x| = |l.mag - (|x|)| := by
    rw [val_eq_mag]
    have hsg : l.sg = if x < 0 then [126] else [] := rfl
    rw [hsg]
    by_cases hneg : x < 0
    · have : isMinus [126] = true := by decide
      rw [if_pos hneg, this, if_pos rfl, abs_of_neg hneg, ← abs_neg]
      congr 1; ring
    · have : isMinus [] = false := by decide
      rw [if_neg hneg, this, abs_of_nonneg (not_lt.mp hneg)]
      simp
  have htri : |r - x| ≤ |r - l.val| + |l.val - x| := by
    have := abs_add_le (r - l.val) (l.val - x)
    rwa [sub_add_sub_cancel] at this
  rw [hval] at hrc
  have : l.mag / 2 ^ 51 ≤ (|x| + 1) / 2 ^ 51 := div_le_div_of_nonneg_right (by linarith) (by norm_num)
  rw [hvx] at htri
  linarith

/-! ## The sentences of Real.sig that do not hold -/

/-- C72: with 203 digits after the point, the text of 8·10^307 is longer than the C array it is written to. -/
theorem C72_buffer_violation : fmtFix 203 (8 * 10 ^ 307) = .smash := by decide +kernel

/-- C72: Size is raised for 401 digits, which is not a negative number. -/
theorem C72_size_violation : fmtFix 401 1 = .size := by decide +kernel

/-- C72: "12-5" begins with the numeral 12, but NONE is returned; likewise "1.5+2". -/
theorem C72_sign_violation : fromString rnd (chars "12-5") = .ok none ∧ fromString rnd (chars "1.5+2") = .ok none ∧
    fromString rnd (chars "12-x") = .ok (some 12) := by
  refine ⟨?_, ?_, ?_⟩ <;> decide +kernel

/-- C72: reading 0E400 or 1E~400 raises Overflow, although both are very small numbers (0 and almost 0). -/
theorem C72_overflow_violation : fromString rnd (chars "0E400") = .error .overflow ∧
    fromString rnd (chars "1E~400") = .error .overflow := by
  refine ⟨?_, ?_⟩ <;> decide +kernel

/-! ## Examples: the hypotheses can be met -/

example : fmtFix 3 (-12345 / 10000) = .str (chars "~1.234") := by decide +kernel
example : fmtFix 0 (5 / 2) = .str (chars "2") := by decide +kernel
example : scan rnd (chars "  ~12.50E2x") = .ok (some (-1250, chars "x")) := by decide +kernel
example : scan rnd (chars ".5.") = .ok (some (1 / 2, chars ".")) := by decide +kernel
example : scan rnd (chars "7.E3") = .ok (some (7, chars ".E3")) := by decide +kernel
example : ¬ BeginsLit (chars "x") := parse_none.mp (by decide)
example : LongestLit (chars "12.5e3x") ⟨[], chars "12", chars "5", some (101, [], chars "3")⟩ (chars "x") :=
  parse_longest (by rfl)
example : (⟨[], [49, 50], [53], some (101, [], [51])⟩ : Lit).val = 12500 := by
  decide +kernel

end Mosml.RealText
