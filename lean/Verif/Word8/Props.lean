import Verif.Word8.Lemmas

/-!
C88: the operations of `Word8` on every value of the type, for every argument.  A word `x < 256` is
represented by `encW x`; `enc n` represents the int `n`; `encW w` with `w < W = 2^63` is a `Word.word`.
-/
namespace Mosml.Word8
open Mosml.Ints Mosml.Num

/-- two's complement reading of eight bits -/
def signed8 (x : Nat) : Int := if x < 128 then x else (x : Int) - 256

theorem W_big {x : Nat} (h : x < 256) : x < W := by unfold W; omega

/-- C88: `+`, `-`, `*` are arithmetic modulo 256. -/
theorem C88_arith {x y : Nat} (hx : x < 256) (hy : y < 256) :
    add (encW x) (encW y) = encW ((x + y) % 256) ∧
    sub (encW x) (encW y) = encW ((x + (256 - y)) % 256) ∧
    mul (encW x) (encW y) = encW ((x * y) % 256) := by
  have hm : ∀ n, n % W < W := fun n => Nat.mod_lt _ (by decide)
  have hxy : x * y < 65536 := by
    have := Nat.mul_lt_mul'' hx hy
    omega
  unfold add sub mul
  rw [wAdd_eq (W_big hx) (W_big hy), wSub_eq (W_big hx) (W_big hy), wMul_eq (W_big hx) (W_big hy),
    norm_eq (hm _), norm_eq (hm _), norm_eq (hm _)]
  refine ⟨?_, ?_, ?_⟩ <;> congr 1 <;> unfold W <;> omega
example : 200 < 256 ∧ add (encW 200) (encW 100) = encW 44 ∧ sub (encW 3) (encW 5) = encW 254 := by decide

/-- C88: `div` and `mod` are unsigned and raise Div for a zero divisor. -/
theorem C88_divmod {x y : Nat} (hx : x < 256) (hy : y < 256) :
    div (encW x) (encW y) = (if y = 0 then .div else .val (encW (x / y))) ∧
    mod (encW x) (encW y) = (if y = 0 then .div else .val (encW (x % y))) :=
  C04_divmod (W_big hx) (W_big hy)
example : div (encW 255) (encW 16) = .val (encW 15) ∧ mod (encW 255) (encW 0) = .div := by decide

/-- C88: comparisons, `compare`, `min` and `max` follow the unsigned order. -/
theorem C88_order {x y : Nat} (hx : x < 256) (hy : y < 256) :
    ltUnsign (encW x) (encW y) = decide (x < y) ∧ leUnsign (encW x) (encW y) = decide (x ≤ y) ∧
    gtUnsign (encW x) (encW y) = decide (x > y) ∧ geUnsign (encW x) (encW y) = decide (x ≥ y) ∧
    compare (encW x) (encW y) = Ord.compare x y ∧
    min (encW x) (encW y) = encW (Nat.min x y) ∧ max (encW x) (encW y) = encW (Nat.max x y) := by
  obtain ⟨h1, h2, h3, h4⟩ := C04_compare (W_big hx) (W_big hy)
  refine ⟨h1, h2, h3, h4, ?_, ?_, ?_⟩
  · unfold compare
    rw [h1, h3, Nat.compare_eq_ite_lt]
    simp only [decide_eq_true_eq, gt_iff_lt]
  · unfold min
    rw [h3]
    simp only [decide_eq_true_eq]
    by_cases h : x > y
    · rw [if_pos h]; congr 1; exact (Nat.min_eq_right (by omega)).symm
    · rw [if_neg h]; congr 1; exact (Nat.min_eq_left (by omega)).symm
  · unfold max
    rw [h3]
    simp only [decide_eq_true_eq]
    by_cases h : x > y
    · rw [if_pos h]; congr 1; exact (Nat.max_eq_left (by omega)).symm
    · rw [if_neg h]; congr 1; exact (Nat.max_eq_right (by omega)).symm
example : compare (encW 255) (encW 1) = .gt ∧ min (encW 255) (encW 1) = encW 1 := by decide

/-- C88: bitwise operations and negation. -/
theorem C88_bitwise {x y : Nat} (hx : x < 256) (hy : y < 256) :
    andb (encW x) (encW y) = encW (x &&& y) ∧ orb (encW x) (encW y) = encW (x ||| y) ∧
    xorb (encW x) (encW y) = encW (x ^^^ y) ∧ notb (encW x) = encW (255 - x) ∧
    neg (encW x) = .val (encW ((256 - x) % 256)) := by
  refine ⟨wAnd_eq (W_big hx) (W_big hy), wOr_eq (W_big hx) (W_big hy), wXor_eq (W_big hx) (W_big hy), ?_, ?_⟩
  · show norm (wordNotb (encW x)) = _
    rw [wordNotb_eq (W_big hx), norm_eq (by unfold W; omega)]
    congr 1; unfold W; omega
  · show Out.bind (wordNeg (encW x)) _ = _
    rw [C04_neg_partial (W_big hx) (by omega)]
    show Out.val (norm _) = _
    rw [norm_eq (by unfold W; omega)]
    congr 2; omega
example : notb (encW 0) = encW 255 ∧ neg (encW 1) = .val (encW 255) ∧ xorb (encW 12) (encW 10) = encW 6 := by decide

/-- C88: the result of every operation is again a word of eight bits, so the invariant in Word8.sml:8
holds for every value that a program can make. -/
theorem C88_closed {x y : Nat} (hx : x < 256) (hy : y < 256) :
    x &&& y < 256 ∧ x ||| y < 256 ∧ x ^^^ y < 256 :=
  ⟨Nat.and_lt_two_pow x (n := 8) hy, Nat.or_lt_two_pow (n := 8) hx hy, Nat.xor_lt_two_pow (n := 8) hx hy⟩
example : 170 ||| 85 = 255 := by decide

/-- C88: shifts by every count, also counts of eight or more and counts whose top bit is set.
`~>>` is division, rounding towards minus infinity, of the two's complement number. -/
theorem C88_shifts {x k : Nat} (hx : x < 256) (hk : k < W) :
    shl (encW x) (encW k) = .val (encW (x * 2 ^ k % 256)) ∧
    shr (encW x) (encW k) = .val (encW (x / 2 ^ k)) ∧
    sar (encW x) (encW k) = .val (encW ((signed8 x / 2 ^ k) % 256).toNat) := by
  unfold shl shr sar
  rw [guard8 hk, lt128 hx]
  by_cases h : 8 ≤ k
  · rw [decide_eq_true h, if_pos rfl]
    have h256 : 2 ^ 8 ≤ 2 ^ k := Nat.pow_le_pow_right (by omega) h
    have hz : cst 0 = encW 0 := by decide
    have e0 : x / 2 ^ k = 0 := Nat.div_eq_of_lt (by omega)
    refine ⟨?_, ?_, ?_⟩
    · rw [hz]; congr 2
      have : 256 ∣ x * 2 ^ k := Nat.dvd_trans (Nat.pow_dvd_pow 2 h) (Nat.dvd_mul_left _ _)
      exact (Nat.mod_eq_zero_of_dvd this).symm
    · rw [hz, if_pos rfl, e0]
    · have hp : (2 : Int) ^ 8 ≤ 2 ^ k := by exact_mod_cast h256
      unfold signed8
      by_cases hs : x < 128
      · rw [decide_eq_true hs, if_pos rfl, if_pos hs, if_pos rfl, hz,
          Int.ediv_eq_zero_of_lt (by omega) (by omega)]
        rfl
      · rw [decide_eq_false hs, if_neg Bool.false_ne_true, if_neg hs, if_pos rfl]
        have : ((x : Int) - 256) / 2 ^ k = -1 := by
          rw [Int.ediv_eq_iff_of_pos (by omega)]; constructor <;> omega
        rw [this]
        decide
  · rw [decide_eq_false h, if_neg Bool.false_ne_true]
    have hk8 : k < 8 := by omega
    have hW := W_big hx
    refine ⟨?_, ?_, ?_⟩
    · rw [wShl_small hW hk8]
      show Out.val (norm _) = _
      rw [norm_eq (Nat.mod_lt _ (by decide))]
      congr 2
      exact Nat.mod_mod_of_dvd _ (by decide)
    · rw [if_neg Bool.false_ne_true, wShr_small hW hk8]
    · unfold signed8
      by_cases hs : x < 128
      · rw [decide_eq_true hs, if_pos rfl, if_pos hs, if_neg Bool.false_ne_true, wShr_small hW hk8]
        congr 2
        have e : (x : Int) / 2 ^ k = ((x / 2 ^ k : Nat) : Int) := by push_cast; rfl
        have : x / 2 ^ k ≤ x := Nat.div_le_self _ _
        rw [e]; clear e; generalize x / 2 ^ k = q at *; omega
      · rw [decide_eq_false hs, if_neg Bool.false_ne_true, if_neg hs, if_neg Bool.false_ne_true,
          or256 (by omega) hx, wSar_small (by unfold W; omega) hk8]
        show Out.val (norm _) = _
        have e : asInt (W - 256 + x) = (x : Int) - 256 := by
          unfold asInt W; rw [if_neg (by omega)]; omega
        rw [e, enc_encW, norm_eq (by unfold W; omega)]
        congr 2
        omega
example : sar (encW 0x90) (encW 2) = .val (encW 0xE4) ∧ sar (encW 0x90) (encW 9223372036854775807) = .val (encW 255) ∧
    shl (encW 0x81) (encW 1) = .val (encW 2) ∧ shr (encW 0x81) (encW 7) = .val (encW 1) := by decide

/-- C88: conversions to and from `int` and `Word.word`.  `toInt` and `toLarge` do not change the
representation. -/
theorem C88_conversions {x w : Nat} {n : Int} (hx : x < 256) (hw : w < W) :
    encW x = enc x ∧ toLarge (encW x) = encW x ∧
    toIntX (encW x) = enc (signed8 x) ∧
    toLargeX (encW x) = encW (if x < 128 then x else 2 ^ 63 - 256 + x) ∧
    fromInt (enc n) = encW (n % 256).toNat ∧ fromLarge (encW w) = encW (w % 256) := by
  have e0 : ∀ v : Nat, v < 4611686018427387904 → encW v = enc v := fun v hv => (cst_eq hv).symm
  refine ⟨e0 x (by omega), rfl, ?_, ?_, ?_, norm_eq hw⟩
  · unfold toIntX signed8
    rw [lt128 hx]
    by_cases hs : x < 128
    · rw [decide_eq_true hs, if_pos rfl, if_pos hs]; exact e0 x (by omega)
    · rw [decide_eq_false hs, if_neg Bool.false_ne_true, if_neg hs, or256 (by omega) hx, enc_encW]
      congr 1; unfold W; omega
  · unfold toLargeX
    rw [lt128 hx]
    by_cases hs : x < 128
    · rw [decide_eq_true hs, if_pos rfl, if_pos hs]; rfl
    · rw [decide_eq_false hs, if_neg Bool.false_ne_true, if_neg hs]; exact or256 (by omega) hx
  · unfold fromInt
    rw [enc_encW, norm_eq (by unfold W; omega)]
    congr 1; omega
example : toIntX (encW 200) = enc (-56) ∧ fromInt (enc (-1)) = encW 255 ∧ fromLarge (encW 1000) = encW 232 := by decide

/-- C88: `fromInt` undoes both `toInt` and `toIntX`; `fromLarge` undoes `toLarge` and `toLargeX`. -/
theorem C88_conversions_inverse {x : Nat} (hx : x < 256) :
    fromInt (encW x) = encW x ∧ fromInt (toIntX (encW x)) = encW x ∧
    fromLarge (toLarge (encW x)) = encW x ∧ fromLarge (toLargeX (encW x)) = encW x := by
  obtain ⟨h1, h2, h3, h4, -, -⟩ := C88_conversions (n := 0) (w := 0) hx (by decide)
  have hn : norm (encW x) = encW x := by rw [norm_eq (W_big hx), Nat.mod_eq_of_lt hx]
  refine ⟨hn, ?_, hn, ?_⟩
  · rw [h3, (C88_conversions (n := signed8 x) (w := 0) hx (by decide)).2.2.2.2.1]
    congr 1; unfold signed8; split <;> omega
  · rw [h4]
    show norm _ = _
    rw [norm_eq (by unfold W; split <;> omega)]
    congr 1; split <;> omega
example : fromInt (toIntX (encW 200)) = encW 200 := by decide

/-- C88: what `Word8.scan` returns for every radix and source, with the grammar of Word8.sig: NONE when no
prefix is a numeral; otherwise the longest numeral, its value when below 256 and Overflow when not.
Missing: in base 16 the code also accepts `0w` followed by hexadecimal digits (hypothesis `hx`,
`C88_violation_hex_0w`). -/
theorem C88_scan_partial (r : Radix) (src : Str)
    (hx : r = .hex → ∀ c t, src.dropWhile isSpace = '0'.toNat :: 'w'.toNat :: c :: t → ¬ IsDig 16 c) :
    match scan r src with
    | .none => ∀ p rest v, src.dropWhile isSpace = p ++ rest → ¬ WordLit r.factor p v
    | .some v rest => ∃ p n, Longest (WordLit r.factor) (src.dropWhile isSpace) p n rest ∧
        n < 256 ∧ v = (n : Int)
    | .overflow => ∃ p n rest, Longest (WordLit r.factor) (src.dropWhile isSpace) p n rest ∧ 256 ≤ n := by
  have hi := wordLit_iff r _ hx
  have h := scan_ok r src
  cases hres : scan r src with
  | none =>
    rw [hres] at h
    intro p rest v hs hl
    exact h p rest v hs ((hi p rest v hs).mp hl)
  | some v rest =>
    rw [hres] at h
    obtain ⟨p, n, hl, hn, hv⟩ := h
    exact ⟨p, n, longest_iff hi hl, hn, hv⟩
  | overflow =>
    rw [hres] at h
    obtain ⟨p, n, rest, hl, hn⟩ := h
    exact ⟨p, n, rest, longest_iff hi hl, hn⟩
example : scan .hex (chars " 0wxFFz") = .some 255 (chars "z") ∧ scan .dec (chars "256") = .overflow ∧
    scan .dec (chars "0w255") = .some 255 [] ∧
    scan .dec (chars "99999999999999999999999") = .overflow ∧ scan .bin (chars "2") = .none := by decide +kernel

/-- C88: `fmt` gives a non-empty digit string of the radix, with capital letters and without superfluous zeros,
that denotes the word. -/
theorem C88_fmt_form (r : Radix) (x : Nat) : fmt r x ≠ [] ∧ (∀ c ∈ fmt r x, IsDig r.factor c) ∧
    (∀ c ∈ fmt r x, c ≤ 'F'.toNat) ∧
    numVal r.factor (fmt r x) = x ∧ ((fmt r x).head? = some '0'.toNat → x = 0) := by
  obtain ⟨ds, h1, h2, h3, h4, h5, h6⟩ := C06_fmt_form r (x : Int)
  rw [if_neg (by omega), List.nil_append] at h6
  rw [fmt_intFmt, h6]
  exact ⟨h1, h2, h3, h4, fun h => by have := h5 h; omega⟩
example : fmt .hex 171 = chars "AB" ∧ fmt .bin 5 = chars "101" := by decide +kernel

/-- C88: `scan r` reads back what `fmt r` writes, for every radix and every word of eight bits. -/
theorem C88_fmt_scan_roundtrip (r : Radix) {x : Nat} (hx : x < 256) : scan r (fmt r x) = .some x [] := by
  obtain ⟨h2, h16⟩ := factor_range r
  obtain ⟨hne, hdig, -, hval, -⟩ := C88_fmt_form r x
  generalize fmt r x = p at *
  obtain ⟨nw, nx, nX⟩ := not_dig_w h16
  have hd : p.dropWhile isSpace = p := by
    cases p with
    | nil => rfl
    | cons c t =>
      have hc := hdig c (by simp)
      rw [List.dropWhile_cons, if_neg]
      intro hh
      rw [C06_whitespace] at hh
      obtain ⟨d, hd, -⟩ := hc
      rcases hh with rfl | rfl | rfl | rfl | rfl | rfl <;> revert hd <;> simp [digitVal]
  have hl : WL r.factor p x := ⟨[], p, rfl, Or.inl rfl, hne, hdig, hval.symm⟩
  have uniq : ∀ q n rest, Longest (WL r.factor) p q n rest → rest = [] ∧ n = x := by
    rintro q n rest ⟨h1, h3, h4⟩
    have h5 := h4 p [] x (by simp) hl
    have h6 : p.length = q.length + rest.length := by rw [h1, List.length_append]
    have hn : rest = [] := List.eq_nil_of_length_eq_zero (by omega)
    subst hn
    have hq : q = p := by simpa using h1.symm
    subst hq
    obtain ⟨pre, ds, he, hpre, -, -, hv⟩ := h3
    have hp0 : pre = [] := by
      by_contra hp
      have hmem : 119 ∈ q ∨ 120 ∈ q ∨ 88 ∈ q := by
        rcases hpre with h | h | ⟨-, h | h | h | h⟩
        · exact absurd h hp
        all_goals subst h; rw [he]; simp
      rcases hmem with hm | hm | hm
      · exact nw (hdig _ hm)
      · exact nx (hdig _ hm)
      · exact nX (hdig _ hm)
    subst hp0
    exact ⟨rfl, by rw [hv, ← hval, he]; rfl⟩
  have h := scan_ok r p
  rw [hd] at h
  cases hr : scan r p with
  | none => rw [hr] at h; exact absurd hl (h p [] x (by simp))
  | some v rest =>
    rw [hr] at h
    obtain ⟨q, n, hq, -, rfl⟩ := h
    obtain ⟨rfl, rfl⟩ := uniq q n rest hq
    rfl
  | overflow =>
    rw [hr] at h
    obtain ⟨q, n, rest, hq, hn⟩ := h
    obtain ⟨-, rfl⟩ := uniq q n rest hq
    omega
example : scan .oct (fmt .oct 200) = .some 200 [] := by decide +kernel

/-- Violation of the grammar in Word8.sig for HEX: `0wFF` scans as a whole. -/
theorem C88_violation_hex_0w : scan .hex (chars "0wFF") = .some 255 [] := by decide +kernel

end Mosml.Word8
