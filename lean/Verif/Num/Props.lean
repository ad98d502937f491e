import Verif.Num.LemmasWord

/-! C05-C07: text conversion of ints and words. -/
namespace Mosml.Num
open Mosml.Ints

theorem takeWhile_self {P : Nat → Bool} {s : Str} (h : ∀ c ∈ s, P c = true) : s.takeWhile P = s := by
  induction s with
  | nil => rfl
  | cons c s ih =>
    rw [List.takeWhile_cons, if_pos (h c (by simp)), ih (fun c hc => h c (by simp [hc]))]

/-! ## C05 -/

/-- C05: the decimal string-to-int primitive, on every string.  It reads an optional `~` and then the
characters up to the first NUL; it returns their value if they are all digits and the value is
representable, and otherwise raises Failure. -/
theorem C05_int_of_string (s : Str) :
    intOfString s =
      let neg := s.head? = some '~'.toNat
      let ds := cstr (if neg then s.tail else s)
      if ∀ c ∈ ds, IsDig 10 c then
        (representable (if neg then -(numVal 10 ds : Int) else numVal 10 ds)).map enc
      else none := by
  dsimp only
  rw [show '~'.toNat = 126 from rfl]
  have hp : 0 < uMinLong ∧ uMinLong ≤ 2 ^ 64 := by decide
  unfold intOfString
  split
  · rename_i p
    have := scan_sign true 10 p _ (scandec_eq p uMinLong hp.1 hp.2)
    simpa using this
  · rename_i h
    have hh : s.head? ≠ some 126 := by
      intro he
      cases s with
      | nil => cases he
      | cons c t =>
        have : c = 126 := by simpa using he
        subst this
        exact h t rfl
    have := scan_sign false 10 s _ (scandec_eq s uMinLong hp.1 hp.2)
    simp only [hh, if_false]
    simpa using this

/-- C05: a decimal literal `[~]d+`: exact value if representable, Failure otherwise. -/
theorem C05_decimal_literal (neg : Bool) (ds : Str) (hne : ds ≠ []) (hd : ∀ c ∈ ds, IsDig 10 c) :
    intOfString ((if neg then ['~'.toNat] else []) ++ ds) =
      (representable (if neg then -(numVal 10 ds : Int) else numVal 10 ds)).map enc := by
  have hc : cstr ds = ds := by
    unfold cstr
    apply takeWhile_self
    intro c hc
    have := (isDig10 c).mp (hd c hc)
    simp; omega
  rw [C05_int_of_string]
  cases neg
  · have hh : ds.head? ≠ some '~'.toNat := by
      cases ds with
      | nil => exact absurd rfl hne
      | cons c t =>
        have := (isDig10 c).mp (hd c (by simp))
        intro he
        have : c = 126 := by simpa using he
        omega
    simp only [Bool.false_eq_true, if_false, List.nil_append, hh, hc]
    rw [if_pos hd]
  · simp only [if_true, List.singleton_append, List.head?_cons, List.tail_cons, hc]
    rw [if_pos hd]

/-- C05: a hexadecimal literal `[~]0xh+`. -/
theorem C05_hex_literal (neg : Bool) (x : Nat) (ds : Str) (hd : ∀ c ∈ ds, IsDig 16 c) :
    intOfHex ((if neg then ['~'.toNat] else []) ++ '0'.toNat :: x :: ds) =
      (representable (if neg then -(numVal 16 ds : Int) else numVal 16 ds)).map enc := by
  have hp : 0 < uMinLong ∧ uMinLong ≤ 2 ^ 64 := by decide
  have hc : cstr ds = ds := by
    unfold cstr
    apply takeWhile_self
    intro c hc
    have := hd c hc
    simp only [decide_not, Bool.not_eq_true', decide_eq_false_iff_not]
    rintro rfl
    revert this; decide
  have key : ∀ neg, (scanhex ds uMinLong).bind (signCheck neg) =
      (representable (if neg then -(numVal 16 ds : Int) else numVal 16 ds)).map enc := by
    intro neg
    have := scan_sign neg 16 ds _ (scanhex_eq ds uMinLong hp.1 hp.2)
    rw [hc, if_pos hd] at this
    exact this
  cases neg
  · exact key false
  · exact key true

/-- C05: the printed form of every int is read back as that int by the decimal primitive. -/
theorem C05_string_of_int_roundtrip {i : Int} (h : InRange i) :
    intOfString (stringOfInt (enc i)) = some (enc i) := by
  have hv := printfDigits_val (b := 10) (by omega) (by omega) i.natAbs
  have hd := printfDigits_dig (b := 10) (by omega) (by omega) i.natAbs
  have hn := printfDigits_ne 10 i.natAbs
  rw [stringOfInt_eq h]
  by_cases hi : i < 0
  · have := C05_decimal_literal true _ hn hd
    rw [if_pos hi]
    refine this.trans ?_
    rw [hv, if_pos rfl, representable, if_pos (by rw [show -(i.natAbs : Int) = i by omega]; exact h)]
    rw [show -(i.natAbs : Int) = i by omega]; rfl
  · have := C05_decimal_literal false _ hn hd
    rw [if_neg hi]
    refine this.trans ?_
    rw [hv, if_neg (by simp), representable, if_pos (by rw [show (i.natAbs : Int) = i by omega]; exact h)]
    rw [show (i.natAbs : Int) = i by omega]; rfl

/-- C05: the printed form is `~`? followed by decimal digits without superfluous zeros, of value |i|. -/
theorem C05_string_of_int_form {i : Int} (h : InRange i) : ∃ ds, ds ≠ [] ∧ (∀ c ∈ ds, IsDig 10 c) ∧
    numVal 10 ds = i.natAbs ∧ (ds.head? = some '0'.toNat → i = 0) ∧
    stringOfInt (enc i) = (if i < 0 then ['~'.toNat] else []) ++ ds := by
  refine ⟨printfDigits 10 i.natAbs, printfDigits_ne _ _, printfDigits_dig (by omega) (by omega) _,
    printfDigits_val (by omega) (by omega) _, ?_, ?_⟩
  · intro hh
    have := printfDigits_head (b := 10) (by omega) (by omega) _ hh
    omega
  · rw [stringOfInt_eq h]; split <;> rfl

example : intOfString (chars "~4611686018427387904") = some (enc minInt) := by decide +kernel
example : intOfString (chars "4611686018427387904") = none := by decide +kernel
example : intOfString (chars "12a") = none := by decide +kernel
example : intOfHex (chars "~0x4000000000000000") = some (enc minInt) := by decide +kernel
example : chars "123" ≠ [] ∧ ∀ c ∈ chars "123", IsDig 10 c := by decide
example : stringOfInt (enc (-120)) = chars "~120" := by decide +kernel

/-! ## C06 -/

/-- C06: what `Int.scan` returns, for every radix and source.  After white space it takes the longest
prefix that is a numeral (`IntLit`); no numeral gives NONE; a numeral whose value is representable gives
that value and the remaining source; otherwise Overflow is raised. -/
theorem C06_int_scan (r : Radix) (src : Str) :
    match intScan r src with
    | .none => ∀ p rest v, src.dropWhile isSpace = p ++ rest → ¬ IntLit r.factor p v
    | .some v rest => ∃ p, Longest (IntLit r.factor) (src.dropWhile isSpace) p v rest ∧ InRange v
    | .overflow => ∃ p v rest, Longest (IntLit r.factor) (src.dropWhile isSpace) p v rest ∧ ¬ InRange v := by
  have := intScan_ok r src
  cases h : intScan r src <;> rw [h] at this <;> exact this

/-- The skipped white space is exactly the characters 9-13 and 32 (Basis Library `Char.isSpace`). -/
theorem C06_whitespace (c : Nat) : isSpace c = true ↔ c = 32 ∨ c = 9 ∨ c = 10 ∨ c = 11 ∨ c = 12 ∨ c = 13 := by
  unfold isSpace
  simp only [Bool.or_eq_true, Bool.and_eq_true, beq_iff_eq, decide_eq_true_eq]
  omega

/-- the numeral grammar is unambiguous, so the three outcomes of `C06_int_scan` exclude each other -/
theorem IntLit_unique {b : Nat} (hb : b ≤ 16) {p : Str} {v v' : Int} (h : IntLit b p v) (h' : IntLit b p v') :
    v = v' := by
  obtain ⟨sg, q, n, rfl, hsg, ⟨pre, ds, rfl, hpre, hds, hdig, rfl⟩, rfl⟩ := (intLit_iff b p v).mp h
  obtain ⟨sg', q', n', he, hsg', hu', rfl⟩ := (intLit_iff b _ v').mp h'
  have hu : UL b (pre ++ ds) (numVal b ds) := ⟨pre, ds, rfl, hpre, hds, hdig, rfl⟩
  obtain ⟨c, t, hq, hc⟩ := UL_head hb hu
  obtain ⟨c', t', hq', hc'⟩ := UL_head hb hu'
  have n1 := not_sign hc
  have n2 := not_sign hc'
  have hs : sg = sg' := by
    rw [hq, hq'] at he
    rcases hsg with rfl | rfl | rfl | rfl <;> rcases hsg' with rfl | rfl | rfl | rfl <;> simp at he <;>
      first | rfl | (exfalso; have := he.1; omega)
  subst hs
  rw [List.append_cancel_left_eq] at he
  obtain ⟨pre', ds', rfl, hpre', hds', hdig', rfl⟩ := hu'
  obtain ⟨d, ds1, rfl⟩ : ∃ d ds1, ds = d :: ds1 := by
    cases ds with
    | nil => exact absurd rfl hds
    | cons d ds1 => exact ⟨d, ds1, rfl⟩
  obtain ⟨d', ds1', rfl⟩ : ∃ d ds1, ds' = d :: ds1 := by
    cases ds' with
    | nil => exact absurd rfl hds'
    | cons d ds1 => exact ⟨d, ds1, rfl⟩
  obtain ⟨-, nx, nX⟩ := not_dig_w hb
  have hpp : pre = pre' := by
    rcases hpre with rfl | ⟨-, rfl | rfl⟩ <;> rcases hpre' with rfl | ⟨-, rfl | rfl⟩
    all_goals first
      | rfl
      | (exfalso
         simp only [List.cons_append, List.nil_append, List.cons.injEq] at he
         first
         | (have := he.2.1; omega)
         | (obtain ⟨-, h2⟩ := he
            subst h2
            first
            | exact nx (hdig _ (.tail _ (.head _)))
            | exact nX (hdig _ (.tail _ (.head _)))
            | exact nx (hdig' _ (.tail _ (.head _)))
            | exact nX (hdig' _ (.tail _ (.head _)))))
  subst hpp
  rw [List.append_cancel_left_eq] at he
  rw [he]

/-- a string that is entirely a numeral scans to its value -/
theorem C06_scan_numeral (r : Radix) (p : Str) (v : Int) (hl : IntLit r.factor p v) (hv : InRange v)
    (hsp : ∀ c ∈ p.head?, isSpace c = false) : intScan r p = .some v [] := by
  have hb := (factor_range r).2
  have hd : p.dropWhile isSpace = p := by
    cases p with
    | nil => rfl
    | cons c t => rw [List.dropWhile_cons, if_neg (by simp [hsp c (by simp)])]
  have h := C06_int_scan r p
  rw [hd] at h
  have whole : ∀ q v' rest, Longest (IntLit r.factor) p q v' rest → q = p ∧ rest = [] := by
    rintro q v' rest ⟨h1, -, h3⟩
    have h4 := h3 p [] v (by simp) hl
    have h5 : p.length = q.length + rest.length := by rw [h1, List.length_append]
    have : rest = [] := List.eq_nil_of_length_eq_zero (by omega)
    subst this
    exact ⟨by simpa using h1.symm, rfl⟩
  cases hr : intScan r p with
  | none => rw [hr] at h; exact absurd hl (h p [] v (by simp))
  | some v' rest =>
    rw [hr] at h
    obtain ⟨q, hq, -⟩ := h
    obtain ⟨rfl, rfl⟩ := whole _ _ _ hq
    rw [IntLit_unique hb hq.2.1 hl]
  | overflow =>
    rw [hr] at h
    obtain ⟨q, v', rest, hq, hn⟩ := h
    obtain ⟨rfl, rfl⟩ := whole _ _ _ hq
    rw [IntLit_unique hb hq.2.1 hl] at hn
    exact absurd hv hn

/-- C06: `Int.fmt r i` is an optional `~` followed by upper-case digits, without superfluous zeros, that
denote |i| in the radix. -/
theorem C06_fmt_form (r : Radix) (i : Int) : ∃ ds, ds ≠ [] ∧ (∀ c ∈ ds, IsDig r.factor c) ∧
    (∀ c ∈ ds, c ≤ 'F'.toNat) ∧
    numVal r.factor ds = i.natAbs ∧ (ds.head? = some '0'.toNat → i = 0) ∧
    intFmt r i = (if i < 0 then ['~'.toNat] else []) ++ ds := by
  obtain ⟨h2, h16⟩ := factor_range r
  refine ⟨printfDigits r.factor i.natAbs, printfDigits_ne _ _, printfDigits_dig h2 h16 _, ?_,
    printfDigits_val h2 h16 _, ?_, ?_⟩
  · intro c hc
    have := printfDigits_upper h2 h16 _ c hc
    rw [show 'F'.toNat = 70 from rfl]
    omega
  · intro hh
    have := printfDigits_head h2 h16 _ hh
    omega
  · rw [intFmt, conv_eq h2]; split <;> rfl

/-- C06: round trip for every radix and every int. -/
theorem C06_fmt_scan_roundtrip (r : Radix) {i : Int} (h : InRange i) :
    intScan r (intFmt r i) = .some i [] := by
  obtain ⟨h2, h16⟩ := factor_range r
  obtain ⟨ds, hne, hdig, -, hv, -, he⟩ := C06_fmt_form r i
  apply C06_scan_numeral r _ i _ h
  · rw [he]
    intro c hc
    have hd : ∀ c, IsDig r.factor c → isSpace c = false := by
      intro c hc
      by_contra hh
      have hh : isSpace c = true := by simpa using hh
      rw [C06_whitespace] at hh
      obtain ⟨d, hd, -⟩ := hc
      rcases hh with rfl | rfl | rfl | rfl | rfl | rfl <;> revert hd <;> simp [digitVal]
    split at hc
    · have : c = 126 := by simpa [eq_comm] using hc
      subst this; rfl
    · cases ds with
      | nil => exact absurd rfl hne
      | cons d ds =>
        have : c = d := by simpa [eq_comm] using hc
        subst this
        exact hd c (hdig c (by simp))
  · rw [he]
    refine ⟨_, [], ds, rfl, ?_, Or.inl rfl, hne, hdig, ?_⟩
    · split <;> simp
    · rw [hv]
      by_cases hi : i < 0
      · rw [if_pos hi, if_pos (Or.inl rfl)]; omega
      · rw [if_neg hi, if_neg (by simp)]; omega

/-- C06: `Int.toString` is `Int.fmt DEC` ("It should hold that", Int.mlp:98). -/
theorem C06_toString_eq_fmt {i : Int} (h : InRange i) : stringOfInt (enc i) = intFmt .dec i := by
  rw [stringOfInt_eq h, intFmt, conv_eq (factor_range .dec).1]; rfl

example : intScan .hex (chars "  ~0x1fG") = .some (-31) (chars "G") := by decide +kernel
example : intScan .hex (chars "0xg") = .some 0 (chars "xg") := by decide +kernel
example : intScan .dec (chars "4611686018427387904") = .overflow := by decide +kernel
example : intScan .dec (chars "~4611686018427387904x") = .some minInt (chars "x") := by decide +kernel
example : IntLit 16 (chars "-0XfF") (-255) :=
  ⟨chars "-", chars "0X", chars "fF", rfl, by decide, by decide, by decide, by decide, by decide⟩
example : intFmt .bin (-5) = chars "~101" := by decide +kernel

/-! ## C07 -/

/-- C07: word literals `0w d+`: exact when below 2^63, otherwise Failure. -/
theorem C07_word_of_dec (x y : Nat) (ds : Str) (hd : ∀ c ∈ ds, IsDig 10 c) :
    wordOfDec (x :: y :: ds) = if numVal 10 ds < 2 ^ 63 then some (encW (numVal 10 ds)) else none := by
  have hc : cstr ds = ds := by
    unfold cstr
    apply takeWhile_self
    intro c hc
    have := (isDig10 c).mp (hd c hc)
    simp; omega
  have hw : wordMax = 2 ^ 63 := by decide
  unfold wordOfDec
  show Option.map _ (scandec ds wordMax) = _
  rw [scandec_eq ds _ (by rw [hw]; omega) (by rw [hw]; omega), hc, hw]
  by_cases h : numVal 10 ds < 2 ^ 63
  · rw [if_pos ⟨hd, h⟩, if_pos h]
    simp only [Option.map_some]
    congr 1
    apply BitVec.eq_of_toNat_eq
    unfold valLong encW
    simp [BitVec.toNat_add, BitVec.toNat_shiftLeft, Nat.shiftLeft_eq]
    omega
  · rw [if_neg (fun hh : _ ∧ _ => h hh.2), if_neg h]; rfl

/-- C07: word literals `0wx h+`. -/
theorem C07_word_of_hex (x y z : Nat) (ds : Str) (hd : ∀ c ∈ ds, IsDig 16 c) :
    wordOfHex (x :: y :: z :: ds) = if numVal 16 ds < 2 ^ 63 then some (encW (numVal 16 ds)) else none := by
  have hc : cstr ds = ds := by
    unfold cstr
    apply takeWhile_self
    intro c hc
    have := hd c hc
    simp only [decide_not, Bool.not_eq_true', decide_eq_false_iff_not]
    rintro rfl
    revert this; decide
  have hw : wordMax = 2 ^ 63 := by decide
  unfold wordOfHex
  show Option.map _ (scanhex ds wordMax) = _
  rw [scanhex_eq ds _ (by rw [hw]; omega) (by rw [hw]; omega), hc, hw]
  by_cases h : numVal 16 ds < 2 ^ 63
  · rw [if_pos ⟨hd, h⟩, if_pos h]
    simp only [Option.map_some]
    congr 1
    apply BitVec.eq_of_toNat_eq
    unfold valLong encW
    simp [BitVec.toNat_add, BitVec.toNat_shiftLeft, Nat.shiftLeft_eq]
    omega
  · rw [if_neg (fun hh : _ ∧ _ => h hh.2), if_neg h]; rfl

/-- C07: a printed word (`0wx...`) is read back as the same word. -/
theorem C07_hexstring_roundtrip {w : Nat} (hw : w < W) : wordOfHex (hexstringOfWord (encW w)) = some (encW w) := by
  have e : (encW w >>> 1).toNat = w := by
    unfold encW W at *
    simp [BitVec.toNat_ushiftRight, Nat.shiftRight_eq_div_pow]
    omega
  unfold hexstringOfWord
  rw [e]
  refine (C07_word_of_hex _ _ _ _ (printfDigits_dig (by omega) (by omega) w)).trans ?_
  rw [printfDigits_val (by omega) (by omega), if_pos (by unfold W at hw; omega)]

/-- C07: what `Word.scan` returns for every radix and source, with the grammar of Word.sig.  Missing:
(1) Word.sig requires Overflow when the value is not below 2^63, the code reduces it modulo 2^63;
(2) in base 16 the code also accepts `0w` followed by hexadecimal digits (hypothesis `hx`). -/
theorem C07_word_scan_partial (r : Radix) (src : Str)
    (hx : r = .hex → ∀ c t, src.dropWhile isSpace = '0'.toNat :: 'w'.toNat :: c :: t → ¬ IsDig 16 c) :
    match wordScan r src with
    | none => ∀ p rest v, src.dropWhile isSpace = p ++ rest → ¬ WordLit r.factor p v
    | some (v, rest) => ∃ p n, Longest (WordLit r.factor) (src.dropWhile isSpace) p n rest ∧ v = n % W := by
  obtain ⟨-, -, -, e4, e5, e6, e7⟩ := tilde_toNat
  rw [e4, e7] at hx
  have hiff : ∀ p rest n, src.dropWhile isSpace = p ++ rest → (WordLit r.factor p n ↔ WL r.factor p n) := by
    intro p rest n hs
    unfold WordLit WL WPre
    rw [e4, e5, e6, e7]
    constructor
    · rintro ⟨pre, ds, rfl, hp, h⟩
      refine ⟨pre, ds, rfl, ?_, h⟩
      tauto
    · rintro ⟨pre, ds, rfl, hp, h⟩
      refine ⟨pre, ds, rfl, ?_, h⟩
      rcases hp with hp | hp | hp
      · exact Or.inl hp
      · refine Or.inr (Or.inl ⟨?_, hp⟩)
        intro hb
        have hr := factor16.mp hb
        subst hp
        obtain ⟨hne, hdig, -⟩ := h
        cases ds with
        | nil => exact hne rfl
        | cons c t => exact hx hr c (t ++ rest) hs (by have := hdig c (by simp); rwa [hb] at this)
      · exact Or.inr (Or.inr hp)
  have h := wordScan_ok r src
  cases hres : wordScan r src with
  | none =>
    rw [hres] at h
    intro p rest v hs hl
    exact h p rest v hs ((hiff p rest v hs).mp hl)
  | some vr =>
    obtain ⟨v, rest⟩ := vr
    rw [hres] at h
    obtain ⟨p, n, ⟨h1, h2, h3⟩, rfl⟩ := h
    exact ⟨p, n, ⟨h1, (hiff p rest n h1).mpr h2,
      fun p' rest' v' hs hl => h3 p' rest' v' hs ((hiff p' rest' v' hs).mp hl)⟩, rfl⟩

/-- C07: round trip for every radix and every word. -/
theorem C07_fmt_scan_roundtrip (r : Radix) {w : Nat} (hw : w < W) : wordScan r (wordFmt r w) = some (w, []) := by
  obtain ⟨h2, h16⟩ := factor_range r
  rw [wordFmt_eq]
  have hdig := printfDigits_dig h2 h16 w
  have hne := printfDigits_ne r.factor w
  have hval := printfDigits_val h2 h16 w
  generalize printfDigits r.factor w = p at *
  have hd : p.dropWhile isSpace = p := by
    cases p with
    | nil => rfl
    | cons c t =>
      have hc := hdig c (by simp)
      rw [List.dropWhile_cons, if_neg]
      intro hh
      rw [C06_whitespace] at hh
      obtain ⟨d, hd, -⟩ := hc
      rcases hh with rfl | rfl | rfl | rfl | rfl | rfl <;> revert hd <;> simp [digitVal]
  have hl : WordLit r.factor p w := ⟨[], p, rfl, Or.inl rfl, hne, hdig, hval.symm⟩
  obtain ⟨nw, nx, nX⟩ := not_dig_w h16
  have h := C07_word_scan_partial r p (by
    intro hr c t he
    rw [hd] at he
    exfalso
    exact nw (hdig 119 (by rw [he]; simp)))
  rw [hd] at h
  cases hr : wordScan r p with
  | none => rw [hr] at h; exact absurd hl (h p [] w (by simp))
  | some vr =>
    obtain ⟨v, rest⟩ := vr
    rw [hr] at h
    obtain ⟨q, n, ⟨h1, h3, h4⟩, rfl⟩ := h
    have h5 := h4 p [] w (by simp) hl
    have h6 : p.length = q.length + rest.length := by rw [h1, List.length_append]
    have hn : rest = [] := List.eq_nil_of_length_eq_zero (by omega)
    subst hn
    have hq : q = p := by simpa using h1.symm
    subst hq
    obtain ⟨pre, ds, he, hpre, -, -, hv⟩ := h3
    have hp0 : pre = [] := by
      by_contra hp
      have hmem : 119 ∈ q ∨ 120 ∈ q ∨ 88 ∈ q := by
        obtain ⟨-, -, -, e4, e5, e6, e7⟩ := tilde_toNat
        rw [e4, e5, e6, e7] at hpre
        rcases hpre with h | ⟨-, h⟩ | ⟨-, h | h | h | h⟩
        · exact absurd h hp
        all_goals subst h; rw [he]; simp
      rcases hmem with hm | hm | hm
      · exact nw (hdig _ hm)
      · exact nx (hdig _ hm)
      · exact nX (hdig _ hm)
    subst hp0
    have : n = w := by rw [hv, ← hval, he]; rfl
    rw [this, Nat.mod_eq_of_lt hw]

/-- C07: `Word.fmt` prints digits without superfluous zeros. -/
theorem C07_fmt_form (r : Radix) (w : Nat) : wordFmt r w ≠ [] ∧ (∀ c ∈ wordFmt r w, IsDig r.factor c) ∧
    numVal r.factor (wordFmt r w) = w ∧ ((wordFmt r w).head? = some '0'.toNat → w = 0) := by
  obtain ⟨h2, h16⟩ := factor_range r
  rw [wordFmt_eq]
  exact ⟨printfDigits_ne _ _, printfDigits_dig h2 h16 _, printfDigits_val h2 h16 _, printfDigits_head h2 h16 _⟩

/-- Violation of Word.sig ("Raises Overflow if the scanned number cannot be represented"):
2^63 scans to 0w0. -/
theorem C07_violation_no_overflow : wordScan .hex (chars "8000000000000000") = some (0, []) := by decide +kernel

/-- Violation of the grammar in Word.sig for HEX: `0wFF` scans as a whole. -/
theorem C07_violation_hex_0w : wordScan .hex (chars "0wFF") = some (255, []) := by decide +kernel

example : wordScan .hex (chars " 0wx1Fz") = some (31, chars "z") := by decide +kernel
example : wordScan .dec (chars "0w9223372036854775807") = some (W - 1, []) := by decide +kernel
example : wordOfDec (chars "0w9223372036854775808") = none := by decide +kernel
example : WordLit 16 (chars "0wxA0") 160 := ⟨chars "0wx", chars "A0", rfl, by decide, by decide, by decide, by decide⟩

end Mosml.Num
