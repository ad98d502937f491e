import Verif.Dates.Lemmas
import Verif.Num.Props

namespace Mosml.Dates

open Mosml.Num

theorem digr_append (sgn : Int) (p : Str) (c : Nat) (rest : Str) (hc : Radix.isDigit .dec c = false) :
    ∀ a v, (∀ x ∈ p, Radix.isDigit .dec x = true) → digr .dec sgn a p = .some v [] →
      digr .dec sgn a (p ++ c :: rest) = .some v (c :: rest) := by
  induction p with
  | nil => intro a v _ h; simp only [digr] at h; cases h; simp [digr, hc]
  | cons x p ih =>
    intro a v hd h
    have hx := hd x (by simp)
    simp only [digr, hx, if_true, List.cons_append] at h ⊢
    split at h
    · cases h
    · rename_i q hq
      split at h
      · cases h
      · rename_i w hw
        exact ih w v (fun y hy => hd y (by simp [hy])) h

theorem dec_not_space {x : Nat} (h : Radix.isDigit .dec x = true) : isSpace x = false ∧ x ≠ 126 ∧ x ≠ 45 ∧ x ≠ 43 := by
  simp only [Radix.isDigit, Bool.and_eq_true, decide_eq_true_eq] at h
  refine ⟨?_, by omega, by omega, by omega⟩
  simp only [isSpace, Bool.or_eq_false_iff, beq_eq_false_iff_ne, Bool.and_eq_false_iff, decide_eq_false_iff_not]
  omega

theorem intScan_dec {x : Nat} (s : Str) (h : Radix.isDigit .dec x = true) :
    intScan .dec (x :: s) = if x = 48 then getdigs .dec 1 s s else digr .dec 1 (1 * hexval x) s := by
  obtain ⟨h1, h2, h3, h4⟩ := dec_not_space h
  unfold intScan
  rw [List.dropWhile_cons, if_neg (by simp [h1])]
  have e : hexopt .dec 1 (x :: s) = if x = 48 then getdigs .dec 1 s s else digr .dec 1 (1 * hexval x) s := by
    by_cases hx : x = 48
    · subst hx; simp [hexopt]
    · rw [if_neg hx]
      unfold hexopt
      split
      · rename_i heq; cases heq
      · rename_i heq; cases heq; exact absurd rfl hx
      · simp [dig1, h]
  split
  · rename_i heq; cases heq
  · rename_i heq; cases heq; exact absurd rfl h2
  · rename_i heq; cases heq; exact absurd rfl h3
  · rename_i heq; cases heq; exact absurd rfl h4
  · exact e

/-- a numeral is read up to the character after it -/
theorem intScan_append {p : Str} {v : Int} {c : Nat} {rest : Str} (hne : p ≠ [])
    (hd : ∀ x ∈ p, Radix.isDigit .dec x = true) (hc : Radix.isDigit .dec c = false) (h : intScan .dec p = .some v []) :
    intScan .dec (p ++ c :: rest) = .some v (c :: rest) := by
  cases p with
  | nil => exact absurd rfl hne
  | cons x p =>
    have hx := hd x (by simp)
    rw [List.cons_append, intScan_dec _ hx]
    rw [intScan_dec _ hx] at h
    by_cases h0 : x = 48
    · rw [if_pos h0] at h ⊢
      unfold getdigs at h ⊢
      cases p with
      | nil => simp [dig1] at h ⊢; simp [hc, h]
      | cons y p =>
        have hy := hd y (by simp)
        simp only [dig1, hy, if_true, List.cons_append] at h ⊢
        have : digr .dec 1 (1 * hexval y) p = .some v [] := by
          cases hg : digr .dec 1 (1 * hexval y) p with
          | none => rw [hg] at h; simp at h
          | some a b => rw [hg] at h; exact h
          | overflow => rw [hg] at h; simp at h
        rw [digr_append 1 p c rest hc _ v (fun z hz => hd z (by simp [hz])) this]
    · rw [if_neg h0] at h ⊢
      exact digr_append 1 p c rest hc _ v (fun z hz => hd z (by simp [hz])) h

theorem intScan_space (s : Str) : intScan .dec (32 :: s) = intScan .dec s := by
  unfold intScan
  rw [List.dropWhile_cons, if_pos (by decide)]

theorem d2_spec : ∀ n : Fin 100, d2 ((n : Nat) : Int) = [48 + (n : Nat) / 10, 48 + (n : Nat) % 10] ∧
    intScan .dec (d2 ((n : Nat) : Int)) = .some ((n : Nat) : Int) [] ∧
    (∀ x ∈ d2 ((n : Nat) : Int), Radix.isDigit .dec x = true) := by decide +kernel

theorem w3_spec : ∀ n : Fin 100, (w3 ((n : Nat) : Int)).length = 3 ∧
    ((w3 ((n : Nat) : Int) = 32 :: 32 :: intFmt .dec ((n : Nat) : Int)) ∨ (w3 ((n : Nat) : Int) = 32 :: intFmt .dec ((n : Nat) : Int))) ∧
    intScan .dec (intFmt .dec ((n : Nat) : Int)) = .some ((n : Nat) : Int) [] ∧
    intFmt .dec ((n : Nat) : Int) ≠ [] ∧
    (∀ x ∈ intFmt .dec ((n : Nat) : Int), Radix.isDigit .dec x = true) := by decide +kernel

theorem fin100 {n : Int} (h0 : 0 ≤ n) (h1 : n < 100) : ∃ k : Fin 100, ((k : Nat) : Int) = n :=
  ⟨⟨n.toNat, by omega⟩, by simp; omega⟩

theorem d2_length {n : Int} (h0 : 0 ≤ n) (h1 : n < 100) : (d2 n).length = 2 := by
  obtain ⟨k, rfl⟩ := fin100 h0 h1
  rw [(d2_spec k).1]; rfl

theorem d2_head {n : Int} (h0 : 0 ≤ n) (h1 : n < 100) : ∃ a b, d2 n = [a, b] ∧ a ≠ 58 := by
  obtain ⟨k, rfl⟩ := fin100 h0 h1
  exact ⟨_, _, (d2_spec k).1, by omega⟩

theorem getint_d2 {n : Int} (h0 : 0 ≤ n) (h1 : n < 100) {c : Nat} (rest : Str) (hc : Radix.isDigit .dec c = false) :
    getint (d2 n ++ c :: rest) = .ok (some (n, c :: rest)) := by
  obtain ⟨k, rfl⟩ := fin100 h0 h1
  unfold getint
  rw [intScan_append (by rw [(d2_spec k).1]; simp) (d2_spec k).2.2 hc (d2_spec k).2.1]

theorem getint_space (s : Str) : getint (32 :: s) = getint s := by unfold getint; rw [intScan_space]

theorem getint_w3 {n : Int} (h0 : 0 ≤ n) (h1 : n < 100) {c : Nat} (rest : Str) (hc : Radix.isDigit .dec c = false) :
    getint (w3 n ++ c :: rest) = .ok (some (n, c :: rest)) := by
  obtain ⟨k, rfl⟩ := fin100 h0 h1
  obtain ⟨-, h, h2, h3, h4⟩ := w3_spec k
  have : getint (intFmt .dec ((k : Nat) : Int) ++ c :: rest) = .ok (some (((k : Nat) : Int), c :: rest)) := by
    unfold getint
    rw [intScan_append h3 h4 hc h2]
  rcases h with h | h <;> rw [h] <;> simp only [List.cons_append, getint_space] <;> exact this

theorem w3_length {n : Int} (h0 : 0 ≤ n) (h1 : n < 100) : (w3 n).length = 3 := by
  obtain ⟨k, rfl⟩ := fin100 h0 h1
  exact (w3_spec k).1

theorem w3_head {n : Int} (h0 : 0 ≤ n) (h1 : n < 100) : ∃ s, w3 n = 32 :: s := by
  obtain ⟨k, rfl⟩ := fin100 h0 h1
  rcases (w3_spec k).2.1 with h | h <;> exact ⟨_, h⟩

theorem year_length {y : Int} (h0 : 1000 ≤ y) (h1 : y ≤ 9999) : (intFmt .dec y).length = 4 := by
  unfold intFmt
  rw [show ((Radix.factor .dec : Nat) : Int) = ((10 : Nat) : Int) from rfl, conv_eq (by decide)]
  rw [if_neg (by omega)]
  obtain ⟨n, rfl⟩ : ∃ n : Nat, y = n := ⟨y.toNat, by omega⟩
  rw [Int.natAbs_natCast]
  rw [printfDigits_big (by decide) (by omega), printfDigits_big (by decide) (by omega),
    printfDigits_big (by decide) (by omega), printfDigits_small (by omega)]
  rfl

theorem getint_year {y : Int} (h : -2 ^ 62 ≤ y ∧ y < 2 ^ 62) : getint (intFmt .dec y) = .ok (some (y, [])) := by
  unfold getint
  rw [C06_fmt_scan_roundtrip .dec (by unfold Mosml.Ints.InRange Mosml.Ints.minInt Mosml.Ints.maxInt; omega)]

theorem wday_take (w : Weekday) (s : Str) : (str (wdayName w) ++ 32 :: s).takeWhile isAlpha = str (wdayName w) ∧
    (str (wdayName w) ++ 32 :: s).dropWhile isAlpha = 32 :: s ∧ getWday (str (wdayName w)) = some w ∧
    (str (wdayName w)).length = 3 := by
  cases w <;> exact ⟨rfl, rfl, rfl, rfl⟩

theorem month_take (m : Month) (s : Str) : ((32 :: (str (monName m) ++ 32 :: s)).dropWhile isSpace).takeWhile isAlpha = str (monName m) ∧
    ((32 :: (str (monName m) ++ 32 :: s)).dropWhile isSpace).dropWhile isAlpha = 32 :: s ∧ getMonth (str (monName m)) = some m ∧
    (str (monName m)).length = 3 := by
  cases m <;> exact ⟨rfl, rfl, rfl, rfl⟩

theorem drop_colon {n : Int} (h0 : 0 ≤ n) (h1 : n < 100) (s : Str) : (58 :: (d2 n ++ s)).dropWhile (· == 58) = d2 n ++ s := by
  obtain ⟨a, b, h, ha⟩ := d2_head h0 h1
  rw [h]
  simp [ha]

end Mosml.Dates
