import Verif.RealText.LemmasVal

namespace Mosml.RealText
open Mosml.Num (IsDig numVal isDig10 foldD printfDigits mkSMLMinus mkSMLMinusLoop)
open Mosml.Floats

theorem rne_half (x : ℚ) : |x - rne x| ≤ 1 / 2 := le_trans (rne_le x (round x)) (abs_sub_round x)

theorem digits_length : ∀ (k n : Nat), n < 10 ^ (k + 1) → (printfDigits 10 n).length ≤ k + 1 := by
  intro k
  induction k with
  | zero => intro n h; rw [Num.printfDigits_small (by simpa using h)]; simp
  | succ k ih =>
    intro n h
    by_cases h10 : n < 10
    · rw [Num.printfDigits_small h10]; simp
    · rw [Num.printfDigits_big (by omega) (by omega), List.length_append, List.length_singleton]
      have := ih (n / 10) (by rw [pow_succ] at h; omega)
      omega

theorem digits_allDig (n : Nat) : AllDig (printfDigits 10 n) := Num.printfDigits_dig (by omega) (by omega) n

theorem numVal_append (s t : Str) : numVal 10 (s ++ t) = numVal 10 s * 10 ^ t.length + numVal 10 t := by
  induction t using List.reverseRecOn with
  | nil => simp [numVal]
  | append_singleton t c ih =>
    rw [← List.append_assoc, Num.numVal_snoc, Num.numVal_snoc, ih, List.length_append, List.length_singleton, pow_succ]
    ring

theorem numVal_zeros (z : Nat) (s : Str) : numVal 10 (List.replicate z 48 ++ s) = numVal 10 s := by
  rw [numVal_append]
  have : numVal 10 (List.replicate z 48) = 0 := by
    induction z with
    | zero => rfl
    | succ z ih => rw [List.replicate_succ, Num.numVal48]; exact ih
  rw [this]; omega

theorem mkSMLMinusLoop_fix (s : Str) (h : ∀ c ∈ s, IsDig 10 c ∨ c = 46) : mkSMLMinusLoop false s = s := by
  induction s with
  | nil => rfl
  | cons c s ih =>
    have hc : (48 ≤ c ∧ c ≤ 57) ∨ c = 46 := by have := h c (by simp); rwa [isDig10] at this
    have ih := ih (fun c hc => h c (by simp [hc]))
    rw [mkSMLMinusLoop, if_neg (by omega), if_neg (by omega), if_neg (by omega), ih]
    by_cases h0 : c = 48
    · subst h0; rfl
    · rw [if_neg h0]

/-- the digits after the point -/
def fracDigits (n N : Nat) : Str :=
  if n = 0 then [] else List.replicate (n - (printfDigits 10 (N % 10 ^ n)).length) 48 ++ printfDigits 10 (N % 10 ^ n)

theorem fracDigits_dig (n N : Nat) : AllDig (fracDigits n N) := by
  unfold fracDigits
  split
  · intro c hc; simp at hc
  · intro c hc
    rw [List.mem_append] at hc
    rcases hc with hc | hc
    · rw [List.eq_of_mem_replicate hc, isDig10]; omega
    · exact digits_allDig _ c hc

theorem fracDigits_length (n N : Nat) : (fracDigits n N).length = n := by
  unfold fracDigits
  split
  · simp [*]
  · next h =>
    have : (printfDigits 10 (N % 10 ^ n)).length ≤ n := by
      obtain ⟨k, rfl⟩ := Nat.exists_eq_succ_of_ne_zero h
      exact digits_length k _ (Nat.mod_lt _ (by positivity))
    rw [List.length_append, List.length_replicate]
    omega

theorem fracDigits_val (n N : Nat) : numVal 10 (fracDigits n N) = N % 10 ^ n := by
  unfold fracDigits
  split
  · next h => subst h; simp [numVal, Nat.mod_one]
  · rw [numVal_zeros, Num.printfDigits_val (by omega) (by omega)]

/-- the nearest number of units in the last place -/
def units (n : Nat) (x : ℚ) : Nat := (rne (|x| * 10 ^ n)).toNat

theorem units_near (n : Nat) (x : ℚ) : |(units n x : ℚ) - |x| * 10 ^ n| ≤ 1 / 2 := by
  have h := rne_half (|x| * 10 ^ n)
  have h0 : 0 ≤ rne (|x| * 10 ^ n) := by
    by_contra hc
    have h1 : rne (|x| * 10 ^ n) ≤ -1 := by omega
    have h2 : (rne (|x| * 10 ^ n) : ℚ) ≤ -1 := by exact_mod_cast h1
    have h3 : 0 ≤ |x| * 10 ^ n := by positivity
    have := le_trans (le_abs_self _) h
    linarith
  have e : ((units n x : Nat) : ℚ) = (rne (|x| * 10 ^ n) : ℚ) := by
    unfold units
    rw [← Int.cast_natCast, Int.toNat_of_nonneg h0]
  rw [e, abs_sub_comm]
  exact h

theorem fixAbs_eq (n : Nat) (x : ℚ) : fixAbs n x =
    printfDigits 10 (units n x / 10 ^ n) ++ (if fracDigits n (units n x) = [] then [] else 46 :: fracDigits n (units n x)) := by
  unfold fixAbs
  dsimp only
  by_cases h : n = 0
  · subst h; simp [fracDigits, units]
  · have hne : fracDigits n (units n x) ≠ [] := by
      intro hh
      have := fracDigits_length n (units n x)
      rw [hh] at this
      exact h this.symm
    rw [if_neg h, if_neg hne]
    unfold fracDigits
    rw [if_neg h]
    rfl

theorem fixAbs_chars (n : Nat) (x : ℚ) : ∀ c ∈ fixAbs n x, IsDig 10 c ∨ c = 46 := by
  intro c hc
  rw [fixAbs_eq, List.mem_append] at hc
  rcases hc with hc | hc
  · exact Or.inl (digits_allDig _ c hc)
  · split at hc
    · simp at hc
    · rw [List.mem_cons] at hc
      rcases hc with rfl | hc
      · exact Or.inr rfl
      · exact Or.inl (fracDigits_dig _ _ c hc)

/-- the numeral that is printed -/
def fixLit (n : Nat) (x : ℚ) : Lit :=
  ⟨if x < 0 then [126] else [], printfDigits 10 (units n x / 10 ^ n), fracDigits n (units n x), none⟩

theorem fixLit_wf (n : Nat) (x : ℚ) : (fixLit n x).WF := by
  refine ⟨?_, digits_allDig _, fracDigits_dig _ _, Or.inl (Num.printfDigits_ne _ _), ?_⟩
  · unfold fixLit IsSign
    by_cases h : x < 0
    · simp only [h, if_true]; right; right; left; rfl
    · simp only [h, if_false]; left; trivial
  · intro e s X h; cases h

theorem mkSML_sprintf (n : Nat) (x : ℚ) : mkSMLMinus (sprintfF n x) = (fixLit n x).str := by
  have h1 := mkSMLMinusLoop_fix _ (fixAbs_chars n x)
  have h2 : (fixLit n x).str = (if x < 0 then [126] else []) ++ fixAbs n x := by
    rw [fixAbs_eq]
    simp [Lit.str, Lit.fracStr, Lit.exStr, fixLit]
    rfl
  rw [h2]
  unfold mkSMLMinus sprintfF
  by_cases h : x < 0
  · rw [if_pos h, if_pos h]
    show 126 :: mkSMLMinusLoop false (fixAbs n x) = _
    rw [h1]; rfl
  · rw [if_neg h, if_neg h, h1]; rfl

theorem fixAbs_length (n k : Nat) (x : ℚ) (hx : |x| < 10 ^ k) : (fixAbs n x).length ≤ k + 1 + 1 + n := by
  have hN : units n x ≤ 10 ^ (k + n) := by
    have h1 := (abs_le.mp (units_near n x)).2
    have h2 : |x| * 10 ^ n < 10 ^ k * 10 ^ n := mul_lt_mul_of_pos_right hx (by positivity)
    have h3 : (units n x : ℚ) < ((10 ^ (k + n) + 1 : Nat) : ℚ) := by
      push_cast
      rw [pow_add]
      linarith
    have := Nat.cast_lt.mp h3
    omega
  have hdiv : units n x / 10 ^ n < 10 ^ (k + 1) := by
    rw [Nat.div_lt_iff_lt_mul (by positivity), ← pow_add]
    have : 10 ^ (k + n) < 10 ^ (k + 1 + n) := Nat.pow_lt_pow_right (by omega) (by omega)
    omega
  have h1 := digits_length k _ hdiv
  have h2 := fracDigits_length n (units n x)
  rw [fixAbs_eq, List.length_append]
  split
  · simp; omega
  · rw [List.length_cons]; omega

/-- what the printed numeral denotes -/
theorem fixLit_mag (n : Nat) (x : ℚ) : (fixLit n x).mag = (units n x : ℚ) / 10 ^ n := by
  unfold Lit.mag fixLit
  dsimp only
  rw [mul_one, fracDigits_val, fracDigits_length, Num.printfDigits_val (by omega) (by omega)]
  have h : units n x = units n x / 10 ^ n * 10 ^ n + units n x % 10 ^ n := (Nat.div_add_mod' _ _).symm
  have hp : (10 : ℚ) ^ n ≠ 0 := by positivity
  rw [eq_div_iff hp, add_mul, div_mul_cancel₀ _ hp]
  conv_rhs => rw [h]
  push_cast
  rfl

end Mosml.RealText
