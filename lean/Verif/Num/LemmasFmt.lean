import Verif.Num.Lemmas

namespace Mosml.Num
open Mosml.Ints

theorem printfDigits_small {b n : Nat} (h : n < b) : printfDigits b n = [digitChar n] := by
  rw [printfDigits, dif_pos (Or.inl h)]

theorem printfDigits_big {b n : Nat} (hb : 2 ≤ b) (h : b ≤ n) :
    printfDigits b n = printfDigits b (n / b) ++ [digitChar (n % b)] := by
  rw [printfDigits, dif_neg (by omega)]

theorem digitVal_digitChar {d : Nat} (h : d < 16) : digitVal (digitChar d) = some d := by
  have : ∀ d < 16, digitVal (digitChar d) = some d := by decide
  exact this d h

theorem printfDigits_ne (b n : Nat) : printfDigits b n ≠ [] := by
  rw [printfDigits]; split <;> simp

theorem printfDigits_dig {b : Nat} (hb : 2 ≤ b) (hb16 : b ≤ 16) (n : Nat) :
    ∀ c ∈ printfDigits b n, IsDig b c := by
  induction n using Nat.strongRecOn with
  | _ n ih =>
    by_cases h : n < b
    · rw [printfDigits_small h]
      intro c hc
      rw [List.mem_singleton] at hc
      subst hc
      exact ⟨n, digitVal_digitChar (by omega), h⟩
    · rw [printfDigits_big hb (by omega)]
      intro c hc
      rw [List.mem_append, List.mem_singleton] at hc
      rcases hc with hc | rfl
      · exact ih _ (Nat.div_lt_self (by omega) (by omega)) c hc
      · have := Nat.mod_lt n (show b > 0 by omega)
        exact ⟨n % b, digitVal_digitChar (by omega), this⟩

theorem numVal_snoc (b : Nat) (s : Str) (c : Nat) :
    numVal b (s ++ [c]) = b * numVal b s + (digitVal c).getD 0 := by
  simp [numVal]

theorem printfDigits_val {b : Nat} (hb : 2 ≤ b) (hb16 : b ≤ 16) (n : Nat) :
    numVal b (printfDigits b n) = n := by
  induction n using Nat.strongRecOn with
  | _ n ih =>
    by_cases h : n < b
    · rw [printfDigits_small h]
      simp [numVal, digitVal_digitChar (show n < 16 by omega)]
    · have := Nat.mod_lt n (show b > 0 by omega)
      rw [printfDigits_big hb (by omega), numVal_snoc, ih _ (Nat.div_lt_self (by omega) (by omega)),
        digitVal_digitChar (by omega)]
      exact Nat.div_add_mod n b

/-- no leading zeros except in "0" -/
theorem printfDigits_head {b : Nat} (hb : 2 ≤ b) (hb16 : b ≤ 16) (n : Nat) :
    (printfDigits b n).head? = some 48 → n = 0 := by
  induction n using Nat.strongRecOn with
  | _ n ih =>
    by_cases h : n < b
    · rw [printfDigits_small h]
      have hd : ∀ d < 16, digitChar d = 48 → d = 0 := by decide
      intro hh
      exact hd n (by omega) (by simpa using hh)
    · rw [printfDigits_big hb (by omega)]
      intro hh
      have hne := printfDigits_ne b (n / b)
      have : (printfDigits b (n / b)).head? = some 48 := by
        cases he : printfDigits b (n / b) with
        | nil => exact absurd he hne
        | cons x xs => rw [he] at hh; simpa using hh
      have := ih _ (Nat.div_lt_self (by omega) (by omega)) this
      have := Nat.div_pos (show b ≤ n by omega) (by omega)
      omega

/-- characters printed are 0-9 and A-F -/
theorem printfDigits_upper {b : Nat} (hb : 2 ≤ b) (hb16 : b ≤ 16) (n : Nat) :
    ∀ c ∈ printfDigits b n, (48 ≤ c ∧ c ≤ 57) ∨ (65 ≤ c ∧ c ≤ 70) := by
  have hd : ∀ d < 16, (48 ≤ digitChar d ∧ digitChar d ≤ 57) ∨ (65 ≤ digitChar d ∧ digitChar d ≤ 70) := by
    decide
  induction n using Nat.strongRecOn with
  | _ n ih =>
    by_cases h : n < b
    · rw [printfDigits_small h]
      intro c hc
      rw [List.mem_singleton] at hc
      subst hc
      exact hd n (by omega)
    · rw [printfDigits_big hb (by omega)]
      intro c hc
      rw [List.mem_append, List.mem_singleton] at hc
      rcases hc with hc | rfl
      · exact ih _ (Nat.div_lt_self (by omega) (by omega)) c hc
      · have := Nat.mod_lt n (show b > 0 by omega)
        exact hd _ (by omega)

/-! mkSMLMinus -/

theorem mkSMLMinusLoop_digits (s : Str) (h : ∀ c ∈ s, 48 ≤ c ∧ c ≤ 57) : mkSMLMinusLoop false s = s := by
  induction s with
  | nil => rfl
  | cons c s ih =>
    have hc := h c (by simp)
    have ih := ih (fun c hc => h c (by simp [hc]))
    rw [mkSMLMinusLoop, if_neg (by omega), if_neg (by omega), if_neg (by omega), ih]
    by_cases h0 : c = 48
    · subst h0; rfl
    · rw [if_neg h0]

theorem printfDigits10 (n : Nat) : ∀ c ∈ printfDigits 10 n, 48 ≤ c ∧ c ≤ 57 := fun c hc =>
  (isDig10 c).mp (printfDigits_dig (by omega) (by omega) n c hc)

theorem stringOfInt_eq {i : Int} (h : InRange i) : stringOfInt (enc i) =
    if i < 0 then 126 :: printfDigits 10 i.natAbs else printfDigits 10 i.natAbs := by
  rw [stringOfInt, longVal_enc h, mkSMLMinus, printfLd]
  have := mkSMLMinusLoop_digits _ (printfDigits10 i.natAbs)
  by_cases hi : i < 0
  · rw [if_pos hi, if_pos hi, mkSMLMinusLoop, if_neg (by omega), if_pos rfl, this]
  · rw [if_neg hi, if_neg hi, this]

/-! conv -/

theorem prhex_eq {d : Nat} : prhex (d : Int) = digitChar d := by
  unfold prhex digitChar; split_ifs <;> omega

theorem wprhex_eq {d : Nat} : wprhex d = digitChar d := by
  unfold wprhex digitChar; split_ifs <;> omega

theorem convH_eq {b : Nat} (hb : 2 ≤ b) (n : Nat) : ∀ f, n < f → ∀ res, convH b f n res =
    (if n = 0 then [] else printfDigits b n) ++ res := by
  induction n using Nat.strongRecOn with
  | _ n ih =>
    intro f hf res
    obtain ⟨f, rfl⟩ : ∃ g, f = g + 1 := ⟨f - 1, by omega⟩
    rw [convH]
    by_cases h0 : n = 0
    · subst h0; simp
    · have hlt : n / b < n := Nat.div_lt_self (by omega) (by omega)
      have e1 : ((n : Int)).fdiv (b : Int) = ((n / b : Nat) : Int) := by
        rw [Int.fdiv_eq_ediv_of_nonneg _ (by omega)]; rfl
      have e2 : ((n : Int)).fmod (b : Int) = ((n % b : Nat) : Int) := by
        rw [Int.fmod_eq_emod_of_nonneg _ (by omega)]; rfl
      rw [if_neg (by omega), e1, e2, ih _ hlt f (by omega), prhex_eq, if_neg h0]
      by_cases h1 : n < b
      · rw [Nat.div_eq_of_lt h1, Nat.mod_eq_of_lt h1, printfDigits_small h1]; rfl
      · have : n / b ≠ 0 := by
          have := Nat.div_pos (show b ≤ n by omega) (by omega); omega
        rw [if_neg this, printfDigits_big (n := n) hb (by omega), List.append_assoc]; rfl

theorem wconvH_eq {b : Nat} (hb : 2 ≤ b) (n : Nat) : ∀ f, n < f → ∀ res, wconvH b f n res =
    (if n = 0 then [] else printfDigits b n) ++ res := by
  induction n using Nat.strongRecOn with
  | _ n ih =>
    intro f hf res
    obtain ⟨f, rfl⟩ : ∃ g, f = g + 1 := ⟨f - 1, by omega⟩
    rw [wconvH]
    by_cases h0 : n = 0
    · subst h0; simp
    · have hlt : n / b < n := Nat.div_lt_self (by omega) (by omega)
      rw [if_neg h0, ih _ hlt f (by omega), wprhex_eq, if_neg h0]
      by_cases h1 : n < b
      · rw [Nat.div_eq_of_lt h1, Nat.mod_eq_of_lt h1, printfDigits_small h1]; rfl
      · have : n / b ≠ 0 := by
          have := Nat.div_pos (show b ≤ n by omega) (by omega); omega
        rw [if_neg this, printfDigits_big (n := n) hb (by omega), List.append_assoc]; rfl

theorem digits_split {b : Nat} (hb : 2 ≤ b) (n : Nat) :
    (if n / b = 0 then [] else printfDigits b (n / b)) ++ [digitChar (n % b)] = printfDigits b n := by
  by_cases h1 : n < b
  · rw [Nat.div_eq_of_lt h1, Nat.mod_eq_of_lt h1, printfDigits_small h1]; rfl
  · have : n / b ≠ 0 := by
      have := Nat.div_pos (show b ≤ n by omega) (by omega); omega
    rw [if_neg this, printfDigits_big (n := n) hb (by omega)]

theorem conv_eq {b : Nat} (hb : 2 ≤ b) (i : Int) :
    conv b i = if i < 0 then 126 :: printfDigits b i.natAbs else printfDigits b i.natAbs := by
  unfold conv
  dsimp only
  by_cases hi : i < 0
  · obtain ⟨n, rfl⟩ : ∃ n : Nat, i = -(n : Int) := ⟨i.natAbs, by omega⟩
    have hle : n / b ≤ n := Nat.div_le_self n b
    have e1 : (-(n : Int)).fdiv (-(b : Int)) = ((n / b : Nat) : Int) := by
      rw [fdiv_signs _ _ (by omega)]
      simp only [Int.neg_neg]
      rw [if_pos (by omega), if_pos (by omega)]; rfl
    have e2 : -((-(n : Int)).fmod (-(b : Int))) = ((n % b : Nat) : Int) := by
      rw [fmod_signs _ _ (by omega), if_pos (by omega), Int.neg_neg, Int.neg_neg, Int.neg_neg]; rfl
    rw [if_pos hi, if_pos hi, e1, e2, convH_eq hb _ _ (by omega), prhex_eq, digits_split hb]
    congr 2; omega
  · obtain ⟨n, rfl⟩ : ∃ n : Nat, i = (n : Int) := ⟨i.natAbs, by omega⟩
    have hle : n / b ≤ n := Nat.div_le_self n b
    have e1 : ((n : Int)).fdiv (b : Int) = ((n / b : Nat) : Int) := by
      rw [Int.fdiv_eq_ediv_of_nonneg _ (by omega)]; rfl
    have e2 : ((n : Int)).fmod (b : Int) = ((n % b : Nat) : Int) := by
      rw [Int.fmod_eq_emod_of_nonneg _ (by omega)]; rfl
    rw [if_neg hi, if_neg hi, e1, e2, convH_eq hb _ _ (by omega), prhex_eq, digits_split hb]
    congr 2

theorem wordFmt_eq (r : Radix) (w : Nat) : wordFmt r w = printfDigits r.factor w := by
  have hb : 2 ≤ r.factor := by cases r <;> decide
  have hle : w / r.factor ≤ w := Nat.div_le_self _ _
  unfold wordFmt
  rw [wconvH_eq hb _ _ (by omega), wprhex_eq, digits_split hb]

theorem factor_range (r : Radix) : 2 ≤ r.factor ∧ r.factor ≤ 16 := by cases r <;> decide

/-! digits of the SML scanners -/

theorem isDigit_iff (r : Radix) (c : Nat) : r.isDigit c = true ↔ IsDig r.factor c := by
  have e : '0'.toNat = 48 ∧ '9'.toNat = 57 ∧ 'a'.toNat = 97 ∧ 'f'.toNat = 102 ∧ 'A'.toNat = 65 ∧
      'F'.toNat = 70 := by decide
  obtain ⟨e1, e2, e3, e4, e5, e6⟩ := e
  unfold IsDig digitVal
  rw [e1, e2, e3, e4, e5, e6]
  cases r <;> simp only [Radix.isDigit, Radix.factor, Bool.and_eq_true, Bool.or_eq_true, decide_eq_true_eq] <;>
  · constructor
    · intro h
      split_ifs
      all_goals first | exact ⟨_, rfl, by omega⟩ | (exfalso; omega)
    · rintro ⟨d, hd, hlt⟩
      split_ifs at hd
      all_goals (cases hd; omega)

theorem hexval_eq {r : Radix} {c : Nat} (h : r.isDigit c = true) :
    hexval c = (((digitVal c).getD 0 : Nat) : Int) := by
  have e : '0'.toNat = 48 ∧ '9'.toNat = 57 ∧ 'a'.toNat = 97 ∧ 'f'.toNat = 102 ∧ 'A'.toNat = 65 ∧
      'F'.toNat = 70 := by decide
  obtain ⟨e1, e2, e3, e4, e5, e6⟩ := e
  obtain ⟨d, hd, hlt⟩ := (isDigit_iff r c).mp h
  rw [hd]
  unfold digitVal at hd
  rw [e1, e2, e3, e4, e5, e6] at hd
  unfold hexval
  simp only [Bool.and_eq_true, decide_eq_true_eq, Option.getD_some]
  rw [Int.fmod_eq_emod_of_nonneg _ (by omega)]
  split_ifs at hd <;> (try cases hd) <;> split_ifs <;> omega

theorem whexval_eq {r : Radix} {c : Nat} (h : r.isDigit c = true) :
    whexval c = (digitVal c).getD 0 := by
  have e : '0'.toNat = 48 ∧ '9'.toNat = 57 ∧ 'a'.toNat = 97 ∧ 'f'.toNat = 102 ∧ 'A'.toNat = 65 ∧
      'F'.toNat = 70 := by decide
  obtain ⟨e1, e2, e3, e4, e5, e6⟩ := e
  obtain ⟨d, hd, hlt⟩ := (isDigit_iff r c).mp h
  rw [hd]
  unfold digitVal at hd
  rw [e1, e2, e3, e4, e5, e6] at hd
  unfold whexval
  simp only [Bool.and_eq_true, decide_eq_true_eq, Option.getD_some]
  split_ifs at hd <;> (try cases hd) <;> split_ifs <;> omega

theorem digr_eq (r : Radix) (sgn : Int) (hs : sgn = 1 ∨ sgn = -1) (s : Str) : ∀ a : Nat,
    InRange (sgn * a) → digr r sgn (sgn * a) s =
      if InRange (sgn * (foldD r.factor a (s.takeWhile r.isDigit) : Nat)) then
        .some (sgn * (foldD r.factor a (s.takeWhile r.isDigit) : Nat)) (s.dropWhile r.isDigit)
      else .overflow := by
  induction s with
  | nil => intro a ha; simp [digr, foldD, ha]
  | cons c s ih =>
    intro a ha
    rw [digr]
    by_cases hc : r.isDigit c = true
    · obtain ⟨hb2, hb16⟩ := factor_range r
      rw [if_pos hc, imul_small (by omega), hexval_eq hc]
      generalize hd : (digitVal c).getD 0 = d
      have e : foldD r.factor a ((c :: s).takeWhile r.isDigit) =
          foldD r.factor (r.factor * a + d) (s.takeWhile r.isDigit) := by
        rw [List.takeWhile_cons, if_pos hc]
        show foldD _ (r.factor * a + (digitVal c).getD 0) _ = _
        rw [hd]
      have e' : (c :: s).dropWhile r.isDigit = s.dropWhile r.isDigit := by
        rw [List.dropWhile_cons, if_pos hc]
      rw [e, e']
      have hge := foldD_ge r.factor (by omega) (s.takeWhile r.isDigit) (r.factor * a + d)
      have ih' := ih (r.factor * a + d)
      clear ih
      generalize foldD r.factor (r.factor * a + d) (s.takeWhile r.isDigit) = F at hge ih' ⊢
      have em : (r.factor : Int) * (sgn * a) = sgn * ((r.factor * a : Nat) : Int) := by
        rw [Int.mul_left_comm]; rfl
      rw [em]
      generalize r.factor * a = B at *
      by_cases h1 : InRange (sgn * (B : Int))
      · rw [chk_some h1]
        dsimp only
        have e2 : (if sgn = 1 then iadd (sgn * (B : Int)) (d : Int) else isub (sgn * (B : Int)) (d : Int))
            = chk (sgn * ((B + d : Nat) : Int)) := by
          rcases hs with rfl | rfl
          · rw [if_pos rfl, iadd]; congr 1; omega
          · rw [if_neg (by omega), isub]; congr 1; omega
        rw [e2]
        by_cases h2 : InRange (sgn * ((B + d : Nat) : Int))
        · rw [chk_some h2]
          dsimp only
          exact ih' h2
        · rw [chk_none h2, if_neg]
          intro h3
          apply h2
          unfold InRange minInt maxInt at *
          rcases hs with rfl | rfl <;> omega
      · rw [chk_none h1, if_neg]
        intro h3
        apply h1
        unfold InRange minInt maxInt at *
        rcases hs with rfl | rfl <;> omega
    · rw [if_neg hc, List.takeWhile_cons, if_neg hc, List.dropWhile_cons, if_neg hc]
      simp [foldD, ha]


theorem numVal_cons {b c : Nat} (s : Str) : numVal b (c :: s) = foldD b ((digitVal c).getD 0) s := by
  simp [numVal, foldD]

theorem dig1_eq (r : Radix) (sgn : Int) (hs : sgn = 1 ∨ sgn = -1) (s : Str) : dig1 r sgn s =
    if s.takeWhile r.isDigit = [] then .none
    else if InRange (sgn * (numVal r.factor (s.takeWhile r.isDigit) : Nat)) then
      .some (sgn * (numVal r.factor (s.takeWhile r.isDigit) : Nat)) (s.dropWhile r.isDigit)
    else .overflow := by
  cases s with
  | nil => rfl
  | cons c s =>
    rw [dig1]
    by_cases hc : r.isDigit c = true
    · rw [if_pos hc, List.takeWhile_cons, if_pos hc, if_neg (by simp), List.dropWhile_cons, if_pos hc,
        hexval_eq hc, numVal_cons]
      obtain ⟨d, hd, hlt⟩ := (isDigit_iff r c).mp hc
      have := digitVal_lt hd
      rw [hd, Option.getD_some]
      apply digr_eq r sgn hs
      unfold InRange minInt maxInt
      rcases hs with rfl | rfl <;> omega
    · rw [if_neg hc, List.takeWhile_cons, if_neg hc, if_pos rfl]

theorem wdigr_eq (r : Radix) (s : Str) : ∀ a : Nat,
    wdigr r (a % W) s = some (foldD r.factor a (s.takeWhile r.isDigit) % W, s.dropWhile r.isDigit) := by
  induction s with
  | nil => intro a; rfl
  | cons c s ih =>
    intro a
    rw [wdigr, List.takeWhile_cons, List.dropWhile_cons]
    by_cases hc : r.isDigit c = true
    · rw [if_pos hc, if_pos hc, if_pos hc, whexval_eq hc]
      have : (r.factor * (a % W) % W + (digitVal c).getD 0) % W =
          (r.factor * a + (digitVal c).getD 0) % W := by
        rw [Nat.add_mod, Nat.mod_mod, Nat.mul_mod, Nat.mod_mod, ← Nat.mul_mod, ← Nat.add_mod]
      rw [this, ih]
      rfl
    · rw [if_neg hc, if_neg hc, if_neg hc]; rfl

theorem wdig1_eq (r : Radix) (s : Str) : wdig1 r s =
    if s.takeWhile r.isDigit = [] then none
    else some (numVal r.factor (s.takeWhile r.isDigit) % W, s.dropWhile r.isDigit) := by
  cases s with
  | nil => rfl
  | cons c s =>
    rw [wdig1]
    by_cases hc : r.isDigit c = true
    · rw [if_pos hc, List.takeWhile_cons, if_pos hc, if_neg (by simp), List.dropWhile_cons, if_pos hc,
        whexval_eq hc, numVal_cons, ← wdigr_eq]
      obtain ⟨d, hd, hlt⟩ := (isDigit_iff r c).mp hc
      have := digitVal_lt hd
      rw [hd, Option.getD_some, Nat.mod_eq_of_lt (by unfold W; omega)]
    · rw [if_neg hc, List.takeWhile_cons, if_neg hc, if_pos rfl]

end Mosml.Num
