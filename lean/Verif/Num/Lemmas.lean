import Verif.Num.Model
import Verif.Num.Spec
import Verif.Util

namespace Mosml.Num
open Mosml.Ints

/-! ### generic digit folds -/

abbrev foldD (b : Nat) (a : Nat) (s : Str) : Nat := s.foldl (fun a c => b * a + (digitVal c).getD 0) a

theorem foldD_ge (b : Nat) (hb : 1 ≤ b) (s : Str) : ∀ a, a ≤ foldD b a s := by
  induction s with
  | nil => intro a; exact Nat.le_refl _
  | cons c s ih =>
    intro a
    have h1 := ih (b * a + (digitVal c).getD 0)
    have h2 : 1 * a ≤ b * a := Nat.mul_le_mul_right a hb
    show a ≤ foldD b (b * a + (digitVal c).getD 0) s
    omega

theorem isDig10 (c : Nat) : IsDig 10 c ↔ (48 ≤ c ∧ c ≤ 57) := by
  unfold IsDig digitVal
  have e : '0'.toNat = 48 ∧ '9'.toNat = 57 ∧ 'a'.toNat = 97 ∧ 'f'.toNat = 102 ∧ 'A'.toNat = 65 ∧
      'F'.toNat = 70 := by decide
  obtain ⟨e1, e2, e3, e4, e5, e6⟩ := e
  rw [e1, e2, e3, e4, e5, e6]
  constructor
  · rintro ⟨d, hd, hlt⟩
    split at hd
    · assumption
    · split at hd
      · cases hd; omega
      · split at hd
        · cases hd; omega
        · cases hd
  · intro h; rw [if_pos h]; exact ⟨_, rfl, by omega⟩

theorem digitVal_dec {c : Nat} (h : 48 ≤ c ∧ c ≤ 57) : digitVal c = some (c - 48) := by
  unfold digitVal; exact if_pos h

theorem hexDigit_eq (c : Nat) : hexDigit c = digitVal c := by
  unfold hexDigit digitVal toupper
  have e : '0'.toNat = 48 ∧ '9'.toNat = 57 ∧ 'a'.toNat = 97 ∧ 'f'.toNat = 102 ∧ 'A'.toNat = 65 ∧
      'F'.toNat = 70 := by decide
  obtain ⟨e1, e2, e3, e4, e5, e6⟩ := e
  rw [e1, e2, e3, e4, e5, e6]
  dsimp only
  split_ifs <;> first | rfl | (exfalso; omega) | (congr 1; omega)

theorem digitVal_lt {c d : Nat} (h : digitVal c = some d) : d < 16 := by
  unfold digitVal at h
  have e : '0'.toNat = 48 ∧ '9'.toNat = 57 ∧ 'a'.toNat = 97 ∧ 'f'.toNat = 102 ∧ 'A'.toNat = 65 ∧
      'F'.toNat = 70 := by decide
  obtain ⟨e1, e2, e3, e4, e5, e6⟩ := e
  rw [e1, e2, e3, e4, e5, e6] at h
  split at h
  · cases h; omega
  · split at h
    · cases h; omega
    · split at h
      · cases h; omega
      · cases h

theorem isDig16 (c : Nat) : IsDig 16 c ↔ (digitVal c).isSome := by
  unfold IsDig
  constructor
  · rintro ⟨d, hd, _⟩; rw [hd]; rfl
  · intro h
    obtain ⟨d, hd⟩ := Option.isSome_iff_exists.mp h
    exact ⟨d, hd, digitVal_lt hd⟩

theorem digitVal_zero : digitVal 0 = none := by decide

/-! ### scandec / scanhex -/

theorem cstr_cons (c : Nat) (p : Str) : cstr (c :: p) = if c = 0 then [] else c :: cstr p := by
  unfold cstr
  by_cases h : c = 0 <;> simp [h]

theorem step_fail {b max res d : Nat} (hb : 0 < b) (hd : d < b) :
    (res > max / b ∨ (res = max / b ∧ max % b ≤ d)) ↔ max ≤ b * res + d := by
  have h := Nat.div_add_mod max b
  have hm := Nat.mod_lt max hb
  constructor
  · rintro (h1 | ⟨h1, h2⟩)
    · have : b * (max / b + 1) ≤ b * res := Nat.mul_le_mul_left b h1
      rw [Nat.mul_add] at this; omega
    · rw [h1]; omega
  · intro h1
    by_cases h2 : res > max / b
    · exact Or.inl h2
    · by_cases h3 : res = max / b
      · rw [h3] at h1; exact Or.inr ⟨h3, by omega⟩
      · have : b * (res + 1) ≤ b * (max / b) := Nat.mul_le_mul_left b (by omega)
        rw [Nat.mul_add] at this; omega

theorem scandecLoop_eq (max : Nat) (hmax : max ≤ 2 ^ 64) (s : Str) : ∀ res, res < max →
    scandecLoop max res s =
      if (∀ c ∈ cstr s, IsDig 10 c) ∧ foldD 10 res (cstr s) < max then some (foldD 10 res (cstr s))
      else none := by
  induction s with
  | nil => intro res h; simp [scandecLoop, cstr, foldD, h]
  | cons c p ih =>
    intro res hres
    unfold scandecLoop
    rw [cstr_cons]
    by_cases hc : 48 ≤ c ∧ c ≤ 57
    · have hc0 : c ≠ 0 := by omega
      rw [if_pos hc, if_neg hc0]
      dsimp only
      have hf := step_fail (b := 10) (max := max) (res := res) (d := c - 48) (by omega) (by omega)
      have e : foldD 10 res (c :: cstr p) = foldD 10 (10 * res + (c - 48)) (cstr p) := by
        simp [foldD, digitVal_dec hc]
      by_cases h : res > max / 10 ∨ (res = max / 10 ∧ max % 10 ≤ c - 48)
      · rw [if_pos h, if_neg]
        rintro ⟨_, hlt⟩
        have := foldD_ge 10 (by omega) (cstr p) (10 * res + (c - 48))
        have := hf.mp h
        omega
      · have hlt : 10 * res + (c - 48) < max := by
          by_contra hh; exact h (hf.mpr (by omega))
        rw [if_neg h, Nat.mod_eq_of_lt (by omega), ih _ hlt, e]
        simp only [List.mem_cons, forall_eq_or_imp, (isDig10 c).mpr hc, true_and]
    · rw [if_neg hc]
      by_cases h0 : c = 0
      · simp [h0, foldD, hres]
      · rw [if_pos h0, if_neg h0, if_neg]
        rintro ⟨hall, _⟩
        exact hc ((isDig10 c).mp (hall c (by simp)))

theorem scanhexLoop_eq (max : Nat) (hmax : max ≤ 2 ^ 64) (s : Str) : ∀ res, res < max →
    scanhexLoop max res s =
      if (∀ c ∈ cstr s, IsDig 16 c) ∧ foldD 16 res (cstr s) < max then some (foldD 16 res (cstr s))
      else none := by
  induction s with
  | nil => intro res h; simp [scanhexLoop, cstr, foldD, h]
  | cons c p ih =>
    intro res hres
    unfold scanhexLoop
    rw [cstr_cons, hexDigit_eq]
    cases hd : digitVal c with
    | some d =>
      have hc0 : c ≠ 0 := by rintro rfl; rw [digitVal_zero] at hd; cases hd
      rw [if_neg hc0]
      dsimp only
      have hf := step_fail (b := 16) (max := max) (res := res) (d := d) (by omega) (digitVal_lt hd)
      have e : foldD 16 res (c :: cstr p) = foldD 16 (16 * res + d) (cstr p) := by
        simp [foldD, hd]
      by_cases h : res > max / 16 ∨ (res = max / 16 ∧ max % 16 ≤ d)
      · rw [if_pos h, if_neg]
        rintro ⟨_, hlt⟩
        have := foldD_ge 16 (by omega) (cstr p) (16 * res + d)
        have := hf.mp h
        omega
      · have hlt : 16 * res + d < max := by
          by_contra hh; exact h (hf.mpr (by omega))
        have hcd : IsDig 16 c := (isDig16 c).mpr (by rw [hd]; rfl)
        rw [if_neg h, Nat.mod_eq_of_lt (by omega), ih _ hlt, e]
        simp only [List.mem_cons, forall_eq_or_imp, hcd, true_and]
    | none =>
      dsimp only
      by_cases h0 : c = 0
      · simp [h0, foldD, hres]
      · rw [if_pos h0, if_neg h0, if_neg]
        rintro ⟨hall, _⟩
        have := (isDig16 c).mp (hall c (by simp))
        rw [hd] at this; cases this

theorem scandec_eq (s : Str) (max : Nat) (h0 : 0 < max) (h1 : max ≤ 2 ^ 64) : scandec s max =
    if (∀ c ∈ cstr s, IsDig 10 c) ∧ numVal 10 (cstr s) < max then some (numVal 10 (cstr s)) else none :=
  scandecLoop_eq max h1 s 0 h0

theorem scanhex_eq (s : Str) (max : Nat) (h0 : 0 < max) (h1 : max ≤ 2 ^ 64) : scanhex s max =
    if (∀ c ∈ cstr s, IsDig 16 c) ∧ numVal 16 (cstr s) < max then some (numVal 16 (cstr s)) else none :=
  scanhexLoop_eq max h1 s 0 h0

theorem toInt_ofNat64 (u : Nat) (h : u < 2 ^ 64) :
    (BitVec.ofNat 64 u).toInt = if u < 2 ^ 63 then (u : Int) else (u : Int) - 2 ^ 64 := by
  rw [BitVec.toInt_eq_toNat_cond, BitVec.toNat_ofNat, Nat.mod_eq_of_lt h]
  split <;> split <;> omega


theorem signCheck_eq (neg : Bool) (u : Nat) (hu : u < uMinLong) :
    signCheck neg u = (representable (if neg then -(u : Int) else u)).map enc := by
  unfold uMinLong at hu
  unfold signCheck
  dsimp only
  generalize hr : (if neg = true then BitVec.ofNat 64 ((2 ^ 64 - 1) * u) else BitVec.ofNat 64 u) = res
  have h1 : res.toInt = (if neg then -(u : Int) else u).bmod (2 ^ 64) := by
    subst hr
    cases neg
    · simp [BitVec.toInt_ofNat']
    · simp only [if_true]
      have : BitVec.ofNat 64 ((2 ^ 64 - 1) * u) = - BitVec.ofNat 64 u := by
        apply BitVec.eq_of_toNat_eq
        rw [BitVec.toNat_neg, BitVec.toNat_ofNat, BitVec.toNat_ofNat]
        omega
      rw [this, BitVec.toInt_neg, BitVec.toInt_ofNat']
      rw [bmod64, bmod64, bmod64]
      split_ifs <;> omega
  have h2 : (longVal (valLong res) != res) = !decide (InRange res.toInt) := by
    have h3 : longVal (valLong res) = res ↔ InRange res.toInt := by
      rw [← BitVec.toInt_inj, toInt_longVal, toInt_valLong, bmod64]
      have := toInt_range res
      unfold InRange minInt maxInt
      split_ifs <;> omega
    by_cases h : InRange res.toInt
    · simp [h, h3.mpr h]
    · simp [h, h3]
  have h4 : InRange res.toInt ↔ InRange (if neg then -(u : Int) else u) := by
    rw [h1, bmod64]
    unfold InRange minInt maxInt
    cases neg <;> simp only [if_true, if_false, Bool.false_eq_true] <;> split_ifs <;> omega
  rw [h2]
  by_cases h : InRange res.toInt
  · have h5 : res.toInt = (if neg then -(u : Int) else u) := by
      have hh := h4.mp h
      rw [h1]
      unfold InRange minInt maxInt at hh
      exact bmod_self (by omega) (by omega)
    have h6 : representable (if neg = true then -(u : Int) else u) = some res.toInt := by
      rw [representable, if_pos (h4.mp h), h5]
    rw [h6, valLong_eq_enc]
    simp [h]
  · have h6 : representable (if neg = true then -(u : Int) else u) = none := by
      rw [representable, if_neg (fun hh => h (h4.mpr hh))]
    rw [h6]
    simp [h]

theorem big_not_inRange {u : Nat} (neg : Bool) (h : ¬ u < uMinLong) :
    representable (if neg then -(u : Int) else u) = none := by
  rw [representable, if_neg]
  unfold uMinLong at h
  unfold InRange minInt maxInt
  cases neg <;> simp only [if_true, if_false, Bool.false_eq_true] <;> omega

/-- outcome of scanning a signed numeral in base `b` -/
theorem scan_sign (neg : Bool) (b : Nat) (p : Str) (sc : Option Nat)
    (h : sc = if (∀ c ∈ cstr p, IsDig b c) ∧ numVal b (cstr p) < uMinLong
      then some (numVal b (cstr p)) else none) :
    sc.bind (signCheck neg) =
      if ∀ c ∈ cstr p, IsDig b c then
        (representable (if neg then -(numVal b (cstr p) : Int) else numVal b (cstr p))).map enc
      else none := by
  subst h
  by_cases h1 : ∀ c ∈ cstr p, IsDig b c
  · rw [if_pos h1]
    by_cases h2 : numVal b (cstr p) < uMinLong
    · rw [if_pos ⟨h1, h2⟩]
      exact signCheck_eq neg _ h2
    · rw [if_neg (fun hh : _ ∧ _ => h2 hh.2), big_not_inRange neg h2]; rfl
  · rw [if_neg h1, if_neg (fun hh : _ ∧ _ => h1 hh.1)]; rfl

end Mosml.Num
