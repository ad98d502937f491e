import Verif.Marshal.ModelCp
import Verif.Marshal.LemmasExpand

/-! The compact format: numbers and single items. -/
namespace Mosml.Marshal

theorem valLong_longVal {v : Nat} (hv : v < 2 ^ 64) (ho : v % 2 = 1) : valLong (longVal v) = v := by
  unfold valLong longVal
  split_ifs <;> omega

theorem longVal_range {v : Nat} (hv : v < 2 ^ 64) : -(2 ^ 63) ≤ longVal v ∧ longVal v < 2 ^ 63 := by
  unfold longVal
  split_ifs <;> constructor <;> omega

theorem foldl_be : ∀ (bs : Bytes) (r : Int),
    bs.foldl (fun (r : Int) (b : Nat) => r * 256 + b) r = r * 256 ^ bs.length + (ofLe bs.reverse : Nat)
  | [], r => by simp [ofLe]
  | b :: bs, r => by
    rw [List.foldl_cons, foldl_be bs, List.reverse_cons, ofLe_append, List.length_reverse, List.length_cons, pow_succ]
    simp only [ofLe]
    push_cast
    ring

/-- `input_bytes` reads back an unsigned number -/
theorem input_unsigned (n x : Nat) (tl : Bytes) (hn : 0 < n) (hx : x < 256 ^ n) :
    inputBytes n false ((leBytes n x).reverse ++ tl) = some ((x : Int), tl) := by
  have hl : (leBytes n x).reverse.length = n := by simp [length_leBytes]
  unfold inputBytes
  rw [if_neg (by rw [List.length_append, hl]; omega), List.take_left' hl, List.drop_left' hl]
  have hox := ofLe_leBytes n x
  rw [Nat.mod_eq_of_lt hx] at hox
  cases hr : (leBytes n x).reverse with
  | nil => rw [hr] at hl; simp at hl; omega
  | cons b bs =>
    simp only [List.cons_append, List.headD_cons, Bool.false_eq_true, false_and, if_false, List.drop_succ_cons,
      List.drop_zero, foldl_be, Option.some.injEq, Prod.mk.injEq, and_true]
    have h1 : leBytes n x = bs.reverse ++ [b] := by
      have := congrArg List.reverse hr
      simpa using this
    rw [h1, ofLe_append, List.length_reverse] at hox
    simp only [ofLe] at hox
    rw [← hox]
    push_cast
    ring

theorem toNat_emod {x : Int} (k : Nat) (hk : k ≤ 8) :
    (((x % 2 ^ 64).toNat % 256 ^ k : Nat) : Int) = x % 256 ^ k := by
  rw [Int.natCast_mod, Int.toNat_of_nonneg (Int.emod_nonneg _ (by norm_num))]
  push_cast
  apply Int.emod_emod_of_dvd
  rw [show (18446744073709551616:Int) = 256 ^ 8 by norm_num]
  exact pow_dvd_pow _ hk

/-- `input_bytes` reads back a signed number -/
theorem input_signed (n : Nat) (x : Int) (tl : Bytes) (hn : 0 < n) (hn' : n ≤ 8)
    (hlo : -(128 * 256 ^ (n - 1)) ≤ x) (hhi : x < 128 * 256 ^ (n - 1)) :
    inputBytes n true ((leBytes n (x % 2 ^ 64).toNat).reverse ++ tl) = some (x, tl) := by
  obtain ⟨u, hu⟩ : ∃ u, u = (x % 2 ^ 64).toNat := ⟨_, rfl⟩
  have hux := toNat_emod (x := x) n hn'
  rw [← hu] at hux ⊢
  have hl : (leBytes n u).reverse.length = n := by simp [length_leBytes]
  unfold inputBytes
  rw [if_neg (by rw [List.length_append, hl]; omega), List.take_left' hl, List.drop_left' hl]
  have hox := ofLe_leBytes n u
  cases hr : (leBytes n u).reverse with
  | nil => rw [hr] at hl; simp at hl; omega
  | cons b bs =>
    have hbl : bs.length = n - 1 := by rw [hr] at hl; simp at hl; omega
    have hb256 : b < 256 := leBytes_lt n u b (by rw [← List.mem_reverse, hr]; exact List.mem_cons_self)
    have hbs : ofLe bs.reverse < 256 ^ (n - 1) := by
      have := ofLe_lt bs.reverse (by
        intro c hc
        exact leBytes_lt n u c (by rw [← List.mem_reverse, hr]; exact List.mem_cons_of_mem _ (List.mem_reverse.1 hc)))
      rwa [List.length_reverse, hbl] at this
    simp only [List.cons_append, List.headD_cons, true_and, List.drop_succ_cons,
      List.drop_zero, foldl_be, Option.some.injEq, Prod.mk.injEq, and_true]
    have h1 : leBytes n u = bs.reverse ++ [b] := by
      have := congrArg List.reverse hr
      simpa using this
    rw [h1, ofLe_append, List.length_reverse] at hox
    simp only [ofLe] at hox
    rw [hbl] at hox ⊢
    rw [← hox] at hux
    have hp : (256:Int) ^ n = 256 * 256 ^ (n - 1) := by
      obtain ⟨k, rfl⟩ : ∃ k, n = k + 1 := ⟨n - 1, by omega⟩
      rw [Nat.add_sub_cancel, pow_succ']
    rw [hp] at hux
    push_cast at hux
    obtain ⟨P, hP⟩ : ∃ P : Int, P = 256 ^ (n - 1) := ⟨_, rfl⟩
    have hbs' : ((ofLe bs.reverse : Nat) : Int) < P := by rw [hP]; exact_mod_cast hbs
    rw [← hP] at hlo hhi hux ⊢
    have hmod : x % (256 * P) = if 0 ≤ x then x else x + 256 * P := by
      split_ifs with h
      · exact Int.emod_eq_of_lt h (by omega)
      · rw [← Int.add_mul_emod_self_left x (256 * P) 1]
        rw [mul_one]
        exact Int.emod_eq_of_lt (by omega) (by omega)
    rw [hmod] at hux
    have hP0 : 0 < P := by rw [hP]; positivity
    have hbi : (b : Int) < 256 := by exact_mod_cast hb256
    obtain ⟨y, hy⟩ : ∃ y : Int, y = ((ofLe bs.reverse : Nat) : Int) := ⟨_, rfl⟩
    have hy0 : 0 ≤ y := by rw [hy]; exact Int.natCast_nonneg _
    rw [← hy] at hux hbs' ⊢
    rw [add_zero] at hux
    by_cases hb : b ≥ 128
    · have hb' : (128:Int) ≤ b := by exact_mod_cast hb
      have : 128 * P ≤ P * b := by nlinarith
      simp only [hb, if_true]
      split_ifs at hux with hx
      · exfalso; linarith
      · linarith
    · have hb' : (b:Int) ≤ 127 := by have : b ≤ 127 := by omega
                                     exact_mod_cast this
      have : P * b ≤ 127 * P := by nlinarith
      simp only [hb, if_false]
      split_ifs at hux with hx
      · linarith
      · exfalso; linarith

end Mosml.Marshal
