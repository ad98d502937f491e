import Verif.Word8.Model
import Verif.Ints.Props
import Verif.Num.Props

namespace Mosml.Word8
open Mosml.Ints Mosml.Num

theorem cst_eq {n : Nat} (h : n < 4611686018427387904) : cst n = encW n := by
  apply BitVec.eq_of_toNat_eq
  rw [toNat_encW (by unfold W; omega), cst, BitVec.toNat_ofInt]
  omega

theorem enc_encW {n : Int} : enc n = encW (n % 9223372036854775808).toNat := by
  apply BitVec.eq_of_toNat_eq
  rw [toNat_encW (by unfold W; omega), enc, BitVec.toNat_ofInt]
  omega

theorem norm_eq {w : Nat} (hw : w < W) : norm (encW w) = encW (w % 256) := by
  unfold norm
  rw [show cst 255 = encW 255 by decide, wAnd_eq hw (by decide)]
  congr 1
  exact Nat.and_two_pow_sub_one_eq_mod w 8

theorem lt128 {w : Nat} (hw : w < 256) : ltInt (encW w) (cst 128) = decide (w < 128) := by
  unfold ltInt
  have : (cst 128).toInt = 257 := by decide
  rw [BitVec.slt_eq_decide, toInt_encW (by unfold W; omega), this]
  unfold asInt
  rw [if_pos (by omega)]
  congr 1; apply propext; omega

theorem guard8 {k : Nat} (h : k < W) :
    (geInt (encW k) (cst 8) || ltInt (encW k) (cst 0)) = decide (8 ≤ k) := by
  have h8 : (cst 8).toInt = 17 := by decide
  have h0 : (cst 0).toInt = 1 := by decide
  unfold geInt ltInt
  rw [BitVec.sle_eq_decide, BitVec.slt_eq_decide, toInt_encW h, h8, h0]
  unfold asInt W at *
  by_cases hk : 8 ≤ k
  · simp only [hk, decide_true, Bool.or_eq_true, decide_eq_true_eq]
    split <;> omega
  · simp only [hk, decide_false, Bool.or_eq_false_iff, decide_eq_false_iff_not]
    split <;> omega

theorem or256 {w : Nat} (h1 : 128 ≤ w) (h2 : w < 256) :
    wOr (encW w) (cst (-256)) = encW (W - 256 + w) := by
  have h : ∀ v : Fin 256, 128 ≤ v.val → wOr (encW v) (cst (-256)) = encW (W - 256 + v) := by decide +kernel
  exact h ⟨w, h2⟩ h1

theorem wShl_small {w k : Nat} (hw : w < W) (hk : k < 8) :
    wShl (encW w) (encW k) = .val (encW (w * 2 ^ k % W)) := by
  have h := wordShl_eq hw (k := k) (by unfold W; omega)
  unfold wordShl at h
  rw [guard_eq (by unfold W; omega)] at h
  rwa [decide_eq_false (by omega)] at h

theorem wShr_small {w k : Nat} (hw : w < W) (hk : k < 8) :
    wShr (encW w) (encW k) = .val (encW (w / 2 ^ k)) := by
  have h := wordShr_eq hw (k := k) (by unfold W; omega)
  unfold wordShr at h
  rw [guard_eq (by unfold W; omega)] at h
  rwa [decide_eq_false (by omega)] at h

theorem wSar_small {w k : Nat} (hw : w < W) (hk : k < 8) :
    wSar (encW w) (encW k) = .val (enc (asInt w / 2 ^ k)) := by
  have h := wordSar_eq hw (k := k) (by unfold W; omega)
  unfold wordSar at h
  rw [guard_eq (by unfold W; omega)] at h
  rwa [decide_eq_false (by omega)] at h

/-! ### text -/

def retS : Scan Int → Scan Int
  | .some v rest => ret v rest
  | s => s

theorem digr_ret (r : Radix) (s : Str) : ∀ res, digr r res s = retS (Num.digr r 1 res s) := by
  induction s with
  | nil => intro res; rfl
  | cons c s ih =>
    intro res
    rw [digr, Num.digr]
    by_cases hc : r.isDigit c = true
    · rw [if_pos hc, if_pos hc]
      cases imul r.factor res with
      | none => rfl
      | some p =>
        dsimp only
        rw [if_pos rfl]
        cases iadd p (hexval c) with
        | none => rfl
        | some v => exact ih v
    · rw [if_neg hc, if_neg hc]; rfl

theorem dig1_ret (r : Radix) (s : Str) : dig1 r s = retS (Num.dig1 r 1 s) := by
  cases s with
  | nil => rfl
  | cons c s =>
    rw [dig1, Num.dig1]
    by_cases hc : r.isDigit c = true
    · rw [if_pos hc, if_pos hc, digr_ret, Int.one_mul]
    · rw [if_neg hc, if_neg hc]; rfl

theorem dig1_eq (r : Radix) (s : Str) : dig1 r s =
    if s.takeWhile r.isDigit = [] then .none
    else if numVal r.factor (s.takeWhile r.isDigit) < 256 then
      .some (numVal r.factor (s.takeWhile r.isDigit) : Nat) (s.dropWhile r.isDigit)
    else .overflow := by
  rw [dig1_ret, Num.dig1_eq r 1 (Or.inl rfl)]
  by_cases h1 : s.takeWhile r.isDigit = []
  · rw [if_pos h1, if_pos h1]; rfl
  · rw [if_neg h1, if_neg h1]
    generalize numVal r.factor (s.takeWhile r.isDigit) = n
    rw [Int.one_mul]
    by_cases h2 : InRange (n : Int)
    · rw [if_pos h2]
      show ret _ _ = _
      unfold ret
      by_cases h3 : n < 256
      · rw [if_pos h3, if_pos (by omega)]
      · rw [if_neg h3, if_neg (by omega)]
    · rw [if_neg h2, if_neg]
      · rfl
      · unfold InRange minInt maxInt at h2; omega

/-- what a scan result must be with respect to the numerals `WL` -/
def ScanOk (b : Nat) (s : Str) : Scan Int → Prop
  | .none => ∀ p rest n, s = p ++ rest → ¬ WL b p n
  | .some v rest => ∃ p n, Longest (WL b) s p n rest ∧ n < 256 ∧ v = (n : Int)
  | .overflow => ∃ p n rest, Longest (WL b) s p n rest ∧ 256 ≤ n

theorem ok_of_longest {b : Nat} {s p rest : Str} {n : Nat} (h : Longest (WL b) s p n rest) :
    ScanOk b s (if n < 256 then .some (n : Int) rest else .overflow) := by
  by_cases hn : n < 256
  · rw [if_pos hn]; exact ⟨p, n, h, hn, rfl⟩
  · rw [if_neg hn]; exact ⟨p, n, rest, h, by omega⟩

theorem dig1_ok (r : Radix) (s : Str) (h : NoPre r s) : ScanOk r.factor s (dig1 r s) := by
  rw [dig1_eq]
  by_cases h1 : s.takeWhile r.isDigit = []
  · rw [if_pos h1]; exact wnone r s h1
  · rw [if_neg h1]
    exact ok_of_longest (wlongest r [] s (Or.inl rfl) h1 (fun _ => h))

theorem getdigs_none {r : Radix} {a t : Str} (h : t.takeWhile r.isDigit = []) :
    getdigs r a t = .some 0 a := by
  rw [getdigs, dig1_eq, if_pos h]; rfl

theorem getdigs_some {r : Radix} {a t : Str} (h : t.takeWhile r.isDigit ≠ []) :
    getdigs r a t = if numVal r.factor (t.takeWhile r.isDigit) < 256 then
      .some (numVal r.factor (t.takeWhile r.isDigit) : Nat) (t.dropWhile r.isDigit)
    else .overflow := by
  rw [getdigs, dig1_eq, if_neg h]
  by_cases h2 : numVal r.factor (t.takeWhile r.isDigit) < 256
  · rw [if_pos h2]
  · rw [if_neg h2]

theorem getdigs_pre (r : Radix) (q t : Str) (hq : WPre r.factor (48 :: q)) (hq0 : q ≠ [])
    (hx : 48 :: q = [48, 119] → r = .hex → ∀ x u, t = x :: u → x ≠ 120 ∧ x ≠ 88) :
    ScanOk r.factor (48 :: q ++ t) (getdigs r (q ++ t) t) := by
  by_cases h1 : t.takeWhile r.isDigit = []
  · rw [getdigs_none h1]
    have h := noPre_of_nodig hq (by simp) h1 hx
    have hb := (factor_range r).2
    obtain ⟨nw, nx, nX⟩ := not_dig_w hb
    have e : (q ++ t).takeWhile r.isDigit = [] := by
      have w : ∀ x, ¬ IsDig r.factor x → ∀ u, (x :: u).takeWhile r.isDigit = [] := by
        intro x hx u
        rw [List.takeWhile_cons, if_neg (fun h => hx ((isDigit_iff r x).mp h))]
      rcases hq with hq | hq | ⟨-, hq | hq | hq | hq⟩ <;>
        simp only [List.cons.injEq, true_and, reduceCtorEq] at hq <;> subst hq <;>
        exact w _ (by assumption) _
    have hl := wlongest r [] (48 :: (q ++ t)) (Or.inl rfl) (by rw [takeWhile48]; simp) (fun _ => h)
    rw [takeWhile48, dropWhile48, e, takeWhile_nil_dropWhile e, numVal48] at hl
    exact ⟨_, _, hl, by rw [show numVal r.factor [] = 0 from rfl]; omega, rfl⟩
  · rw [getdigs_some h1]
    exact ok_of_longest (wlongest r (48 :: q) t hq h1 (fun h => by cases h))

theorem getdigs_zero (r : Radix) (t : Str) (h : NoPre r (48 :: t)) :
    ScanOk r.factor (48 :: t) (getdigs r t t) := by
  have hl := wlongest r [] (48 :: t) (Or.inl rfl) (by rw [takeWhile48]; simp) (fun _ => h)
  rw [takeWhile48, dropWhile48, numVal48] at hl
  by_cases h1 : t.takeWhile r.isDigit = []
  · rw [getdigs_none h1]
    rw [h1, takeWhile_nil_dropWhile h1] at hl
    exact ⟨_, _, hl, by rw [show numVal r.factor [] = 0 from rfl]; omega, rfl⟩
  · rw [getdigs_some h1]; exact ok_of_longest hl

theorem scan_ok (r : Radix) (src : Str) : ScanOk r.factor (src.dropWhile isSpace) (scan r src) := by
  unfold scan
  split
  · rename_i after0 hsrc
    rw [hsrc]
    split
    · -- 0w
      rename_i src2
      rw [hexprefix.eq_def]
      have hw : WPre r.factor [48, 119] := Or.inr (Or.inl rfl)
      by_cases hr : r = .hex
      · subst hr
        rw [if_neg (by simp)]
        split
        · exact getdigs_pre .hex [119, 120] _ (Or.inr (Or.inr ⟨rfl, by simp⟩)) (by simp) (by simp)
        · exact getdigs_pre .hex [119, 88] _ (Or.inr (Or.inr ⟨rfl, by simp⟩)) (by simp) (by simp)
        · rename_i y t h1 h2
          refine getdigs_pre .hex [119] (y :: t) hw (by simp) ?_
          intro _ _ x u he
          cases he
          exact ⟨by rintro rfl; exact h1 rfl, by rintro rfl; exact h2 rfl⟩
        · exact getdigs_pre .hex [119] [] hw (by simp) (by simp)
      · rw [if_pos hr]
        exact getdigs_pre r [119] src2 hw (by simp) (fun _ h => absurd h hr)
    · rename_i y t h1
      have hw : y ≠ 119 := by rintro rfl; exact h1 rfl
      rw [hexprefix.eq_def]
      by_cases hr : r = .hex
      · subst hr
        rw [if_neg (by simp)]
        split
        · rename_i rest he
          cases he
          exact getdigs_pre .hex [120] _ (Or.inr (Or.inr ⟨rfl, by simp⟩)) (by simp) (by simp)
        · rename_i rest he
          cases he
          exact getdigs_pre .hex [88] _ (Or.inr (Or.inr ⟨rfl, by simp⟩)) (by simp) (by simp)
        · rename_i y' t' h2 h3 he
          cases he
          apply getdigs_zero
          exact noPre_snd hw (fun _ => ⟨by rintro rfl; exact h2 rfl, by rintro rfl; exact h3 rfl⟩)
        · rename_i he; cases he
      · rw [if_pos hr]
        exact getdigs_zero r _ (noPre_snd hw (fun h => absurd h hr))
    · exact getdigs_zero r [] noPre_short
  · rename_i h
    rw [h]; exact wnone r [] rfl
  · rename_i h1 h2
    exact dig1_ok r _ (noPre_of_head h1)

theorem wordLit_iff (r : Radix) (s : Str)
    (hx : r = .hex → ∀ c t, s = '0'.toNat :: 'w'.toNat :: c :: t → ¬ IsDig 16 c) :
    ∀ p rest n, s = p ++ rest → (WordLit r.factor p n ↔ WL r.factor p n) := by
  obtain ⟨-, -, -, e4, e5, e6, e7⟩ := tilde_toNat
  rw [e4, e7] at hx
  intro p rest n hs
  unfold WordLit WL WPre
  rw [e4, e5, e6, e7]
  constructor
  · rintro ⟨pre, ds, rfl, hp, h⟩
    refine ⟨pre, ds, rfl, ?_, h⟩
    tauto
  · rintro ⟨pre, ds, rfl, hp, h⟩
    refine ⟨pre, ds, rfl, ?_, h⟩
    rcases hp with hp | hp | hp
    · exact Or.inl hp
    · refine Or.inr (Or.inl ⟨?_, hp⟩)
      intro hb
      have hr := factor16.mp hb
      subst hp
      obtain ⟨hne, hdig, -⟩ := h
      cases ds with
      | nil => exact hne rfl
      | cons c t => exact hx hr c (t ++ rest) hs (by have := hdig c (by simp); rwa [hb] at this)
    · exact Or.inr (Or.inr hp)

theorem longest_iff {r : Radix} {s p rest : Str} {n : Nat}
    (hi : ∀ p rest n, s = p ++ rest → (WordLit r.factor p n ↔ WL r.factor p n))
    (h : Longest (WL r.factor) s p n rest) : Longest (WordLit r.factor) s p n rest :=
  ⟨h.1, (hi p rest n h.1).mpr h.2.1, fun p' rest' v' hs hl => h.2.2 p' rest' v' hs ((hi p' rest' v' hs).mp hl)⟩

theorem fmt_intFmt (r : Radix) (n : Nat) : fmt r n = intFmt r n := by
  unfold fmt intFmt conv
  dsimp only
  rw [if_neg (by omega)]

theorem fmt_eq (r : Radix) (n : Nat) : fmt r n = printfDigits r.factor n := by
  have h := conv_eq (factor_range r).1 (n : Int)
  unfold conv at h
  dsimp only at h
  rw [if_neg (by omega), if_neg (by omega)] at h
  exact h

end Mosml.Word8
