import Verif.Num.LemmasScan

namespace Mosml.Num
open Mosml.Ints

/-- the prefixes that `Word.scan` recognises -/
def WPre (b : Nat) (pre : Str) : Prop :=
  pre = [] ∨ pre = [48, 119] ∨
    b = 16 ∧ (pre = [48, 120] ∨ pre = [48, 88] ∨ pre = [48, 119, 120] ∨ pre = [48, 119, 88])

def WL (b : Nat) (p : Str) (n : Nat) : Prop :=
  ∃ pre ds, p = pre ++ ds ∧ WPre b pre ∧ ds ≠ [] ∧ (∀ c ∈ ds, IsDig b c) ∧ n = numVal b ds

theorem not_dig_w {b : Nat} (_hb : b ≤ 16) : ¬ IsDig b 119 ∧ ¬ IsDig b 120 ∧ ¬ IsDig b 88 := by
  refine ⟨?_, ?_, ?_⟩ <;> rintro ⟨d, hd, -⟩ <;> revert hd <;> simp [digitVal]

theorem wlongest (r : Radix) (pre t : Str) (hpre : WPre r.factor pre)
    (hne : t.takeWhile r.isDigit ≠ [])
    (h0 : pre = [] → ∀ pre' c u, WPre r.factor pre' → pre' ≠ [] → t = pre' ++ c :: u → ¬ IsDig r.factor c) :
    Longest (WL r.factor) (pre ++ t) (pre ++ t.takeWhile r.isDigit)
      (numVal r.factor (t.takeWhile r.isDigit)) (t.dropWhile r.isDigit) := by
  have hb := (factor_range r).2
  obtain ⟨nw, nx, nX⟩ := not_dig_w hb
  refine ⟨by rw [List.append_assoc, List.takeWhile_append_dropWhile],
    ⟨pre, _, rfl, hpre, hne, takeWhile_dig r t, rfl⟩, ?_⟩
  rintro p' rest' v' hs ⟨pre', ds, rfl, hpre', hds, hdig, -⟩
  rw [List.append_assoc] at hs
  by_cases hp0 : pre = []
  · subst hp0
    by_cases hp1 : pre' = []
    · subst hp1
      exact takeWhile_max hs (fun c hc => (isDigit_iff r c).mpr (hdig c hc))
    · exfalso
      cases ds with
      | nil => exact hds rfl
      | cons c u => exact h0 rfl pre' c (u ++ rest') hpre' hp1 hs (hdig c (by simp))
  · -- head of t is a digit
    obtain ⟨d, t', ht⟩ : ∃ d t', t = d :: t' := by
      cases t with
      | nil => simp at hne
      | cons d t' => exact ⟨d, t', rfl⟩
    have hdd : IsDig r.factor d := by
      rw [ht, List.takeWhile_cons] at hne
      by_cases h : r.isDigit d = true
      · exact (isDigit_iff r d).mp h
      · rw [if_neg h] at hne; exact absurd rfl hne
    obtain ⟨e, ds', rfl⟩ : ∃ e ds', ds = e :: ds' := by
      cases ds with
      | nil => exact absurd rfl hds
      | cons e ds' => exact ⟨e, ds', rfl⟩
    have hde := hdig e (by simp)
    by_cases hp1 : pre' = []
    · subst hp1
      -- digits of a string 0w.. or 0x..: only the zero
      have hmax := takeWhile_max (P := r.isDigit) (ds := e :: ds') (rest := rest') hs (fun c hc => (isDigit_iff r c).mpr (hdig c hc))
      have e1 : ((pre ++ t).takeWhile r.isDigit) = [48] := by
        have w : ∀ x, ¬ IsDig r.factor x → ∀ u, (48 :: x :: u).takeWhile r.isDigit = [48] := by
          intro x hx u
          rw [takeWhile48, List.takeWhile_cons, if_neg (fun h => hx ((isDigit_iff r x).mp h))]
        rcases hpre with rfl | rfl | ⟨-, rfl | rfl | rfl | rfl⟩
        · exact absurd rfl hp0
        all_goals exact w _ (by assumption) _
      rw [e1] at hmax
      have : 0 < pre.length := List.length_pos_iff.mpr hp0
      simp only [List.length_append, List.length_cons, List.length_nil] at hmax ⊢
      omega
    · have hpp : pre = pre' := by
        rcases hpre with rfl | rfl | ⟨-, rfl | rfl | rfl | rfl⟩ <;>
        rcases hpre' with rfl | rfl | ⟨-, rfl | rfl | rfl | rfl⟩ <;>
        first
        | rfl
        | exact absurd rfl hp0
        | exact absurd rfl hp1
        | (exfalso
           rw [ht] at hs
           simp only [List.cons_append, List.nil_append, List.cons.injEq, true_and] at hs
           first
           | (have := hs.1; omega)
           | (obtain ⟨h1, -⟩ := hs; subst h1; contradiction))
      subst hpp
      rw [List.append_cancel_left_eq] at hs
      have := takeWhile_max (P := r.isDigit) hs (fun c hc => (isDigit_iff r c).mpr (hdig c hc))
      simp only [List.length_append]
      omega

theorem wnone (r : Radix) (s : Str) (h : s.takeWhile r.isDigit = []) :
    ∀ p rest n, s = p ++ rest → ¬ WL r.factor p n := by
  rintro p rest n hs ⟨pre, ds, rfl, hpre, hds, hdig, -⟩
  have key : ∀ c t, s = c :: t → IsDig r.factor c → False := by
    rintro c t rfl hc
    rw [List.takeWhile_cons, if_pos ((isDigit_iff r c).mpr hc)] at h
    cases h
  have k48 : IsDig r.factor 48 := (isDigit_iff r 48).mp (isDigit48 r)
  rcases hpre with rfl | rfl | ⟨-, rfl | rfl | rfl | rfl⟩
  · cases ds with
    | nil => exact hds rfl
    | cons c t => exact key c (t ++ rest) hs (hdig c (by simp))
  all_goals exact key 48 _ hs k48

def WScanOk (b : Nat) (s : Str) : Option (Nat × Str) → Prop
  | none => ∀ p rest n, s = p ++ rest → ¬ WL b p n
  | some (v, rest) => ∃ p n, Longest (WL b) s p n rest ∧ v = n % W

/-- no recognised prefix followed by a digit -/
def NoPre (r : Radix) (s : Str) : Prop :=
  ∀ pre' c u, WPre r.factor pre' → pre' ≠ [] → s = pre' ++ c :: u → ¬ IsDig r.factor c

theorem wdig1_ok (r : Radix) (s : Str) (h : NoPre r s) : WScanOk r.factor s (wdig1 r s) := by
  rw [wdig1_eq]
  by_cases h1 : s.takeWhile r.isDigit = []
  · rw [if_pos h1]; exact wnone r s h1
  · rw [if_neg h1]
    exact ⟨_, _, wlongest r [] s (Or.inl rfl) h1 (fun _ => h), rfl⟩

/-- prefix `0` + `q` (all of it a recognised prefix) then perhaps digits -/
theorem wgetdigs_pre (r : Radix) (q t : Str) (hq : WPre r.factor (48 :: q)) (hq0 : q ≠ [])
    (h : NoPre r (48 :: q ++ t) ∨ t.takeWhile r.isDigit ≠ []) :
    WScanOk r.factor (48 :: q ++ t) (wgetdigs r (q ++ t) t) := by
  rw [wgetdigs, wdig1_eq]
  by_cases h1 : t.takeWhile r.isDigit = []
  · rw [if_pos h1]
    have h := h.resolve_right (fun hh => hh h1)
    have hb := (factor_range r).2
    obtain ⟨nw, nx, nX⟩ := not_dig_w hb
    have e : (q ++ t).takeWhile r.isDigit = [] := by
      have w : ∀ x, ¬ IsDig r.factor x → ∀ u, (x :: u).takeWhile r.isDigit = [] := by
        intro x hx u
        rw [List.takeWhile_cons, if_neg (fun h => hx ((isDigit_iff r x).mp h))]
      rcases hq with hq | hq | ⟨-, hq | hq | hq | hq⟩ <;>
        simp only [List.cons.injEq, true_and, reduceCtorEq] at hq <;> subst hq <;>
        exact w _ (by assumption) _
    have hl := wlongest r [] (48 :: (q ++ t)) (Or.inl rfl) (by rw [takeWhile48]; simp) (fun _ => h)
    rw [takeWhile48, dropWhile48, e, takeWhile_nil_dropWhile e] at hl
    exact ⟨_, _, hl, by rw [numVal48]; rfl⟩
  · rw [if_neg h1]
    exact ⟨_, _, wlongest r (48 :: q) t hq h1 (fun h => by cases h), rfl⟩

/-- a leading zero without recognised prefix -/
theorem wgetdigs_zero (r : Radix) (t : Str) (h : NoPre r (48 :: t)) :
    WScanOk r.factor (48 :: t) (wgetdigs r t t) := by
  have hl := wlongest r [] (48 :: t) (Or.inl rfl) (by rw [takeWhile48]; simp) (fun _ => h)
  rw [takeWhile48, dropWhile48, numVal48] at hl
  rw [wgetdigs, wdig1_eq]
  by_cases h1 : t.takeWhile r.isDigit = []
  · rw [if_pos h1]
    rw [h1, takeWhile_nil_dropWhile h1] at hl
    exact ⟨_, _, hl, rfl⟩
  · rw [if_neg h1]; exact ⟨_, _, hl, rfl⟩

theorem noPre_of_head {r : Radix} {s : Str} (h : ∀ t, s ≠ 48 :: t) : NoPre r s := by
  rintro pre' c u hp h0 hs -
  rcases hp with rfl | rfl | ⟨-, rfl | rfl | rfl | rfl⟩
  · exact h0 rfl
  all_goals exact h _ hs

theorem noPre_short {r : Radix} : NoPre r [48] := by
  rintro pre' c u hp h0 hs -
  rcases hp with rfl | rfl | ⟨-, rfl | rfl | rfl | rfl⟩ <;> simp_all

theorem noPre_snd {r : Radix} {y : Nat} {t : Str} (h1 : y ≠ 119) (h2 : r = .hex → y ≠ 120 ∧ y ≠ 88) :
    NoPre r (48 :: y :: t) := by
  rintro pre' c u hp h0 hs -
  rcases hp with rfl | rfl | ⟨hb, rfl | rfl | rfl | rfl⟩
  · exact h0 rfl
  · exact h1 (List.cons.inj (List.cons.inj hs).2).1
  · exact (h2 (factor16.mp hb)).1 (List.cons.inj (List.cons.inj hs).2).1
  · exact (h2 (factor16.mp hb)).2 (List.cons.inj (List.cons.inj hs).2).1
  · exact h1 (List.cons.inj (List.cons.inj hs).2).1
  · exact h1 (List.cons.inj (List.cons.inj hs).2).1

theorem noPre_of_nodig {r : Radix} {q t : Str} (hq : WPre r.factor q) (hq0 : q ≠ [])
    (h : t.takeWhile r.isDigit = [])
    (hx : q = [48, 119] → r = .hex → ∀ x u, t = x :: u → x ≠ 120 ∧ x ≠ 88) : NoPre r (q ++ t) := by
  have hb := (factor_range r).2
  obtain ⟨nw, nx, nX⟩ := not_dig_w hb
  rintro pre' c u hp h0 hs hc
  have key : ∀ v, t = c :: v → False := by
    rintro v rfl
    rw [List.takeWhile_cons, if_pos ((isDigit_iff r c).mpr hc)] at h
    cases h
  by_cases he : q = pre'
  · subst he
    rw [List.append_cancel_left_eq] at hs
    exact key _ hs
  · rcases hq with rfl | rfl | ⟨hb16, rfl | rfl | rfl | rfl⟩ <;>
    rcases hp with rfl | rfl | ⟨hb16', rfl | rfl | rfl | rfl⟩ <;>
    first
    | exact absurd rfl hq0
    | exact absurd rfl h0
    | exact absurd rfl he
    | (simp only [List.cons_append, List.nil_append, List.cons.injEq, true_and] at hs
       first
       | (have := hs.1; omega)
       | (obtain ⟨h1, -⟩ := hs; subst h1; contradiction)
       | exact (hx rfl (factor16.mp hb16') _ _ hs).1 rfl
       | exact (hx rfl (factor16.mp hb16') _ _ hs).2 rfl)

theorem wgetdigs_pre' (r : Radix) (q t : Str) (hq : WPre r.factor (48 :: q)) (hq0 : q ≠ [])
    (hx : 48 :: q = [48, 119] → r = .hex → ∀ x u, t = x :: u → x ≠ 120 ∧ x ≠ 88) :
    WScanOk r.factor (48 :: q ++ t) (wgetdigs r (q ++ t) t) := by
  apply wgetdigs_pre r q t hq hq0
  by_cases h : t.takeWhile r.isDigit = []
  · exact Or.inl (noPre_of_nodig hq (by simp) h hx)
  · exact Or.inr h

theorem wordScan_ok (r : Radix) (src : Str) : WScanOk r.factor (src.dropWhile isSpace) (wordScan r src) := by
  unfold wordScan
  split
  · rename_i after0 hsrc
    rw [hsrc]
    split
    · -- 0w
      rename_i src2
      rw [whexprefix.eq_def]
      have hw : WPre r.factor [48, 119] := Or.inr (Or.inl rfl)
      by_cases hr : r = .hex
      · subst hr
        rw [if_neg (by simp)]
        split
        · exact wgetdigs_pre' .hex [119, 120] _ (Or.inr (Or.inr ⟨rfl, by simp⟩)) (by simp) (by simp)
        · exact wgetdigs_pre' .hex [119, 88] _ (Or.inr (Or.inr ⟨rfl, by simp⟩)) (by simp) (by simp)
        · rename_i y t h1 h2
          refine wgetdigs_pre' .hex [119] (y :: t) hw (by simp) ?_
          intro _ _ x u he
          cases he
          exact ⟨by rintro rfl; exact h1 rfl, by rintro rfl; exact h2 rfl⟩
        · exact wgetdigs_pre' .hex [119] [] hw (by simp) (by simp)
      · rw [if_pos hr]
        exact wgetdigs_pre' r [119] src2 hw (by simp) (fun _ h => absurd h hr)
    · rename_i y t h1
      have hw : y ≠ 119 := by rintro rfl; exact h1 rfl
      rw [whexprefix.eq_def]
      by_cases hr : r = .hex
      · subst hr
        rw [if_neg (by simp)]
        split
        · rename_i rest he
          cases he
          exact wgetdigs_pre' .hex [120] _ (Or.inr (Or.inr ⟨rfl, by simp⟩)) (by simp) (by simp)
        · rename_i rest he
          cases he
          exact wgetdigs_pre' .hex [88] _ (Or.inr (Or.inr ⟨rfl, by simp⟩)) (by simp) (by simp)
        · rename_i y' t' h2 h3 he
          cases he
          apply wgetdigs_zero
          exact noPre_snd hw (fun _ => ⟨by rintro rfl; exact h2 rfl, by rintro rfl; exact h3 rfl⟩)
        · rename_i he; cases he
      · rw [if_pos hr]
        exact wgetdigs_zero r _ (noPre_snd hw (fun h => absurd h hr))
    · exact wgetdigs_zero r [] noPre_short
  · rename_i h
    rw [h]; exact wnone r [] rfl
  · rename_i h1 h2
    exact wdig1_ok r _ (noPre_of_head h1)

end Mosml.Num
