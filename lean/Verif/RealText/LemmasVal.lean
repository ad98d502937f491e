import Verif.RealText.LemmasScan
import Mathlib.Data.List.Induction

namespace Mosml.RealText
open Mosml.Num (IsDig numVal isDig10 foldD)
open Mosml.Floats
open Mosml.RealConv (IsDouble)

/-! ### A numeral has only one reading -/

theorem parse_str {l : Lit} (hw : l.WF) : parse l.str = some (l, []) := by
  obtain ⟨g, D, F, ex⟩ := l
  obtain ⟨hg, hD, hF, hne, hex⟩ := hw
  dsimp only at *
  have exs : parseEx (Lit.exStr ⟨g, D, F, ex⟩) = (ex, []) := by
    cases hex' : ex with
    | none => rfl
    | some p =>
      obtain ⟨e, g2, X⟩ := p
      obtain ⟨he, hg2, hX, hXd⟩ := hex e g2 X hex'
      have he' : e = 101 ∨ e = 69 := he
      have hsp : splitSign (g2 ++ X) = (g2, X) := by
        apply splitSign_append hg2
        intro c t hc
        have := dig_not_sign (hXd c (by rw [hc]; simp))
        exact ⟨this.1, this.2.1, this.2.2.1⟩
      have htw : X.takeWhile isDigit = X := by have := takeWhile_app (t := []) hXd; simpa using this
      have hdw : X.dropWhile isDigit = [] := by have := dropWhile_app (t := []) hXd; simpa using this
      simp [Lit.exStr, parseEx, hsp, he', htw, hdw, hX]
  have exHead : ∀ c t, Lit.exStr ⟨g, D, F, ex⟩ = c :: t → isDigit c = false ∧ c ≠ 46 := by
    intro c t h
    cases hex' : ex with
    | none => rw [hex'] at h; simp [Lit.exStr] at h
    | some p =>
      obtain ⟨e, g2, X⟩ := p
      obtain ⟨he, -⟩ := hex e g2 X hex'
      rw [hex'] at h
      simp only [Lit.exStr] at h
      cases h
      rcases he with rfl | rfl <;> decide
  have htE : (Lit.exStr ⟨g, D, F, ex⟩).takeWhile isDigit = [] := by
    cases h : Lit.exStr ⟨g, D, F, ex⟩ with
    | nil => rfl
    | cons c t => simp [List.takeWhile_cons, (exHead c t h).1]
  have hdE : (Lit.exStr ⟨g, D, F, ex⟩).dropWhile isDigit = Lit.exStr ⟨g, D, F, ex⟩ := Num.takeWhile_nil_dropWhile htE
  have hsplit : splitSign (Lit.str ⟨g, D, F, ex⟩) =
      (g, D ++ (Lit.fracStr ⟨g, D, F, ex⟩ ++ Lit.exStr ⟨g, D, F, ex⟩)) := by
    rw [Lit.str]
    apply splitSign_append hg
    intro c t hc
    cases D with
    | cons d D'' =>
      rw [List.cons_append] at hc
      cases hc
      have := dig_not_sign (hD c (by simp))
      exact ⟨this.1, this.2.1, this.2.2.1⟩
    | nil =>
      have hF' : F ≠ [] := by rcases hne with h | h; exact absurd rfl h; exact h
      rw [Lit.fracStr, if_neg hF'] at hc
      simp only [List.nil_append, List.cons_append] at hc
      cases hc
      decide
  unfold parse
  rw [hsplit]
  dsimp only
  rw [takeWhile_app hD, dropWhile_app hD]
  by_cases hF0 : F = []
  · have hfs : Lit.fracStr ⟨g, D, F, ex⟩ = [] := by simp [Lit.fracStr, hF0]
    have hD0 : D ≠ [] := by rcases hne with h | h; exact h; exact absurd hF0 h
    have hpf : parseFrac (Lit.exStr ⟨g, D, F, ex⟩) = ([], Lit.exStr ⟨g, D, F, ex⟩) := by
      cases h : Lit.exStr ⟨g, D, F, ex⟩ with
      | nil => rfl
      | cons c t =>
        unfold parseFrac
        split
        · next heq => cases heq; exact absurd rfl (exHead _ _ h).2
        · rfl
    rw [hfs, List.nil_append, htE, hdE, hpf]
    dsimp only
    rw [exs, List.append_nil]
    dsimp only
    rw [if_neg (by simp [hD0]), hF0]
  · have hfs : Lit.fracStr ⟨g, D, F, ex⟩ = 46 :: F := by simp [Lit.fracStr, hF0]
    rw [hfs, List.cons_append]
    have h1 : (46 :: (F ++ Lit.exStr ⟨g, D, F, ex⟩)).takeWhile isDigit = [] := by simp [not_digit_dot]
    have h2 : (46 :: (F ++ Lit.exStr ⟨g, D, F, ex⟩)).dropWhile isDigit = 46 :: (F ++ Lit.exStr ⟨g, D, F, ex⟩) := by
      simp [not_digit_dot]
    rw [h1, h2, parseFrac_dot, takeWhile_app hF, dropWhile_app hF, htE, hdE, List.append_nil, List.append_nil, if_neg hF0]
    dsimp only
    rw [exs]
    dsimp only
    rw [if_neg (by simp [hF0])]

theorem longest_parse {s rest : Str} {l : Lit} (h : LongestLit s l rest) : parse s = some (l, rest) := by
  obtain ⟨hw, hs, hmax⟩ := h
  obtain ⟨l2, r2, h2, hle⟩ := parse_complete hw hs
  have h3 := parse_sound h2
  have h4 := hmax l2 r2 h3.1 h3.2
  have hlen : l.str.length = l2.str.length := by omega
  have happ : l.str ++ rest = l2.str ++ r2 := by rw [← hs, ← h3.2]
  obtain ⟨e1, e2⟩ := List.append_inj happ hlen
  have p1 := parse_str hw
  rw [e1, parse_str h3.1] at p1
  cases p1
  rw [h2, e2]

/-! ### Values -/

variable {fl : ℚ → ℚ}

theorem chkf_ok (H : Nearest fl) {x : ℚ} (h : |x| ≤ 2 ^ 200) : chkf fl x = .ok (fl x) := by
  rw [abs_le] at h
  have hd : IsDouble (((1 : Int) : ℚ) * (2 : ℚ) ^ (200 : Int)) := isDouble_of_le (by norm_num)
  have e : ((1 : Int) : ℚ) * (2 : ℚ) ^ (200 : Int) = 2 ^ 200 := by norm_num
  rw [e] at hd
  have h1 := H.le_of_le hd h.2
  have h2 := H.ge_of_ge (isDouble_neg hd) h.1
  have h3 : (2 : ℚ) ^ 200 ≤ maxdouble := by
    unfold maxdouble
    have h4 : (2 : ℚ) ^ 200 ≤ 2 ^ 970 := pow_le_pow_right₀ (by norm_num) (by norm_num)
    have h5 : (1 : ℚ) ≤ 2 ^ 53 - 1 := by norm_num
    have h6 : (0 : ℚ) < 2 ^ 970 := by positivity
    calc (2 : ℚ) ^ 200 ≤ 1 * 2 ^ 970 := by rw [one_mul]; exact h4
      _ ≤ (2 ^ 53 - 1) * 2 ^ 970 := mul_le_mul_of_nonneg_right h5 h6.le
  rw [chkf, if_neg]
  push Not
  constructor <;> linarith

theorem nat_double {n : Nat} (h : n ≤ 2 ^ 53) : IsDouble (n : ℚ) := by
  have := isDouble_int (n := (n : Int)) (by rw [abs_of_nonneg (by omega)]; omega)
  simpa using this

theorem chkf_nat (H : Nearest fl) {n : Nat} (h : n ≤ 2 ^ 53) : chkf fl (n : ℚ) = .ok (n : ℚ) := by
  rw [chkf_ok H, H.exact (nat_double h)]
  rw [abs_of_nonneg (by positivity)]
  calc (n : ℚ) ≤ ((2 ^ 53 : Nat) : ℚ) := by exact_mod_cast h
    _ ≤ 2 ^ 200 := by norm_num

theorem digit_val {c : Nat} (h : IsDig 10 c) : Num.digitVal c = some (c - 48) ∧ decval c = ((c - 48 : Nat) : Int) ∧ c - 48 < 10 := by
  have h' := (isDig10 c).mp h
  refine ⟨Num.digitVal_dec h', ?_, by omega⟩
  unfold decval; omega

theorem fl_digit (H : Nearest fl) {c : Nat} (h : IsDig 10 c) : fl (decval c) = ((c - 48 : Nat) : ℚ) := by
  obtain ⟨-, h2, h3⟩ := digit_val h
  rw [h2, Int.cast_natCast]
  exact H.exact (nat_double (by omega))

theorem nextReal_nat (H : Nearest fl) {n c : Nat} (h : IsDig 10 c) (hn : 10 * n + (c - 48) ≤ 2 ^ 53) :
    nextReal fl (n : ℚ) (decval c) = .ok ((10 * n + (c - 48) : Nat) : ℚ) := by
  unfold nextReal
  have h1 : chkf fl (10 * (n : ℚ)) = .ok ((10 * n : Nat) : ℚ) := by
    have := chkf_nat H (n := 10 * n) (by omega)
    push_cast at this ⊢
    exact this
  rw [h1, ok_bind, fl_digit H h]
  have := chkf_nat H hn
  push_cast at this ⊢
  exact this

theorem foldD_append_ge (D : Str) (a : Nat) : a ≤ foldD 10 a D := Num.foldD_ge 10 (by omega) D a

theorem natR_fold (H : Nearest fl) : ∀ (D : Str) (a : Nat), AllDig D → foldD 10 a D ≤ 2 ^ 53 →
    D.foldlM (fun x c => nextReal fl x (decval c)) (a : ℚ) = .ok ((foldD 10 a D : Nat) : ℚ) := by
  intro D
  induction D with
  | nil => intro a _ _; rfl
  | cons c D ih =>
    intro a hD h
    have hc := hD c (by simp)
    have e : foldD 10 a (c :: D) = foldD 10 (10 * a + (c - 48)) D := by
      simp [foldD, (digit_val hc).1]
    rw [e] at h ⊢
    have hle := foldD_append_ge D (10 * a + (c - 48))
    rw [List.foldlM_cons, nextReal_nat H hc (by omega), ok_bind]
    exact ih _ (fun x hx => hD x (by simp [hx])) h

theorem numVal_cons' {c : Nat} {D : Str} (hc : IsDig 10 c) : numVal 10 (c :: D) = foldD 10 (c - 48) D := by
  rw [Num.numVal_cons, (digit_val hc).1]; rfl

theorem natR_ok (H : Nearest fl) {D : Str} (hD : AllDig D) (h : numVal 10 D ≤ 2 ^ 53) :
    natR fl D = .ok ((numVal 10 D : Nat) : ℚ) := by
  cases D with
  | nil => simp [natR, numVal]
  | cons c D =>
    have hc := hD c (by simp)
    rw [numVal_cons' hc] at h ⊢
    rw [natR, fl_digit H hc]
    exact natR_fold H D _ (fun x hx => hD x (by simp [hx])) h

theorem numVal_lt {D : Str} (hD : AllDig D) : numVal 10 D < 10 ^ D.length := by
  induction D using List.reverseRecOn with
  | nil => simp [numVal]
  | append_singleton D c ih =>
    have hc := hD c (by simp)
    have h1 := ih (fun x hx => hD x (by simp [hx]))
    obtain ⟨h2, -, h3⟩ := digit_val hc
    rw [Num.numVal_snoc, List.length_append, List.length_singleton, pow_succ, h2]
    show 10 * numVal 10 D + (c - 48) < _
    omega

theorem pow10F_ok (H : Nearest fl) : ∀ f n, n ≤ f → n ≤ 22 → pow10F fl f n = .ok (10 ^ n) := by
  intro f
  induction f with
  | zero => intro n h _; have : n = 0 := by omega
            subst this; simp [pow10F]
  | succ f ih =>
    intro n h h22
    cases n with
    | zero => simp [pow10F]
    | succ n =>
      have hdb : IsDouble ((10 : ℚ) ^ (n + 1)) := by
        have := isDouble_of_le (m := 5 ^ (n + 1)) (e := ((n + 1 : Nat) : Int)) (by
          rw [abs_of_nonneg (by positivity)]
          calc (5 : Int) ^ (n + 1) ≤ 5 ^ 22 := pow_le_pow_right₀ (by norm_num) h22
            _ ≤ 2 ^ 53 := by norm_num)
        rw [zpow_natCast] at this
        push_cast at this
        rw [← mul_pow] at this
        norm_num at this
        exact this
      have hle : |(10 : ℚ) ^ (n + 1)| ≤ 2 ^ 200 := by
        rw [abs_of_nonneg (by positivity)]
        calc (10 : ℚ) ^ (n + 1) ≤ 10 ^ 22 := pow_le_pow_right₀ (by norm_num) h22
          _ ≤ 2 ^ 200 := by norm_num
      have hck : chkf fl ((10 : ℚ) ^ (n + 1)) = .ok (10 ^ (n + 1)) := by rw [chkf_ok H hle, H.exact hdb]
      rw [pow10F]
      split
      · next he =>
        rw [ih _ (by omega) (by omega), ok_bind, ← pow_add, show (n + 1) / 2 + (n + 1) / 2 = n + 1 by omega]
        exact hck
      · rw [ih _ (by omega) (by omega), ok_bind, ← pow_succ']
        exact hck

theorem pow10_ok (H : Nearest fl) {n : Nat} (h : n ≤ 22) : pow10 fl (n : Int) = .ok (10 ^ n) := by
  rw [pow10, Int.toNat_natCast]
  exact pow10F_ok H n n (le_refl _) h

theorem fracR_fold (H : Nearest fl) : ∀ (F : Str) (k a : Nat), AllDig F → foldD 10 a F ≤ 2 ^ 53 → k + F.length ≤ 2 ^ 60 →
    F.foldlM (fun (p : Int × ℚ) c => do
      let d ← chki (p.1 + 1)
      let f ← nextReal fl p.2 (decval c)
      .ok (d, f)) ((k : Int), (a : ℚ)) = (.ok (((k + F.length : Nat) : Int), ((foldD 10 a F : Nat) : ℚ)) : R (Int × ℚ)) := by
  intro F
  induction F with
  | nil => intro k a _ _ _; rfl
  | cons c F ih =>
    intro k a hF h hk
    have hc := hF c (by simp)
    have e : foldD 10 a (c :: F) = foldD 10 (10 * a + (c - 48)) F := by
      simp [foldD, (digit_val hc).1]
    rw [e] at h ⊢
    have hle := foldD_append_ge F (10 * a + (c - 48))
    rw [List.length_cons] at hk ⊢
    have hck : chki ((k : Int) + 1) = .ok ((k + 1 : Nat) : Int) := by
      rw [chki, if_pos (by omega)]; rfl
    rw [List.foldlM_cons]
    dsimp only
    rw [hck, ok_bind, nextReal_nat H hc (by omega), ok_bind, ok_bind, ih (k + 1) _ (fun x hx => hF x (by simp [hx])) h (by omega),
      show k + 1 + F.length = k + (F.length + 1) by omega]

theorem fracR_ok (H : Nearest fl) {F : Str} (hF : AllDig F) (hne : F ≠ []) (h : F.length ≤ 15) :
    fracR fl F = .ok (fl ((numVal 10 F : ℚ) / 10 ^ F.length)) := by
  have hlt := numVal_lt hF
  have h15 : 10 ^ F.length ≤ 10 ^ 15 := Nat.pow_le_pow_right (by omega) h
  cases F with
  | nil => exact absurd rfl hne
  | cons c F =>
    have hc := hF c (by simp)
    rw [numVal_cons' hc] at hlt ⊢
    rw [fracR, fl_digit H hc]
    have := fracR_fold H F 1 (c - 48) (fun x hx => hF x (by simp [hx])) (by omega) (by simp at h; omega)
    rw [Nat.cast_one] at this
    rw [this, ok_bind]
    dsimp only
    rw [List.length_cons] at h hlt ⊢
    rw [Nat.add_comm 1 F.length, pow10_ok H (n := F.length + 1) (by omega), ok_bind]
    apply chkf_ok H
    have h1 : (foldD 10 (c - 48) F : ℚ) / 10 ^ (F.length + 1) ≤ 1 := by
      rw [div_le_one (by positivity)]
      exact_mod_cast hlt.le
    rw [abs_of_nonneg (by positivity)]
    linarith [show (1 : ℚ) ≤ 2 ^ 200 by norm_num]

theorem expR_fold : ∀ (X : Str) (a : Nat), AllDig X → foldD 10 a X ≤ 2 ^ 60 →
    X.foldlM (fun (res : Int) c => do let t ← chki (10 * res); chki (t + decval c)) (a : Int) =
      (.ok ((foldD 10 a X : Nat) : Int) : R Int) := by
  intro X
  induction X with
  | nil => intro a _ _; rfl
  | cons c X ih =>
    intro a hX h
    have hc := hX c (by simp)
    have e : foldD 10 a (c :: X) = foldD 10 (10 * a + (c - 48)) X := by
      simp [foldD, (digit_val hc).1]
    rw [e] at h ⊢
    have hle := foldD_append_ge X (10 * a + (c - 48))
    have h1 : chki (10 * (a : Int)) = .ok ((10 * a : Nat) : Int) := by rw [chki, if_pos (by omega)]; rfl
    have h2 : chki (((10 * a : Nat) : Int) + decval c) = .ok ((10 * a + (c - 48) : Nat) : Int) := by
      rw [(digit_val hc).2.1, chki, if_pos (by omega)]; rfl
    rw [List.foldlM_cons, h1, ok_bind, h2, ok_bind]
    exact ih _ (fun x hx => hX x (by simp [hx])) h

theorem expR_ok {X : Str} (hX : AllDig X) (h : numVal 10 X ≤ 2 ^ 60) : expR X = .ok ((numVal 10 X : Nat) : Int) := by
  cases X with
  | nil => simp [expR, numVal]
  | cons c X =>
    have hc := hX c (by simp)
    rw [numVal_cons' hc] at h ⊢
    rw [expR, (digit_val hc).2.1]
    exact expR_fold X _ (fun x hx => hX x (by simp [hx])) h

/-- the mantissa -/
theorem manR_ok (H : Nearest fl) {D F : Str} (hD : AllDig D) (hF : AllDig F) (h1 : numVal 10 D ≤ 2 ^ 53) (h2 : F.length ≤ 15) :
    ∃ m, manR fl D F = .ok m ∧ (F = [] → m = (numVal 10 D : ℚ)) ∧
      |m - ((numVal 10 D : ℚ) + (numVal 10 F : ℚ) / 10 ^ F.length)| ≤
        (2 / 2 ^ 53 + 1 / 2 ^ 106) * ((numVal 10 D : ℚ) + (numVal 10 F : ℚ) / 10 ^ F.length) := by
  unfold manR
  have hDn : (0 : ℚ) ≤ (numVal 10 D : ℚ) := by positivity
  by_cases hF0 : F = []
  · subst hF0
    refine ⟨_, by rw [if_pos rfl]; exact natR_ok H hD h1, fun _ => rfl, ?_⟩
    simp [numVal]
    positivity
  · rw [if_neg hF0]
    have hf := fracR_ok H hF hF0 h2
    set q : ℚ := (numVal 10 F : ℚ) / 10 ^ F.length with hq
    have hq0 : 0 ≤ q := by positivity
    have hq1 : q ≤ 1 := by
      rw [hq, div_le_one (by positivity)]
      exact_mod_cast (numVal_lt hF).le
    have hfe : |fl q - q| ≤ (1 / 2 ^ 53) * q := by
      have := H.abs_err q
      rw [abs_of_nonneg hq0] at this
      linarith
    by_cases hD0 : D = []
    · subst hD0
      rw [if_pos rfl]
      refine ⟨_, hf, fun h => absurd h hF0, ?_⟩
      have e : (numVal 10 [] : ℚ) = 0 := by simp [numVal]
      rw [e, zero_add]
      refine le_trans hfe ?_
      apply mul_le_mul_of_nonneg_right _ hq0
      norm_num
    · rw [if_neg hD0, natR_ok H hD h1, ok_bind, hf, ok_bind]
      have hfl1 : 0 ≤ fl q := H.nonneg hq0
      have hfl2 : fl q ≤ 1 := by
        have := H.le_of_le (nat_double (n := 1) (by norm_num)) (x := q) (by simpa using hq1)
        simpa using this
      have hD1 : (numVal 10 D : ℚ) ≤ 2 ^ 53 := by exact_mod_cast h1
      refine ⟨_, chkf_ok H ?_, fun h => absurd h hF0, ?_⟩
      · rw [abs_of_nonneg (by linarith)]
        have : (2 : ℚ) ^ 53 + 1 ≤ 2 ^ 200 := by norm_num
        linarith
      · have hc : |((numVal 10 D : ℚ) + fl q) - ((numVal 10 D : ℚ) + q)| ≤ (1 / 2 ^ 53) * ((numVal 10 D : ℚ) + q) := by
          rw [add_sub_add_left_eq_sub]
          refine le_trans hfe ?_
          apply mul_le_mul_of_nonneg_left (by linarith) (by norm_num)
        have := H.close (by linarith) hc
        refine le_trans this ?_
        apply mul_le_mul_of_nonneg_right _ (by linarith)
        norm_num

/-- the absolute value of a numeral -/
def Lit.mag (l : Lit) : ℚ := ((numVal 10 l.D : ℚ) + (numVal 10 l.F : ℚ) / 10 ^ l.F.length) *
    match l.ex with
    | none => 1
    | some (_, s, X) => if isMinus s then 1 / 10 ^ numVal 10 X else 10 ^ numVal 10 X

theorem litR_ok (H : Nearest fl) {l : Lit} (hw : l.WF) (h1 : numVal 10 l.D ≤ 2 ^ 53) (h2 : l.F.length ≤ 15)
    (h3 : ∀ e s X, l.ex = some (e, s, X) → numVal 10 X ≤ 22) :
    ∃ v, litR fl l = .ok v ∧ (l.F = [] → l.ex = none → v = l.mag) ∧ |v - l.mag| ≤ 1 / 2 ^ 51 * l.mag := by
  obtain ⟨m, hm, hme, hmc⟩ := manR_ok H hw.D hw.F h1 h2
  unfold litR Lit.mag
  rw [hm, ok_bind]
  have hq1 : (numVal 10 l.F : ℚ) / 10 ^ l.F.length ≤ 1 := by
    rw [div_le_one (by positivity)]
    exact_mod_cast (numVal_lt hw.F).le
  have hD1 : (numVal 10 l.D : ℚ) ≤ 2 ^ 53 := by exact_mod_cast h1
  have hM0 : 0 ≤ (numVal 10 l.D : ℚ) + (numVal 10 l.F : ℚ) / 10 ^ l.F.length := by positivity
  have hM1 : (numVal 10 l.D : ℚ) + (numVal 10 l.F : ℚ) / 10 ^ l.F.length ≤ 2 ^ 53 + 1 := by linarith
  set Mg : ℚ := (numVal 10 l.D : ℚ) + (numVal 10 l.F : ℚ) / 10 ^ l.F.length with hMg
  have hm2 : |m| ≤ 2 ^ 55 := by
    have : |m| ≤ |m - Mg| + |Mg| := by
      have := abs_add_le (m - Mg) Mg
      rwa [sub_add_cancel] at this
    rw [abs_of_nonneg hM0] at this
    have h5 : (2 / 2 ^ 53 + 1 / 2 ^ 106) * Mg ≤ 1 * Mg := mul_le_mul_of_nonneg_right (by norm_num) hM0
    have h6 : (2 : ℚ) * (2 ^ 53 + 1) ≤ 2 ^ 55 := by norm_num
    linarith
  cases hex : l.ex with
  | none =>
    refine ⟨m, rfl, ?_, ?_⟩
    · intro hF _
      rw [mul_one, hme hF, hMg, hF]
      simp [numVal]
    · rw [mul_one]
      refine le_trans hmc ?_
      apply mul_le_mul_of_nonneg_right _ hM0
      norm_num
  | some p =>
    obtain ⟨e, g, X⟩ := p
    have hX := h3 e g X hex
    have hXd := (hw.ex e g X hex).2.2.2
    dsimp only
    rw [expR_ok hXd (by omega), ok_bind, pow10_ok H hX, ok_bind]
    set n := numVal 10 X
    have hp0 : (0 : ℚ) < 10 ^ n := by positivity
    have hp1 : (1 : ℚ) ≤ 10 ^ n := one_le_pow₀ (by norm_num)
    have hp2 : (10 : ℚ) ^ n ≤ 10 ^ 22 := pow_le_pow_right₀ (by norm_num) hX
    have key : ∀ w : ℚ, 0 ≤ w → w ≤ 10 ^ 22 → ∃ v, chkf fl (m * w) = .ok v ∧ |v - Mg * w| ≤ 1 / 2 ^ 51 * (Mg * w) := by
      intro w hw0 hw1
      refine ⟨_, chkf_ok H ?_, ?_⟩
      · rw [abs_mul, abs_of_nonneg hw0]
        calc |m| * w ≤ 2 ^ 55 * 10 ^ 22 := mul_le_mul hm2 hw1 hw0 (by norm_num)
          _ ≤ 2 ^ 200 := by norm_num
      · have hc : |m * w - Mg * w| ≤ (2 / 2 ^ 53 + 1 / 2 ^ 106) * (Mg * w) := by
          rw [← sub_mul, abs_mul, abs_of_nonneg hw0, ← mul_assoc]
          exact mul_le_mul_of_nonneg_right hmc hw0
        refine le_trans (H.close (mul_nonneg hM0 hw0) hc) ?_
        apply mul_le_mul_of_nonneg_right _ (mul_nonneg hM0 hw0)
        norm_num
    by_cases hg : isMinus g = true
    · obtain ⟨v, hv, hvc⟩ := key (1 / 10 ^ n) (by positivity) (by
        calc (1 : ℚ) / 10 ^ n ≤ 1 := by rw [div_le_one hp0]; exact hp1
          _ ≤ 10 ^ 22 := by norm_num)
      refine ⟨v, ?_, fun _ h => by simp at h, ?_⟩
      · rw [if_pos hg, div_eq_mul_one_div]; exact hv
      · rw [if_pos hg]; exact hvc
    · obtain ⟨v, hv, hvc⟩ := key (10 ^ n) hp0.le hp2
      refine ⟨v, ?_, fun _ h => by simp at h, ?_⟩
      · rw [if_neg hg]; exact hv
      · rw [if_neg hg]; exact hvc

theorem val_eq_mag (l : Lit) : l.val = (if isMinus l.sg then -1 else 1) * l.mag := by
  rw [Lit.val, Lit.mag, mul_assoc]
  cases l.ex <;> rfl

theorem mag_nonneg (l : Lit) : 0 ≤ l.mag := by
  unfold Lit.mag
  apply mul_nonneg (by positivity)
  split
  · norm_num
  · split <;> positivity

end Mosml.RealText
