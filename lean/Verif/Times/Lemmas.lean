import Verif.Times.Model
import Verif.Times.Spec
import Verif.RealText.Props

namespace Mosml.Times
open Mosml.RealText
open Mosml.Num (IsDig numVal isDig10 foldD isSpace)
open Mosml.Floats

/-! ### The longest time numeral -/

def parseT (s : Str) : Option (Lit × Str) :=
  let D := (splitSign s).2.takeWhile isDigit
  let p := parseFrac ((splitSign s).2.dropWhile isDigit)
  if D = [] ∧ p.1 = [] then none else some (⟨(splitSign s).1, D, p.1, none⟩, p.2)

theorem parseT_sound {s rest : Str} {l : Lit} (h : parseT s = some (l, rest)) : (l.WF ∧ l.ex = none) ∧ s = l.str ++ rest := by
  unfold parseT at h
  have h1 := splitSign_eq s
  have h1' := splitSign_sign s
  generalize splitSign s = p at *
  obtain ⟨g, s1⟩ := p
  dsimp only at *
  have h2 := parseFrac_eq (s1.dropWhile isDigit)
  have h2' := parseFrac_dig (s1.dropWhile isDigit)
  have h2'' : s1 = s1.takeWhile isDigit ++ s1.dropWhile isDigit := (List.takeWhile_append_dropWhile).symm
  have hD := takeWhile_allDig s1
  generalize s1.takeWhile isDigit = D at *
  generalize s1.dropWhile isDigit = s2 at *
  generalize parseFrac s2 = p at *
  obtain ⟨F, s4⟩ := p
  dsimp only at *
  by_cases hn : D = [] ∧ F = []
  · rw [if_pos hn] at h; cases h
  · rw [if_neg hn] at h
    cases h
    refine ⟨⟨⟨h1', hD, h2', by by_contra hc; push Not at hc; exact hn hc, by intro e s X h; cases h⟩, rfl⟩, ?_⟩
    unfold Lit.str Lit.fracStr Lit.exStr
    dsimp only
    rw [h1, h2'', h2]
    simp only [List.append_assoc, List.append_nil]
    rfl

theorem parseT_complete {s rest' : Str} {l' : Lit} (hw : l'.WF) (hx : l'.ex = none) (hs : s = l'.str ++ rest') :
    ∃ l rest, parseT s = some (l, rest) ∧ l'.str.length ≤ l.str.length := by
  obtain ⟨g', D', F', ex'⟩ := l'
  obtain ⟨hg, hD, hF, hne, hex⟩ := hw
  dsimp only at *
  subst hx
  set Y : Str := Lit.fracStr ⟨g', D', F', none⟩ ++ rest' with hY
  have hs1 : s = g' ++ (D' ++ Y) := by rw [hs, Lit.str, hY]; simp [List.append_assoc, Lit.exStr]
  have hlen : (Lit.str ⟨g', D', F', none⟩).length = g'.length + (D'.length + (Lit.fracStr ⟨g', D', F', none⟩).length) := by
    simp [Lit.str, Lit.exStr]
  have hsplit : splitSign s = (g', D' ++ Y) := by
    rw [hs1]
    apply splitSign_append hg
    intro c t hc
    cases D' with
    | cons d D'' =>
      rw [List.cons_append] at hc
      cases hc
      have := dig_not_sign (hD c (by simp))
      exact ⟨this.1, this.2.1, this.2.2.1⟩
    | nil =>
      have hF' : F' ≠ [] := by rcases hne with h | h; exact absurd rfl h; exact h
      rw [hY, Lit.fracStr, if_neg hF'] at hc
      simp only [List.nil_append, List.cons_append] at hc
      cases hc
      decide
  unfold parseT
  rw [hsplit]
  dsimp only
  rw [takeWhile_app hD, dropWhile_app hD]
  by_cases hF0 : F' = []
  · have hD0 : D' ≠ [] := by rcases hne with h | h; exact h; exact absurd hF0 h
    have hfs : Lit.fracStr ⟨g', D', F', none⟩ = [] := by simp [Lit.fracStr, hF0]
    rw [if_neg (by simp [hD0])]
    refine ⟨_, _, rfl, ?_⟩
    rw [hlen, hfs]
    simp [Lit.str]
  · have hfs : Lit.fracStr ⟨g', D', F', none⟩ = 46 :: F' := by simp [Lit.fracStr, hF0]
    have hYc : Y = 46 :: (F' ++ rest') := by rw [hY, hfs]; rfl
    have hdw : Y.dropWhile isDigit = Y := by rw [hYc]; simp [not_digit_dot]
    have htw : Y.takeWhile isDigit = [] := by rw [hYc]; simp [not_digit_dot]
    have hpf : parseFrac Y = (F' ++ rest'.takeWhile isDigit, rest'.dropWhile isDigit) := by
      rw [hYc, parseFrac_dot, takeWhile_app hF, dropWhile_app hF, if_neg (by simp [hF0])]
    rw [hdw, htw, hpf, List.append_nil]
    dsimp only
    rw [if_neg (by simp [hF0])]
    refine ⟨_, _, rfl, ?_⟩
    rw [hlen, hfs]
    simp [Lit.str, Lit.fracStr, hF0]

theorem parseT_longest {s rest : Str} {l : Lit} (h : parseT s = some (l, rest)) : LongestTime s l rest := by
  refine ⟨(parseT_sound h).1, (parseT_sound h).2, ?_⟩
  intro l' rest' hw hx hs
  obtain ⟨l2, r2, h2, hle⟩ := parseT_complete hw hx hs
  rw [h] at h2
  cases h2
  exact hle

theorem parseT_none {s : Str} : parseT s = none ↔ ¬ BeginsTime s := by
  constructor
  · rintro h ⟨l, rest, hw, hx, hs⟩
    obtain ⟨l2, r2, h2, -⟩ := parseT_complete hw hx hs
    rw [h] at h2; cases h2
  · intro h
    cases hp : parseT s with
    | none => rfl
    | some p => exact absurd ⟨p.1, p.2, (parseT_sound hp).1.1, (parseT_sound hp).1.2, (parseT_sound hp).2⟩ h

theorem longest_parseT {s rest : Str} {l : Lit} (h : LongestTime s l rest) : parseT s = some (l, rest) := by
  obtain ⟨hw, hs, hmax⟩ := h
  obtain ⟨l2, r2, h2, hle⟩ := parseT_complete hw.1 hw.2 hs
  have h3 := parseT_sound h2
  have h4 := hmax l2 r2 h3.1.1 h3.1.2 h3.2
  have hlen : l.str.length = l2.str.length := by omega
  have happ : l.str ++ rest = l2.str ++ r2 := by rw [← hs, ← h3.2]
  obtain ⟨e1, e2⟩ := List.append_inj happ hlen
  have p1 := parse_str hw.1
  rw [e1, parse_str h3.1.1] at p1
  cases p1
  rw [h2, e2]

/-! ### The scanner -/

variable (fl : ℚ → ℚ)

def mk (neg : Bool) (intgv : ℚ) (usecs : Int) : R ℚ := do
  let t ← chkf fl (intgv * 1000000)
  let res ← chkf fl (t + fl usecs)
  .ok (if neg then -res else res)

theorem pow10_eq (n : Nat) : pow10 n = 10 ^ n := by
  induction n with
  | zero => rfl
  | succ n ih => rw [pow10, ih, pow_succ, mul_comm]

/-- microseconds of the digits F after the point -/
def usecF (F : Str) : Nat := (10 ^ (7 - (F.take 7).length) * numVal 10 (F.take 7) + 5) / 10

theorem skipdigs_eq (s : Str) : skipdigs s = s.dropWhile isDigit := by
  induction s with
  | nil => rfl
  | cons c s ih =>
    rw [skipdigs, List.dropWhile_cons, ih]

theorem frac_eq (neg : Bool) (i : ℚ) : ∀ (s : Str) (k a : Nat), k ≤ 7 →
    frac fl neg i k a s = (do
      let T := (s.takeWhile isDigit).take (7 - k)
      let t ← mk fl neg i (((10 ^ (7 - (k + T.length)) * foldD 10 a T + 5) / 10 : Nat) : Int)
      .ok (some (t, s.dropWhile isDigit))) := by
  have hmk : ∀ k a : Nat, mktime fl neg i k (a : Int) = mk fl neg i (((10 ^ (7 - k) * a + 5) / 10 : Nat) : Int) := by
    intro k a
    unfold mktime mk
    rw [pow10_eq]
    push_cast
    rfl
  intro s
  induction s with
  | nil =>
    intro k a hk
    simp only [frac, hmk]
    simp [foldD]
  | cons c s ih =>
    intro k a hk
    simp only [frac]
    by_cases h7 : k ≥ 7
    · have : k = 7 := by omega
      subst this
      rw [if_pos h7, hmk, skipdigs_eq]
      simp [foldD]
    · rw [if_neg h7]
      by_cases hd : isDigit c = true
      · rw [if_pos hd]
        have hv := digit_val ((isDigit_iff c).mp hd)
        have e : (10 * (a : Int) + decval c) = ((10 * a + (c - 48) : Nat) : Int) := by
          rw [hv.2.1]; push_cast; ring
        rw [e, ih (k + 1) _ (by omega)]
        rw [List.takeWhile_cons_of_pos hd, List.dropWhile_cons, if_pos hd]
        have e7 : 7 - k = (7 - (k + 1)) + 1 := by omega
        rw [e7, List.take_succ_cons]
        have ef : ∀ T, foldD 10 a (c :: T) = foldD 10 (10 * a + (c - 48)) T := by
          intro T
          unfold foldD
          rw [List.foldl_cons, hv.1]
          rfl
        simp only [ef, List.length_cons]
        rw [show k + 1 + (List.take (7 - (k + 1)) (List.takeWhile isDigit s)).length =
          k + ((List.take (7 - (k + 1)) (List.takeWhile isDigit s)).length + 1) from by omega]
      · rw [if_neg hd, hmk]
        rw [List.takeWhile_cons_of_neg hd, List.dropWhile_cons, if_neg hd]
        simp [foldD]

theorem frac_start (neg : Bool) (i : ℚ) (s : Str) : frac fl neg i 0 0 s = (do
    let t ← mk fl neg i (usecF (s.takeWhile isDigit) : Int)
    .ok (some (t, s.dropWhile isDigit))) := by
  have := frac_eq fl neg i s 0 0 (by omega)
  rw [Nat.cast_zero] at this
  rw [this]
  simp only [Nat.zero_add, Nat.sub_zero]
  rfl

/-- what is left after a numeral -/
def restOf (F rest : Str) : Str := if F = [] then (match rest with | 46 :: t => t | r => r) else rest

theorem restOf_ne {F rest : Str} (h : F ≠ []) : restOf F rest = rest := if_neg h

theorem intg_eq (neg : Bool) : ∀ (s : Str) (v : ℚ), intg fl neg v s = (do
    let i ← (s.takeWhile isDigit).foldlM (fun a c => nextReal fl a (decval c)) v
    let t ← mk fl neg i (usecF (parseFrac (s.dropWhile isDigit)).1 : Int)
    .ok (some (t, restOf (parseFrac (s.dropWhile isDigit)).1 (parseFrac (s.dropWhile isDigit)).2))) := by
  have hmk : ∀ i, mktime fl neg i 6 0 = mk fl neg i (usecF [] : Int) := by
    intro i; unfold mktime mk; rw [pow10_eq]; rfl
  intro s
  induction s with
  | nil => intro v; simp only [intg, hmk]; rfl
  | cons c s ih =>
    intro v
    simp only [intg]
    by_cases h46 : c = 46
    · subst h46
      rw [if_pos rfl, frac_start, List.takeWhile_cons_of_neg (by decide), List.dropWhile_cons, if_neg (by decide), parseFrac_dot]
      simp only [List.foldlM_nil]
      by_cases hT : s.takeWhile isDigit = []
      · rw [if_pos hT]
        dsimp only
        rw [hT, Num.takeWhile_nil_dropWhile hT]
        rfl
      · rw [if_neg hT]
        dsimp only
        rw [restOf_ne hT]
        rfl
    · rw [if_neg h46]
      by_cases hd : isDigit c = true
      · rw [if_pos hd, List.takeWhile_cons_of_pos hd, List.dropWhile_cons, if_pos hd, List.foldlM_cons]
        rw [bind_assoc]
        congr 1
        funext v'
        exact ih v'
      · rw [if_neg hd, List.takeWhile_cons_of_neg hd, List.dropWhile_cons, if_neg hd, hmk]
        have hp : parseFrac (c :: s) = ([], c :: s) := by
          unfold parseFrac
          split
          · next heq => cases heq; exact absurd rfl h46
          · rfl
        have hr : restOf [] (c :: s) = c :: s := by
          unfold restOf
          rw [if_pos rfl]
          split
          · next heq => cases heq; exact absurd rfl h46
          · rfl
        rw [hp]
        dsimp only
        rw [hr]
        rfl

theorem nbr_eq (neg : Bool) (s : Str) : nbr fl neg s =
    (let D := s.takeWhile isDigit
     let p := parseFrac (s.dropWhile isDigit)
     if D = [] ∧ p.1 = [] then .ok none
     else do
       let i ← natR fl D
       let t ← mk fl neg i (usecF p.1 : Int)
       .ok (some (t, restOf p.1 p.2))) := by
  cases s with
  | nil => rfl
  | cons c s =>
    unfold nbr
    dsimp only
    by_cases h46 : c = 46
    · subst h46
      rw [if_pos rfl, List.takeWhile_cons_of_neg (by decide), List.dropWhile_cons_of_neg (by decide), parseFrac_dot]
      cases s with
      | nil => rfl
      | cons d s =>
        dsimp only
        by_cases hd : isDigit d = true
        · have h0 := frac_start fl neg 0 (d :: s)
          simp only [frac] at h0
          rw [if_neg (by omega), if_pos hd] at h0
          have e : (10 * (0 : Int) + decval d) = decval d := by ring
          rw [e] at h0
          rw [if_pos hd, h0]
          have hT : List.takeWhile isDigit (d :: s) ≠ [] := by rw [List.takeWhile_cons_of_pos hd]; simp
          rw [if_neg hT]
          dsimp only
          rw [if_neg (by simp [hT]), restOf_ne hT]
          rfl
        · rw [if_neg hd, List.takeWhile_cons_of_neg hd, if_pos rfl]
          rfl
    · rw [if_neg h46]
      by_cases hd : isDigit c = true
      · rw [if_pos hd, intg_eq, List.takeWhile_cons_of_pos hd, List.dropWhile_cons, if_pos hd]
        rw [if_neg (by simp)]
        rfl
      · rw [if_neg hd, List.takeWhile_cons_of_neg hd, List.dropWhile_cons, if_neg hd]
        have hp : parseFrac (c :: s) = ([], c :: s) := by
          unfold parseFrac
          split
          · next heq => cases heq; exact absurd rfl h46
          · rfl
        rw [hp]
        simp

theorem scan_eq (src : Str) : scan fl src =
    match parseT (src.dropWhile isSpace) with
    | none => .ok none
    | some (l, rest) => (do
      let i ← natR fl l.D
      let t ← mk fl (isMinus l.sg) i (usecF l.F : Int)
      .ok (some (t, restOf l.F rest))) := by
  unfold scan
  generalize src.dropWhile isSpace = s
  have key : (match s with
      | [] => .ok none
      | c :: rest =>
        if c = 43 then nbr fl false rest
        else if c = 126 then nbr fl true rest
        else if c = 45 then nbr fl true rest
        else nbr fl false (c :: rest)) = nbr fl (isMinus (splitSign s).1) (splitSign s).2 := by
    cases s with
    | nil => rfl
    | cons c t =>
      dsimp only
      by_cases h1 : c = 43
      · subst h1; rfl
      · rw [if_neg h1]
        by_cases h2 : c = 126
        · subst h2; rfl
        · rw [if_neg h2]
          by_cases h3 : c = 45
          · subst h3; rfl
          · rw [if_neg h3]
            have : splitSign (c :: t) = ([], c :: t) := by
              unfold splitSign
              split
              · next heq => cases heq; exact absurd rfl h1
              · next heq => cases heq; exact absurd rfl h3
              · next heq => cases heq; exact absurd rfl h2
              · rfl
            rw [this]
            rfl
  refine Eq.trans key ?_
  rw [nbr_eq, parseT]
  dsimp only
  by_cases h : (splitSign s).2.takeWhile isDigit = [] ∧ (parseFrac ((splitSign s).2.dropWhile isDigit)).1 = []
  · rw [if_pos h, if_pos h]
  · rw [if_neg h, if_neg h]

/-! ### Values -/

variable {fl}

theorem usecF_floor {F : Str} (hF : AllDig F) :
    ((usecF F : Nat) : Int) = ⌊(numVal 10 F : ℚ) / 10 ^ F.length * 1000000 + 1 / 2⌋ := by
  have hsplit : F = F.take 7 ++ F.drop 7 := (List.take_append_drop 7 F).symm
  have hval : numVal 10 F = numVal 10 (F.take 7) * 10 ^ (F.drop 7).length + numVal 10 (F.drop 7) := by
    conv_lhs => rw [hsplit]
    exact numVal_append _ _
  have hdrop : numVal 10 (F.drop 7) < 10 ^ (F.drop 7).length := numVal_lt (fun c hc => hF c (List.mem_of_mem_drop hc))
  have hlen : F.length = (F.take 7).length + (F.drop 7).length := by
    conv_lhs => rw [hsplit]
    exact List.length_append
  have hk : (F.take 7).length ≤ 7 := by rw [List.length_take]; omega
  have hcase : (F.take 7).length = 7 ∨ (F.drop 7).length = 0 := by
    rw [List.length_take, List.length_drop]; omega
  set a := numVal 10 (F.take 7)
  set b := numVal 10 (F.drop 7)
  set k := (F.take 7).length
  set r := (F.drop 7).length
  unfold usecF
  show (((10 ^ (7 - k) * a + 5) / 10 : Nat) : Int) = _
  have hr0 : (0 : ℚ) < 10 ^ r := by positivity
  have hk0 : (0 : ℚ) < 10 ^ k := by positivity
  have e7 : (10 : ℚ) ^ (7 - k) * 10 ^ k = 10 ^ 7 := by rw [← pow_add]; congr 1; omega
  have e1 : (numVal 10 F : ℚ) / 10 ^ F.length * 1000000 + 1 / 2 =
      (((10 ^ (7 - k) * a + 5 : Nat) : ℚ) + 10 ^ (7 - k) * ((b : ℚ) / 10 ^ r)) / 10 := by
    rw [hval, hlen]
    push_cast
    rw [pow_add]
    have e8 : (10 : ℚ) ^ (7 - k) = 10 ^ 7 / 10 ^ k := by rw [eq_div_iff hk0.ne']; exact e7
    rw [e8]
    field_simp
    ring
  have hρ : 0 ≤ (10 : ℚ) ^ (7 - k) * ((b : ℚ) / 10 ^ r) ∧ (10 : ℚ) ^ (7 - k) * ((b : ℚ) / 10 ^ r) < 1 := by
    refine ⟨by positivity, ?_⟩
    rcases hcase with h | h
    · rw [h, Nat.sub_self, pow_zero, one_mul, div_lt_one hr0]
      exact_mod_cast hdrop
    · have : b = 0 := by rw [h] at hdrop; omega
      rw [this]; simp
  rw [e1]
  generalize (10 : ℚ) ^ (7 - k) * ((b : ℚ) / 10 ^ r) = ρ at hρ
  generalize 10 ^ (7 - k) * a + 5 = M
  symm
  rw [Int.floor_eq_iff]
  have h1 := Nat.div_add_mod M 10
  have h2 := Nat.mod_lt M (show 10 > 0 by omega)
  have h3 : (M : ℚ) = 10 * ((M / 10 : Nat) : ℚ) + ((M % 10 : Nat) : ℚ) := by exact_mod_cast h1.symm
  have h4 : ((M % 10 : Nat) : ℚ) ≤ 9 := by exact_mod_cast (show M % 10 ≤ 9 by omega)
  have h5 : (0 : ℚ) ≤ ((M % 10 : Nat) : ℚ) := by positivity
  rw [Int.cast_natCast]
  constructor
  · rw [le_div_iff₀ (by norm_num)]; linarith [hρ.1]
  · rw [div_lt_iff₀ (by norm_num)]; linarith [hρ.2]

theorem usecF_le {F : Str} (hF : AllDig F) : usecF F ≤ 1000000 := by
  have h := numVal_lt (D := F.take 7) (fun c hc => hF c (List.mem_of_mem_take hc))
  have hk : (F.take 7).length ≤ 7 := by rw [List.length_take]; omega
  unfold usecF
  generalize (F.take 7).length = k at *
  generalize numVal 10 (F.take 7) = a at *
  have h7 : 10 ^ (7 - k) * a ≤ 10 ^ 7 := by
    have : 10 ^ (7 - k) * a ≤ 10 ^ (7 - k) * 10 ^ k := Nat.mul_le_mul_left _ h.le
    rw [← pow_add, show 7 - k + k = 7 by omega] at this
    exact this
  generalize 10 ^ (7 - k) * a = M at *
  omega

theorem mk_ok (H : Nearest fl) {neg : Bool} {d u : Nat} (hd : d ≤ 9000000000) (hu : u ≤ 1000000) :
    mk fl neg (d : ℚ) (u : Int) = .ok (if neg then -((d * 1000000 + u : Nat) : ℚ) else ((d * 1000000 + u : Nat) : ℚ)) := by
  unfold mk
  have e1 : (d : ℚ) * 1000000 = ((d * 1000000 : Nat) : ℚ) := by push_cast; ring
  rw [e1, chkf_nat H (by omega), ok_bind]
  have e2 : fl ((u : Int) : ℚ) = (u : ℚ) := by
    rw [Int.cast_natCast]; exact H.exact (nat_double (by omega))
  rw [e2]
  have e3 : ((d * 1000000 : Nat) : ℚ) + (u : ℚ) = ((d * 1000000 + u : Nat) : ℚ) := by push_cast; ring
  rw [e3, chkf_nat H (by omega), ok_bind]

end Mosml.Times
