import Verif.RealText.Model
import Verif.RealText.Spec
import Verif.Num.LemmasScan
import Verif.Floats.Lemmas

namespace Mosml.RealText
open Mosml.Num (IsDig numVal isDig10)
open Mosml.Floats

theorem isDigit_iff (c : Nat) : isDigit c = true ↔ IsDig 10 c := by
  rw [isDig10]; simp [isDigit]

/-! ### The longest numeral -/

def splitSign : Str → Str × Str
  | 43 :: t => ([43], t)
  | 45 :: t => ([45], t)
  | 126 :: t => ([126], t)
  | s => ([], s)

def parseFrac (s : Str) : Str × Str := match s with
  | 46 :: t => if t.takeWhile isDigit = [] then ([], s) else (t.takeWhile isDigit, t.dropWhile isDigit)
  | _ => ([], s)

def parseEx (s : Str) : Option (Nat × Str × Str) × Str := match s with
  | e :: t => if e = 101 ∨ e = 69 then
      let (g, t1) := splitSign t
      if t1.takeWhile isDigit = [] then (none, s) else (some (e, g, t1.takeWhile isDigit), t1.dropWhile isDigit)
    else (none, s)
  | _ => (none, s)

def parse (s : Str) : Option (Lit × Str) :=
  let (g, s1) := splitSign s
  let D := s1.takeWhile isDigit
  let (F, s4) := parseFrac (s1.dropWhile isDigit)
  let (ex, s5) := parseEx s4
  if D = [] ∧ F = [] then none else some (⟨g, D, F, ex⟩, s5)

theorem splitSign_eq (s : Str) : s = (splitSign s).1 ++ (splitSign s).2 := by
  unfold splitSign; split <;> rfl

theorem splitSign_sign (s : Str) : IsSign (splitSign s).1 := by
  unfold splitSign IsSign; split <;> simp

theorem isSign_cases {g : Str} (h : IsSign g) : g = [] ∨ g = [43] ∨ g = [126] ∨ g = [45] := h

theorem splitSign_append {g t : Str} (hg : IsSign g) (ht : ∀ c t', t = c :: t' → c ≠ 43 ∧ c ≠ 45 ∧ c ≠ 126) :
    splitSign (g ++ t) = (g, t) := by
  rcases isSign_cases hg with rfl | rfl | rfl | rfl
  · rw [List.nil_append]
    unfold splitSign
    split
    · exact absurd rfl (ht _ _ rfl).1
    · exact absurd rfl (ht _ _ rfl).2.1
    · exact absurd rfl (ht _ _ rfl).2.2
    · rfl
  all_goals rfl

theorem takeWhile_allDig (s : Str) : AllDig (s.takeWhile isDigit) := fun c hc =>
  (isDigit_iff c).mp (List.all_eq_true.mp (List.all_takeWhile (p := isDigit) (l := s)) c hc)

theorem takeWhile_app {D t : Str} (hD : AllDig D) : (D ++ t).takeWhile isDigit = D ++ t.takeWhile isDigit :=
  List.takeWhile_append_of_pos (fun c hc => (isDigit_iff c).mpr (hD c hc))

theorem dropWhile_app {D t : Str} (hD : AllDig D) : (D ++ t).dropWhile isDigit = t.dropWhile isDigit :=
  List.dropWhile_append_of_pos (fun c hc => (isDigit_iff c).mpr (hD c hc))

theorem parseFrac_dot (t : Str) : parseFrac (46 :: t) =
    if t.takeWhile isDigit = [] then ([], 46 :: t) else (t.takeWhile isDigit, t.dropWhile isDigit) := rfl

theorem parseFrac_eq (s : Str) : s = (if (parseFrac s).1 = [] then [] else 46 :: (parseFrac s).1) ++ (parseFrac s).2 := by
  unfold parseFrac
  split
  · next t =>
    by_cases h : t.takeWhile isDigit = []
    · simp [h]
    · simp [h]
  · simp

theorem parseFrac_dig (s : Str) : AllDig (parseFrac s).1 := by
  unfold parseFrac
  split
  · split
    · intro c hc; simp at hc
    · exact takeWhile_allDig _
  · intro c hc; simp at hc

theorem parseEx_eq (s : Str) : s = (match (parseEx s).1 with | none => [] | some (e, g, X) => e :: (g ++ X)) ++ (parseEx s).2 := by
  cases s with
  | nil => rfl
  | cons e t =>
    by_cases he : e = 101 ∨ e = 69
    · have h1 := splitSign_eq t
      simp only [parseEx, he, if_true]
      generalize splitSign t = p at *
      obtain ⟨g, t1⟩ := p
      dsimp only at *
      by_cases h : t1.takeWhile isDigit = []
      · simp [h]
      · simp [h]
        rw [h1]
    · simp only [parseEx, he, if_false]
      rfl

theorem parseEx_wf (s : Str) : ∀ e g X, (parseEx s).1 = some (e, g, X) →
    (e = 101 ∨ e = 69) ∧ IsSign g ∧ X ≠ [] ∧ AllDig X := by
  intro e' g' X'
  unfold parseEx
  split
  · next e t =>
    split
    · next he =>
      have h1 := splitSign_sign t
      generalize splitSign t = p at *
      obtain ⟨g, t1⟩ := p
      dsimp only at *
      by_cases h : t1.takeWhile isDigit = []
      · simp [h]
      · simp only [h, if_false]
        intro hh
        cases hh
        exact ⟨he, h1, h, takeWhile_allDig _⟩
    · simp
  · simp

theorem parse_sound {s rest : Str} {l : Lit} (h : parse s = some (l, rest)) : l.WF ∧ s = l.str ++ rest := by
  unfold parse at h
  have h1 := splitSign_eq s
  have h1' := splitSign_sign s
  generalize splitSign s = p at *
  obtain ⟨g, s1⟩ := p
  dsimp only at *
  have h2 := parseFrac_eq (s1.dropWhile isDigit)
  have h2' := parseFrac_dig (s1.dropWhile isDigit)
  have h2'' : s1 = s1.takeWhile isDigit ++ s1.dropWhile isDigit := (List.takeWhile_append_dropWhile).symm
  have hD := takeWhile_allDig s1
  generalize s1.takeWhile isDigit = D at *
  generalize s1.dropWhile isDigit = s2 at *
  generalize parseFrac s2 = p at *
  obtain ⟨F, s4⟩ := p
  dsimp only at *
  have h3 := parseEx_eq s4
  have h3' := parseEx_wf s4
  generalize parseEx s4 = p at *
  obtain ⟨ex, s5⟩ := p
  dsimp only at *
  by_cases hn : D = [] ∧ F = []
  · rw [if_pos hn] at h; cases h
  · rw [if_neg hn] at h
    cases h
    refine ⟨⟨h1', hD, h2', by by_contra hc; push Not at hc; exact hn hc, h3'⟩, ?_⟩
    unfold Lit.str Lit.fracStr Lit.exStr
    dsimp only
    rw [h1, h2'', h2, h3]
    simp only [List.append_assoc]
    cases ex with
    | none => rfl
    | some p => obtain ⟨e, g2, X⟩ := p; rfl

theorem dig_not_sign {c : Nat} (h : IsDig 10 c) : c ≠ 43 ∧ c ≠ 45 ∧ c ≠ 126 ∧ c ≠ 46 ∧ c ≠ 101 ∧ c ≠ 69 := by
  rw [isDig10] at h; omega

theorem not_digit_dot : isDigit 46 = false := rfl

theorem parse_complete {s rest' : Str} {l' : Lit} (hw : l'.WF) (hs : s = l'.str ++ rest') :
    ∃ l rest, parse s = some (l, rest) ∧ l'.str.length ≤ l.str.length := by
  obtain ⟨g', D', F', ex'⟩ := l'
  obtain ⟨hg, hD, hF, hne, hex⟩ := hw
  dsimp only at *
  set Y : Str := Lit.fracStr ⟨g', D', F', ex'⟩ ++ (Lit.exStr ⟨g', D', F', ex'⟩ ++ rest') with hY
  have hs1 : s = g' ++ (D' ++ Y) := by rw [hs, Lit.str, hY]; simp [List.append_assoc]
  have hlen : (Lit.str ⟨g', D', F', ex'⟩).length = g'.length + (D'.length + ((Lit.fracStr ⟨g', D', F', ex'⟩).length + (Lit.exStr ⟨g', D', F', ex'⟩).length)) := by
    simp [Lit.str]
  have hsplit : splitSign s = (g', D' ++ Y) := by
    rw [hs1]
    apply splitSign_append hg
    intro c t hc
    cases D' with
    | cons d D'' =>
      rw [List.cons_append] at hc
      cases hc
      have := dig_not_sign (hD c (by simp))
      exact ⟨this.1, this.2.1, this.2.2.1⟩
    | nil =>
      have hF' : F' ≠ [] := by rcases hne with h | h; exact absurd rfl h; exact h
      rw [hY, Lit.fracStr, if_neg hF'] at hc
      simp only [List.nil_append, List.cons_append] at hc
      cases hc
      decide
  -- the exponent
  have exLen : ∀ s4 : Str, s4 = Lit.exStr ⟨g', D', F', ex'⟩ ++ rest' → ∃ e2, (parseEx s4).1 = e2 ∧
      (Lit.exStr ⟨g', D', F', ex'⟩).length ≤ (match e2 with | none => [] | some (e, g, X) => e :: (g ++ X)).length := by
    intro s4 h4
    refine ⟨_, rfl, ?_⟩
    cases hex' : ex' with
    | none => simp [Lit.exStr]
    | some p =>
      obtain ⟨e, g2, X⟩ := p
      obtain ⟨he, hg2, hX, hXd⟩ := hex e g2 X hex'
      have he' : e = 101 ∨ e = 69 := he
      have : s4 = e :: (g2 ++ (X ++ rest')) := by rw [h4, hex']; simp [Lit.exStr]
      rw [this]
      have hsp : splitSign (g2 ++ (X ++ rest')) = (g2, X ++ rest') := by
        apply splitSign_append hg2
        intro c t hc
        cases X with
        | nil => exact absurd rfl hX
        | cons d X' =>
          rw [List.cons_append] at hc
          cases hc
          have := dig_not_sign (hXd c (by simp))
          exact ⟨this.1, this.2.1, this.2.2.1⟩
      have htw : (X ++ rest').takeWhile isDigit = X ++ rest'.takeWhile isDigit := takeWhile_app hXd
      have hne2 : ¬ (X ++ rest'.takeWhile isDigit = []) := by simp [hX]
      simp only [parseEx, hsp, he', if_true, htw, hne2, if_false, Lit.exStr]
      simp
  have exHead : ex' ≠ none → ∃ c t, Lit.exStr ⟨g', D', F', ex'⟩ = c :: t ∧ isDigit c = false ∧ c ≠ 46 := by
    intro h
    cases hex' : ex' with
    | none => exact absurd hex' h
    | some p =>
      obtain ⟨e, g2, X⟩ := p
      obtain ⟨he, -⟩ := hex e g2 X hex'
      refine ⟨e, g2 ++ X, rfl, ?_, ?_⟩ <;> rcases he with rfl | rfl <;> decide
  unfold parse
  rw [hsplit]
  dsimp only
  rw [takeWhile_app hD, dropWhile_app hD]
  by_cases hF0 : F' = []
  · have hD0 : D' ≠ [] := by rcases hne with h | h; exact h; exact absurd hF0 h
    have hfs : Lit.fracStr ⟨g', D', F', ex'⟩ = [] := by simp [Lit.fracStr, hF0]
    have hY' : Y = Lit.exStr ⟨g', D', F', ex'⟩ ++ rest' := by rw [hY, hfs, List.nil_append]
    by_cases hx : ex' = none
    · have hes : Lit.exStr ⟨g', D', F', ex'⟩ = [] := by simp [Lit.exStr, hx]
      generalize parseFrac (Y.dropWhile isDigit) = p
      obtain ⟨F, s4⟩ := p
      dsimp only
      generalize parseEx s4 = p
      obtain ⟨ex, s5⟩ := p
      dsimp only
      rw [if_neg (by simp [hD0])]
      refine ⟨_, _, rfl, ?_⟩
      rw [hlen, hfs, hes]
      simp [Lit.str]
    · obtain ⟨c, t, hc, hcd, hc46⟩ := exHead hx
      have hYc : Y = c :: (t ++ rest') := by rw [hY', hc]; rfl
      have hdw : Y.dropWhile isDigit = Y := by rw [hYc]; simp [hcd]
      have hpf : parseFrac Y = ([], Y) := by
        rw [hYc]; unfold parseFrac
        split
        · next heq => cases heq; exact absurd rfl hc46
        · rfl
      rw [hdw, hpf]
      dsimp only
      obtain ⟨e2, he2, hel⟩ := exLen Y hY'
      generalize parseEx Y = p at *
      obtain ⟨ex, s5⟩ := p
      dsimp only at *
      subst he2
      rw [if_neg (by simp [hD0])]
      refine ⟨_, _, rfl, ?_⟩
      rw [hlen, hfs]
      have hel' : (Lit.exStr ⟨g', D', F', ex'⟩).length ≤
          (Lit.exStr ⟨g', D' ++ Y.takeWhile isDigit, [], ex⟩).length := by
        unfold Lit.exStr at *
        dsimp only at *
        cases ex with
        | none => exact hel
        | some q => obtain ⟨a, b, c⟩ := q; exact hel
      simp [Lit.str, Lit.fracStr]
      omega
  · have hfs : Lit.fracStr ⟨g', D', F', ex'⟩ = 46 :: F' := by simp [Lit.fracStr, hF0]
    have hYc : Y = 46 :: (F' ++ (Lit.exStr ⟨g', D', F', ex'⟩ ++ rest')) := by rw [hY, hfs]; rfl
    have hdw : Y.dropWhile isDigit = Y := by rw [hYc]; simp [not_digit_dot]
    have htw : Y.takeWhile isDigit = [] := by rw [hYc]; simp [not_digit_dot]
    have hpf : parseFrac Y = (F' ++ (Lit.exStr ⟨g', D', F', ex'⟩ ++ rest').takeWhile isDigit,
        (Lit.exStr ⟨g', D', F', ex'⟩ ++ rest').dropWhile isDigit) := by
      rw [hYc, parseFrac_dot, takeWhile_app hF, dropWhile_app hF, if_neg (by simp [hF0])]
    rw [hdw, htw, hpf, List.append_nil]
    dsimp only
    by_cases hx : ex' = none
    · have hes : Lit.exStr ⟨g', D', F', ex'⟩ = [] := by simp [Lit.exStr, hx]
      rw [hes, List.nil_append]
      generalize parseEx (rest'.dropWhile isDigit) = p
      obtain ⟨ex, s5⟩ := p
      dsimp only
      rw [if_neg (by simp [hF0])]
      refine ⟨_, _, rfl, ?_⟩
      rw [hlen, hfs, hes]
      simp [Lit.str, Lit.fracStr, hF0]
    · obtain ⟨c, t, hc, hcd, hc46⟩ := exHead hx
      have ht2 : (Lit.exStr ⟨g', D', F', ex'⟩ ++ rest').takeWhile isDigit = [] := by rw [hc]; simp [hcd]
      have hd2 : (Lit.exStr ⟨g', D', F', ex'⟩ ++ rest').dropWhile isDigit = Lit.exStr ⟨g', D', F', ex'⟩ ++ rest' := by
        rw [hc]; simp [hcd]
      rw [ht2, hd2, List.append_nil]
      obtain ⟨e2, he2, hel⟩ := exLen _ rfl
      generalize parseEx (Lit.exStr ⟨g', D', F', ex'⟩ ++ rest') = p at *
      obtain ⟨ex, s5⟩ := p
      dsimp only at *
      subst he2
      rw [if_neg (by simp [hF0])]
      refine ⟨_, _, rfl, ?_⟩
      rw [hlen, hfs]
      have hel' : (Lit.exStr ⟨g', D', F', ex'⟩).length ≤ (Lit.exStr ⟨g', D', F', ex⟩).length := by
        unfold Lit.exStr at *
        dsimp only at *
        cases ex with
        | none => exact hel
        | some q => obtain ⟨a, b, c⟩ := q; exact hel
      simp [Lit.str, Lit.fracStr, hF0]
      omega

theorem parse_longest {s rest : Str} {l : Lit} (h : parse s = some (l, rest)) : LongestLit s l rest := by
  refine ⟨(parse_sound h).1, (parse_sound h).2, ?_⟩
  intro l' rest' hw hs
  obtain ⟨l2, r2, h2, hle⟩ := parse_complete hw hs
  rw [h] at h2
  cases h2
  exact hle

theorem parse_none {s : Str} : parse s = none ↔ ¬ BeginsLit s := by
  constructor
  · rintro h ⟨l, rest, hw, hs⟩
    obtain ⟨l2, r2, h2, -⟩ := parse_complete hw hs
    rw [h] at h2; cases h2
  · intro h
    cases hp : parse s with
    | none => rfl
    | some p => exact absurd ⟨p.1, p.2, (parse_sound hp).1, (parse_sound hp).2⟩ h

end Mosml.RealText
