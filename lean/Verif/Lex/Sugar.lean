import Verif.Lex.Spec

/-!
C48: the notation of lexer definitions: src/lex/Gram_aux.sml, the actions of src/lex/Grammar.grm and the expansion of names in src/lex/Mainlex.sml.
-/
namespace Mosml.Lex

/-- Gram_aux.sml:7-15: `re_string n` on the characters from `n` -/
def regexpForString : List Nat → Regexp
  | [] => .epsilon
  | [c] => .characters [c]
  | c :: c' :: cs => .sequence (.characters [c]) (regexpForString (c' :: cs))

/-- Gram_aux.sml:17-24 -/
def charClass (c1 c2 : Nat) : List Nat :=
  if c1 > c2 then [] else c1 :: charClass (c1 + 1) c2
  termination_by c2 + 1 - c1

/-- Gram_aux.sml:26 -/
def allChars : List Nat := charClass 1 255

/-- Gram_aux.sml:28-31 -/
def subtract (xs ys : List Nat) : List Nat := match ys with
  | [] => xs
  | _ => xs.filter (fun x => !ys.contains x)

/-- Syntax.sml:7-14: expressions as the parser makes them -/
inductive SRegexp where
  | epsilon
  | characters (cl : List Nat)
  | sequence (r1 r2 : SRegexp)
  | alternative (r1 r2 : SRegexp)
  | repetition (r : SRegexp)
  | name (s : String)

/-- Mainlex.sml:15-30: `none` when the name is undefined (exit 2) -/
def expandRe (ls : List (String × Regexp)) : SRegexp → Option Regexp
  | .epsilon => some .epsilon
  | .characters cl => some (.characters cl)
  | .sequence r1 r2 => match expandRe ls r1, expandRe ls r2 with
    | some a, some b => some (.sequence a b)
    | _, _ => none
  | .alternative r1 r2 => match expandRe ls r1, expandRe ls r2 with
    | some a, some b => some (.alternative a b)
    | _, _ => none
  | .repetition r => match expandRe ls r with
    | some a => some (.repetition a)
    | none => none
  | .name s => ls.lookup s

/-- Mainlex.sml:32-33, 72: the definitions in turn, the newest first in the list -/
def expandLets : List (String × SRegexp) → List (String × Regexp) → Option (List (String × Regexp))
  | [], ls => some ls
  | (name, re) :: rest, ls => match expandRe ls re with
    | some r => expandLets rest ((name, r) :: ls)
    | none => none

/-! ### what the notation means -/

/-- the language of an expression when names stand for languages -/
def SMatches (ρ : String → Option (List Nat → Prop)) : SRegexp → List Nat → Prop
  | .epsilon, w => w = []
  | .characters cl, w => ∃ c ∈ cl, w = [c]
  | .sequence r1 r2, w => ∃ w1 w2, w = w1 ++ w2 ∧ SMatches ρ r1 w1 ∧ SMatches ρ r2 w2
  | .alternative r1 r2, w => SMatches ρ r1 w ∨ SMatches ρ r2 w
  | .repetition r, w => StarOf (SMatches ρ r) w
  | .name s, w => ∃ P, ρ s = some P ∧ P w

/-- every name of the expression is defined -/
def Defined (ρ : String → Option (List Nat → Prop)) : SRegexp → Prop
  | .epsilon => True
  | .characters _ => True
  | .sequence r1 r2 => Defined ρ r1 ∧ Defined ρ r2
  | .alternative r1 r2 => Defined ρ r1 ∧ Defined ρ r2
  | .repetition r => Defined ρ r
  | .name s => ∃ P, ρ s = some P

/-- the meaning of a series of definitions: each may use the earlier ones, the latest of a name counts -/
def lets (ρ : String → Option (List Nat → Prop)) : List (String × SRegexp) → String → Option (List Nat → Prop)
  | [] => ρ
  | (name, re) :: rest => lets (fun s => if s = name then some (SMatches ρ re) else ρ s) rest

def AllDefined (ρ : String → Option (List Nat → Prop)) : List (String × SRegexp) → Prop
  | [] => True
  | (name, re) :: rest => Defined ρ re ∧ AllDefined (fun s => if s = name then some (SMatches ρ re) else ρ s) rest

/-- the environment of expressions agrees with that of languages -/
def Agree (ls : List (String × Regexp)) (ρ : String → Option (List Nat → Prop)) : Prop := ∀ s, (ls.lookup s).map Matches = ρ s

theorem expandRe_ok (ls : List (String × Regexp)) (ρ : String → Option (List Nat → Prop)) (h : Agree ls ρ) (r : SRegexp) :
    (Defined ρ r ↔ (expandRe ls r).isSome) ∧ ∀ e, expandRe ls r = some e → Matches e = SMatches ρ r := by
  induction r with
  | epsilon => exact ⟨by simp [Defined, expandRe], fun e he => by cases he; rfl⟩
  | characters => exact ⟨by simp [Defined, expandRe], fun e he => by cases he; rfl⟩
  | sequence r1 r2 i1 i2 =>
    refine ⟨?_, fun e he => ?_⟩
    · rw [Defined, i1.1, i2.1, expandRe]
      cases expandRe ls r1 <;> cases expandRe ls r2 <;> simp
    · rw [expandRe] at he
      cases h1 : expandRe ls r1 with
      | none => simp [h1] at he
      | some a =>
        cases h2 : expandRe ls r2 with
        | none => simp [h1, h2] at he
        | some b =>
          simp only [h1, h2, Option.some.injEq] at he
          subst he
          funext w
          simp only [Matches, SMatches, i1.2 a h1, i2.2 b h2]
  | alternative r1 r2 i1 i2 =>
    refine ⟨?_, fun e he => ?_⟩
    · rw [Defined, i1.1, i2.1, expandRe]
      cases expandRe ls r1 <;> cases expandRe ls r2 <;> simp
    · rw [expandRe] at he
      cases h1 : expandRe ls r1 with
      | none => simp [h1] at he
      | some a =>
        cases h2 : expandRe ls r2 with
        | none => simp [h1, h2] at he
        | some b =>
          simp only [h1, h2, Option.some.injEq] at he
          subst he
          funext w
          simp only [Matches, SMatches, i1.2 a h1, i2.2 b h2]
  | repetition r ih =>
    refine ⟨?_, fun e he => ?_⟩
    · rw [Defined, ih.1, expandRe]
      cases expandRe ls r <;> simp
    · rw [expandRe] at he
      cases h1 : expandRe ls r with
      | none => simp [h1] at he
      | some a =>
        simp only [h1, Option.some.injEq] at he
        subst he
        funext w
        simp only [Matches, SMatches, ih.2 a h1]
  | name s =>
    have := h s
    refine ⟨?_, fun e he => ?_⟩
    · rw [Defined, expandRe, ← this]; cases ls.lookup s <;> simp
    · rw [expandRe] at he
      rw [he, Option.map_some] at this
      funext w
      simp [SMatches, ← this]

/-- names stand for the languages of their definitions, and the expansion succeeds exactly if every name used is defined before -/
theorem C48_names (defs : List (String × SRegexp)) (r : SRegexp) :
    (AllDefined (fun _ => none) defs ↔ (expandLets defs []).isSome) ∧
    ∀ ls, expandLets defs [] = some ls → (Defined (lets (fun _ => none) defs) r ↔ (expandRe ls r).isSome) ∧
      ∀ e, expandRe ls r = some e → ∀ w, Matches e w ↔ SMatches (lets (fun _ => none) defs) r w := by
  suffices h : ∀ (defs : List (String × SRegexp)) ls0 ρ, Agree ls0 ρ → (AllDefined ρ defs ↔ (expandLets defs ls0).isSome) ∧
      ∀ ls, expandLets defs ls0 = some ls → Agree ls (lets ρ defs) by
    obtain ⟨h1, h2⟩ := h defs [] (fun _ => none) (fun s => by simp)
    refine ⟨h1, fun ls hl => ?_⟩
    have := expandRe_ok ls _ (h2 ls hl) r
    exact ⟨this.1, fun e he w => by rw [this.2 e he]⟩
  intro defs
  induction defs with
  | nil =>
    intro ls0 ρ h
    exact ⟨by simp [AllDefined, expandLets], fun ls hl => by cases hl; exact h⟩
  | cons d defs ih =>
    obtain ⟨name, re⟩ := d
    intro ls0 ρ h
    have hr := expandRe_ok ls0 ρ h re
    cases he : expandRe ls0 re with
    | none =>
      have : ¬ Defined ρ re := by rw [hr.1, he]; simp
      exact ⟨by simp [AllDefined, expandLets, he, this], fun ls hl => by simp [expandLets, he] at hl⟩
    | some e =>
      have hd : Defined ρ re := by rw [hr.1, he]; simp
      have agree : Agree ((name, e) :: ls0) (fun s => if s = name then some (SMatches ρ re) else ρ s) := by
        intro s
        by_cases hs : s = name
        · subst hs; simp [hr.2 e he]
        · have : (s == name) = false := by simpa using hs
          simp only [List.lookup, this, hs, if_false]
          exact h s
      obtain ⟨h1, h2⟩ := ih _ _ agree
      refine ⟨?_, fun ls hl => ?_⟩
      · simp only [AllDefined, hd, true_and, expandLets, he]; exact h1
      · simp only [expandLets, he] at hl
        exact h2 ls hl

theorem mem_charClass (c1 c2 c : Nat) : c ∈ charClass c1 c2 ↔ c1 ≤ c ∧ c ≤ c2 := by
  fun_induction charClass c1 c2 with
  | case1 c1 h => simp; omega
  | case2 c1 h ih => simp only [List.mem_cons, ih]; omega

/-- a string matches itself only; a range its characters; `_` every character but NUL; a complement the other characters except NUL -/
theorem C48_notation : (∀ s w, Matches (regexpForString s) w ↔ w = s) ∧ (∀ c1 c2 c, c ∈ charClass c1 c2 ↔ c1 ≤ c ∧ c ≤ c2) ∧
    (∀ c, c ∈ allChars ↔ 1 ≤ c ∧ c ≤ 255) ∧ (∀ ys c, c ∈ subtract allChars ys ↔ (1 ≤ c ∧ c ≤ 255) ∧ c ∉ ys) := by
  refine ⟨fun s w => ?_, mem_charClass, fun c => mem_charClass 1 255 c, fun ys c => ?_⟩
  · induction s generalizing w with
    | nil => exact Iff.rfl
    | cons c s ih =>
      cases s with
      | nil => simp [regexpForString, Matches]
      | cons c' s =>
        simp only [regexpForString, Matches]
        constructor
        · rintro ⟨w1, w2, rfl, ⟨d, hd, rfl⟩, h⟩
          rw [List.mem_singleton] at hd
          rw [hd, (ih w2).1 h]; rfl
        · rintro rfl
          exact ⟨[c], c' :: s, rfl, ⟨c, by simp, rfl⟩, (ih _).2 rfl⟩
  · have := mem_charClass 1 255 c
    unfold subtract
    split
    · simpa [allChars] using this
    · rw [List.mem_filter, allChars, this]
      simp

example : ∃ e, expandRe [("d", .characters [48])] (.repetition (.name "d")) = some e ∧ Matches e [48, 48] :=
  ⟨_, rfl, StarOf.cons (w1 := [48]) ⟨48, by simp, rfl⟩ (StarOf.cons (w1 := [48]) (w2 := []) ⟨48, by simp, rfl⟩ .nil)⟩

end Mosml.Lex
