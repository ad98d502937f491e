import Verif.PM.Props

/-! # C97, continued: whole texts -/
namespace Mosml.PM
open Mosml.Num (chars)

/-- PMBasic.sml:38-42 toList of the stream of tokens (:72), `none` if a comment is not closed; the first argument bounds the number of
tokens -/
def tokens : Nat → Str → Option (List Token)
  | 0, _ => some []
  | n + 1, s =>
    match token s with
    | .ok .eof _ => some [.eof]
    | .ok t rest => (tokens n rest).map (t :: ·)
    | .fail => some []
    | .exn => none

/-- PMBasic.sml:110-116 parse of a text; the inner option is the failure of the parser. The code reads the tokens
lazily, so that an unclosed comment after the place where the parser fails is not noticed. -/
def parse (s : Str) : Option (Option File) := (tokens (s.length + 1) s).map pmfile

/-- what may stand between words: white space and comments -/
inductive Gap : Str → Prop where
  | nil : Gap []
  | blank {c g} : Space c → Gap g → Gap (c :: g)
  | comment {c g} : afterComment 1 c = some [] → Gap g → Gap (40 :: 42 :: (c ++ g))

/-- a text that consists of the given words -/
inductive Text : List Str → Str → Prop where
  | done {g} : Gap g → Text [] g
  | word {g w ws s} : Gap g → w ≠ [] → (∀ c ∈ w, NameChar c) → (∀ c ∈ s.head?, ¬ NameChar c) → Text ws s →
      Text (w :: ws) (g ++ (w ++ s))

theorem afterComment_append (n : Nat) : ∀ (c : Str) (d : Nat) (r rest : Str), c.length ≤ n → afterComment d c = some r →
    afterComment d (c ++ rest) = some (r ++ rest) := by
  induction n with
  | zero =>
    intro c d r rest hn h
    have : c = [] := List.length_eq_zero_iff.mp (by omega)
    subst this
    simp [afterComment] at h
  | succ n ih =>
    intro c d r rest hn h
    match c, hn, h with
    | [], _, h => simp [afterComment] at h
    | [_], _, h => simp [afterComment] at h
    | a :: b :: c, hn, h =>
      simp only [List.length_cons] at hn
      rw [List.cons_append, List.cons_append]
      rw [afterComment] at h ⊢
      by_cases h1 : a = 42 ∧ b = 41
      · rw [if_pos h1] at h ⊢
        by_cases h2 : d ≤ 1
        · rw [if_pos h2] at h ⊢
          cases h
          rfl
        · rw [if_neg h2] at h ⊢
          exact ih c _ r rest (by omega) h
      · rw [if_neg h1] at h ⊢
        by_cases h2 : a = 40 ∧ b = 42
        · rw [if_pos h2] at h ⊢
          exact ih c _ r rest (by omega) h
        · rw [if_neg h2] at h ⊢
          exact ih (b :: c) d r rest (by simp; omega) h

theorem token_blank (c : Nat) (s : Str) (h : Space c) : token (c :: s) = token s := by
  have h1 : skipWS (c :: s) = skipWS s := skipWS_append [c] s (by simpa using h)
  rw [← token_eq s ((c :: s).length + 1) (by simp; omega), token]
  simp only [lex, h1]

theorem token_gap {g : Str} (hg : Gap g) (s : Str) (h : token s ≠ .fail) : token (g ++ s) = token s := by
  induction hg with
  | nil => rfl
  | blank hc _ ih => rw [List.cons_append, token_blank _ _ hc, ih]
  | @comment c g hc _ ih =>
    have h1 := afterComment_append c.length c 1 [] (g ++ s) le_rfl hc
    have h2 := (C97_comment_partial [] (c ++ (g ++ s)) (by simp)).1 (g ++ s) h1 (by rw [ih]; exact h)
    have e : 40 :: 42 :: (c ++ g) ++ s = [] ++ 40 :: 42 :: (c ++ (g ++ s)) := by simp
    rw [e, h2, ih]

theorem keyword_ne (w : Str) : keyword w ≠ .eof := by
  unfold keyword
  repeat' split
  all_goals intro h; cases h

theorem tokens_text {ws : List Str} {s : Str} (h : Text ws s) : ∀ n, ws.length < n →
    tokens n s = some (ws.map keyword ++ [.eof]) := by
  induction h with
  | @done g hg =>
    intro n hn
    obtain ⟨n, rfl⟩ := Nat.exists_eq_succ_of_ne_zero (show n ≠ 0 by omega)
    have h1 : token [] = .ok .eof [] := rfl
    have h2 := token_gap hg [] (by rw [h1]; intro h; cases h)
    rw [List.append_nil] at h2
    rw [tokens, h2, h1]
    rfl
  | @word g w ws s hg hne hw hs _ ih =>
    intro n hn
    obtain ⟨n, rfl⟩ := Nat.exists_eq_succ_of_ne_zero (show n ≠ 0 by omega)
    rw [List.length_cons] at hn
    have h1 : token (w ++ s) = .ok (keyword w) s := (C97_token [] w s 0 (by simp) hw hs).1 hne
    have h2 := token_gap hg (w ++ s) (by rw [h1]; intro h; cases h)
    rw [tokens, h2, h1]
    have h3 := keyword_ne w
    rw [List.map_cons]
    generalize keyword w = t at *
    cases t with
    | eof => exact absurd rfl h3
    | _ => simp only [ih n (by omega)]; rfl

theorem text_length {ws : List Str} {s : Str} (h : Text ws s) : ws.length ≤ s.length := by
  induction h with
  | done _ => simp
  | @word g w ws s _ hne _ _ _ ih =>
    have : 0 < w.length := List.length_pos_iff.mpr hne
    simp only [List.length_cons, List.length_append]
    omega

/-- A text of words, between which there may be white space and comments of any nesting, is read as a project
file exactly if its words are a way to write that file. -/
theorem C97_text (ws : List Str) (s : Str) (f : File) (h : Text ws s) :
    parse s = some (some f) ↔ WritesFile f (ws.map keyword) := by
  have ht := tokens_text h (s.length + 1) (by have := text_length h; omega)
  have hne : Token.eof ∉ ws.map keyword := by
    intro hc
    obtain ⟨w, -, hw⟩ := List.mem_map.mp hc
    exact keyword_ne w hw
  rw [parse, ht, Option.map_some, Option.some_inj, C97_grammar]
  generalize ws.map keyword = m at *
  constructor
  · rintro ⟨p, r, hp, e⟩
    rcases List.append_eq_append_iff.mp e with ⟨a, h1, h2⟩ | ⟨a, h1, h2⟩
    · cases a with
      | nil => rw [List.append_nil] at h1; exact h1 ▸ hp
      | cons x a =>
        have := congrArg List.length h2
        simp at this
    · cases a with
      | nil => rw [List.append_nil] at h1; exact h1 ▸ hp
      | cons x a =>
        rw [List.cons_append] at h2
        obtain ⟨rfl, -⟩ := List.cons.inj h2
        exact absurd (by rw [h1]; simp) hne
  · intro hp
    exact ⟨m, [], hp, rfl⟩

example : parse (chars "import A.pm in (* x (* y *) *) local b.sml in structure c.sml end end") =
    some (some ([chars "A.pm"], .locl (.src (chars "b.sml") .null) (.strsrc (chars "c.sml") .null) .null)) := by
  decide +kernel

example : Text [chars "a", chars "b"] (chars " a(* x *)b") :=
  .word (g := [32]) (w := [97]) (s := chars "(* x *)b") (.blank (by simp [Space]) .nil) (by simp)
    (by simp [NameChar]) (by
      have e : (chars "(* x *)b").head? = some 40 := by decide +kernel
      intro c hc
      rw [e] at hc
      cases hc
      simp [NameChar])
    (.word (g := chars "(* x *)") (w := [98]) (s := []) (.comment (c := chars " x *)") (g := []) (by decide +kernel) .nil)
      (by simp) (by simp [NameChar]) (by simp) (.done .nil))

end Mosml.PM
