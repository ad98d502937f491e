import Verif.PM.Model
import Verif.Util

/-! # C97: project files are read as they are written -/
namespace Mosml.PM
open Mosml.Num (chars)

/-! ## grammar -/

/-- the ways to write a body -/
inductive Writes : Body → List Token → Prop where
  | null : Writes .null []
  | src {f b ts} : Writes b ts → Writes (.src f b) (.filename f :: ts)
  | top {f b ts} : Writes b ts → Writes (.src f b) (.toplevelT :: .filename f :: ts)
  | str {f b ts} : Writes b ts → Writes (.strsrc f b) (.structureT :: .filename f :: ts)
  | loc {b1 b2 b3 t1 t2 t3} : Writes b1 t1 → Writes b2 t2 → Writes b3 t3 →
      Writes (.locl b1 b2 b3) (.localT :: (t1 ++ .inT :: (t2 ++ .endT :: t3)))

/-- the ways to write a file -/
inductive WritesFile : File → List Token → Prop where
  | plain {b ts} : Writes b ts → WritesFile ([], b) ts
  | import {fs b ts} : Writes b ts →
      WritesFile (fs, b) (.importT :: (fs.map Token.filename ++ .inT :: (ts ++ [.endT])))

/-- what can follow a body -/
def Stops (r : List Token) : Prop := ∃ t u, r = t :: u ∧ (t = .inT ∨ t = .endT ∨ t = .eof)

theorem body_stops {r : List Token} (h : Stops r) (n : Nat) : body n r = (.null, r) := by
  obtain ⟨t, u, rfl, h⟩ := h
  cases n with
  | zero => rfl
  | succ n => rcases h with rfl | rfl | rfl <;> rfl

theorem body_writes {b : Body} {ts : List Token} (h : Writes b ts) :
    ∀ (r : List Token), Stops r → ∀ n, ts.length < n → body n (ts ++ r) = (b, r) := by
  induction h with
  | null => intro r hr n _; exact body_stops hr n
  | src _ ih =>
    intro r hr n hn
    obtain ⟨n, rfl⟩ := Nat.exists_eq_succ_of_ne_zero (show n ≠ 0 by omega)
    rw [List.length_cons] at hn
    rw [List.cons_append, body]
    simp only [ih r hr n (by omega)]
  | top _ ih =>
    intro r hr n hn
    obtain ⟨n, rfl⟩ := Nat.exists_eq_succ_of_ne_zero (show n ≠ 0 by omega)
    rw [List.length_cons, List.length_cons] at hn
    rw [List.cons_append, List.cons_append, body]
    simp only [ih r hr n (by omega)]
  | str _ ih =>
    intro r hr n hn
    obtain ⟨n, rfl⟩ := Nat.exists_eq_succ_of_ne_zero (show n ≠ 0 by omega)
    rw [List.length_cons, List.length_cons] at hn
    rw [List.cons_append, List.cons_append, body]
    simp only [ih r hr n (by omega)]
  | @loc b1 b2 b3 t1 t2 t3 _ _ _ i1 i2 i3 =>
    intro r hr n hn
    obtain ⟨n, rfl⟩ := Nat.exists_eq_succ_of_ne_zero (show n ≠ 0 by omega)
    simp only [List.length_cons, List.length_append] at hn
    have e : Token.localT :: (t1 ++ .inT :: (t2 ++ .endT :: t3)) ++ r =
        .localT :: (t1 ++ .inT :: (t2 ++ .endT :: (t3 ++ r))) := by simp
    rw [e, body]
    simp only [i1 (.inT :: (t2 ++ .endT :: (t3 ++ r))) ⟨_, _, rfl, Or.inl rfl⟩ n (by omega),
      i2 (.endT :: (t3 ++ r)) ⟨_, _, rfl, Or.inr (Or.inl rfl)⟩ n (by omega), i3 r hr n (by omega)]

theorem body_sound (n : Nat) (ts : List Token) : ∃ p, Writes (body n ts).1 p ∧ ts = p ++ (body n ts).2 := by
  induction n generalizing ts with
  | zero => exact ⟨[], .null, rfl⟩
  | succ n ih =>
    have hnull : ∃ p, Writes Body.null p ∧ ts = p ++ ts := ⟨[], .null, rfl⟩
    unfold body
    split
    · rename_i f r
      obtain ⟨p, h1, h2⟩ := ih r
      exact ⟨_, .src h1, by rw [List.cons_append]; exact congrArg _ h2⟩
    · rename_i f r
      obtain ⟨p, h1, h2⟩ := ih r
      exact ⟨_, .top h1, by rw [List.cons_append, List.cons_append]; exact congrArg (fun x => _ :: _ :: x) h2⟩
    · rename_i f r
      obtain ⟨p, h1, h2⟩ := ih r
      exact ⟨_, .str h1, by rw [List.cons_append, List.cons_append]; exact congrArg (fun x => _ :: _ :: x) h2⟩
    · rename_i r
      obtain ⟨p1, h1, e1⟩ := ih r
      simp only []
      split
      · rename_i r2 hr2
        obtain ⟨p2, h2, e2⟩ := ih r2
        split
        · rename_i r3 hr3
          obtain ⟨p3, h3, e3⟩ := ih r3
          refine ⟨_, .loc h1 h2 h3, ?_⟩
          rw [hr2] at e1
          rw [hr3] at e2
          simp only [List.cons_append, List.append_assoc]
          rw [← e3, ← e2, ← e1]
        · exact hnull
      · exact hnull
    · exact hnull

theorem imports_append (fs : List Str) (r : List Token) (h : ∀ f u, r ≠ .filename f :: u) :
    imports (fs.map Token.filename ++ r) = (fs, r) := by
  induction fs with
  | nil =>
    rw [List.map_nil, List.nil_append]
    cases r with
    | nil => rfl
    | cons t u =>
      cases t with
      | filename f => exact absurd rfl (h f u)
      | _ => rfl
  | cons f fs ih => rw [List.map_cons, List.cons_append, imports, ih]

theorem imports_sound (ts : List Token) : ts = (imports ts).1.map Token.filename ++ (imports ts).2 := by
  induction ts with
  | nil => rfl
  | cons t ts ih =>
    cases t with
    | filename f => rw [imports]; simp only [List.map_cons, List.cons_append]; rw [← ih]
    | _ => rfl

/-- A sequence of tokens is read as a project file exactly if it is a way to write that file, followed by the
end of the text. -/
theorem C97_grammar (ts : List Token) (f : File) :
    pmfile ts = some f ↔ ∃ p r, WritesFile f p ∧ ts = p ++ .eof :: r := by
  constructor
  · intro h
    have hfin : ∀ (g : File) (r : List Token),
        finish g r = some f → g = f ∧ ∃ u, r = .eof :: u := by
      intro g r hr
      unfold finish at hr
      split at hr
      · exact ⟨Option.some.inj hr, _, rfl⟩
      · cases hr
    unfold pmfile at h
    simp only [] at h
    split at h
    · rename_i r
      split at h
      · rename_i r2 hr2
        split at h
        · rename_i r3 hr3
          obtain ⟨rfl, u, rfl⟩ := hfin _ _ h
          obtain ⟨p, h1, h2⟩ := body_sound (List.length (Token.importT :: r) + 1) r2
          refine ⟨_, u, .import h1, ?_⟩
          rw [hr3] at h2
          have h3 := imports_sound r
          rw [hr2, h2] at h3
          simp only [List.cons_append, List.append_assoc, List.nil_append]
          exact congrArg _ h3
        · obtain ⟨-, u, e⟩ := hfin _ _ h
          cases e
      · obtain ⟨-, u, e⟩ := hfin _ _ h
        cases e
    · obtain ⟨rfl, u, e⟩ := hfin _ _ h
      obtain ⟨p, h1, h2⟩ := body_sound (ts.length + 1) ts
      rw [e] at h2
      exact ⟨p, u, .plain h1, h2⟩
  · rintro ⟨p, r, hw, rfl⟩
    cases hw with
    | plain hb =>
      have hbody := body_writes hb (.eof :: r) ⟨_, _, rfl, Or.inr (Or.inr rfl)⟩ ((p ++ .eof :: r).length + 1)
        (by rw [List.length_append]; omega)
      unfold pmfile
      simp only []
      split
      · rename_i r' heq
        cases hb <;> simp at heq
      · simp only [hbody, finish]
    | @«import» fs b ts hb =>
      have e : Token.importT :: (fs.map Token.filename ++ .inT :: (ts ++ [.endT])) ++ .eof :: r =
          .importT :: (fs.map Token.filename ++ .inT :: (ts ++ .endT :: .eof :: r)) := by simp
      rw [e]
      have him := imports_append fs (.inT :: (ts ++ .endT :: .eof :: r)) (by intro f u h; cases h)
      have hbody := body_writes hb (.endT :: .eof :: r) ⟨_, _, rfl, Or.inr (Or.inl rfl)⟩
        ((Token.importT :: (fs.map Token.filename ++ .inT :: (ts ++ .endT :: .eof :: r))).length + 1)
        (by simp only [List.length_cons, List.length_append]; omega)
      unfold pmfile
      simp only [him, hbody, finish]

example : pmfile [.importT, .filename [65], .inT, .localT, .filename [66], .inT, .structureT, .filename [67], .endT,
    .toplevelT, .filename [68], .endT, .eof] =
    some ([[65]], .locl (.src [66] .null) (.strsrc [67] .null) (.src [68] .null)) := by decide

/-! ## tokens -/

/-- The text after the end of a comment of the given depth: comments nest. -/
def afterComment : Nat → Str → Option Str
  | _, [] => none
  | _, [_] => none
  | d, a :: b :: s =>
    if a = 42 ∧ b = 41 then (if d ≤ 1 then some s else afterComment (d - 1) s)
    else if a = 40 ∧ b = 42 then afterComment (d + 1) s
    else afterComment d (b :: s)

/-- white space -/
def Space (c : Nat) : Prop := c = 32 ∨ (9 ≤ c ∧ c ≤ 13)

/-- a character of a name: letter, digit, underscore, slash, minus, dot, colon, backslash -/
def NameChar (c : Nat) : Prop :=
  (48 ≤ c ∧ c ≤ 57) ∨ (65 ≤ c ∧ c ≤ 90) ∨ (97 ≤ c ∧ c ≤ 122) ∨ c ∈ [95, 47, 45, 46, 58, 92]

theorem fileChar_iff (c : Nat) : fileChar c = true ↔ NameChar c := by
  simp [fileChar, isAlphaNum, NameChar]
  tauto

theorem skipWS_append (ws s : Str) (h : ∀ c ∈ ws, Space c) : skipWS (ws ++ s) = skipWS s := by
  induction ws with
  | nil => rfl
  | cons c ws ih => rw [List.cons_append, skipWS, if_pos (show c = 32 ∨ (9 ≤ c ∧ c ≤ 13) from h c (by simp)), ih (fun d hd => h d (by simp [hd]))]

theorem skipWS_id {c : Nat} (s : Str) (h : ¬ Space c) : skipWS (c :: s) = c :: s := by
  rw [skipWS, if_neg (show ¬ (c = 32 ∨ (9 ≤ c ∧ c ≤ 13)) from h)]

theorem getChars_append (w s : Str) (hw : ∀ c ∈ w, NameChar c) (hs : ∀ c ∈ s.head?, ¬ NameChar c) :
    getChars fileChar (w ++ s) = (w, s) := by
  induction w with
  | nil =>
    cases s with
    | nil => rfl
    | cons c s =>
      rw [List.nil_append, getChars, if_neg]
      rw [fileChar_iff]
      exact hs c (by simp)
  | cons c w ih =>
    rw [List.cons_append, getChars, if_pos ((fileChar_iff c).mpr (hw c (by simp))),
      ih (fun d hd => hw d (by simp [hd]))]

theorem lex_name (fuel : Nat) (ws w s : Str) (hws : ∀ c ∈ ws, Space c) (hne : w ≠ []) (hw : ∀ c ∈ w, NameChar c)
    (hs : ∀ c ∈ s.head?, ¬ NameChar c) : lex (fuel + 1) 0 (ws ++ (w ++ s)) = .ok (keyword w) s := by
  have h1 : skipWS (w ++ s) = w ++ s := by
    obtain ⟨c, w, rfl⟩ := List.exists_cons_of_ne_nil hne
    rw [List.cons_append]
    apply skipWS_id
    have := hw c (by simp)
    simp only [NameChar, Space, List.mem_cons, List.not_mem_nil, or_false] at *
    omega
  rw [lex]
  simp only [skipWS_append ws _ hws, h1, getChars_append w s hw hs, if_neg hne]
  rfl

/-- A word is a keyword or a file name, whatever white space precedes it; at the end of the text there is the
token for the end; any other character is refused. -/
theorem C97_token (ws w s : Str) (c : Nat) (hws : ∀ c ∈ ws, Space c) (hw : ∀ c ∈ w, NameChar c)
    (hs : ∀ c ∈ s.head?, ¬ NameChar c) :
    (w ≠ [] → token (ws ++ (w ++ s)) = .ok (keyword w) s) ∧
    token ws = .ok .eof [] ∧
    (¬ NameChar c → ¬ Space c → c ≠ 40 → token (ws ++ c :: s) = .fail) ∧
    (w ∉ [chars "local", chars "in", chars "end", chars "import", chars "structure", chars "toplevel"] →
      keyword w = .filename w) ∧
    [chars "local", chars "in", chars "end", chars "import", chars "structure", chars "toplevel"].map keyword =
      [.localT, .inT, .endT, .importT, .structureT, .toplevelT] := by
  refine ⟨fun hne => lex_name _ ws w s hws hne hw hs, ?_, ?_, ?_, by decide +kernel⟩
  · have := skipWS_append ws [] hws
    rw [List.append_nil] at this
    rw [token, lex]
    simp only [this]
    rfl
  · intro h1 h2 h3
    have h4 : getChars fileChar (c :: s) = ([], c :: s) := by
      rw [getChars, if_neg (by rw [fileChar_iff]; exact h1)]
    have h5 : ∀ k, lit2 40 42 (c :: s) k = .fail := by
      intro k
      cases s with
      | nil => rfl
      | cons d s => rw [lit2, if_neg h3]
    rw [token, lex]
    simp only [skipWS_append ws _ hws, skipWS_id s h2, h4, h5]
    rfl
  · intro h
    simp only [List.mem_cons, List.not_mem_nil, or_false, not_or] at h
    obtain ⟨h1, h2, h3, h4, h5, h6⟩ := h
    rw [keyword, if_neg h1, if_neg h2, if_neg h3, if_neg h4, if_neg h5, if_neg h6]

example : token (chars "  local x") = .ok .localT (chars " x") ∧
    token (chars "lib/A.sml in") = .ok (.filename (chars "lib/A.sml")) (chars " in") ∧
    token (chars " ;") = .fail := by decide +kernel

theorem lex_fuel (f : Nat) : ∀ (d : Nat) (s : Str), s.length < f → ∀ g, s.length < g → lex f d s = lex g d s := by
  induction f with
  | zero => intro d s h; omega
  | succ f ih =>
    intro d s hf g hg
    obtain ⟨g, rfl⟩ := Nat.exists_eq_succ_of_ne_zero (show g ≠ 0 by omega)
    have hlit : ∀ (a b : Nat) (s : Str) (d : Nat), s.length < f + 1 → s.length < g + 1 →
        lit2 a b s (lex f d) = lit2 a b s (lex g d) := by
      intro a b s d h1 h2
      match s with
      | [] => rfl
      | [_] => rfl
      | x :: y :: rest =>
        rw [lit2, lit2]
        simp only [List.length_cons] at h1 h2
        rw [ih d rest (by omega) g (by omega)]
    have hsk : ∀ s : Str, (skipWS s).length ≤ s.length := by
      intro s
      induction s with
      | nil => exact le_rfl
      | cons c s ihs =>
        rw [skipWS]
        split
        · rw [List.length_cons]; omega
        · exact le_rfl
    cases d with
    | zero =>
      have := hlit 40 42 (skipWS s) 1 (by have := hsk s; omega) (by have := hsk s; omega)
      simp only [lex, this]
    | succ d =>
      have h1 := hlit 42 41 s d hf hg
      have h2 := hlit 40 42 s (d + 2) hf hg
      cases s with
      | nil => rfl
      | cons c s =>
        rw [List.length_cons] at hf hg
        have h3 := ih (d + 1) s (by omega) g (by omega)
        simp only [lex, h1, h2, h3]

theorem token_eq (s : Str) (g : Nat) (h : s.length < g) : lex g 0 s = token s :=
  lex_fuel g 0 s h _ (by omega)

theorem orElse_ok {a : R} {b : Unit → R} (h : a ≠ .fail) : orElse a b = a := by
  cases a with
  | fail => exact absurd rfl h
  | _ => rfl

theorem lit2_ne {a b : Nat} {x y : Nat} {s : Str} {k : Str → R} (h : ¬ (x = a ∧ y = b)) :
    lit2 a b (x :: y :: s) k = .fail := by
  rw [lit2]
  by_cases h1 : x = a
  · rw [if_pos h1, if_neg (fun h2 => h ⟨h1, h2⟩)]
  · rw [if_neg h1]

/-- what the lexer gives for a comment, if what comes after it (`q`) is not refused -/
theorem comment_gen (n : Nat) : ∀ (s : Str) (d : Nat), s.length ≤ n → 0 < d →
    (∀ rest, afterComment d s = some rest → token rest ≠ .fail) → ∀ g, s.length < g →
    lex g d s = (match afterComment d s with | some rest => token rest | none => .exn) := by
  induction n with
  | zero =>
    intro s d hn hd _ g hg
    obtain ⟨g, rfl⟩ := Nat.exists_eq_succ_of_ne_zero (show g ≠ 0 by omega)
    obtain ⟨d, rfl⟩ := Nat.exists_eq_succ_of_ne_zero (show d ≠ 0 by omega)
    have : s = [] := List.length_eq_zero_iff.mp (by omega)
    subst this
    rfl
  | succ n ih =>
    intro s d hn hd hq g hg
    obtain ⟨g, rfl⟩ := Nat.exists_eq_succ_of_ne_zero (show g ≠ 0 by omega)
    obtain ⟨d, rfl⟩ := Nat.exists_eq_succ_of_ne_zero (show d ≠ 0 by omega)
    have hnf : ∀ o : Option Str, (∀ rest, o = some rest → token rest ≠ .fail) →
        (match o with | some rest => token rest | none => .exn) ≠ R.fail := by
      intro o ho
      cases o with
      | none => intro h; cases h
      | some rest => exact ho rest rfl
    match s, hn, hq, hg with
    | [], _, _, _ => rfl
    | [c], hn, hq, hg =>
      have h1 : lex g (d + 1) [] = .exn := by
        have := ih [] (d + 1) (by simp) (by omega) (by intro r h; cases h) g (by simp at hg ⊢; omega)
        exact this
      rw [lex]
      simp only [lit2, h1, orElse]
      simp [afterComment]
    | a :: b :: s, hn, hq, hg =>
      simp only [List.length_cons] at hn hg
      rw [lex]
      by_cases hc : a = 42 ∧ b = 41
      · obtain ⟨rfl, rfl⟩ := hc
        have e : lit2 42 41 (42 :: 41 :: s) (lex g d) = lex g d s := rfl
        rw [e]
        cases d with
        | zero =>
          have ea : afterComment (0 + 1) (42 :: 41 :: s) = some s := by simp [afterComment]
          rw [ea]
          have := hq s ea
          rw [token_eq s g (by omega), orElse_ok this]
        | succ d =>
          have ea : afterComment (d + 1 + 1) (42 :: 41 :: s) = afterComment (d + 1) s := by simp [afterComment]
          simp only [Nat.succ_eq_add_one, ea] at hq ⊢
          have := ih s (d + 1) (by omega) (by omega) hq g (by omega)
          rw [this, orElse_ok (hnf _ hq)]
      · rw [lit2_ne hc]
        by_cases ho : a = 40 ∧ b = 42
        · obtain ⟨rfl, rfl⟩ := ho
          have ea : afterComment (d + 1) (40 :: 42 :: s) = afterComment (d + 2) s := by simp [afterComment]
          simp only [Nat.succ_eq_add_one, ea] at hq ⊢
          have := ih s (d + 2) (by omega) (by omega) hq g (by omega)
          have e : lit2 40 42 (40 :: 42 :: s) (lex g (d + 2)) = lex g (d + 2) s := rfl
          rw [e, this, orElse_ok (hnf _ hq)]
          rfl
        · rw [lit2_ne ho]
          have ea : afterComment (d + 1) (a :: b :: s) = afterComment (d + 1) (b :: s) := by
            rw [afterComment, if_neg hc, if_neg ho]
          simp only [Nat.succ_eq_add_one, ea] at hq ⊢
          have := ih (b :: s) (d + 1) (by simp; omega) (by omega) hq g (by simp; omega)
          rw [this, orElse_ok (hnf _ hq)]
          rfl

theorem token_open (ws s : Str) (hws : ∀ c ∈ ws, Space c) :
    token (ws ++ 40 :: 42 :: s) = orElse (lex (ws.length + s.length + 2) 1 s) (fun _ => .fail) := by
  have h1 : skipWS (40 :: 42 :: s) = 40 :: 42 :: s := skipWS_id _ (by simp [Space])
  have h2 : getChars fileChar (40 :: 42 :: s) = ([], 40 :: 42 :: s) := by
    rw [getChars, if_neg (by decide)]
  rw [token, lex]
  simp only [skipWS_append ws _ hws, h1, h2]
  have e : (ws ++ 40 :: 42 :: s).length = ws.length + s.length + 2 := by simp; omega
  rw [e]
  rfl

/-- A comment, however deeply comments are nested in it, is skipped: the token is the one that follows it, provided
that there is one. A comment that is not closed raises an exception. What is missing: if what follows the comment is
refused, the text is not always refused (`C97_comment_violation`). -/
theorem C97_comment_partial (ws s : Str) (hws : ∀ c ∈ ws, Space c) :
    (∀ rest, afterComment 1 s = some rest → token rest ≠ .fail → token (ws ++ 40 :: 42 :: s) = token rest) ∧
    (afterComment 1 s = none → token (ws ++ 40 :: 42 :: s) = .exn) := by
  constructor
  · intro rest h hr
    have := comment_gen s.length s 1 le_rfl (by omega)
      (by intro r h'; rw [h] at h'; cases h'; exact hr) (ws.length + s.length + 2) (by omega)
    rw [token_open ws s hws, this, h]
    exact orElse_ok hr
  · intro h
    have := comment_gen s.length s 1 le_rfl (by omega)
      (by intro r h'; rw [h] at h'; cases h') (ws.length + s.length + 2) (by omega)
    rw [token_open ws s hws, this, h]
    rfl

example : afterComment 1 (chars " a (* b *) c *) x") = some (chars " x") ∧ token (chars " x") ≠ .fail ∧
    token (chars "(* a (* b *) c *) x") = .ok (.filename [120]) [] ∧
    afterComment 1 (chars " a (* b *)") = none := by decide +kernel

/-- If a character that is not allowed follows a comment, the lexer goes back and takes the end of the comment for
part of it: a later end of comment makes it accept the text, and skip what stands between; without one, the
comment, which is closed, is reported as not closed. -/
theorem C97_comment_violation :
    ∃ s t rest rest', afterComment 1 s = some rest ∧ token rest = .fail ∧
      token (40 :: 42 :: s) = .ok (.filename (chars "x")) [] ∧
      afterComment 1 t = some rest' ∧ token rest' = .fail ∧ token (40 :: 42 :: t) = .exn :=
  ⟨chars " a *) ; *) x", chars " a *) ; x", chars " ; *) x", chars " ; x", by decide +kernel⟩

end Mosml.PM
