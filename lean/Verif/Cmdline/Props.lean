import Verif.Cmdline.Model
import Verif.Util

/-! # C94: the command lines of compiler and linker mean what they say -/
namespace Mosml.Cmdline
open Mosml.Num (chars)

/-! ## file names -/

theorem checkSuffix_iff (name suff : Str) : checkSuffix name suff = true ↔ ∃ p, name = p ++ suff := by
  unfold checkSuffix
  rw [Bool.and_eq_true, decide_eq_true_iff, beq_iff_eq]
  constructor
  · rintro ⟨h1, h2⟩
    refine ⟨name.take (name.length - suff.length), ?_⟩
    rw [List.take_of_length_le (by rw [List.length_drop]; omega)] at h2
    conv_lhs => rw [← List.take_append_drop (name.length - suff.length) name, h2]
  · rintro ⟨p, rfl⟩
    simp

theorem chopSuffix_append (p suff : Str) : chopSuffix (p ++ suff) suff = p := by
  simp [chopSuffix]

theorem slashPosFrom_some {s : Str} {k p : Nat} (hk : k ≤ s.length) (h : slashPosFrom s k = some p) :
    p < k ∧ s[p]? = some 47 ∧ ∀ j, p < j → j < k → s[j]? ≠ some 47 := by
  induction k with
  | zero => cases h
  | succ k ih =>
    rw [slashPosFrom] at h
    have e : (s.drop k).take 1 = [47] ↔ s[k]? = some 47 := by
      have hlt : k < s.length := by omega
      rw [List.getElem?_eq_getElem hlt, List.drop_eq_getElem_cons hlt, List.take_succ_cons, List.take_zero]
      simp
    by_cases hc : (s.drop k).take 1 = [47]
    · rw [if_pos hc] at h
      cases h
      exact ⟨by omega, e.mp hc, fun j h1 h2 => by omega⟩
    · rw [if_neg hc] at h
      obtain ⟨a, b, c⟩ := ih (by omega) h
      refine ⟨by omega, b, fun j h1 h2 => ?_⟩
      by_cases hj : j = k
      · subst hj; exact fun h' => hc (e.mpr h')
      · exact c j h1 (by omega)

theorem slashPosFrom_none {s : Str} {k : Nat} (hk : k ≤ s.length) (h : slashPosFrom s k = none) :
    ∀ j, j < k → s[j]? ≠ some 47 := by
  induction k with
  | zero => intro j hj; omega
  | succ k ih =>
    rw [slashPosFrom] at h
    have e : (s.drop k).take 1 = [47] ↔ s[k]? = some 47 := by
      have hlt : k < s.length := by omega
      rw [List.getElem?_eq_getElem hlt, List.drop_eq_getElem_cons hlt, List.take_succ_cons, List.take_zero]
      simp
    by_cases hc : (s.drop k).take 1 = [47]
    · rw [if_pos hc] at h; cases h
    · rw [if_neg hc] at h
      intro j hj
      by_cases hjk : j = k
      · subst hjk; exact fun h' => hc (e.mpr h')
      · exact ih (by omega) h j (by omega)

/-- A suffix is recognised exactly if the name ends in it, and is then taken off; the unit of a file is what
follows the last slash of its name. -/
theorem C94_filename (name suff : Str) :
    (checkSuffix name suff = true ↔ ∃ p, name = p ++ suff) ∧
    (∀ p, name = p ++ suff → chopSuffix name suff = p) ∧
    47 ∉ basename name ∧
    (name = basename name ∨ ∃ d, name = d ++ 47 :: basename name) := by
  refine ⟨checkSuffix_iff name suff, ?_, ?_, ?_⟩
  · rintro p rfl; exact chopSuffix_append p suff
  · unfold basename
    cases h : slashPosFrom name name.length with
    | none =>
      intro hm
      obtain ⟨j, hj, e⟩ := List.getElem_of_mem hm
      exact slashPosFrom_none le_rfl h j hj (by rw [List.getElem?_eq_getElem hj, e])
    | some p =>
      intro hm
      obtain ⟨j, hj, e⟩ := List.getElem_of_mem hm
      rw [List.length_drop] at hj
      rw [List.getElem_drop] at e
      refine (slashPosFrom_some le_rfl h).2.2 (p + 1 + j) (by omega) (by omega) ?_
      rw [List.getElem?_eq_getElem (by omega), e]
  · unfold basename
    cases h : slashPosFrom name name.length with
    | none => exact Or.inl rfl
    | some p =>
      right
      obtain ⟨h1, h2, -⟩ := slashPosFrom_some le_rfl h
      refine ⟨name.take p, ?_⟩
      rw [List.getElem?_eq_getElem h1] at h2
      show name = name.take p ++ 47 :: name.drop (p + 1)
      have h2' : name[p] = 47 := by simpa using h2
      rw [← h2', ← List.drop_eq_getElem_cons h1, List.take_append_drop]

example : checkSuffix (chars "lib/A.sml") (chars ".sml") = true ∧
    basename (chopSuffix (chars "lib/A.sml") (chars ".sml")) = chars "A" := by decide

/-- A name is looked for as it is; a name that begins with `/`, `./` or `../` nowhere else; any other in the
directories of the load path, in order, the first that contains it being taken. -/
theorem C94_find (ex : Str → Bool) (lp : List Str) (f : Str) :
    (ex f = true → findInPath ex lp f = some f) ∧
    (ex f = false → isAbsolute f = true → findInPath ex lp f = none) ∧
    (ex f = false → isAbsolute f = false →
      (∀ pre d post, lp = pre ++ d :: post → (∀ a ∈ pre, ex (concat a f) = false) → ex (concat d f) = true →
        findInPath ex lp f = some (concat d f)) ∧
      ((∀ a ∈ lp, ex (concat a f) = false) → findInPath ex lp f = none)) ∧
    (∀ d, concat d f = if d = [] ∨ d.getLast? = some 47 then d ++ f else d ++ 47 :: f) ∧
    (isAbsolute f = true ↔ (∃ t, f = 47 :: t) ∨ (∃ t, f = 46 :: 47 :: t) ∨ (∃ t, f = 46 :: 46 :: 47 :: t)) := by
  refine ⟨?_, ?_, ?_, ?_, ?_⟩
  · intro h; simp [findInPath, h]
  · intro h1 h2; simp [findInPath, h1, h2]
  · intro h1 h2
    constructor
    · rintro pre d post rfl hp hd
      have : ∀ pre : List Str, (∀ a ∈ pre, ex (concat a f) = false) →
          findInPath.h ex f (pre ++ d :: post) = some (concat d f) := by
        intro pre
        induction pre with
        | nil => intro _; simp [findInPath.h, hd]
        | cons a pre ih =>
          intro hp
          rw [List.cons_append, findInPath.h]
          simp only [hp a (by simp)]
          exact ih (fun b hb => hp b (by simp [hb]))
      simp [findInPath, h1, h2, this pre hp]
    · intro hn
      have : ∀ lp : List Str, (∀ a ∈ lp, ex (concat a f) = false) → findInPath.h ex f lp = none := by
        intro lp
        induction lp with
        | nil => intro _; rfl
        | cons a lp ih =>
          intro hp
          rw [findInPath.h]
          simp only [hp a (by simp)]
          exact ih (fun b hb => hp b (by simp [hb]))
      simp [findInPath, h1, h2, this lp hn]
  · intro d
    unfold concat
    rcases List.eq_nil_or_concat d with rfl | ⟨l, x, rfl⟩
    · simp
    · simp
  · match f with
    | [] => simp [isAbsolute]
    | [a] => simp [isAbsolute]
    | [a, b] => simp [isAbsolute]
    | a :: b :: c :: t => simp [isAbsolute, or_assoc]

example : findInPath (fun f => f == chars "lib/A.ui") [chars "x", chars "lib"] (chars "A.ui") = some (chars "lib/A.ui") := by
  decide

/-! ## files of words -/

theorem readchars_word {w : Str} (hw : ∀ c ∈ w, isBlank c = false) (c : Nat) (hc : isBlank c = true) (rest : Str)
    (b : List Nat) (i : Nat) :
    ∃ b', readchars (w ++ c :: rest) b i = some (b', i + w.length, rest) ∧ b'.length = b.length ∧
      (i + w.length ≤ b.length → b'.take (i + w.length) = b.take i ++ w) := by
  induction w generalizing b i with
  | nil => exact ⟨b, by simp [readchars, hc], rfl, fun _ => by simp⟩
  | cons x w ih =>
    obtain ⟨b', h1, h2, h3⟩ := ih (fun c hc => hw c (by simp [hc]))
      (if i < b.length then b.set i x else b) (i + 1)
    refine ⟨b', ?_, ?_, ?_⟩
    · rw [List.cons_append, readchars, if_neg (by simp [hw x (by simp)]), h1]
      simp only [List.length_cons]
      congr 3
      omega
    · rw [h2]; split <;> simp
    · intro hle
      rw [List.length_cons] at hle
      have hlt : i < b.length := by omega
      rw [if_pos hlt, List.length_set] at h3
      have := h3 (by omega)
      have e : i + (x :: w).length = i + 1 + w.length := by rw [List.length_cons]; omega
      rw [e, this, List.take_succ_eq_append_getElem (by rw [List.length_set]; exact hlt)]
      simp [List.take_set_of_le]

theorem readchars_eof {w : Str} (hw : ∀ c ∈ w, isBlank c = false) (b : List Nat) (i : Nat) :
    readchars w b i = none := by
  induction w generalizing b i with
  | nil => rfl
  | cons x w ih =>
    rw [readchars, if_neg (by simp [hw x (by simp)]), ih (fun c hc => hw c (by simp [hc]))]

theorem readword_gap {g : Str} (hg : ∀ c ∈ g, isBlank c = true) (s : Str) (b : List Nat) :
    readword (g ++ s) b = readword s b := by
  induction g with
  | nil => rfl
  | cons x g ih =>
    rw [List.cons_append, readword, if_pos (hg x (by simp)), ih (fun c hc => hg c (by simp [hc]))]

theorem readword_word {w : Str} (hne : w ≠ []) (hw : ∀ c ∈ w, isBlank c = false) (c : Nat)
    (hc : isBlank c = true) (rest : Str) (b : List Nat) (hb : b.length = 1024) :
    (w.length ≤ 1024 → ∃ b', readword (w ++ c :: rest) b = .word w b' rest ∧ b'.length = 1024) ∧
    (1024 < w.length → readword (w ++ c :: rest) b = .subscript) := by
  obtain ⟨x, w, rfl⟩ := List.exists_cons_of_ne_nil hne
  obtain ⟨b', h1, h2, h3⟩ := readchars_word (fun c hc => hw c (by simp [hc])) c hc rest (b.set 0 x) 1
    (w := w)
  rw [List.length_set, hb] at h2 h3
  have hr : readword ((x :: w) ++ c :: rest) b =
      if 1 + w.length ≤ b'.length then .word (b'.take (1 + w.length)) b' rest else .subscript := by
    rw [List.cons_append, readword, if_neg (by simp [hw x (by simp)]), h1]
  rw [hr, h2]
  constructor
  · intro hl
    rw [List.length_cons] at hl
    refine ⟨b', ?_, h2⟩
    rw [if_pos (by omega), h3 (by omega)]
    obtain ⟨y, ys, rfl⟩ := List.exists_cons_of_ne_nil (show b ≠ [] by intro h; rw [h] at hb; cases hb)
    simp
  · intro hl
    rw [List.length_cons] at hl
    rw [if_neg (by omega)]

theorem readword_end {g w : Str} (hg : ∀ c ∈ g, isBlank c = true) (hw : ∀ c ∈ w, isBlank c = false) (b : List Nat) :
    (match readword (g ++ w) b with | .size => True | _ => False) := by
  rw [readword_gap hg]
  cases w with
  | nil => trivial
  | cons x w =>
    rw [readword, if_neg (by simp [hw x (by simp)]), readchars_eof (fun c hc => hw c (by simp [hc]))]
    trivial

/-- a text made of entries, each a gap (blanks), a word and the blank that ends the word -/
def textOf (es : List (Str × Str × Nat)) : Str := es.flatMap fun e => e.1 ++ (e.2.1 ++ [e.2.2])

/-- the entries are well-formed: gaps are blank, words are not empty and contain no blank -/
def WellFormed (es : List (Str × Str × Nat)) : Prop :=
  ∀ e ∈ es, (∀ c ∈ e.1, isBlank c = true) ∧ e.2.1 ≠ [] ∧ (∀ c ∈ e.2.1, isBlank c = false) ∧ isBlank e.2.2 = true

theorem readwords_text (es : List (Str × Str × Nat)) (hes : WellFormed es) (hlen : ∀ e ∈ es, e.2.1.length ≤ 1024)
    (g w : Str) (hg : ∀ c ∈ g, isBlank c = true) (hw : ∀ c ∈ w, isBlank c = false)
    (fuel : Nat) (hf : es.length < fuel) (b : List Nat) (hb : b.length = 1024) (l : List Str) :
    readwords fuel (textOf es ++ (g ++ w)) b l = some (l.reverse ++ es.map (fun e => e.2.1)) := by
  induction es generalizing fuel b l with
  | nil =>
    obtain ⟨fuel, rfl⟩ := Nat.exists_eq_succ_of_ne_zero (show fuel ≠ 0 by omega)
    have := readword_end hg hw b
    show readwords (fuel + 1) (g ++ w) b l = _
    rw [readwords]
    cases h : readword (g ++ w) b with
    | size => simp
    | subscript => rw [h] at this; exact this.elim
    | word _ _ _ => rw [h] at this; exact this.elim
  | cons e es ih =>
    obtain ⟨fuel, rfl⟩ := Nat.exists_eq_succ_of_ne_zero (show fuel ≠ 0 by omega)
    obtain ⟨h1, h2, h3, h4⟩ := hes e (by simp)
    obtain ⟨b', hr, hb'⟩ := (readword_word h2 h3 e.2.2 h4 (textOf es ++ (g ++ w)) b hb).1 (hlen e (by simp))
    have he : textOf (e :: es) ++ (g ++ w) = e.1 ++ (e.2.1 ++ e.2.2 :: (textOf es ++ (g ++ w))) := by
      simp [textOf]
    rw [he, readwords, readword_gap h1, hr]
    simp only
    rw [ih (fun e he => hes e (by simp [he])) (fun e he => hlen e (by simp [he])) fuel
      (by rw [List.length_cons] at hf; omega) b' hb' (e.2.1 :: l)]
    simp

theorem blank_iff (c : Nat) : isBlank c = true ↔ c ∈ [9, 10, 13, 32] := by
  simp [isBlank]
  tauto

theorem notBlank_iff (c : Nat) : isBlank c = false ↔ c ∉ [9, 10, 13, 32] := by
  rw [← blank_iff, Bool.not_eq_true]

theorem textOf_length (es : List (Str × Str × Nat)) : es.length ≤ (textOf es).length := by
  induction es with
  | nil => simp
  | cons e es ih =>
    have : textOf (e :: es) = e.1 ++ (e.2.1 ++ [e.2.2]) ++ textOf es := by simp [textOf]
    rw [this]
    simp
    omega

/-- the entries of a text: gaps consist of tabs, newlines, carriage returns and spaces, words are not empty
and contain none of these, and one of them ends each word -/
def Entries (es : List (Str × Str × Nat)) : Prop :=
  ∀ e ∈ es, (∀ c ∈ e.1, c ∈ [9, 10, 13, 32]) ∧ e.2.1 ≠ [] ∧ (∀ c ∈ e.2.1, c ∉ [9, 10, 13, 32]) ∧
    e.2.2 ∈ [9, 10, 13, 32]

theorem Entries.wf {es : List (Str × Str × Nat)} (h : Entries es) : WellFormed es := by
  intro e he
  obtain ⟨h1, h2, h3, h4⟩ := h e he
  exact ⟨fun c hc => (blank_iff c).mpr (h1 c hc), h2, fun c hc => (notBlank_iff c).mpr (h3 c hc),
    (blank_iff _).mpr h4⟩

/-- The words of a file given with `-files` are read in order, if each of them ends in a blank or newline
and has at most 1024 characters. Missing: see `C94_words_violation`. -/
theorem C94_words_partial (es : List (Str × Str × Nat)) (hes : Entries es)
    (hlen : ∀ e ∈ es, e.2.1.length ≤ 1024) (g : Str) (hg : ∀ c ∈ g, c ∈ [9, 10, 13, 32]) :
    fromStream (textOf es ++ g) = some (es.map fun e => e.2.1) := by
  replace hes := hes.wf
  replace hg : ∀ c ∈ g, isBlank c = true := fun c hc => (blank_iff c).mpr (hg c hc)
  have := readwords_text es hes hlen g [] hg (by simp) ((textOf es ++ g).length + 1)
    (by rw [List.length_append]; have := textOf_length es; omega) (List.replicate 1024 32) (List.length_replicate) []
  rw [List.append_nil] at this
  rw [fromStream, this]
  simp

example : fromStream (chars "A.uo  B.uo\n") = some [chars "A.uo", chars "B.uo"] := by decide +kernel

/-- Finding: the last word of the file is silently left out if no blank or newline follows it; and a word of
more than 1024 characters makes the reader raise `Subscript`. -/
theorem C94_words_violation (es : List (Str × Str × Nat)) (hes : Entries es)
    (hlen : ∀ e ∈ es, e.2.1.length ≤ 1024) (g w : Str) (hg : ∀ c ∈ g, c ∈ [9, 10, 13, 32])
    (hw : ∀ c ∈ w, c ∉ [9, 10, 13, 32]) :
    fromStream (textOf es ++ (g ++ w)) = some (es.map fun e => e.2.1) ∧
    (1024 < w.length → ∀ rest, fromStream (w ++ 10 :: rest) = none) := by
  replace hes := hes.wf
  replace hg : ∀ c ∈ g, isBlank c = true := fun c hc => (blank_iff c).mpr (hg c hc)
  replace hw : ∀ c ∈ w, isBlank c = false := fun c hc => (notBlank_iff c).mpr (hw c hc)
  constructor
  · have := readwords_text es hes hlen g w hg hw ((textOf es ++ (g ++ w)).length + 1)
      (by rw [List.length_append]; have := textOf_length es; omega) (List.replicate 1024 32) (List.length_replicate) []
    rw [fromStream, this]
    simp
  · intro hl rest
    have hne : w ≠ [] := by intro h; rw [h] at hl; cases hl
    have := (readword_word hne hw 10 (by decide) rest (List.replicate 1024 32) (List.length_replicate)).2 hl
    rw [fromStream, readwords, this]

example : fromStream (chars "A.uo B.uo") = some [chars "A.uo"] := by decide +kernel

/-! ## options -/

/-- An argument that does not begin with `-` goes to the default action; an option is executed with its
argument, whatever that looks like; an unknown option and a missing argument stop the program. -/
theorem C94_parse {σ : Type} (specs : List (Str × Spec σ)) (anon : Str → σ → Eff σ) (s : Str) (t : List Str) (st : σ) :
    (s.head? ≠ some 45 → ∀ st', anon s st = .ok st' → parse specs anon (s :: t) st = parse specs anon t st') ∧
    (∀ o f, lookup (45 :: o) specs = some (.unit f) → ∀ st', f st = .ok st' →
      parse specs anon ((45 :: o) :: t) st = parse specs anon t st') ∧
    (∀ o f, lookup (45 :: o) specs = some (.string f) → ∀ st', f s st = .ok st' →
      parse specs anon ((45 :: o) :: s :: t) st = parse specs anon t st') ∧
    (∀ o f, lookup (45 :: o) specs = some (.string f) →
      parse specs anon [45 :: o] st = .stop (.missing (45 :: o))) ∧
    (∀ o, lookup (45 :: o) specs = none → parse specs anon ((45 :: o) :: t) st = .stop (.unknown (45 :: o))) := by
  refine ⟨?_, ?_, ?_, ?_, ?_⟩
  · intro h st' he
    rw [parse, if_neg (fun hc => h hc.2), he]
  · intro o f h st' he
    rw [parse, if_pos ⟨by simp, rfl⟩, h]
    simp only [he]
  · intro o f h st' he
    rw [parse, if_pos ⟨by simp, rfl⟩, h]
    simp only [he]
  · intro o f h
    rw [parse, if_pos ⟨by simp, rfl⟩, h]
  · intro o h
    rw [parse, if_pos ⟨by simp, rfl⟩, h]

example : mainC [chars "-I", chars "-x", chars "A.ui"] = .done ⟨[], [chars "A"], false, [chars "-x"]⟩ ∧
    mainC [chars "-I"] = .stop (.missing (chars "-I")) := by decide +kernel

/-- Finding: `mosmlc` passes the options `-g` and `-debug` on to the compiler (launch/mosmlc.tpl:64-66),
which does not know them: whatever the other arguments before it, compilation stops there. -/
theorem C94_debug_violation (rest : List Str) (st : C) :
    parse specsC anonC (chars "-g" :: rest) st = .stop (.unknown (chars "-g")) ∧
    parse specsC anonC (chars "-debug" :: rest) st = .stop (.unknown (chars "-debug")) := by
  have h1 : lookup (chars "-g") specsC = none := rfl
  have h2 : lookup (chars "-debug") specsC = none := rfl
  exact ⟨(C94_parse specsC anonC [] rest st).2.2.2.2 _ h1, (C94_parse specsC anonC [] rest st).2.2.2.2 _ h2⟩

example : mainC [chars "-conservative", chars "-g", chars "A.sml"] = .stop (.unknown (chars "-g")) := by decide +kernel

/-! ## contexts -/

/-- an argument of the compiler: a mode, a file with the name of its unit, or a directory to search -/
inductive Item where
  | struct
  | toplevel
  | sig (n : Str)
  | sml (n : Str)
  | ui (n : Str)
  | incl (long : Bool) (d : Str)

/-- its text on the command line -/
def Item.text : Item → List Str
  | .struct => [chars "-structure"]
  | .toplevel => [chars "-toplevel"]
  | .sig n => [n ++ chars ".sig"]
  | .sml n => [n ++ chars ".sml"]
  | .ui n => [n ++ chars ".ui"]
  | .incl false d => [chars "-I", d]
  | .incl true d => [chars "-include", d]

/-- the directory that it adds to the load path -/
def Item.dir : Item → Option Str
  | .incl _ d => some d
  | _ => none

/-- the unit that it adds to the context of later files -/
def Item.unit : Item → Option Str
  | .sig n => some n
  | .sml n => some n
  | .ui n => some n
  | _ => none

/-- the mode that it selects -/
def Item.mode : Item → Option Bool
  | .struct => some false
  | .toplevel => some true
  | _ => none

/-- file names do not look like options -/
def Item.Plain (i : Item) : Prop := ∀ n, i.unit = some n → n.head? ≠ some 45

/-- what is compiled for the last of the given arguments: with the units named before it, except itself in
the case of a `.sml` file, and in the mode selected last -/
def entry (before : List Item) (i : Item) : Option (List Str × Str × Bool) :=
  let units := before.filterMap Item.unit
  let mode := ((before.filterMap Item.mode).getLast?).getD false
  match i with
  | .sig n => some (units, n ++ chars ".sig", mode)
  | .sml n => some (units.erase n, n ++ chars ".sml", mode)
  | _ => none

theorem remove_eq (k : Str) (l : List Str) : remove k l = l.erase k := by
  induction l with
  | nil => rfl
  | cons x l ih =>
    rw [remove, List.erase_cons]
    by_cases h : k = x
    · subst h; simp
    · rw [if_neg h, ih, if_neg (by simpa using fun e => h e.symm)]

theorem no_suffix {n a b : Str} (hl : a.length = b.length) (h : a ≠ b) : checkSuffix (n ++ a) b = false := by
  by_contra hc
  rw [Bool.not_eq_false, checkSuffix_iff] at hc
  obtain ⟨p, e⟩ := hc
  exact h (List.append_inj_right' e hl)

theorem no_suffix_ui {n : Str} {b : Str} (x y z w : Nat) (hb : b = [x, y, z, w]) (hw : w ≠ 105) :
    checkSuffix (n ++ chars ".ui") b = false := by
  by_contra hc
  rw [Bool.not_eq_false, checkSuffix_iff] at hc
  obtain ⟨p, e⟩ := hc
  have := congrArg List.getLast? e
  rw [hb] at this
  have e2 : chars ".ui" = [46, 117, 105] := by decide
  rw [e2] at this
  simp at this
  exact hw this.symm

theorem head_append {n a : Str} (hn : n.head? ≠ some 45) (ha : a.head? ≠ some 45) : (n ++ a).head? ≠ some 45 := by
  cases n with
  | nil => exact ha
  | cons x n => exact hn

/-- the state after the given arguments -/
def stateOf (before : List Item) (files : List (List Str × Str × Bool)) : C :=
  ⟨files, before.filterMap Item.unit, ((before.filterMap Item.mode).getLast?).getD false, before.filterMap Item.dir⟩

theorem parse_step (before : List Item) (files : List (List Str × Str × Bool)) (i : Item) (hi : i.Plain) (t : List Str) :
    parse specsC anonC (i.text ++ t) (stateOf before files) =
      parse specsC anonC t (stateOf (before ++ [i]) (files ++ (entry before i).toList)) := by
  cases i with
  | struct =>
    refine ((C94_parse specsC anonC [] t _).2.1 _ _ (show lookup (chars "-structure") specsC = some _ from rfl) _ rfl).trans ?_
    simp [stateOf, entry, Item.unit, Item.mode, Item.dir, List.filterMap_append, List.filterMap_cons]
  | toplevel =>
    refine ((C94_parse specsC anonC [] t _).2.1 _ _ (show lookup (chars "-toplevel") specsC = some _ from rfl) _ rfl).trans ?_
    simp [stateOf, entry, Item.unit, Item.mode, Item.dir, List.filterMap_append, List.filterMap_cons]
  | sig n =>
    refine (C94_parse specsC anonC _ t _).1 (head_append (hi n rfl) (by decide)) _ ?_
    show anonC (n ++ chars ".sig") _ = _
    rw [anonC, if_pos ((checkSuffix_iff _ _).mpr ⟨n, rfl⟩), chopSuffix_append]
    simp [stateOf, entry, Item.unit, Item.mode, Item.dir, List.filterMap_append, List.filterMap_cons]
  | sml n =>
    refine (C94_parse specsC anonC _ t _).1 (head_append (hi n rfl) (by decide)) _ ?_
    show anonC (n ++ chars ".sml") _ = _
    rw [anonC, if_neg (by rw [no_suffix (by decide) (by decide)]; decide),
      if_pos ((checkSuffix_iff _ _).mpr ⟨n, rfl⟩), chopSuffix_append]
    simp [remove_eq, stateOf, entry, Item.unit, Item.mode, Item.dir, List.filterMap_append, List.filterMap_cons]
  | ui n =>
    refine (C94_parse specsC anonC _ t _).1 (head_append (hi n rfl) (by decide)) _ ?_
    show anonC (n ++ chars ".ui") _ = _
    rw [anonC, if_neg (by rw [no_suffix_ui 46 115 105 103 (by decide) (by decide)]; decide),
      if_neg (by rw [no_suffix_ui 46 115 109 108 (by decide) (by decide)]; decide),
      if_pos ((checkSuffix_iff _ _).mpr ⟨n, rfl⟩), chopSuffix_append]
    simp [stateOf, entry, Item.unit, Item.mode, Item.dir, List.filterMap_append, List.filterMap_cons]

  | incl long d =>
    cases long with
    | false =>
      refine ((C94_parse specsC anonC d t _).2.2.1 _ _ (show lookup (chars "-I") specsC = some _ from rfl) _ rfl).trans ?_
      simp [stateOf, entry, Item.unit, Item.mode, Item.dir, List.filterMap_append, List.filterMap_cons]
    | true =>
      refine ((C94_parse specsC anonC d t _).2.2.1 _ _ (show lookup (chars "-include") specsC = some _ from rfl) _ rfl).trans ?_
      simp [stateOf, entry, Item.unit, Item.mode, Item.dir, List.filterMap_append, List.filterMap_cons]

/-- The compiler compiles the `.sig` and `.sml` files in the order of the command line, each in the mode
selected last before it and in the context of the units named before it, in order. Of these, a `.sml` file
leaves out its own unit once. The load path has the directories in the order given. -/
theorem C94_context (items : List Item) (h : ∀ i ∈ items, i.Plain) :
    ∃ st, mainC (items.flatMap Item.text) = .done st ∧ st.context = items.filterMap Item.unit ∧
      st.includes = items.filterMap Item.dir ∧
      st.files = (List.range items.length).flatMap fun k =>
        match items[k]? with
        | some i => (entry (items.take k) i).toList
        | none => [] := by
  have key : ∀ (rest before : List Item) (files : List (List Str × Str × Bool)), (∀ i ∈ rest, i.Plain) →
      parse specsC anonC (rest.flatMap Item.text) (stateOf before files) =
        .done (stateOf (before ++ rest) (files ++ (List.range rest.length).flatMap fun k =>
          match rest[k]? with
          | some i => (entry (before ++ rest.take k) i).toList
          | none => [])) := by
    intro rest
    induction rest with
    | nil => intro before files _; simp [parse]
    | cons i rest ih =>
      intro before files hr
      rw [List.flatMap_cons, parse_step before files i (hr i (by simp)), ih _ _ (fun j hj => hr j (by simp [hj]))]
      simp [List.range_succ_eq_map, List.flatMap_map, List.append_assoc]
  have := key items [] [] h
  refine ⟨_, this, by simp [stateOf], by simp [stateOf], ?_⟩
  simp [stateOf]

example : mainC [chars "A.sig", chars "A.sml", chars "-toplevel", chars "B.sml"] =
    .done ⟨[([], chars "A.sig", false), ([], chars "A.sml", false), ([chars "A", chars "A"], chars "B.sml", true)],
      [chars "A", chars "A", chars "B"], true, []⟩ := by decide +kernel

/-- Finding: the unit is left out of its own context only once, "to avoid a circular dependency"; named twice
before it, it remains there. -/
theorem C94_circular_violation :
    mainC [chars "A.sig", chars "A.ui", chars "A.sml"] =
      .done ⟨[([], chars "A.sig", false), ([chars "A"], chars "A.sml", false)],
        [chars "A", chars "A", chars "A"], false, []⟩ := by decide +kernel

/-- The linker links the preloaded units and then the files in the order of the command line, a `.sml` file
standing for its `.uo` file. -/
theorem C94_link (preloaded : List Str) (names : List (Str × Bool)) (files : List Str) :
    names.foldlM (m := Option) (fun fs (n : Str × Bool) =>
        match anonL (n.1 ++ if n.2 then chars ".sml" else chars ".uo") fs with
        | .ok fs' => some fs'
        | _ => none) files =
      some ((names.map fun n => n.1 ++ chars ".uo").reverse ++ files) ∧
    toLink preloaded ((names.map fun n => n.1 ++ chars ".uo").reverse) =
      preloaded.map (· ++ chars ".uo") ++ names.map (fun n => n.1 ++ chars ".uo") := by
  constructor
  · induction names generalizing files with
    | nil => rfl
    | cons n names ih =>
      have hstep : anonL (n.1 ++ if n.2 then chars ".sml" else chars ".uo") files =
          .ok ((n.1 ++ chars ".uo") :: files) := by
        obtain ⟨n, b⟩ := n
        unfold anonL
        cases b with
        | true =>
          simp only [if_true]
          rw [if_pos ((checkSuffix_iff _ _).mpr ⟨n, rfl⟩), chopSuffix_append]
        | false =>
          have hno : checkSuffix (n ++ chars ".uo") (chars ".sml") = false := by
            by_contra hc
            rw [Bool.not_eq_false, checkSuffix_iff] at hc
            obtain ⟨p, e⟩ := hc
            have := congrArg List.getLast? e
            have e1 : chars ".uo" = [46, 117, 111] := by decide
            have e2 : chars ".sml" = [46, 115, 109, 108] := by decide
            rw [e1, e2] at this
            simp at this
          simp only [Bool.false_eq_true, if_false]
          rw [if_neg (by rw [hno]; decide), if_pos ((checkSuffix_iff _ _).mpr ⟨n, rfl⟩)]
      rw [List.foldlM_cons, hstep]
      simp only [Option.bind_eq_bind, Option.bind_some]
      rw [ih]
      simp
  · simp [toLink]

example : anonL (chars "A.sml") [] = .ok [chars "A.uo"] ∧ anonL (chars "A.c") [] = .bad := by decide +kernel

/-- Finding: the commands that `mosmldep` generates from an ordered list of units name the context of each
unit in the reverse of that order, although the order is that in which the compiler adds the units. -/
theorem C94_mosmldep_violation (units : List Str) :
    depContext units = (units.map (· ++ chars ".ui")).reverse := by
  have h1 : ∀ (us acc : List Str), us.foldl (fun ctx u => u :: ctx) acc = us.reverse ++ acc := by
    intro us
    induction us with
    | nil => intro acc; rfl
    | cons u us ih => intro acc; rw [List.foldl_cons, ih]; simp
  have h2 : ∀ us : List Str, outcontext us = (us.map (· ++ chars ".ui")).reverse := by
    intro us
    induction us with
    | nil => rfl
    | cons u us ih => rw [outcontext, ih]; simp
  unfold depContext
  rw [h1, h2]
  simp

example : depContext [chars "A", chars "B"] = [chars "B.ui", chars "A.ui"] := by decide +kernel

end Mosml.Cmdline
