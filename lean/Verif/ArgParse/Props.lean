import Verif.ArgParse.Model
import Verif.Util

/-! # C98: the command line of the project manager -/
namespace Mosml.ArgParse
open Mosml.Num (chars)

/-- how an item of the command line is written -/
def Ev.text : Ev → List Str
  | .anon s => [s]
  | .key k none => [k]
  | .key k (some a) => [k, a]

/-- the kind of an option: that of its first entry in the list -/
def HasKind (e : Env) (k : Str) (kind : Kind) : Prop :=
  ∃ l r, e.specs = l ++ (k, kind) :: r ∧ ∀ x ∈ l, x.1 ≠ k

/-- an item that the program allows -/
def Allowed (e : Env) : Ev → Prop
  | .anon s => s.head? ≠ some 45
  | .key k none => k.head? = some 45 ∧ HasKind e k .unit
  | .key k (some a) => k.head? = some 45 ∧
      (HasKind e k .string ∨ (HasKind e k .int ∧ e.isInt a = true) ∨ (HasKind e k .real ∧ e.isReal a = true))

/-- what is wrong with a command line at its beginning, with the description that the error message should have -/
inductive Wrong (e : Env) : List Str → Str → Prop where
  | unknown {s l} : s.head? = some 45 → (∀ x ∈ e.specs, x.1 ≠ s) →
      Wrong e (s :: l) (chars "unknown option: \"" ++ s ++ chars "\".")
  | missing {s kind} : s.head? = some 45 → HasKind e s kind → kind ≠ .unit →
      Wrong e [s] (chars "option \"" ++ s ++ chars "\" needs an argument.")
  | int {s a l} : s.head? = some 45 → HasKind e s .int → e.isInt a = false →
      Wrong e (s :: a :: l) (chars "wrong argument \"" ++ a ++ chars "\"; option \"" ++ s ++ chars "\" expects an integer.")
  | real {s a l} : s.head? = some 45 → HasKind e s .real → e.isReal a = false →
      Wrong e (s :: a :: l) (chars "wrong argument \"" ++ a ++ chars "\"; option \"" ++ s ++ chars "\" expects a real.")
  | action {ev l m} : Allowed e ev → e.act ev = some m → Wrong e (ev.text ++ l) m

/-- the name of the program and a colon, `n` times -/
def prefixes (e : Env) : Nat → Str → Str
  | 0, s => s
  | n + 1, s => e.progname ++ chars ": " ++ prefixes e n s

theorem isKey_iff (s : Str) : isKey s = true ↔ s.head? = some 45 := by
  cases s <;> simp [isKey]

theorem lookup_kind {e : Env} {k : Str} {kind : Kind} (h : HasKind e k kind) : lookup k e.specs = some kind := by
  obtain ⟨l, r, h1, h2⟩ := h
  rw [h1]
  clear h1
  induction l with
  | nil => simp [lookup]
  | cons x l ih =>
    rw [List.cons_append, lookup, if_neg (fun h => h2 x (by simp) h.symm)]
    exact ih (fun y hy => h2 y (by simp [hy]))

theorem lookup_none {k : Str} (l : List (Str × Kind)) (h : ∀ x ∈ l, x.1 ≠ k) : lookup k l = none := by
  induction l with
  | nil => rfl
  | cons x l ih =>
    rw [lookup, if_neg (fun h' => h x (by simp) h'.symm)]
    exact ih (fun y hy => h y (by simp [hy]))

theorem parse_item (e : Env) (ev : Ev) (h : Allowed e ev) (l : List Str) :
    parse e (ev.text ++ l) = handleBad e (call e ev (parse e l)) := by
  match ev, h with
  | .anon s, h =>
    have : isKey s = false := by
      rw [← Bool.not_eq_true, isKey_iff]; exact h
    show parse e (s :: l) = _
    rw [parse, this]
    rfl
  | .key k none, h =>
    show parse e (k :: l) = _
    rw [parse, if_pos ((isKey_iff k).mpr h.1), lookup_kind h.2]
  | .key k (some a), h =>
    show parse e (k :: a :: l) = _
    rw [parse, if_pos ((isKey_iff k).mpr h.1)]
    rcases h.2 with h | ⟨h, h'⟩ | ⟨h, h'⟩
    · rw [lookup_kind h]
    · rw [lookup_kind h]; simp only [h', if_true]
    · rw [lookup_kind h]; simp only [h', if_true]

/-- the items before are called in order, and each of them adds the name of the program to a message -/
theorem parse_items (e : Env) (evs : List Ev) (h : ∀ ev ∈ evs, Allowed e ev ∧ e.act ev = none) (l : List Str) :
    parse e (evs.flatMap Ev.text ++ l) =
      (evs ++ (parse e l).1, (parse e l).2.map (prefixes e evs.length)) := by
  induction evs with
  | nil =>
    have : prefixes e 0 = id := rfl
    simp only [List.flatMap_nil, List.nil_append, List.length_nil, this, Option.map_id]
    rfl
  | cons ev evs ih =>
    obtain ⟨h1, h2⟩ := h ev (by simp)
    rw [List.flatMap_cons, List.append_assoc, parse_item e ev h1, ih (fun x hx => h x (by simp [hx]))]
    simp only [call, h2, handleBad]
    cases (parse e l).2 with
    | none => rfl
    | some m => rfl

/-- If all arguments are allowed, the functions are called for them, once each and in order. -/
theorem C98_calls (e : Env) (evs : List Ev) (h : ∀ ev ∈ evs, Allowed e ev ∧ e.act ev = none) :
    parse e (evs.flatMap Ev.text) = (evs, none) := by
  have := parse_items e evs h []
  rw [List.append_nil] at this
  rw [this]
  simp [parse]

/-- The number of times the name of the program is put before the description by the argument that is wrong itself:
twice where the exception is raised inside the scope of its own handler. -/
theorem wrong_parse (e : Env) (l : List Str) (m : Str) (h : Wrong e l m) :
    (∃ n, (n = 1 ∨ n = 2) ∧ (parse e l).2 = some (prefixes e n m)) := by
  cases h with
  | unknown h1 h2 =>
    refine ⟨1, Or.inl rfl, ?_⟩
    rw [parse, if_pos ((isKey_iff _).mpr h1), lookup_none _ h2]
    simp [stop, prefixes, chars]
  | @missing s kind h1 h2 h3 =>
    refine ⟨2, Or.inr rfl, ?_⟩
    rw [parse, if_pos ((isKey_iff _).mpr h1), lookup_kind h2]
    cases kind with
    | unit => exact absurd rfl h3
    | _ => simp [stop, prefixes, chars, handleBad]
  | int h1 h2 h3 =>
    refine ⟨2, Or.inr rfl, ?_⟩
    rw [parse, if_pos ((isKey_iff _).mpr h1), lookup_kind h2]
    simp [stop, prefixes, chars, handleBad, h3]
  | real h1 h2 h3 =>
    refine ⟨2, Or.inr rfl, ?_⟩
    rw [parse, if_pos ((isKey_iff _).mpr h1), lookup_kind h2]
    simp [stop, prefixes, chars, handleBad, h3]
  | @action ev l m h1 h2 =>
    refine ⟨1, Or.inl rfl, ?_⟩
    rw [parse_item e ev h1]
    simp [call, h2, handleBad, stop, prefixes, chars]

theorem wrong_calls (e : Env) (l : List Str) (m : Str) (h : Wrong e l m) :
    (parse e l).1 = [] ∨ ∃ ev, (parse e l).1 = [ev] ∧ e.act ev = some m := by
  cases h with
  | unknown h1 h2 =>
    left
    rw [parse, if_pos ((isKey_iff _).mpr h1), lookup_none _ h2]
  | @missing s kind h1 h2 h3 =>
    left
    rw [parse, if_pos ((isKey_iff _).mpr h1), lookup_kind h2]
    cases kind with
    | unit => exact absurd rfl h3
    | _ => rfl
  | int h1 h2 h3 =>
    left
    rw [parse, if_pos ((isKey_iff _).mpr h1), lookup_kind h2]
    simp [handleBad, h3]
  | real h1 h2 h3 =>
    left
    rw [parse, if_pos ((isKey_iff _).mpr h1), lookup_kind h2]
    simp [handleBad, h3]
  | @action ev l m h1 h2 =>
    right
    refine ⟨ev, ?_, h2⟩
    rw [parse_item e ev h1]
    simp [call, h2, handleBad]

/-- At the first wrong argument, after any number of allowed ones, reading stops: the functions have been called for
exactly the arguments before it (and for the argument itself, if it is its function that raises Bad), and the message ends with
the description of what is wrong. What is missing: the name of the program precedes it more than once
(`C98_prefix_violation`). -/
theorem C98_error_partial (e : Env) (evs : List Ev) (h : ∀ ev ∈ evs, Allowed e ev ∧ e.act ev = none) (l : List Str)
    (m : Str) (hw : Wrong e l m) :
    (∃ n, (n = evs.length + 1 ∨ n = evs.length + 2) ∧
      (parse e (evs.flatMap Ev.text ++ l)).2 = some (prefixes e n m)) ∧
    ((parse e (evs.flatMap Ev.text ++ l)).1 = evs ∨
      ∃ ev, (parse e (evs.flatMap Ev.text ++ l)).1 = evs ++ [ev] ∧ e.act ev = some m) := by
  have hadd : ∀ a b s, prefixes e a (prefixes e b s) = prefixes e (a + b) s := by
    intro a b s
    induction a with
    | zero => rw [Nat.zero_add]; rfl
    | succ a ih => rw [prefixes, ih, Nat.add_right_comm]; rfl
  rw [parse_items e evs h l]
  constructor
  · obtain ⟨n, hn, e1⟩ := wrong_parse e l m hw
    refine ⟨evs.length + n, by omega, ?_⟩
    simp only [e1, Option.map_some, hadd]
  · rcases wrong_calls e l m hw with h1 | ⟨ev, h1, h2⟩
    · left; simp only [h1, List.append_nil]
    · right; exact ⟨ev, by simp only [h1], h2⟩

/-- The name of the program is not put once before the message: for an unknown option it comes once more for each
argument before it, and for a missing argument it comes twice even if there is no argument before. -/
theorem C98_prefix_violation (e : Env) (evs : List Ev) (h : ∀ ev ∈ evs, Allowed e ev ∧ e.act ev = none) (s : Str)
    (hs : s.head? = some 45) :
    ((∀ x ∈ e.specs, x.1 ≠ s) → (parse e (evs.flatMap Ev.text ++ [s])).2 =
      some (prefixes e (evs.length + 1) (chars "unknown option: \"" ++ s ++ chars "\"."))) ∧
    (HasKind e s .string → (parse e [s]).2 =
      some (e.progname ++ chars ": " ++ (e.progname ++ chars ": " ++
        (chars "option \"" ++ s ++ chars "\" needs an argument.")))) := by
  constructor
  · intro h2
    have e1 : (parse e [s]).2 = some (prefixes e 1 (chars "unknown option: \"" ++ s ++ chars "\".")) := by
      rw [parse, if_pos ((isKey_iff _).mpr hs), lookup_none _ h2]
      simp [stop, prefixes, chars]
    have hadd : ∀ a s, prefixes e a (prefixes e 1 s) = prefixes e (a + 1) s := by
      intro a s
      induction a with
      | zero => rfl
      | succ a ih => rw [prefixes, ih]; rfl
    rw [parse_items e evs h [s]]
    simp only [e1, Option.map_some, hadd]
  · intro h2
    rw [parse, if_pos ((isKey_iff _).mpr hs), lookup_kind h2]
    simp [stop, chars, handleBad]

/-- a program with an option `-o` that needs an argument and a switch `-v` -/
def demo : Env where
  progname := chars "pm"
  specs := [(chars "-o", .string), (chars "-v", .unit), (chars "-n", .int)]
  isInt := fun s => s = chars "7"
  isReal := fun _ => false
  act := fun _ => none

example : parse demo [chars "-o", chars "-v", chars "a", chars "-v", chars "-n", chars "7"] =
    ([.key (chars "-o") (some (chars "-v")), .anon (chars "a"), .key (chars "-v") none,
      .key (chars "-n") (some (chars "7"))], none) ∧
    (parse demo [chars "a", chars "-x"]).2 = some (chars "pm: pm: unknown option: \"-x\".") ∧
    (parse demo [chars "-o"]).2 = some (chars "pm: pm: option \"-o\" needs an argument.") := by decide +kernel

example : Allowed demo (.key (chars "-o") (some (chars "f"))) ∧ Wrong demo [chars "-n", chars "x"]
    (chars "wrong argument \"" ++ chars "x" ++ chars "\"; option \"" ++ chars "-n" ++ chars "\" expects an integer.") :=
  ⟨⟨by decide +kernel, Or.inl ⟨[], _, rfl, by simp⟩⟩,
    .int (by decide +kernel) ⟨[(chars "-o", .string), (chars "-v", .unit)], [], rfl, by decide +kernel⟩ (by decide +kernel)⟩

end Mosml.ArgParse
