import Verif.Util

/-!
The functions of src/mosmllib/Regex.sml on top of the matching engine, and the construction of the match vector in
src/dynlibs/mregex/mregex.c.  The engine (GNU regex-0.12, `re_search` as called by `mosml_regexec`, mregex.c:304-361) is a
function from the flags and the characters of the substring to the registers, or none.  Functions given by the caller may have
any effects: they are computations in a monad `M`; `raise` raises an exception there.  Strings longer than
`String.maxSize` (Size in Substring.concat) are left out.
-/
namespace Mosml.Regexes

abbrev Str := List Nat

/-- Substring.sml: a string, a position in it, and a length -/
structure Sus where
  base : Str
  start : Nat
  len : Nat
  deriving DecidableEq, Repr

def Sus.text (u : Sus) : Str := (u.base.drop u.start).take u.len

/-- eflags of regexec -/
structure Flags where
  notbol : Bool
  noteol : Bool
  deriving DecidableEq

/-- registers: start and end of the match and of the groups; `none` is -1 -/
abbrev Regs := List (Option (Nat × Nat))

/-- the engine; register 0 lies within the text -/
structure Engine where
  run : Flags → Str → Option Regs
  match0 : ∀ e s regs, run e s = some regs → ∃ so eo t, regs = some (so, eo) :: t ∧ so ≤ eo ∧ eo ≤ s.length

/-- exceptions -/
inductive Exn where
  | regex
  | subscript
  | loop -- stands for a loop that does not end
  deriving DecidableEq

/-- mregex.c:141-165: the number of groups that are reported -/
def countGroups (strlen : Nat) : Nat → Regs → Nat
  | _, [] => 0
  | last, none :: regs => countGroups strlen last regs + 1
  | last, some (so, eo) :: regs =>
    if last ≤ so ∧ so ≤ eo ∧ eo ≤ strlen then countGroups strlen so regs + 1 else 0

/-- mregex.c:174-196: the substring for a register -/
def groupSus (u : Sus) : Option (Nat × Nat) → Sus
  | some (so, eo) => ⟨u.base, u.start + so, eo - so⟩
  | none => ⟨u.base, 0, 0⟩

/-- mregex.c:132-205 regmatch_sus, mregex.c:216-225, Regex.sml:45-46, 52-54 (regnexec) -/
def regexecSus (m : Engine) (e : Flags) (u : Sus) : Option (List Sus) :=
  match m.run e u.text with
  | none => none
  | some regs => some ((regs.take (countGroups u.len 0 regs)).map (groupSus u))

/-- Regex.sml:48-50 -/
def regexec (m : Engine) (e : Flags) (s : Str) : Option (List Sus) := regexecSus m e ⟨s, 0, s.length⟩

variable {M : Type → Type} [Monad M] (raise : ∀ α, Exn → M α)

/-- Vector.sub -/
def vsub (v : List Sus) (i : Nat) : M Sus := match v[i]? with
  | some u => pure u
  | none => raise _ .subscript

/-- Regex.sml:91-99, with Substring.sml:25-29 -/
def leftsus (u1 u2 : Sus) : M Sus :=
  if u1.base = u2.base ∧ u1.start ≤ u2.start ∧ u2.start + u2.len ≤ u1.start + u1.len then
    if u2.start - u1.start ≤ u1.base.length - u1.start then pure ⟨u1.base, u1.start, u2.start - u1.start⟩
    else raise _ .subscript
  else raise _ .subscript

/-- Regex.sml:114-119, with Substring.sml:22-24 -/
def right (s : Str) (u : Sus) : M Sus :=
  if s = u.base then
    if u.start + u.len ≤ u.base.length then pure ⟨u.base, u.start + u.len, u.base.length - (u.start + u.len)⟩
    else raise _ .subscript
  else raise _ .subscript

/-- Substring.sml:41 -/
def isEmpty (u : Sus) : Bool := u.len = 0

/-- Substring.sml:33 -/
def all (s : Str) : Sus := ⟨s, 0, s.length⟩

/-- Substring.sml:74-83 -/
def concat (us : List Sus) : Str := (us.map Sus.text).flatten

/-- Regex.sml:121-125 -/
inductive Replacer (M : Type → Type) where
  | str (s : Str)
  | sus (i : Nat)
  | tr (f : Str → M Str) (i : Nat)
  | trs (f : List Sus → M Str)

/-- Regex.sml:127-135 -/
def applyreplacer (suss : List Sus) : List (Replacer M) → List Sus → M (List Sus)
  | [], res => pure res
  | .str s :: rest, res => applyreplacer suss rest (all s :: res)
  | .sus i :: rest, res => do
    let u ← vsub raise suss i
    applyreplacer suss rest (u :: res)
  | .tr f i :: rest, res => do
    let u ← vsub raise suss i
    let t ← f u.text
    applyreplacer suss rest (all t :: res)
  | .trs f :: rest, res => do
    let t ← f suss
    applyreplacer suss rest (all t :: res)

variable (m : Engine)

/-- Regex.sml:137-149 -/
def replace1 (repl : List (Replacer M)) (s : Str) : M Str :=
  match regexecSus m ⟨false, false⟩ (all s) with
  | none => pure s
  | some suss => do
    let mt ← vsub raise suss 0
    let l ← leftsus raise (all s) mt
    let r ← right raise s mt
    let repl' ← applyreplacer raise suss repl []
    pure (concat (l :: (r :: repl').reverse))

/-- Regex.sml:153-167, `h` of replace_aux; the first argument bounds the number of rounds (`replace` gives enough) -/
def replaceH (repl : List (Replacer M)) (s : Str) : Nat → Sus → List Sus → M Str
  | 0, _, _ => raise _ .loop
  | f + 1, sus, revres =>
    match regexecSus m ⟨false, false⟩ sus with
    | none => pure (concat (sus :: revres).reverse)
    | some suss => do
      let mt ← vsub raise suss 0
      let field1 ← leftsus raise sus mt
      let revres1 ← applyreplacer raise suss repl (field1 :: revres)
      if isEmpty field1 && isEmpty mt then raise _ .regex
      else do
        let r ← right raise s mt
        replaceH repl s f r revres1

/-- Regex.sml:151-171 -/
def replace (repl : List (Replacer M)) (s : Str) : M Str := replaceH raise m repl s (s.length + 1) (all s) []

/-- Regex.sml:173 -/
def substitute1 (tr : Str → M Str) (s : Str) : M Str := replace1 raise m [.tr tr 0] s

/-- Regex.sml:175-176 -/
def substitute (tr : Str → M Str) (s : Str) : M Str := replace raise m [.tr tr 0] s

/-- Regex.sml:181-194, `h` of split -/
def splitH (add : Sus → List Sus → List Sus) (s : Str) : Nat → Sus → List Sus → M (List Sus)
  | 0, _, _ => raise _ .loop
  | f + 1, sus, revres =>
    match regexecSus m ⟨true, true⟩ sus with
    | none => pure (add sus revres).reverse
    | some suss => do
      let mt ← vsub raise suss 0
      let field1 ← leftsus raise sus mt
      if isEmpty field1 && isEmpty mt then raise _ .regex
      else do
        let r ← right raise s mt
        splitH add s f r (add field1 revres)

/-- Regex.sml:178-195 -/
def split (add : Sus → List Sus → List Sus) (s : Str) : M (List Sus) := splitH raise m add s (s.length + 1) (all s) []

/-- Regex.sml:197-200 -/
def fields (s : Str) : M (List Sus) := split raise m (fun u res => u :: res) s

/-- Regex.sml:202-205 -/
def tokens (s : Str) : M (List Sus) := split raise m (fun u res => if isEmpty u then res else u :: res) s

/-- Regex.sml:209-222, `h` of fold -/
def foldH {β : Type} (fa : Sus → β → M β) (fb : List Sus → β → M β) (s : Str) : Nat → Sus → β → M β
  | 0, _, _ => raise _ .loop
  | f + 1, sus, res =>
    match regexecSus m ⟨false, false⟩ sus with
    | none => fa sus res
    | some suss => do
      let mt ← vsub raise suss 0
      let field1 ← leftsus raise sus mt
      let res0 ← fa field1 res
      let res1 ← fb suss res0
      if isEmpty field1 && isEmpty mt then raise _ .regex
      else do
        let r ← right raise s mt
        foldH fa fb s f r res1

/-- Regex.sml:207-223 -/
def fold {β : Type} (fa : Sus → β → M β) (fb : List Sus → β → M β) (e : β) (s : Str) : M β :=
  foldH raise m fa fb s (s.length + 1) (all s) e

/-- Regex.sml:227-240, `h` of map -/
def mapH {β : Type} (g : List Sus → M β) (s : Str) : Nat → Sus → List β → M (List β)
  | 0, _, _ => raise _ .loop
  | f + 1, sus, revres =>
    match regexecSus m ⟨false, false⟩ sus with
    | none => pure revres.reverse
    | some suss => do
      let mt ← vsub raise suss 0
      let field1 ← leftsus raise sus mt
      let y ← g suss
      if isEmpty field1 && isEmpty mt then raise _ .regex
      else do
        let r ← right raise s mt
        mapH g s f r (y :: revres)

/-- Regex.sml:225-241 -/
def map {β : Type} (g : List Sus → M β) (s : Str) : M (List β) := mapH raise m g s (s.length + 1) (all s) []

/-- Regex.sml:245-258, `h` of app -/
def appH (g : List Sus → M Unit) (s : Str) : Nat → Sus → M Unit
  | 0, _ => raise _ .loop
  | f + 1, sus =>
    match regexecSus m ⟨false, false⟩ sus with
    | none => pure ()
    | some suss => do
      let mt ← vsub raise suss 0
      let field1 ← leftsus raise sus mt
      g suss
      if isEmpty field1 && isEmpty mt then raise _ .regex
      else do
        let r ← right raise s mt
        appH g s f r

/-- Regex.sml:243-259 -/
def app (g : List Sus → M Unit) (s : Str) : M Unit := appH raise m g s (s.length + 1) (all s)

end Mosml.Regexes
