import Verif.Regexes.Model

/-! The decomposition of a string by the matches found from left to right, as in Regex.sig. -/
namespace Mosml.Regexes

/-- the part of `s` from position `i` on -/
def suffix (s : Str) (i : Nat) : Sus := ⟨s, i, s.length - i⟩

/-- From position `i` on, `s` is cut into the fields and match vectors `ps` and a last field.  The first match is that of
`regnexec` on the whole rest of the string; the next one is searched behind it.  There is no last field if a match is empty
and there is nothing between it and the previous match. -/
inductive Cut (m : Engine) (e : Flags) (s : Str) : Nat → List (Sus × List Sus) → Option Sus → Prop
  | done {i} : regexecSus m e (suffix s i) = none → Cut m e s i [] (some (suffix s i))
  | step {i j n v ps last} : regexecSus m e (suffix s i) = some (⟨s, j, n⟩ :: v) → i < j + n → Cut m e s (j + n) ps last →
      Cut m e s i ((⟨s, i, j - i⟩, ⟨s, j, n⟩ :: v) :: ps) last
  | stuck {i v} : regexecSus m e (suffix s i) = some (⟨s, i, 0⟩ :: v) → Cut m e s i [(⟨s, i, 0⟩, ⟨s, i, 0⟩ :: v)] none

/-- the string of a list of pieces -/
def whole (ps : List (Sus × List Sus)) : Str := (ps.map fun p => p.1.text ++ (p.2.head?.map Sus.text).getD []).flatten

end Mosml.Regexes
