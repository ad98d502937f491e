import Verif.Emit.Link

/-!
# The linker: which units, which phrases, which slots

Model of src/compiler/Link.sml:29-182 and of `exportPublicNames` and
`defineGlobalValueAlias` (Symtable.sml:83-86, 168-175).  The hash tables (`watchDog`,
`missing_globals`, `global_table`, `cu_mentions`) are modelled by lists: a set, a finite
map, and for `cu_mentions` the pairs in the order `Hasht.fold` visits them, which is
arbitrary.  Files are looked up by unit name: `read_file` (Link.sml:11-27) and
`normalizedUnitName` are a parameter.
-/

namespace Mosml.Link

open Mosml.Emit (Uid Reloc SC Lk)

/-- A unit name or an identifier, as character codes. -/
abbrev Name := List Nat

/-- `{qual = u, id = [i]}` (Link.sml:128), flattened into one list. -/
def qid (u i : Name) : List Nat := u.length :: (u ++ i)

/-- `compiled_phrase`, Code_dec.sml:14-21, with the bytes of the code instead of their
position in the file. -/
structure Phrase where
  code : List Nat
  lits : List (SC × List Nat)
  others : List (Reloc × Nat)
  pure : Bool

/-- `compiled_unit_tables`, Code_dec.sml:23-30, without the exception renaming list,
which the linker ignores (Symtable.sml:168-169).  `index` has the last phrase first
(Emit_phr.sml:32-37). -/
structure Tables where
  index : List Phrase
  vals : List (Name × Nat)
  stamp : Nat
  mentions : List (Name × Nat)

/-- What may stop the first pass: `Fail` of Link.sml:36, 40, 50, 53; the internal
exceptions of line 29; a file that cannot be read; and the recursion bound of the model. -/
inductive Err where
  | cyclic (n : Name)
  | reserved (n : Name)
  | incompatible (n sub : Name)
  | notLinked (n sub : Name)
  | wrongStamp
  | notYet
  | unreadable (n : Name)
  | fuel
deriving DecidableEq, Repr

/-- What the linker is given: the readable files, the reserved unit names
(Mixture.sml) and the flag `autolink`. -/
structure Env where
  files : Name → Option Tables
  reserved : List Name
  autolink : Bool

/-- `watchDog` and `processed`. -/
structure P1 where
  dog : List (Name × Nat)
  done : List (Name × Tables)

/-- `Hasht.find (!watchDog) uname`. -/
def P1.find (s : P1) (n : Name) : Option Nat := (s.dog.find? (·.1 = n)).map (·.2)

/-- The handlers of `needs`, Link.sml:49-54. -/
def rename (n sub : Name) : Except Err P1 → Except Err P1
  | .error .wrongStamp => .error (.incompatible n sub)
  | .error .notYet => .error (.notLinked n sub)
  | r => r

/-- `Hasht.fold needs processed cu_mentions`, Link.sml:86, given `check_file`. -/
def foldNeeds (chk : Name → Nat → P1 → Except Err P1) (n : Name) :
    List (Name × Nat) → P1 → Except Err P1
  | [], s => .ok s
  | m :: ms, s =>
      match rename n m.1 (chk m.1 m.2 s) with
      | .error e => .error e
      | .ok s' => foldNeeds chk n ms s'

/-- Reading the tables, Link.sml:70-84. -/
def readFor (env : Env) (n : Name) (stampOpt : Option Nat) : Except Err Tables :=
  match stampOpt with
  | none =>
      match env.files n with
      | some t => .ok t
      | none => .error (.unreadable n)
  | some st =>
      if env.autolink then
        match env.files n with
        | some t => if st = t.stamp then .ok t else .error .wrongStamp
        | none => .error (.unreadable n)
      else .error .notYet

/-- `check_file`, Link.sml:31-91.  The warning of lines 62-69 is not modelled. -/
def checkFile (env : Env) : Nat → Name → Option Nat → List Name → P1 → Except Err P1
  | 0, _, _, _, _ => .error .fuel
  | fuel + 1, n, stampOpt, pending, s =>
      if n ∈ pending then .error (.cyclic n)
      else if n ∈ env.reserved then .error (.reserved n)
      else
        match s.find n with
        | some st' =>
            match stampOpt with
            | some st => if st ≠ st' then .error .wrongStamp else .ok s
            | none => .ok s
        | none =>
            match readFor env n stampOpt with
            | .error e => .error e
            | .ok t =>
                match foldNeeds (fun m st => checkFile env fuel m (some st) (n :: pending)) n
                    t.mentions s with
                | .error e => .error e
                | .ok s' => .ok { dog := (n, t.stamp) :: s'.dog, done := (n, t) :: s'.done }

/-- `foldL check_file [] unit_list`, Link.sml:93, 222. -/
def checkFiles (env : Env) (fuel : Nat) : List Name → P1 → Except Err P1
  | [], s => .ok s
  | n :: ns, s =>
      match checkFile env fuel n none [] s with
      | .error e => .error e
      | .ok s' => checkFiles env fuel ns s'

/-! ## Second pass -/

/-- `is_required`, Link.sml:115-117. -/
def isRequired (missing : List Uid) : Reloc × Nat → Bool
  | (.setglobal g, _) => decide (g ∈ missing)
  | _ => false

/-- `remove_required`, Link.sml:119-121. -/
def removeRequired (missing : List Uid) : Reloc × Nat → List Uid
  | (.setglobal g, _) => missing.filter (· ≠ g)
  | _ => missing

/-- `add_required`, Link.sml:123-125. -/
def addRequired (missing : List Uid) : Reloc × Nat → List Uid
  | (.getglobal g, _) => g :: missing
  | _ => missing

/-- `scan_val`, Link.sml:127-135, on the pair of the missing globals and the list built. -/
def scanVal (uname : Name) (s : List Uid × List (Name × Nat)) (v : Name × Nat) :
    List Uid × List (Name × Nat) :=
  if (qid uname v.1, 0) ∈ s.1 then
    ((qid uname v.1, v.2) :: s.1.filter (· ≠ (qid uname v.1, 0)), v :: s.2)
  else s

/-- `scan_phrase`, Link.sml:137-146. -/
def scanPhrase (s : List Uid × List Phrase) (p : Phrase) : List Uid × List Phrase :=
  if !p.pure || p.others.any (isRequired s.1) then
    (p.others.foldl addRequired (p.others.foldl removeRequired s.1), p :: s.2)
  else s

/-- What the second pass hands to the third. -/
structure Req where
  name : Name
  required : List Phrase
  exported : List (Name × Nat)

/-- `scan_file`, Link.sml:148-156. -/
def scanFile (s : List Uid × List Req) (u : Name × Tables) : List Uid × List Req :=
  let (m1, exported) := u.2.vals.foldl (scanVal u.1) (s.1, [])
  let (m2, required) := u.2.index.foldl scanPhrase (m1, [])
  (m2, ⟨u.1, required, exported⟩ :: s.2)

/-- `foldL scan_file [] toscan`, Link.sml:224. -/
def scanFiles (toscan : List (Name × Tables)) : List Req := (toscan.foldl scanFile ([], [])).2

/-! ## Third pass -/

/-- `defineGlobalValueAlias`, Symtable.sml:83-86; `none`: "hasn't been defined yet". -/
def defineAlias (u v : Uid) (lk : Lk) : Option Lk :=
  (lk.lookup v).map fun s => { lk with globals := (u, s) :: lk.globals }

/-- `exportPublicNames`, Symtable.sml:168-175. -/
def exportNames (uname : Name) : List (Name × Nat) → Lk → Option Lk
  | [], lk => some lk
  | v :: vs, lk => (defineAlias (qid uname v.1, 0) (qid uname v.1, v.2) lk).bind (exportNames uname vs)

/-- The loop of `link_object`, Link.sml:162-172: the phrases written, each with the tables
after it was patched. -/
def linkPhrases : List Phrase → Lk → Option (List (List Nat × Phrase × Lk) × Lk)
  | [], lk => some ([], lk)
  | p :: ps, lk =>
      (Mosml.Emit.patchObject p.code 0 p.lits p.others lk).bind fun (b, lk') =>
        (linkPhrases ps lk').map fun (r, lk'') => ((b, p, lk') :: r, lk'')

/-- `link_object`, Link.sml:160-182. -/
def linkObject (r : Req) (lk : Lk) : Option (List (List Nat × Phrase × Lk) × Lk) :=
  (linkPhrases r.required lk).bind fun (out, lk') =>
    (exportNames r.name r.exported lk').map fun lk'' => (out, lk'')

/-- `List.app (link_object os) tolink`, Link.sml:248. -/
def linkObjects : List Req → Lk → Option (List (List Nat × Phrase × Lk) × Lk)
  | [], lk => some ([], lk)
  | r :: rs, lk =>
      (linkObject r lk).bind fun (o1, lk1) =>
        (linkObjects rs lk1).map fun (o2, lk2) => (o1 ++ o2, lk2)

end Mosml.Link
