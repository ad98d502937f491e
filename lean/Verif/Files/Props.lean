import Verif.Files.Lemmas

/-!
C90: FileSys answers about the file that the path names, and the search path finds the program
that the user means.
-/
namespace Mosml.Files

/-- The system is asked about exactly the path given, provided that it contains no NUL. -/
theorem C90_path_partial (p : Name) (h : Char.ofNat 0 ∉ p) : cString p = p := takeWhile_all p h

example : Char.ofNat 0 ∉ "/etc/passwd".toList := by decide

/-- A path with a NUL is silently taken for another one: a test of `a\000b` is a test of `a`,
whatever the system. -/
theorem C90_path_violation :
    ∃ p q : Name, p ≠ q ∧ ∀ (os : Name → Nat → Bool) (perm : List Mode), access os p perm = access os q perm :=
  ⟨['a', Char.ofNat 0, 'b'], ['a'], by decide, fun os perm => by
    have : cString ['a', Char.ofNat 0, 'b'] = cString ['a'] := by decide
    simp [access, this]⟩

/-- isLink is true exactly for symbolic links, whatever the permissions. -/
theorem C90_isLink (mode : Nat) (h : fileType mode ∈ fileTypes) :
    isLinkMode mode = true ↔ fileType mode = 10 := by
  unfold isLinkMode
  rw [and_high]
  unfold fileType at *
  generalize mode / 4096 % 16 = t at *
  simp only [fileTypes, List.mem_cons, List.not_mem_nil, or_false] at h
  rcases h with h | h | h | h | h | h | h <;> subst h <;> decide

example : fileType 0o120777 ∈ fileTypes ∧ fileType 0o140755 ∈ fileTypes := by decide

/-- access asks for read, write and execute permission exactly as the list says, in whatever order and
however often, and for existence alone when the list is empty. -/
theorem C90_access (os : Name → Nat → Bool) (p : Name) (h : Char.ofNat 0 ∉ p) (perm : List Mode) :
    ∃ bits, access os p perm = os p bits ∧ (bits.testBit 2 = true ↔ .read ∈ perm) ∧
      (bits.testBit 1 = true ↔ .write ∈ perm) ∧ (bits.testBit 0 = true ↔ .exec ∈ perm) ∧ bits < 8 ∧
      (bits = 0 ↔ perm = []) := by
  refine ⟨permBits (permCode perm), by simp [access, takeWhile_all p h], ?_⟩
  have hm : ∀ m, mem perm m = if m ∈ perm then 1 else 0 := by
    intro m; unfold mem
    have : (perm.any fun q => m == q) = true ↔ m ∈ perm := by simp
    by_cases hx : m ∈ perm
    · rw [if_pos (this.mpr hx), if_pos hx]
    · rw [if_neg (fun h => hx (this.mp h)), if_neg hx]
  have hn : perm = [] ↔ (.read ∉ perm ∧ .write ∉ perm ∧ .exec ∉ perm) := by
    constructor
    · intro h; subst h; simp
    · rintro ⟨a, b, c⟩
      cases perm with
      | nil => rfl
      | cons x xs => exfalso; cases x <;> simp at a b c
  rw [hn]
  unfold permCode
  rw [hm, hm, hm]
  by_cases a : Mode.read ∈ perm <;> by_cases b : Mode.write ∈ perm <;> by_cases c : Mode.exec ∈ perm <;>
    simp only [a, b, c, if_true, if_false] <;> decide

example : Char.ofNat 0 ∉ "x".toList := by decide

/-- readLink returns the text of the link or raises Fail, and never writes outside its buffer. -/
theorem C90_readLink (link : Option Name) (h : ∀ t, link = some t → Char.ofNat 0 ∉ t) :
    readLink link = some (match link with
      | none => none
      | some t => if t.length < maxPathLen then some t else none) := by
  cases link with
  | none => rfl
  | some t =>
    have ht := h t rfl
    simp only [readLink, List.length_take]
    by_cases hl : t.length < maxPathLen
    · rw [if_neg (by omega), if_pos (by omega), if_pos hl, List.take_of_length_le (by omega),
        takeWhile_all t ht]
    · rw [if_pos (by omega), if_neg hl]

example : ∀ t, some "target".toList = some t → Char.ofNat 0 ∉ t := by
  intro t h; cases h; decide

/-- Files with different devices or inodes have different identities, and the comparison orders them by
device and then inode, as long as the device fits 36 bits and the inode 17. -/
theorem C90_fileId_partial (d1 i1 d2 i2 : Nat) (h1 : d1 < 2 ^ 36) (h2 : d2 < 2 ^ 36) (k1 : i1 < 2 ^ 17)
    (k2 : i2 < 2 ^ 17) :
    (devInode d1 i1 = devInode d2 i2 ↔ d1 = d2 ∧ i1 = i2) ∧
    (compareId (devInode d1 i1) (devInode d2 i2) = .lt ↔ d1 < d2 ∨ (d1 = d2 ∧ i1 < i2)) ∧
    (compareId (devInode d1 i1) (devInode d2 i2) = .eq ↔ d1 = d2 ∧ i1 = i2) := by
  have e : ∀ d i, d < 2 ^ 36 → i < 2 ^ 17 → devInode d i = d * 131072 + i := by
    intro d i hd hi
    unfold devInode
    rw [roundMag_small d (by omega), roundMag_small i (by omega), roundMag_small _ (by omega)]
  rw [e _ _ h1 k1, e _ _ h2 k2]
  refine ⟨by omega, ?_, ?_⟩
  · unfold compareId
    by_cases a : d1 * 131072 + i1 < d2 * 131072 + i2
    · rw [if_pos a]; simp only [true_iff]; omega
    · rw [if_neg a]
      by_cases b : d1 * 131072 + i1 > d2 * 131072 + i2
      · rw [if_pos b]; simp only [reduceCtorEq, false_iff]; omega
      · rw [if_neg b]; simp only [reduceCtorEq, false_iff]; omega
  · unfold compareId
    by_cases a : d1 * 131072 + i1 < d2 * 131072 + i2
    · rw [if_pos a]; simp only [reduceCtorEq, false_iff]; omega
    · rw [if_neg a]
      by_cases b : d1 * 131072 + i1 > d2 * 131072 + i2
      · rw [if_pos b]; simp only [reduceCtorEq, false_iff]; omega
      · rw [if_neg b]; simp only [true_iff]; omega

example : (2049 : Nat) < 2 ^ 36 ∧ (2050 : Nat) < 2 ^ 36 ∧ (131071 : Nat) < 2 ^ 17 := by decide

/-- FileSys.sig promises `fileId p1 = fileId p2` only for the same object.  Inode 131082 of device 2049
and inode 10 of device 2050 get the same identity, and `compare` calls them equal. -/
theorem C90_fileId_violation :
    devInode 2049 131082 = devInode 2050 10 ∧
    compareId (devInode 2049 131082) (devInode 2050 10) = .eq := by decide +kernel

/-- Even two files of one device are confused when the inode numbers exceed 2^53. -/
theorem C90_fileId_one_device_violation :
    devInode 2049 (2 ^ 60) = devInode 2049 (2 ^ 60 + 1) := by decide +kernel

/-- For every sequence of operations on a directory stream, if the stream is closed at most once, every
answer is the one that FileSys.sig describes: the entries other than `.` and `..`, each once and in order,
then NONE; after rewindDir the entries present at that time; SysErr after closeDir. -/
theorem C90_directory_partial (l : List Name) (hl : [] ∉ l) (ops : List Op)
    (ho : ∀ now, Op.rewind now ∈ ops → [] ∉ now) (hc : closesOnce false ops) :
    run (some l) ops = specRun (some (visible l)) ops := by
  have key : ∀ (ops : List Op) (d : Dir), (∀ now, Op.rewind now ∈ ops → [] ∉ now) →
      (∀ l, d = some l → [] ∉ l) → closesOnce d.isNone ops →
      run d ops = specRun (d.map visible) ops := by
    intro ops
    induction ops with
    | nil => intros; rfl
    | cons o os ih =>
      intro d ho hd hc
      have ho' : ∀ now, Op.rewind now ∈ os → [] ∉ now := fun now h => ho now (List.mem_cons_of_mem _ h)
      cases o with
      | read =>
        cases d with
        | none => rw [run, specRun]; exact congrArg _ (ih none ho' (by simp) hc)
        | some l =>
          have hn := hd l rfl
          have hs := readLoop_visible l hn
          have hr := readLoop_rest l
          have hi := ih (some (readLoop l).2) ho' (by intro l' e; cases e; exact readLoop_nonempty l hn) hc
          rw [run, specRun]
          have e1 : (step (some l) .read) = ((readLoop l).1, some (readLoop l).2) := rfl
          rw [e1]
          simp only [Option.map_some] at hi ⊢
          rw [hi, hr]
          cases hv : visible l with
          | nil => rw [hv] at hs; rw [hs]; rfl
          | cons e t =>
            rw [hv] at hs
            have : (readLoop l).1 = .name e := by rw [hs]
            rw [this]; rfl
      | rewind now =>
        cases d with
        | none => rw [run, specRun]; exact congrArg _ (ih none ho' (by simp) hc)
        | some l =>
          rw [run, specRun]
          exact congrArg _ (ih (some now) ho' (by intro l' e; cases e; exact ho now (by simp)) hc)
      | close =>
        cases d with
        | none => exact absurd hc.1 (by simp)
        | some l => rw [run, specRun]; exact congrArg _ (ih none ho' (by simp) hc.2)
  exact key ops (some l) ho (by intro l' e; cases e; exact hl) hc

example : closesOnce false [.read, .rewind [['a']], .read, .close, .read] ∧ ([] : Name) ∉ [['.'], ['b']] :=
  ⟨⟨rfl, trivial⟩, by decide⟩

/-- FileSys.sig: after closeDir "all subsequent operations on the stream will raise OS.SysErr"; closing it
again does not. -/
theorem C90_close_violation (l : List Name) :
    run (some l) [.close, .close] = [.unit, .unit] ∧
    specRun (some (visible l)) [.close, .close] = [.unit, .sysErr] := ⟨rfl, rfl⟩

/-- A name with a slash is taken as it is; otherwise the search returns the first executable file among
those of that name in the directories of PATH (an empty directory being the current one), as long as
none of the names tried is longer than 511 characters. -/
theorem C90_searchpath_partial (acc : Name → Bool) (path : Option Name) (name : Name)
    (h : ∀ p, path = some p → ∀ f ∈ candidates p name, f.length < 512) :
    searchPath acc path name =
      if '/' ∈ name then .itself
      else match path with
        | none => .null
        | some p => firstExec acc (candidates p name) := by
  unfold searchPath
  have hs : (name.any fun c => c == '/') = true ↔ '/' ∈ name := by simp
  by_cases hn : '/' ∈ name
  · rw [if_pos (hs.mpr hn), if_pos hn]
  · rw [if_neg (fun x => hn (hs.mp x)), if_neg hn]
    cases path with
    | none => rfl
    | some p =>
      simp only []
      rw [searchLoop_eq acc name _ p (by omega), tryAll_fits acc _ (h p rfl)]

example : ∀ p, some "/bin::/usr/bin".toList = some p → ∀ f ∈ candidates p "mosml".toList, f.length < 512 := by
  intro p h; cases h; decide

/-- Exactly when a name tried is longer than that is the static buffer overrun. -/
theorem C90_searchpath_overflow (acc : Name → Bool) (p name : Name) (hn : '/' ∉ name) :
    searchPath acc (some p) name = .overflow ↔
      ∃ pre f post, candidates p name = pre ++ f :: post ∧ 512 ≤ f.length ∧
        ∀ g ∈ pre, acc g = false ∧ g.length < 512 := by
  unfold searchPath
  have hs : ¬ (name.any fun c => c == '/') = true := by simpa using hn
  rw [if_neg hs]
  simp only []
  rw [searchLoop_eq acc name _ p (by omega), tryAll_overflow]

example : '/' ∉ "mosml".toList := by decide

/-- A search path that begins with a directory of 600 characters makes the program write behind its buffer,
whatever files there are. -/
theorem C90_searchpath_violation (acc : Name → Bool) :
    searchPath acc (some (List.replicate 600 'a')) "mosml".toList = .overflow := by
  rw [C90_searchpath_overflow acc _ _ (by decide)]
  have hc : candidates (List.replicate 600 'a') "mosml".toList =
      [inDir "mosml".toList (List.replicate 600 'a')] := by
    unfold candidates
    rw [components_last _ (fun h => absurd (List.eq_of_mem_replicate h) (by decide)), List.map_cons, List.map_nil]
  have hl : 512 ≤ (inDir "mosml".toList (List.replicate 600 'a')).length := by
    have hne : List.replicate 600 'a' ≠ [] := by
      intro e
      have := congrArg List.length e
      rw [List.length_replicate, List.length_nil] at this
      omega
    unfold inDir
    rw [if_neg hne, List.length_append, List.length_replicate]; omega
  exact ⟨[], inDir "mosml".toList (List.replicate 600 'a'), [], hc, hl, by simp⟩

end Mosml.Files
