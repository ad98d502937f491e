import Verif.Ints.Sml
import Verif.Util

/-!
Strings: src/runtime/alloc.c, src/runtime/str.c, src/runtime/mosml.c (sml_concat, printers),
src/mosmllib/Strbase.mlp and String.sml, Array.mlp and ArraySlice.sml (copying).

A string block is its header word and its bytes (a whole number of 8-byte words).  Characters are codes.
-/
namespace Mosml.Strings
open Mosml.Ints

abbrev Bytes := List Nat

/-- a string block: header and the bytes of its words -/
structure Blk where
  hd : Nat
  bytes : Bytes
deriving DecidableEq, Repr

/-- mlvalues.h:104 Max_wosize (64 bit) -/
def maxWosize : Nat := 2 ^ 54 - 1
/-- Strbase.mlp:12 maxlen (64 bit) -/
def maxlen : Nat := 144115188075855863

/-- mlvalues.h:71-87: header word `(wosize << 10) + color + tag`, 64 bits.  String_tag = 253. -/
def mkHeader (wosize tag color : Nat) : Nat := (wosize * 1024 + color + tag) % 2 ^ 64
/-- mlvalues.h:90 Wosize_hd -/
def wosizeHd (hd : Nat) : Nat := hd / 1024

/-- write one byte (`Byte (s, i) = c`, stored modulo 256) -/
def Blk.setByte (b : Blk) (i : Nat) (c : Nat) : Blk := { b with bytes := b.bytes.set i (c % 256) }

/-- alloc.c:31-46 alloc_string.  `fresh` is the previous contents of the memory (any bytes). `color` is what
the allocator puts in the header. -/
def allocString (len : Nat) (fresh : Nat → Nat) (color : Nat) : Blk :=
  let wosize := (len + 8) / 8
  let mem : Bytes := (List.range (8 * wosize)).map fun i => fresh i % 256
  -- Field (result, wosize - 1) = 0
  let mem := mem.take (8 * (wosize - 1)) ++ List.replicate 8 0
  let offset_index := 8 * wosize - 1
  ({ hd := mkHeader wosize 253 color, bytes := mem } : Blk).setByte offset_index (offset_index - len)

/-- str.c:10-16 string_length -/
def stringLength (b : Blk) : Nat :=
  let temp := 8 * wosizeHd b.hd - 1
  temp - b.bytes.getD temp 0

/-- the characters an SML program sees -/
def contents (b : Blk) : Bytes := b.bytes.take (stringLength b)

/-- interp.c:1021 GETSTRINGCHAR -/
def getChar (b : Blk) (i : Nat) : Nat := b.bytes.getD i 0

/-- C `memmove` on byte lists: bytes `[o1, o1+n)` of `src` replace bytes `[o2, o2+n)` of `dst`. `none` is an
access outside the blocks (undefined behaviour).  config.h:21-23 maps bcopy to memmove. -/
def memmove (src : Bytes) (o1 : Nat) (dst : Bytes) (o2 n : Nat) : Option Bytes :=
  if o1 + n ≤ src.length ∧ o2 + n ≤ dst.length then
    some (dst.take o2 ++ ((src.drop o1).take n ++ dst.drop (o2 + n)))
  else none

/-- `(int) x` of a long, then converted to size_t (mlvalues.h:68 Int_val) -/
def intVal (n : Nat) : Nat :=
  let m := n % 2 ^ 32
  if m < 2 ^ 31 then m else 2 ^ 64 - 2 ^ 32 + m

/-- str.c:46-52 blit_string: the length goes through `Int_val`. -/
def blitString (s1 : Blk) (o1 : Nat) (s2 : Blk) (o2 len : Nat) : Option Blk :=
  (memmove s1.bytes o1 s2.bytes o2 (intVal len)).map fun bs => { s2 with bytes := bs }

/-- str.c:54-66 fill_string: the loop over `n` -/
def fillLoop (b : Blk) (p : Nat) (c : Nat) : Nat → Blk
  | 0 => b
  | n + 1 => fillLoop (b.setByte p c) (p + 1) c n

def fillString (b : Blk) (offset len init : Nat) : Blk := fillLoop b offset init len

/-- mosml.c:371-394 sml_concat; `none` is the exception Size (or an access outside a block, excluded by the
theorems). -/
def smlConcat (s1 s2 : Blk) (fresh : Nat → Nat) (color : Nat) : Option Blk :=
  let len1 := stringLength s1
  if len1 = 0 then some s2
  else
    let len2 := stringLength s2
    if len2 = 0 then some s1
    else
      let len := len1 + len2
      if (len + 8) / 8 > maxWosize then none
      else
        let s := allocString len fresh color
        (memmove s1.bytes 0 s.bytes 0 len1).bind fun b1 =>
        (memmove s2.bytes 0 b1 len1 len2).map fun b2 => { s with bytes := b2 }

/-- String.sml:23-32 concat: `acc` -/
def concatLen : List Blk → Nat → Nat
  | [], len => len
  | v1 :: vr, len => concatLen vr (stringLength v1 + len)

/-- String.sml:29-31 `copyall` -/
def concatCopy (newstr : Blk) (pos : Nat) : List Blk → Option Blk
  | [] => some newstr
  | v1 :: vr =>
    let len1 := stringLength v1
    (blitString v1 0 newstr pos len1).bind fun s => concatCopy s (pos + len1) vr

/-- String.sml:23-32 concat; `none`: Size, or a copy outside a block -/
def stringConcat (strs : List Blk) (fresh : Nat → Nat) (color : Nat) : Option Blk :=
  let len := concatLen strs 0
  if len > maxlen then none
  else concatCopy (allocString len fresh color) 0 strs

/-! ### comparison -/

/-- str.c:31-38: the loop of compare_strings.  `none`: loop finished. -/
def cmpLoop : Nat → Bytes → Bytes → Option Int
  | 0, _, _ => none
  | len + 1, p1, p2 =>
    let c1 := p1.headD 0
    let c2 := p2.headD 0
    if c1 ≠ c2 then some (if c1 < c2 then -1 else 1) else cmpLoop len p1.tail p2.tail

/-- str.c:23-44 compare_strings -/
def compareStrings (s1 s2 : Blk) : Int :=
  let len1 := stringLength s1
  let len2 := stringLength s2
  match cmpLoop (if len1 ≤ len2 then len1 else len2) s1.bytes s2.bytes with
  | some r => r
  | none => if len1 = len2 then 0 else if len1 < len2 then -2 else 2

inductive Order where | less | equal | greater
deriving DecidableEq, Repr

/-- String.sml:90-97 compare; `none` is the exception Fail "internal error" -/
def stringCompare (s1 s2 : Blk) : Option Order :=
  let r := compareStrings s1 s2
  if r = -2 then some .less else if r = -1 then some .less else if r = 0 then some .equal
  else if r = 1 then some .greater else if r = 2 then some .greater else none

/-- interp.c:1364-1374 string tests: `compare_strings(s1, s2) tst Val_long(0)`; the C results are tagged, so
comparing tagged values with the tagged zero. -/
def tagged (n : Int) : Int := 2 * n + 1
def ltString (s1 s2 : Blk) : Bool := tagged (compareStrings s1 s2) < tagged 0
def leString (s1 s2 : Blk) : Bool := tagged (compareStrings s1 s2) ≤ tagged 0
def gtString (s1 s2 : Blk) : Bool := tagged (compareStrings s1 s2) > tagged 0
def geString (s1 s2 : Blk) : Bool := tagged (compareStrings s1 s2) ≥ tagged 0
def eqString (s1 s2 : Blk) : Bool := tagged (compareStrings s1 s2) == tagged 0

/-- compare.c:25-38: the String_tag case of compare_val (difference as a long). -/
def cmpValLoop : Nat → Bytes → Bytes → Option Int
  | 0, _, _ => none
  | len + 1, p1, p2 =>
    let c1 := p1.headD 0
    let c2 := p2.headD 0
    if c1 ≠ c2 then some ((c1 : Int) - c2) else cmpValLoop len p1.tail p2.tail

def compareValString (s1 s2 : Blk) : Int :=
  let len1 := stringLength s1
  let len2 := stringLength s2
  match cmpValLoop (if len1 ≤ len2 then len1 else len2) s1.bytes s2.bytes with
  | some r => r
  | none => (len1 : Int) - len2

/-! ### escapes -/

/-- decimal digit character (Strbase.mlp:116 digit) -/
def digit (n : Nat) : Nat := 48 + n

/-- Strbase.mlp:179-216 toMLescape (not macintosh) -/
def toMLescape (c : Nat) : Bytes :=
  if c = 92 then [92, 92]
  else if c = 34 then [92, 34]
  else if 32 ≤ c then
    if c ≤ 126 then [c] else [92, digit (c / 100), digit (c / 10 % 10), digit (c % 10)]
  else if c = 7 then [92, 97]
  else if c = 8 then [92, 98]
  else if c = 9 then [92, 116]
  else if c = 10 then [92, 110]
  else if c = 13 then [92, 114]
  else if c = 11 then [92, 118]
  else if c = 12 then [92, 102]
  else [92, 94, c + 64]

/-- Strbase.mlp:111 chr, raising BadEscape (`none`) -/
def chrB (i : Nat) : Option Nat := if i > 255 then none else some i

/-- Strbase.mlp:127-134 decimal, three times (from3Dec) -/
def from3Dec (src : Bytes) : Option (Nat × Bytes) :=
  match src with
  | a :: b :: c :: rest =>
    if (48 ≤ a ∧ a ≤ 57) ∧ (48 ≤ b ∧ b ≤ 57) ∧ (48 ≤ c ∧ c ≤ 57) then
      (chrB (((0 * 10 + a - 48) * 10 + b - 48) * 10 + c - 48)).map fun ch => (ch, rest)
    else none
  | _ => none

mutual
/-- Strbase.mlp:135-146 skipform -/
def skipform : Bytes → Option (Nat × Bytes)
  | [] => none
  | c :: rest =>
    if c = 92 then
      match rest with
      | [] => none
      | d :: src2 => if d = 92 then fromMLescape src2 else some (d, src2)
    else if c = 32 ∨ (9 ≤ c ∧ c ≤ 13) then skipform rest
    else none
termination_by s => s.length

/-- Strbase.mlp:126-177 fromMLescape on a list source (after the backslash) -/
def fromMLescape : Bytes → Option (Nat × Bytes)
  | [] => none
  | c :: rest =>
    if c = 97 then some (7, rest)
    else if c = 98 then some (8, rest)
    else if c = 116 then some (9, rest)
    else if c = 110 then some (10, rest)
    else if c = 114 then some (13, rest)
    else if c = 118 then some (11, rest)
    else if c = 102 then some (12, rest)
    else if c = 34 then some (34, rest)
    else if c = 92 then some (92, rest)
    else if c = 32 ∨ c = 10 ∨ c = 9 then skipform rest
    else if c = 94 then
      match rest with
      | [] => none
      | d :: rest => if 64 ≤ d ∧ d ≤ 95 then some (d - 64, rest) else none
    else from3Dec (c :: rest)
termination_by s => s.length
end

theorem ite_or {α : Type} {p : Prop} [Decidable p] {x y v : α} (h : (if p then x else y) = v) :
    (p ∧ x = v) ∨ (¬p ∧ y = v) := by
  by_cases hp : p
  · rw [if_pos hp] at h; exact Or.inl ⟨hp, h⟩
  · rw [if_neg hp] at h; exact Or.inr ⟨hp, h⟩

theorem from3Dec_len {s : Bytes} {c : Nat} {r : Bytes} (h : from3Dec s = some (c, r)) :
    r.length < s.length := by
  unfold from3Dec at h
  split at h
  · split at h
    · rw [Option.map_eq_some_iff] at h
      obtain ⟨ch, -, h⟩ := h
      cases h
      simp; omega
    · cases h
  · cases h

theorem escape_len (n : Nat) : ∀ s : Bytes, s.length ≤ n →
    (∀ c r, skipform s = some (c, r) → r.length < s.length) ∧
    (∀ c r, fromMLescape s = some (c, r) → r.length < s.length) := by
  induction n with
  | zero =>
    intro s hs
    have : s = [] := List.eq_nil_of_length_eq_zero (by omega)
    subst this
    constructor
    · intro c r h; rw [skipform] at h; cases h
    · intro c r h; rw [fromMLescape] at h; cases h
  | succ n ih =>
    intro s hs
    cases s with
    | nil =>
      constructor
      · intro c r h; rw [skipform] at h; cases h
      · intro c r h; rw [fromMLescape] at h; cases h
    | cons a rest =>
      have hr : rest.length ≤ n := by simpa using hs
      constructor
      · intro c r h
        rw [skipform.eq_def] at h
        dsimp only at h
        split at h
        · split at h
          · cases h
          · rename_i d src2
            split at h
            · have := (ih src2 (by simp at hr; omega)).2 c r h
              simp; omega
            · cases h; simp; omega
        · split at h
          · have := (ih rest hr).1 c r h
            simp; omega
          · cases h
      · intro c r h
        rw [fromMLescape.eq_def] at h
        dsimp only at h
        iterate 9
          rcases ite_or h with ⟨-, h⟩ | ⟨-, h⟩
          · cases h; simp
        rcases ite_or h with ⟨-, h⟩ | ⟨-, h⟩
        · have := (ih rest hr).1 c r h; simp; omega
        rcases ite_or h with ⟨-, h⟩ | ⟨-, h⟩
        · cases rest with
          | nil => cases h
          | cons d rest =>
            rcases ite_or h with ⟨-, h⟩ | ⟨-, h⟩
            · cases h; simp; omega
            · cases h
        · exact from3Dec_len h

/-- String.sml:177-187 fromString: the loop `h`, with the accumulator reversed; the source is a list. -/
def fromStringLoop (src : Bytes) (res : Bytes) : Option Bytes :=
  match src with
  | [] => some res.reverse
  | c :: src1 =>
    if c = 92 then
      match h : fromMLescape src1 with
      | none => none
      | some (d, src2) =>
        have : src2.length < src1.length := (escape_len _ src1 (Nat.le_refl _)).2 d src2 h
        fromStringLoop src2 (d :: res)
    else fromStringLoop src1 (c :: res)
termination_by src.length

def fromString (s : Bytes) : Option Bytes := fromStringLoop s []

/-- String.sml:189 toString via Strbase.translate (Strbase.mlp:52-57): concatenation of the translations. -/
def toString (s : Bytes) : Bytes := s.flatMap toMLescape

/-- Strbase.mlp:222-252 toCescape (not macintosh) -/
def toCescape (c : Nat) : Bytes :=
  if c = 92 then [92, 92]
  else if c = 63 then [92, 63]
  else if c = 39 then [92, 39]
  else if c = 34 then [92, 34]
  else if 32 ≤ c ∧ c ≤ 126 then [c]
  else if c = 10 then [92, 110]
  else if c = 13 then [92, 114]
  else if c = 9 then [92, 116]
  else if c = 11 then [92, 118]
  else if c = 8 then [92, 98]
  else if c = 12 then [92, 102]
  else if c = 7 then [92, 97]
  else [92, digit (c / 64), digit (c / 8 % 8), digit (c % 8)]

def isHexDigit (c : Nat) : Bool := (48 ≤ c && c ≤ 57) || (97 ≤ c && c ≤ 102) || (65 ≤ c && c ≤ 70)
/-- Strbase.mlp:117-119 hexval (applied to hexadecimal digits only) -/
def hexval (c : Nat) : Nat := if 48 ≤ c ∧ c ≤ 57 then c - 48 else (c - 55) % 32

/-- Strbase.mlp:255-260 fromHex.  `code * 16 + hexval c` can raise Overflow, which the callers turn into NONE
just like BadEscape; since `code` never decreases, `chr` fails in that case too, so it is not modelled. -/
def fromHex (code : Nat) : Bytes → Option (Nat × Bytes)
  | [] => (chrB code).map fun ch => (ch, [])
  | c :: rest =>
    if isHexDigit c then fromHex (code * 16 + hexval c) rest
    else (chrB code).map fun ch => (ch, c :: rest)

/-- Strbase.mlp:261-269 octalOpt, applied twice after the first digit (fromOct) -/
def octalOpt (cont : Bytes → Nat → Option (Nat × Bytes)) (src : Bytes) (code : Nat) : Option (Nat × Bytes) :=
  match src with
  | [] => (chrB code).map fun ch => (ch, [])
  | c :: rest =>
    if 48 ≤ c ∧ c ≤ 55 then cont rest (code * 8 + c - 48)
    else (chrB code).map fun ch => (ch, c :: rest)

def fromOct (src : Bytes) (code : Nat) : Option (Nat × Bytes) :=
  octalOpt (octalOpt fun src code => (chrB code).map fun ch => (ch, src)) src code

/-- Strbase.mlp:254-298 fromCescape' (`none` is BadEscape or Overflow) -/
def fromCescape : Bytes → Option (Nat × Bytes)
  | [] => none
  | c :: src1 =>
    if c = 110 then some (10, src1)
    else if c = 114 then some (13, src1)
    else if c = 116 then some (9, src1)
    else if c = 118 then some (11, src1)
    else if c = 98 then some (8, src1)
    else if c = 102 then some (12, src1)
    else if c = 97 then some (7, src1)
    else if c = 92 then some (92, src1)
    else if c = 63 then some (63, src1)
    else if c = 39 then some (39, src1)
    else if c = 34 then some (34, src1)
    else if c = 120 then
      match src1 with
      | [] => none
      | d :: src2 => if isHexDigit d then fromHex (hexval d) src2 else none
    else if 48 ≤ c ∧ c ≤ 55 then fromOct src1 (c - 48)
    else none

theorem fromHex_len (s : Bytes) : ∀ code c r, fromHex code s = some (c, r) → r.length ≤ s.length := by
  induction s with
  | nil =>
    intro code c r h
    rw [fromHex, Option.map_eq_some_iff] at h
    obtain ⟨_, -, h⟩ := h; cases h; simp
  | cons a s ih =>
    intro code c r h
    rw [fromHex] at h
    split at h
    · have := ih _ c r h; simp; omega
    · rw [Option.map_eq_some_iff] at h
      obtain ⟨_, -, h⟩ := h; cases h; simp

theorem octalOpt_len {cont : Bytes → Nat → Option (Nat × Bytes)}
    (hc : ∀ s code c r, cont s code = some (c, r) → r.length ≤ s.length) (s : Bytes) (code c : Nat) (r : Bytes)
    (h : octalOpt cont s code = some (c, r)) : r.length ≤ s.length := by
  unfold octalOpt at h
  split at h
  · rw [Option.map_eq_some_iff] at h
    obtain ⟨_, -, h⟩ := h; cases h; simp
  · split at h
    · have := hc _ _ c r h; simp; omega
    · rw [Option.map_eq_some_iff] at h
      obtain ⟨_, -, h⟩ := h; cases h; simp

theorem fromCescape_len {s : Bytes} {c : Nat} {r : Bytes} (h : fromCescape s = some (c, r)) :
    r.length < s.length := by
  unfold fromCescape at h
  split at h
  · cases h
  · rename_i a src1
    iterate 11
      rcases ite_or h with ⟨-, h⟩ | ⟨-, h⟩
      · cases h; simp
    rcases ite_or h with ⟨-, h⟩ | ⟨-, h⟩
    · cases src1 with
      | nil => cases h
      | cons d src2 =>
        rcases ite_or h with ⟨-, h⟩ | ⟨-, h⟩
        · have := fromHex_len _ _ c r h; simp; omega
        · cases h
    rcases ite_or h with ⟨-, h⟩ | ⟨-, h⟩
    · have := octalOpt_len (octalOpt_len (by
          intro s code c r h
          rw [Option.map_eq_some_iff] at h
          obtain ⟨_, -, h⟩ := h; cases h; simp)) _ _ c r h
      simp; omega
    · cases h

/-- Strbase.mlp:308-317: buffer growth in fromCString.  `fresh n` are the (arbitrary) bytes of a newly made
string of length `n`; the buffer is doubled and the old part copied. -/
def realloc (fresh : Nat → Bytes) (tmp : Bytes) (max : Nat) : Bytes × Nat :=
  let newmax := 2 * max
  (tmp.take max ++ (fresh newmax).drop max, newmax)

/-- Strbase.mlp:322-323 addchar -/
def addchar (fresh : Nat → Bytes) (tmp : Bytes) (max len c : Nat) : Bytes × Nat :=
  let (tmp, max) := if len ≥ max then realloc fresh tmp max else (tmp, max)
  (tmp.set len c, max)

/-- Strbase.mlp:321-331 the loop `h` of fromCString -/
def fromCStringLoop (fresh : Nat → Bytes) (tmp : Bytes) (max len : Nat) (src : Bytes) : Option Bytes :=
  match src with
  | [] => some (tmp.take len)
  | c :: src1 =>
    if c = 92 then
      match h : fromCescape src1 with
      | none => none
      | some (d, src2) =>
        have : src2.length < src1.length := fromCescape_len h
        let (tmp, max) := addchar fresh tmp max len d
        fromCStringLoop fresh tmp max (len + 1) src2
    else
      let (tmp, max) := addchar fresh tmp max len c
      fromCStringLoop fresh tmp max (len + 1) src1
termination_by src.length

/-- Strbase.mlp:306-337 fromCString -/
def fromCString (fresh : Nat → Bytes) (s : Bytes) : Option Bytes :=
  fromCStringLoop fresh (fresh 1) 1 0 s

/-- String.sml:193 toCString -/
def toCString (s : Bytes) : Bytes := s.flatMap toCescape

/-- mosml.c:573-592: length contributed by one character in the first pass of sml_makestring_of_string -/
def makestringLen (c : Nat) : Nat :=
  if c = 34 ∨ c = 92 ∨ c = 7 ∨ c = 8 ∨ c = 9 ∨ c = 10 ∨ c = 11 ∨ c = 12 ∨ c = 13 then 2
  else if c ≤ 31 then 3
  else if (32 ≤ c ∧ c ≤ 126) ∨ (128 ≤ c ∧ c ≤ 254) then 1
  else 4

/-- mosml.c:601-627: what the second pass writes for one character -/
def makestringChar (c : Nat) : Bytes :=
  if c = 34 then [92, 34]
  else if c = 92 then [92, 92]
  else if c = 7 then [92, 97]
  else if c = 8 then [92, 98]
  else if c = 9 then [92, 116]
  else if c = 10 then [92, 110]
  else if c = 11 then [92, 118]
  else if c = 12 then [92, 102]
  else if c = 13 then [92, 114]
  else if c ≤ 31 then [92, 94, c + 64]
  else if (32 ≤ c ∧ c ≤ 126) ∨ (128 ≤ c ∧ c ≤ 254) then [c]
  else [92, 48 + c / 100, 48 + (c / 10) % 10, 48 + c % 10]

/-- mosml.c:559-632: bytes written by the second pass (between and including the quotes) -/
def makestringBytes (s : Bytes) : Bytes := [34] ++ s.flatMap makestringChar ++ [34]
/-- mosml.c:559-594: size of the string allocated after the first pass -/
def makestringAlloc (s : Bytes) : Nat := (s.map makestringLen).sum + 2

/-- mosml.c:519-557 sml_makestring_of_char -/
def makestringOfChar (c : Nat) : Bytes := [35, 34] ++ makestringChar c ++ [34]

/-! ### array copying -/

/-- The heap of arrays: address to elements. -/
abbrev Arrays (α : Type) := Nat → List α

/-- interp.c set_vect_item -/
def upd {α : Type} (σ : Arrays α) (a i : Nat) (v : α) : Arrays α :=
  fun b => if b = a then (σ b).set i v else σ b

/-- ArraySlice.sml:77-82 hi2lo (argument: number of elements still to copy, `j + 1`) -/
def hi2lo {α : Type} [Inhabited α] (a1 i1 a2 i2 : Nat) : Nat → Arrays α → Arrays α
  | 0, σ => σ
  | j + 1, σ => hi2lo a1 i1 a2 i2 j (upd σ a2 (i2 + j) ((σ a1).getD (i1 + j) default))

/-- ArraySlice.sml:83-88 lo2hi (fuel: `n - j`) -/
def lo2hi {α : Type} [Inhabited α] (a1 i1 a2 i2 : Nat) : Nat → Nat → Arrays α → Arrays α
  | 0, _, σ => σ
  | m + 1, j, σ => lo2hi a1 i1 a2 i2 m (j + 1) (upd σ a2 (i2 + j) ((σ a1).getD (i1 + j) default))

inductive CopyRes (α : Type) where
  | ok (σ : Arrays α)
  | subscript
  | overflow

/-- ArraySlice.sml:71-89 copy.  `di` is any SML int; `i2 + n` is checked SML addition. -/
def sliceCopy {α : Type} [Inhabited α] (σ : Arrays α) (a1 i1 n a2 : Nat) (di : Int) : CopyRes α :=
  if di < 0 then .subscript
  else match iadd di n with
    | none => .overflow
    | some e =>
      if e > (σ a2).length then .subscript
      else if (i1 : Int) < di then .ok (hi2lo a1 i1 a2 di.toNat n σ)
      else .ok (lo2hi a1 i1 a2 di.toNat n 0 σ)

/-- Array.mlp:93-106 copy (always from high to low) -/
def arrayCopy {α : Type} [Inhabited α] (σ : Arrays α) (a1 a2 : Nat) (di : Int) : CopyRes α :=
  let n := (σ a1).length
  if di < 0 then .subscript
  else match iadd di n with
    | none => .overflow
    | some e =>
      if e > (σ a2).length then .subscript
      else .ok (hi2lo a1 0 a2 di.toNat n σ)

end Mosml.Strings
