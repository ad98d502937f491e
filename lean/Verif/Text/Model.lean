import Verif.Lists.Model

/-!
# Strings, substrings, characters and scanning

Model of `src/mosmllib/String.sml` (but for the escapes, which are C11, and the
comparisons, C10), `Substring.sml` (but for the functions of `Strbase` with
predicates, which are C47), `translate` of `Strbase.mlp`, `StringCvt.sml` and
`Char.sml` (but for the escapes).

A string is the list of its character codes.  The units are written with
primitives that check neither subscripts nor sizes (`get_nth_char`,
`set_nth_char`, `blit_string`, `fill_string`, `create_string`, String.sml:5-10):
a use outside the string is the outcome `bad`.  A string under construction is a
list of optional codes; to return it with a character missing is `bad` as well.
`blit_string` takes its length as a C `int` (str.c, C12): a length of 2^31 or
more is `bad` here.  Functions that are passed as arguments are computations on
an arbitrary state, as in `Verif/Lists`.

Simplifications: integers are checked against the range of `int` (63 bits)
where the arguments do not exclude an overflow; loops take a fuel, one unit for
each round, and do not end if it is spent.
-/

namespace Mosml.Text

open Mosml.Lists (Prog Exn Out chk minInt maxInt)

/-- A string. -/
abbrev Str := List Nat

/-- A string under construction. -/
abbrev Raw := List (Option Nat)

/-- `Strbase.maxlen` with SIXTYFOUR (Strbase.mlp:12). -/
def maxSize : Int := 144115188075855863

variable {W α β : Type}

/-- A loop that is not finished. -/
def spent : Prog W α := fun _ => .hang

/-- `size`. -/
def size (s : Str) : Int := s.length

/-- `get_nth_char` (`sub_`). -/
def sub_ (s : Str) (i : Int) : Prog W Nat :=
  if 0 ≤ i then
    match s[i.toNat]? with
    | some c => pure c
    | none => Prog.throw .bad
  else Prog.throw .bad

/-- `create_string` (`mkstring_`). -/
def mkstring_ (n : Int) : Prog W Raw :=
  if 0 ≤ n ∧ n ≤ maxSize then pure (List.replicate n.toNat none) else Prog.throw .bad

/-- `set_nth_char` (`update_`, `set_nth_`). -/
def update_ (r : Raw) (i : Int) (c : Nat) : Prog W Raw :=
  if 0 ≤ i ∧ i < r.length then pure (r.set i.toNat (some c)) else Prog.throw .bad

/-- `blit_string` (`blit_`) from one string to another. -/
def blit_ (src : Raw) (i : Int) (dst : Raw) (j n : Int) : Prog W Raw :=
  if 0 ≤ i ∧ 0 ≤ j ∧ 0 ≤ n ∧ n < 2147483648 ∧ i + n ≤ src.length ∧ j + n ≤ dst.length then
    pure (dst.take j.toNat ++ (src.drop i.toNat).take n.toNat ++ dst.drop (j + n).toNat)
  else Prog.throw .bad

/-- `fill_string` (`fill_`). -/
def fill_ (dst : Raw) (j n : Int) (c : Nat) : Prog W Raw :=
  if 0 ≤ j ∧ 0 ≤ n ∧ j + n ≤ dst.length then
    pure (dst.take j.toNat ++ List.replicate n.toNat (some c) ++ dst.drop (j + n).toNat)
  else Prog.throw .bad

/-- A string as the source of a copy. -/
def raw (s : Str) : Raw := s.map some

/-- The string under construction is returned. -/
def done : Raw → Prog W Str
  | [] => pure []
  | none :: _ => Prog.throw .bad
  | some c :: r => do
      let s ← done r
      pure (c :: s)

/-! ## String.sml -/

namespace Strng

/-- String.sml:19-21. -/
def sub (s : Str) (i : Int) : Prog W Nat :=
  if i < 0 ∨ i ≥ size s then Prog.throw .subscript else sub_ s i

/-- `acc` in `concat`, String.sml:24-25. -/
def concatAcc : List Str → Int → Prog W Int
  | [], len => pure len
  | v1 :: vr, len => chk (size v1 + len) (concatAcc vr (size v1 + len))

/-- `copyall` in `concat`, String.sml:28-31. -/
def copyall (newstr : Raw) (pos : Int) : List Str → Prog W Raw
  | [] => pure newstr
  | v1 :: vr => do
      let newstr ← blit_ (raw v1) 0 newstr pos (size v1)
      copyall newstr (pos + size v1) vr

/-- String.sml:23-32. -/
def concat (strs : List Str) : Prog W Str := do
  let len ← concatAcc strs 0
  let newstr ← if len > maxSize then Prog.throw .size else mkstring_ len
  let newstr ← copyall newstr 0 strs
  done newstr

/-- `acc` in `concatWith`, String.sml:38-39. -/
def concatWithAcc (seplen : Int) : List Str → Int → Prog W Int
  | [], len => pure len
  | v1 :: vr, len => chk (size v1 + seplen + len) (concatWithAcc seplen vr (size v1 + seplen + len))

/-- `copyall` in `concatWith`, String.sml:42-48. -/
def copyallWith (sep : Str) (newstr : Raw) (pos : Int) : List Str → Prog W Raw
  | [] => pure newstr
  | v1 :: vr => do
      let newstr ← blit_ (raw sep) 0 newstr pos (size sep)
      let newstr ← blit_ (raw v1) 0 newstr (pos + size sep) (size v1)
      copyallWith sep newstr (pos + size sep + size v1) vr

/-- String.sml:34-54. -/
def concatWith (sep : Str) : List Str → Prog W Str
  | [] => pure []
  | s1 :: sr => do
      let len ← concatWithAcc (size sep) sr (size s1)
      let newstr ← if len > maxSize then Prog.throw .size else mkstring_ len
      let newstr ← blit_ (raw s1) 0 newstr 0 (size s1)
      let newstr ← copyallWith sep newstr (size s1) sr
      done newstr

/-- String.sml:58-60. -/
def str (c : Nat) : Prog W Str := do
  let newstr ← mkstring_ 1
  let newstr ← update_ newstr 0 c
  done newstr

/-- `init` in `implode`, String.sml:65-66. -/
def implodeInit (newstr : Raw) : List Nat → Int → Prog W Raw
  | [], _ => pure newstr
  | c :: cr, i => do
      let newstr ← update_ newstr i c
      implodeInit newstr cr (i + 1)

/-- String.sml:62-67. -/
def implode (cs : List Nat) : Prog W Str := do
  let n ← Lists.length cs
  let newstr ← if n > maxSize then Prog.throw .size else mkstring_ n
  let newstr ← implodeInit newstr cs 0
  done newstr

/-- String.sml:69-73; `n > size s - i` is reached only with `i >= 0`. -/
def extract (s : Str) (i : Int) (slicelen : Option Int) : Prog W Str := do
  let n ← match slicelen with
    | none => chk (size s - i) (pure (size s - i))
    | some n => pure n
  let newstr ← if i < 0 ∨ n < 0 ∨ n > size s - i then Prog.throw .subscript else mkstring_ n
  let newstr ← blit_ (raw s) i newstr 0 n
  done newstr

/-- String.sml:75. -/
def substring (s : Str) (i n : Int) : Prog W Str := extract s i (some n)

/-- `h` in `explode`, String.sml:78-79. -/
def explodeH (s : Str) : Nat → Int → List Nat → Prog W (List Nat)
  | 0, _, _ => spent
  | k + 1, j, res =>
      if j < 0 then pure res
      else do
        let c ← sub_ s j
        explodeH s k (j - 1) (c :: res)

/-- String.sml:77-80. -/
def explode (s : Str) : Prog W (List Nat) := explodeH s (s.length + 1) (size s - 1) []

/-- `lr` in `map`, String.sml:85-87. -/
def mapLr (f : Nat → Prog W Nat) (a : Str) (stop : Int) : Nat → Raw → Int → Prog W Raw
  | 0, _, _ => spent
  | k + 1, newstr, j =>
      if j < stop then do
        let c ← sub_ a j
        let d ← f c
        let newstr ← update_ newstr j d
        mapLr f a stop k newstr (j + 1)
      else pure newstr

/-- String.sml:82-88. -/
def map (f : Nat → Prog W Nat) (a : Str) : Prog W Str := do
  let newstr ← mkstring_ (size a)
  let newstr ← mapLr f a (size a) (a.length + 1) newstr 0
  done newstr

end Strng

/-- `h` in `collate`, String.sml:103-112 (with i1 = i2 = 0) and Substring.sml:154-162. -/
def collateH (cmp : Nat → Nat → Prog W Ordering) (s1 : Str) (i1 n1 : Int) (s2 : Str) (i2 n2 stop : Int) :
    Nat → Int → Prog W Ordering
  | 0, _ => spent
  | k + 1, j =>
      if j = stop then
        if n1 < n2 then pure .lt else if n1 > n2 then pure .gt else pure .eq
      else do
        let c1 ← sub_ s1 (i1 + j)
        let c2 ← sub_ s2 (i2 + j)
        let r ← cmp c1 c2
        match r with
        | .lt => pure .lt
        | .gt => pure .gt
        | .eq => collateH cmp s1 i1 n1 s2 i2 n2 stop k (j + 1)

/-- `h` in `isPrefix` and `isSuffix`, String.sml:127-128 (off = 0), 136 (stop = n1);
Substring.sml:122-123 (off = i2), 129-131. -/
def eqH (s1 s2 : Str) (off stop : Int) : Nat → Int → Prog W Bool
  | 0, _ => spent
  | k + 1, j =>
      if j = stop then pure true
      else do
        let c1 ← sub_ s1 j
        let c2 ← sub_ s2 (j + off)
        if c1 = c2 then eqH s1 s2 off stop k (j + 1) else pure false

/-- `cmp` in `isSubstring`, String.sml:146-151, Substring.sml:139-143. -/
def cmpH (s1 s2 : Str) (stop1 offset : Int) : Nat → Int → Prog W Bool
  | 0, _ => spent
  | k + 1, j =>
      if j ≥ stop1 then pure true
      else do
        let c1 ← sub_ s1 j
        let c2 ← sub_ s2 (j + offset)
        if c1 = c2 then cmpH s1 s2 stop1 offset k (j + 1) else pure false

/-- `issub` in `isSubstring`, String.sml:153-156, Substring.sml:146-149. -/
def issub (s1 s2 : Str) (stop1 stop2 : Int) : Nat → Int → Prog W Bool
  | 0, _ => spent
  | k + 1, offset =>
      if offset ≤ stop2 then do
        let c1 ← sub_ s1 stop1
        let c2 ← sub_ s2 (stop1 + offset)
        let b ← if c1 = c2 then cmpH s1 s2 stop1 offset (s1.length + 1) 0 else pure false
        if b then pure true else issub s1 s2 stop1 stop2 k (offset + 1)
      else pure false

/-- `h` in `foldl`, String.sml:161-162 and Strbase.mlp:48-49. -/
def foldlH (f : Nat → β → Prog W β) (s : Str) (stop : Int) : Nat → Int → β → Prog W β
  | 0, _, _ => spent
  | k + 1, j, res =>
      if j ≥ stop then pure res
      else do
        let c ← sub_ s j
        let res ← f c res
        foldlH f s stop k (j + 1) res

/-- `h` in `foldr`, String.sml:166-167 (i = 0) and Substring.sml:168-169. -/
def foldrH (f : Nat → β → Prog W β) (s : Str) (i : Int) : Nat → Int → β → Prog W β
  | 0, _, _ => spent
  | k + 1, j, res =>
      if j < i then pure res
      else do
        let c ← sub_ s j
        let res ← f c res
        foldrH f s i k (j - 1) res

/-- `h` in `translate`, Strbase.mlp:54-55. -/
def translateH (f : Nat → Prog W Str) (s : Str) (stop : Int) :
    Nat → Int → List Str → Prog W (List Str)
  | 0, _, _ => spent
  | k + 1, j, res =>
      if j ≥ stop then pure res
      else do
        let c ← sub_ s j
        let t ← f c
        translateH f s stop k (j + 1) (t :: res)

/-- `copyall` in `revconcat`, Strbase.mlp:33-37. -/
def revcopy (newstr : Raw) (pos : Int) : List Str → Prog W Raw
  | [] => pure newstr
  | v1 :: vr => do
      let newstr ← blit_ (raw v1) 0 newstr (pos - size v1) (size v1)
      revcopy newstr (pos - size v1) vr

/-- Strbase.mlp:28-38; `acc` is the one of `concat`. -/
def revconcat (strs : List Str) : Prog W Str := do
  let len ← Strng.concatAcc strs 0
  let newstr ← if len > maxSize then Prog.throw .size else mkstring_ len
  let newstr ← revcopy newstr len strs
  done newstr

/-- Strbase.mlp:52-56. -/
def translate (f : Nat → Prog W Str) (s : Str) (i n : Int) : Prog W Str := do
  let ts ← translateH f s (i + n) (s.length + 1) i []
  revconcat ts

namespace Strng

/-- String.sml:99-112. -/
def collate (cmp : Nat → Nat → Prog W Ordering) (s1 s2 : Str) : Prog W Ordering :=
  collateH cmp s1 0 (size s1) s2 0 (size s2) (if size s1 < size s2 then size s1 else size s2)
    (s1.length + 1) 0

/-- String.sml:114-115. -/
def translate (f : Nat → Prog W Str) (s : Str) : Prog W Str := Text.translate f s 0 (size s)

/-- String.sml:123-129. -/
def isPrefix (s1 s2 : Str) : Prog W Bool :=
  if size s1 ≤ size s2 then
    eqH s1 s2 0 (if size s1 < size s2 then size s1 else size s2) (s1.length + 1) 0
  else pure false

/-- String.sml:131-137. -/
def isSuffix (s1 s2 : Str) : Prog W Bool :=
  if size s1 ≤ size s2 then eqH s1 s2 (size s2 - size s1) (size s1) (s1.length + 1) 0
  else pure false

/-- String.sml:140-157. -/
def isSubstring (s1 s2 : Str) : Prog W Bool :=
  match s1 with
  | [] => pure true
  | s1 => issub s1 s2 (size s1 - 1) (size s2 - size s1) (s2.length + 2) 0

/-- String.sml:159-163. -/
def foldl (f : Nat → β → Prog W β) (e : β) (s : Str) : Prog W β :=
  foldlH f s (size s) (s.length + 1) 0 e

/-- String.sml:165-168. -/
def foldr (f : Nat → β → Prog W β) (e : β) (s : Str) : Prog W β :=
  foldrH f s 0 (s.length + 1) (size s - 1) e

/-- `h` in `find`, String.sml:172-174. -/
def findH (p : Nat → Prog W Bool) (s : Str) (stop : Int) : Nat → Int → Prog W (Option Int)
  | 0, _ => spent
  | k + 1, j =>
      if j ≥ stop then pure none
      else do
        let c ← sub_ s j
        let b ← p c
        if b then pure (some j) else findH p s stop k (j + 1)

/-- String.sml:170-175. -/
def find (p : Nat → Prog W Bool) (s : Str) : Prog W (Option Int) :=
  findH p s (size s) (s.length + 1) 0

end Strng

/-! ## Substring.sml -/

/-- `type substring = string * int * int`, Substring.sml:10. -/
structure Sus where
  s : Str
  i : Int
  n : Int
deriving DecidableEq, Repr

namespace Sus

/-- Substring.sml:18-20. -/
def string (x : Sus) : Prog W Str := do
  let newstr ← mkstring_ x.n
  let newstr ← blit_ (raw x.s) x.i newstr 0 x.n
  done newstr

/-- Substring.sml:22-27. -/
def extract (s : Str) (i : Int) : Option Int → Prog W Sus
  | none => if 0 ≤ i ∧ i ≤ size s then pure ⟨s, i, size s - i⟩ else Prog.throw .subscript
  | some n =>
      if 0 ≤ i ∧ 0 ≤ n ∧ n ≤ size s - i then pure ⟨s, i, n⟩ else Prog.throw .subscript

/-- Substring.sml:29. -/
def substring (s : Str) (i n : Int) : Prog W Sus := extract s i (some n)

/-- Substring.sml:31, 33. -/
def full (s : Str) : Sus := ⟨s, 0, size s⟩

/-- Substring.sml:35-36. -/
def getc (x : Sus) : Prog W (Option (Nat × Sus)) :=
  if x.n = 0 then pure none
  else do
    let c ← sub_ x.s x.i
    pure (some (c, ⟨x.s, x.i + 1, x.n - 1⟩))

/-- Substring.sml:38-39. -/
def first (x : Sus) : Prog W (Option Nat) :=
  if x.n = 0 then pure none
  else do
    let c ← sub_ x.s x.i
    pure (some c)

/-- Substring.sml:41. -/
def isEmpty (x : Sus) : Bool := x.n = 0

/-- Substring.sml:43-46: the application to `k` and that to the substring. -/
def triml (k : Int) : Prog W (Sus → Sus) :=
  if k < 0 then Prog.throw .subscript
  else pure fun x => if k > x.n then ⟨x.s, x.i + x.n, 0⟩ else ⟨x.s, x.i + k, x.n - k⟩

/-- Substring.sml:48-51. -/
def trimr (k : Int) : Prog W (Sus → Sus) :=
  if k < 0 then Prog.throw .subscript
  else pure fun x => if k > x.n then ⟨x.s, x.i, 0⟩ else ⟨x.s, x.i, x.n - k⟩

/-- Substring.sml:53-55. -/
def sub (x : Sus) (i : Int) : Prog W Nat :=
  if i < 0 ∨ i ≥ x.n then Prog.throw .subscript else sub_ x.s (x.i + i)

/-- Substring.sml:57. -/
def size (x : Sus) : Int := x.n

/-- Substring.sml:59-68. -/
def slice (x : Sus) (i : Int) : Option Int → Prog W Sus
  | none => if 0 ≤ i ∧ i ≤ x.n then pure ⟨x.s, x.i + i, x.n - i⟩ else Prog.throw .subscript
  | some n =>
      if 0 ≤ i ∧ 0 ≤ n then
        chk (i + n) (if i + n ≤ x.n then pure ⟨x.s, x.i + i, n⟩ else Prog.throw .subscript)
      else Prog.throw .subscript

/-- Substring.sml:70-72. -/
def splitAt (x : Sus) (k : Int) : Prog W (Sus × Sus) :=
  if k < 0 ∨ k > x.n then Prog.throw .subscript
  else pure (⟨x.s, x.i, k⟩, ⟨x.s, x.i + k, x.n - k⟩)

/-- `acc` in `concat`, Substring.sml:75-76. -/
def concatAcc : List Sus → Int → Prog W Int
  | [], len => pure len
  | v :: vr, len => chk (v.n + len) (concatAcc vr (v.n + len))

/-- `copyall` in `concat`, Substring.sml:80-82. -/
def copyall (newstr : Raw) (pos : Int) : List Sus → Prog W Raw
  | [] => pure newstr
  | v :: vr => do
      let newstr ← blit_ (raw v.s) v.i newstr pos v.n
      copyall newstr (pos + v.n) vr

/-- Substring.sml:74-83. -/
def concat (strs : List Sus) : Prog W Str := do
  let len ← concatAcc strs 0
  let newstr ← if len > maxSize then Prog.throw .size else mkstring_ len
  let newstr ← copyall newstr 0 strs
  done newstr

/-- `acc` in `concatWith`, Substring.sml:88-89. -/
def concatWithAcc (seplen : Int) : List Sus → Int → Prog W Int
  | [], len => pure len
  | v :: vr, len => chk (v.n + seplen + len) (concatWithAcc seplen vr (v.n + seplen + len))

/-- `copyall` in `concatWith`, Substring.sml:93-97. -/
def copyallWith (sep : Str) (newstr : Raw) (pos : Int) : List Sus → Prog W Raw
  | [] => pure newstr
  | v :: vr => do
      let newstr ← blit_ (raw sep) 0 newstr pos (Text.size sep)
      let newstr ← blit_ (raw v.s) v.i newstr (pos + Text.size sep) v.n
      copyallWith sep newstr (pos + Text.size sep + v.n) vr

/-- Substring.sml:85-102. -/
def concatWith (sep : Str) : List Sus → Prog W Str
  | [] => pure []
  | x :: sr => do
      let len ← concatWithAcc (Text.size sep) sr x.n
      let newstr ← if len > maxSize then Prog.throw .size else mkstring_ len
      let newstr ← blit_ (raw x.s) x.i newstr 0 x.n
      let newstr ← copyallWith sep newstr x.n sr
      done newstr

/-- `h` in `compare`, Substring.sml:106-116. -/
def compareH (x y : Sus) (stop : Int) : Nat → Int → Prog W Ordering
  | 0, _ => spent
  | k + 1, j =>
      if j = stop then
        if x.n < y.n then pure .lt else if x.n > y.n then pure .gt else pure .eq
      else do
        let c1 ← sub_ x.s (x.i + j)
        let c2 ← sub_ y.s (y.i + j)
        if c1 < c2 then pure .lt
        else if c1 > c2 then pure .gt
        else compareH x y stop k (j + 1)

/-- Substring.sml:104-117. -/
def compare (x y : Sus) : Prog W Ordering :=
  compareH x y (if x.n < y.n then x.n else y.n) (x.s.length + 1) 0

/-- Substring.sml:119-124. -/
def isPrefix (s1 : Str) (x : Sus) : Prog W Bool :=
  if Text.size s1 ≤ x.n then
    eqH s1 x.s x.i (if Text.size s1 < x.n then Text.size s1 else x.n) (s1.length + 1) 0
  else pure false

/-- Substring.sml:126-132. -/
def isSuffix (s1 : Str) (x : Sus) : Prog W Bool :=
  if Text.size s1 ≤ x.n then
    eqH s1 x.s (x.i + x.n - Text.size s1) (Text.size s1) (s1.length + 1) 0
  else pure false

/-- Substring.sml:134-150. -/
def isSubstring (s1 : Str) (x : Sus) : Prog W Bool :=
  match s1 with
  | [] => pure true
  | s1 => issub s1 x.s (Text.size s1 - 1) (x.i + x.n - Text.size s1) (x.s.length + 2) x.i

/-- Substring.sml:152-163. -/
def collate (cmp : Nat → Nat → Prog W Ordering) (x y : Sus) : Prog W Ordering :=
  collateH cmp x.s x.i x.n y.s y.i y.n (if x.n < y.n then x.n else y.n) (x.s.length + 1) 0

/-- Substring.sml:165, Strbase.mlp:46-50. -/
def foldl (f : Nat → β → Prog W β) (e : β) (x : Sus) : Prog W β :=
  foldlH f x.s (x.i + x.n) (x.s.length + 1) x.i e

/-- Substring.sml:167-170. -/
def foldr (f : Nat → β → Prog W β) (e : β) (x : Sus) : Prog W β :=
  foldrH f x.s x.i (x.s.length + 1) (x.i + x.n - 1) e

/-- `h` in `explode`, Substring.sml:173-174. -/
def explodeH (s : Str) (i : Int) : Nat → Int → List Nat → Prog W (List Nat)
  | 0, _, _ => spent
  | k + 1, j, res =>
      if j < i then pure res
      else do
        let c ← sub_ s j
        explodeH s i k (j - 1) (c :: res)

/-- Substring.sml:172-175. -/
def explode (x : Sus) : Prog W (List Nat) :=
  explodeH x.s x.i (x.s.length + 1) (x.i + x.n - 1) []

/-- `h` in `app`, Substring.sml:181-182. -/
def appH (f : Nat → Prog W Unit) (s : Str) (stop : Int) : Nat → Int → Prog W Unit
  | 0, _ => spent
  | k + 1, j =>
      if j ≥ stop then pure ()
      else do
        let c ← sub_ s j
        f c
        appH f s stop k (j + 1)

/-- Substring.sml:179-183. -/
def app (f : Nat → Prog W Unit) (x : Sus) : Prog W Unit :=
  appH f x.s (x.i + x.n) (x.s.length + 1) x.i

/-- Substring.sml:187-191. -/
def span (x y : Sus) : Prog W Sus :=
  if x.i > y.i + y.n ∨ x.s ≠ y.s then Prog.throw .span
  else pure ⟨x.s, x.i, y.i + y.n - x.i⟩

/-- Substring.sml:203. -/
def translate (f : Nat → Prog W Str) (x : Sus) : Prog W Str := Text.translate f x.s x.i x.n

/-- `eq` in `position`, Substring.sml:213-214. -/
def posEq (s s' : Str) (len1 : Int) : Nat → Int → Int → Prog W Bool
  | 0, _, _ => spent
  | m + 1, j, k =>
      if j ≥ len1 then pure true
      else do
        let c1 ← sub_ s j
        let c2 ← sub_ s' k
        if c1 = c2 then posEq s s' len1 m (j + 1) (k + 1) else pure false

/-- `cmp` in `position`, Substring.sml:216-221. -/
def posCmp (s : Str) (x : Sus) (len1 stop : Int) : Nat → Int → Prog W (Sus × Sus)
  | 0, _ => spent
  | m + 1, k =>
      if k > stop then pure (x, ⟨x.s, x.i + x.n, 0⟩)
      else do
        let c1 ← sub_ s len1
        let c2 ← sub_ x.s (k + len1)
        let b ← if c1 = c2 then posEq s x.s len1 (s.length + 1) 0 k else pure false
        if b then pure (⟨x.s, x.i, k - x.i⟩, ⟨x.s, k, x.n - (k - x.i)⟩)
        else posCmp s x len1 stop m (k + 1)

/-- Substring.sml:210-222. -/
def position (s : Str) (x : Sus) : Prog W (Sus × Sus) :=
  match s with
  | [] => pure (⟨x.s, x.i, 0⟩, x)
  | s => posCmp s x (Text.size s - 1) (x.i + x.n - (Text.size s - 1) - 1) (x.s.length + 2) x.i

end Sus

/-! ## StringCvt.sml -/

namespace Cvt

/-- `getc` in `scanString`, StringCvt.sml:32-33. -/
def stringGetc (s : Str) (i : Int) : Prog W (Option (Nat × Int)) :=
  if i ≥ size s then pure none
  else do
    let c ← sub_ s i
    pure (some (c, i + 1))

/-- StringCvt.sml:30-37. -/
def scanString (scan : (Int → Prog W (Option (Nat × Int))) → Int → Prog W (Option (α × Int)))
    (s : Str) : Prog W (Option α) := do
  let r ← scan (stringGetc s) 0
  match r with
  | none => pure none
  | some (res, _) => pure (some res)

/-- StringCvt.sml:39-44. -/
def dropl (p : Nat → Prog W Bool) (getc : β → Prog W (Option (Nat × β))) : Nat → β → Prog W β
  | 0, _ => spent
  | k + 1, src => do
      let r ← getc src
      match r with
      | none => pure src
      | some (c, rest) => do
          let b ← p c
          if b then dropl p getc k rest else pure src

/-- StringCvt.sml:47-55. -/
def skipWS (getc : β → Prog W (Option (Nat × β))) : Nat → β → Prog W β
  | 0, _ => spent
  | k + 1, src => do
      let r ← getc src
      match r with
      | none => pure src
      | some (c, rest) =>
          if c = 32 ∨ (9 ≤ c ∧ c ≤ 13) then skipWS getc k rest else pure src

/-- The references `max` and `tmp` of one application `splitl p getc`, StringCvt.sml:58-59. -/
structure Buf where
  max : Int
  tmp : Raw
deriving DecidableEq

/-- `realloc`, StringCvt.sml:60-67. -/
def realloc : Prog (Buf × W) Unit := fun w => (do
  let newtmp ← mkstring_ (2 * w.1.max)
  let newtmp ← blit_ w.1.tmp 0 newtmp 0 w.1.max
  fun w => .ok () ({ max := 2 * w.1.max, tmp := newtmp }, w.2) : Prog (Buf × W) Unit) w

/-- `set_nth_ (!tmp) len c`. -/
def setTmp (len : Int) (c : Nat) : Prog (Buf × W) Unit := fun w => (do
  let t ← update_ w.1.tmp len c
  fun w => .ok () ({ w.1 with tmp := t }, w.2) : Prog (Buf × W) Unit) w

/-- `sub_string_ (!tmp) 0 len`, StringCvt.sml:13-15. -/
def subTmp (len : Int) : Prog (Buf × W) Str := fun w => (do
  let res ← mkstring_ len
  let res ← blit_ w.1.tmp 0 res 0 len
  done res : Prog (Buf × W) Str) w

/-- `if len >= !max then realloc () else ()`. -/
def grow (len : Int) : Prog (Buf × W) Unit := fun w =>
  if len ≥ w.1.max then realloc w else .ok () w

/-- `h` in `splitl`, StringCvt.sml:68-77. -/
def splitlH (p : Nat → Prog (Buf × W) Bool) (getc : β → Prog (Buf × W) (Option (Nat × β))) :
    Nat → Int → β → Prog (Buf × W) (Str × β)
  | 0, _, _ => spent
  | k + 1, len, src => do
      let r ← getc src
      match r with
      | none => do
          let s ← subTmp len
          pure (s, src)
      | some (c, rest) => do
          let b ← p c
          if b then do
            grow len
            setTmp len c
            splitlH p getc k (len + 1) rest
          else do
            let s ← subTmp len
            pure (s, src)

/-- The buffer that `splitl p getc` makes, StringCvt.sml:58-59. -/
def newBuf : Buf := { max := 15, tmp := List.replicate 15 none }

/-- What `splitl p getc` returns, StringCvt.sml:57-78. -/
def splitl (p : Nat → Prog (Buf × W) Bool) (getc : β → Prog (Buf × W) (Option (Nat × β)))
    (k : Nat) (src : β) : Prog (Buf × W) (Str × β) := splitlH p getc k 0 src

/-- StringCvt.sml:80, the selection of the first component. -/
def takel (p : Nat → Prog (Buf × W) Bool) (getc : β → Prog (Buf × W) (Option (Nat × β)))
    (k : Nat) (src : β) : Prog (Buf × W) Str := do
  let r ← splitl p getc k src
  pure r.1

/-- StringCvt.sml:82-91. -/
def padLeft (c : Nat) (n : Int) (s : Str) : Prog W Str :=
  if n ≤ size s then pure s
  else do
    let res ← mkstring_ n
    let res ← fill_ res 0 (n - size s) c
    let res ← blit_ (raw s) 0 res (n - size s) (size s)
    done res

/-- StringCvt.sml:93-102. -/
def padRight (c : Nat) (n : Int) (s : Str) : Prog W Str :=
  if n ≤ size s then pure s
  else do
    let res ← mkstring_ n
    let res ← blit_ (raw s) 0 res 0 (size s)
    let res ← fill_ res (size s) (n - size s) c
    done res

end Cvt

/-! ## Char.sml -/

namespace Chr

/-- Char.sml:16. -/
def chr (i : Int) : Prog W Nat := if i < 0 ∨ i > 255 then Prog.throw .chr else pure i.toNat

/-- Char.sml:18-19. -/
def succ (c : Nat) : Prog W Nat := if c < 255 then pure (c + 1) else Prog.throw .chr

/-- Char.sml:20-21. -/
def pred (c : Nat) : Prog W Nat := if c > 0 then pure (c - 1) else Prog.throw .chr

/-- `init` in `mktable`, Char.sml:35-37: the table is a string of 256 numbers. -/
def mktableInit (s : Str) : Nat → Raw → Int → Prog W Raw
  | 0, _, _ => spent
  | k + 1, table, i =>
      if i < size s then do
        let c ← sub_ s i
        let table ← update_ table c 1
        mktableInit s k table (i + 1)
      else pure table

/-- `mktable`, Char.sml:32-42. -/
def mktable (s : Str) : Prog W Str := do
  let table ← mkstring_ 256
  let table ← fill_ table 0 256 0
  let table ← mktableInit s (s.length + 1) table 0
  done table

/-- Char.sml:44-46. -/
def contains (s : Str) (c : Nat) : Prog W Bool := do
  let table ← mktable s
  let b ← sub_ table c
  pure (b = 1)

/-- Char.sml:48-50. -/
def notContains (s : Str) (c : Nat) : Prog W Bool := do
  let table ← mktable s
  let b ← sub_ table c
  pure (b = 0)

/-- Char.sml:53-68, the predicates. -/
def isLower (c : Nat) : Bool := 97 ≤ c && c ≤ 122
def isUpper (c : Nat) : Bool := 65 ≤ c && c ≤ 90
def isDigit (c : Nat) : Bool := 48 ≤ c && c ≤ 57
def isAlpha (c : Nat) : Bool := isLower c || isUpper c
def isHexDigit (c : Nat) : Bool := 48 ≤ c && c ≤ 57 || 97 ≤ c && c ≤ 102 || 65 ≤ c && c ≤ 70
def isAlphaNum (c : Nat) : Bool := isAlpha c || isDigit c
def isPrint (c : Nat) : Bool := c ≥ 32 && c < 127
def isSpace (c : Nat) : Bool := c == 32 || 9 ≤ c && c ≤ 13
def isGraph (c : Nat) : Bool := isPrint c && !isSpace c
def isPunct (c : Nat) : Bool := isGraph c && !isAlphaNum c
def isAscii (c : Nat) : Bool := c ≤ 127
def isCntrl (c : Nat) : Bool := c < 32 || c ≥ 127

/-- Char.sml:70-72. -/
def toLower (c : Nat) : Nat := if 65 ≤ c ∧ c ≤ 90 then c + 32 else c

/-- Char.sml:73-75. -/
def toUpper (c : Nat) : Nat := if 97 ≤ c ∧ c ≤ 122 then c - 32 else c

/-- Char.sml:103-104. -/
def compare (x y : Nat) : Ordering := if x < y then .lt else if x > y then .gt else .eq

end Chr

end Mosml.Text
