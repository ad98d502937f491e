import Verif.Util

/-!
src/runtime/md5sum.c.  `unsigned int` is 32 bits.  The buffer has 16384 bytes, of which at most 8192 + 128 are used; the model keeps the
part in use as a list.  `calloc` is taken to succeed.
-/
namespace Mosml.Md5

abbrev Byte := BitVec 8
abbrev W := BitVec 32

/-- md5sum.c:79-152 `tab`, with the constants of 50-71 -/
def tab : List (W × Nat × Nat) :=
  [(0xd76aa478, 0, 7), (0xe8c7b756, 1, 12), (0x242070db, 2, 17), (0xc1bdceee, 3, 22), 
   (0xf57c0faf, 4, 7), (0x4787c62a, 5, 12), (0xa8304613, 6, 17), (0xfd469501, 7, 22), 
   (0x698098d8, 8, 7), (0x8b44f7af, 9, 12), (0xffff5bb1, 10, 17), (0x895cd7be, 11, 22), 
   (0x6b901122, 12, 7), (0xfd987193, 13, 12), (0xa679438e, 14, 17), (0x49b40821, 15, 22), 
   (0xf61e2562, 1, 5), (0xc040b340, 6, 9), (0x265e5a51, 11, 14), (0xe9b6c7aa, 0, 20), 
   (0xd62f105d, 5, 5), (0x2441453, 10, 9), (0xd8a1e681, 15, 14), (0xe7d3fbc8, 4, 20), 
   (0x21e1cde6, 9, 5), (0xc33707d6, 14, 9), (0xf4d50d87, 3, 14), (0x455a14ed, 8, 20), 
   (0xa9e3e905, 13, 5), (0xfcefa3f8, 2, 9), (0x676f02d9, 7, 14), (0x8d2a4c8a, 12, 20), 
   (0xfffa3942, 5, 4), (0x8771f681, 8, 11), (0x6d9d6122, 11, 16), (0xfde5380c, 14, 23), 
   (0xa4beea44, 1, 4), (0x4bdecfa9, 4, 11), (0xf6bb4b60, 7, 16), (0xbebfbc70, 10, 23), 
   (0x289b7ec6, 13, 4), (0xeaa127fa, 0, 11), (0xd4ef3085, 3, 16), (0x4881d05, 6, 23), 
   (0xd9d4d039, 9, 4), (0xe6db99e5, 12, 11), (0x1fa27cf8, 15, 16), (0xc4ac5665, 2, 23), 
   (0xf4292244, 0, 6), (0x432aff97, 7, 10), (0xab9423a7, 14, 15), (0xfc93a039, 5, 21), 
   (0x655b59c3, 12, 6), (0x8f0ccc92, 3, 10), (0xffeff47d, 10, 15), (0x85845dd1, 1, 21), 
   (0x6fa87e4f, 8, 6), (0xfe2ce6e0, 15, 10), (0xa3014314, 6, 15), (0x4e0811a1, 13, 21), 
   (0xf7537e82, 4, 6), (0xbd3af235, 11, 10), (0x2ad7d2bb, 2, 15), (0xeb86d391, 9, 21)]

/-- md5sum.c:154-158 -/
structure MState where
  len : W
  a : W
  b : W
  c : W
  d : W

/-- md5sum.c:213-216 -/
def seed : MState := ⟨0, 0x67452301, 0xefcdab89, 0x98badcfe, 0x10325476⟩

/-- md5sum.c:297-309 `encode` -/
def encode : List W → List Byte
  | [] => []
  | x :: xs => x.truncate 8 :: (x >>> 8).truncate 8 :: (x >>> 16).truncate 8 :: (x >>> 24).truncate 8 :: encode xs

/-- md5sum.c:316-324 `decode`, of 64 bytes: word `i` -/
def decode (p : List Byte) (i : Nat) : W :=
  (p.getD (4 * i) 0).zeroExtend 32 ||| ((p.getD (4 * i + 1) 0).zeroExtend 32 <<< 8) |||
    ((p.getD (4 * i + 2) 0).zeroExtend 32 <<< 16) ||| ((p.getD (4 * i + 3) 0).zeroExtend 32 <<< 24)

/-- md5sum.c:250-275: one turn of the inner loop, `i` being the index -/
def step (x : Nat → W) (i : Nat) (v : W × W × W × W) : W × W × W × W :=
  let (a, b, c, d) := v
  let t := tab.getD i (0, 0, 0)
  let a := match i >>> 4 with
    | 0 => a + ((b &&& c) ||| (~~~b &&& d))
    | 1 => a + ((b &&& d) ||| (c &&& ~~~d))
    | 2 => a + (b ^^^ c ^^^ d)
    | 3 => a + (c ^^^ (b ||| ~~~d))
    | _ => a
  let a := a + (x t.2.1 + t.1)
  let a := (a <<< t.2.2) ||| (a >>> (32 - t.2.2))
  let a := a + b
  (d, a, b, c)

/-- the inner loop from index `i` on, `n` turns -/
def steps (x : Nat → W) : Nat → Nat → W × W × W × W → W × W × W × W
  | _, 0, v => v
  | i, n + 1, v => steps x (i + 1) n (step x i v)

/-- md5sum.c:243-281: one turn of the outer loop -/
def block (s : MState) (p : List Byte) : MState :=
  let (a, b, c, d) := steps (decode p) 0 64 (s.a, s.b, s.c, s.d)
  { s with a := s.a + a, b := s.b + b, c := s.c + c, d := s.d + d }

/-- md5sum.c:242-282: `for (end = p + len; p < end; p += 64)` -/
def blocks (s : MState) (p : List Byte) (len : Nat) : MState :=
  if 0 < len then blocks (block s (p.take 64)) (p.drop 64) (len - 64) else s
termination_by len

/-- md5sum.c:198-291 `md5`; the digest if this was the last call -/
def md5 (p : List Byte) (s : Option MState) : MState ⊕ List Byte :=
  let s := s.getD seed
  let s := { s with len := s.len + BitVec.ofNat 32 p.length }
  let i := p.length &&& 0x3f
  if i ≠ 0 ∨ p.length = 0 then
    let i := if i < 56 then 56 - i else 120 - i
    let p := p ++ (if i > 0 then 0x80 :: List.replicate (i - 1) 0 else [])
    let s := blocks s (p ++ encode [s.len <<< 3, s.len >>> 29]) p.length
    .inr (encode [s.a, s.b, s.c, s.d])
  else .inl (blocks s p p.length)

/-- md5sum.c:176-186: the loop of `md5sum`; the digest.  `none` is `bcopy` with a negative size.  `len` and `start` are `int`. -/
def sumLoop (str : List Byte) (len : Int) : Nat → Int → Option MState → Option (List Byte)
  | 0, _, _ => none
  | fuel + 1, start, s =>
    let n := if len - start < 128 * 64 then len - start else 128 * 64
    if n < 0 then none
    else
      let buf := (str.drop start.toNat).take n.toNat
      if n ≤ 0 ∨ n.toNat &&& 0x3f ≠ 0 then
        match md5 buf s with
        | .inr digest => some digest
        | .inl _ => none
      else
        match md5 buf s with
        | .inl s => sumLoop str len fuel (start + n) (some s)
        | .inr _ => none

/-- `int len = string_length(str)` -/
def toInt32 (n : Nat) : Int := (BitVec.ofNat 32 n).toInt

/-- md5sum.c:335-358 `init64`: the table `t64e` -/
def t64e : List Char :=
  (List.range 26).map (fun i => Char.ofNat (65 + i)) ++ (List.range 26).map (fun i => Char.ofNat (97 + i)) ++
    (List.range 10).map (fun i => Char.ofNat (48 + i)) ++ ['+', '/']

/-- md5sum.c:410-447 `enc64`: the characters written -/
def enc64 : List Byte → List Char
  | x :: y :: z :: rest =>
    let b24 := x.toNat <<< 16 ||| y.toNat <<< 8 ||| z.toNat
    t64e.getD (b24 >>> 18) '=' :: t64e.getD (b24 >>> 12 &&& 0x3f) '=' :: t64e.getD (b24 >>> 6 &&& 0x3f) '=' :: t64e.getD (b24 &&& 0x3f) '=' ::
      enc64 rest
  | [x, y] =>
    let b24 := x.toNat <<< 16 ||| y.toNat <<< 8
    [t64e.getD (b24 >>> 18) '=', t64e.getD (b24 >>> 12 &&& 0x3f) '=', t64e.getD (b24 >>> 6 &&& 0x3f) '=', '=']
  | [x] =>
    let b24 := x.toNat <<< 16
    [t64e.getD (b24 >>> 18) '=', t64e.getD (b24 >>> 12 &&& 0x3f) '=', '=', '=']
  | [] => ['=']

/-- md5sum.c:165-190 `md5sum` -/
def md5sum (str : List Byte) : Option (List Char) :=
  (sumLoop str (toInt32 str.length) (str.length / 64 + 2) 0 none).map (fun digest => (enc64 digest).take 22)

end Mosml.Md5
