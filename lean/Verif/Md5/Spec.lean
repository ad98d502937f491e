import Verif.Util

/-! The MD5 algorithm, written from RFC 1321, and the base 64 coding of RFC 4648, independently of the C code. -/
namespace Mosml.Md5.Spec

abbrev W := BitVec 32

/-- RFC 1321, 3.4: `T[i]` is the integer part of 4294967296 times abs(sin(i)), i in radians, i = 1..64. -/
def T : List Nat :=
  [0xd76aa478, 0xe8c7b756, 0x242070db, 0xc1bdceee, 0xf57c0faf, 0x4787c62a, 0xa8304613, 0xfd469501, 
   0x698098d8, 0x8b44f7af, 0xffff5bb1, 0x895cd7be, 0x6b901122, 0xfd987193, 0xa679438e, 0x49b40821, 
   0xf61e2562, 0xc040b340, 0x265e5a51, 0xe9b6c7aa, 0xd62f105d, 0x02441453, 0xd8a1e681, 0xe7d3fbc8, 
   0x21e1cde6, 0xc33707d6, 0xf4d50d87, 0x455a14ed, 0xa9e3e905, 0xfcefa3f8, 0x676f02d9, 0x8d2a4c8a, 
   0xfffa3942, 0x8771f681, 0x6d9d6122, 0xfde5380c, 0xa4beea44, 0x4bdecfa9, 0xf6bb4b60, 0xbebfbc70, 
   0x289b7ec6, 0xeaa127fa, 0xd4ef3085, 0x04881d05, 0xd9d4d039, 0xe6db99e5, 0x1fa27cf8, 0xc4ac5665, 
   0xf4292244, 0x432aff97, 0xab9423a7, 0xfc93a039, 0x655b59c3, 0x8f0ccc92, 0xffeff47d, 0x85845dd1, 
   0x6fa87e4f, 0xfe2ce6e0, 0xa3014314, 0x4e0811a1, 0xf7537e82, 0xbd3af235, 0x2ad7d2bb, 0xeb86d391]

def F (x y z : W) : W := (x &&& y) ||| (~~~x &&& z)
def G (x y z : W) : W := (x &&& z) ||| (y &&& ~~~z)
def H (x y z : W) : W := x ^^^ y ^^^ z
def I (x y z : W) : W := y ^^^ (x ||| ~~~z)

/-- `[abcd k s i]`: `a = b + ((a + f(b,c,d) + X[k] + T[i]) <<< s)` -/
def op (f : W → W → W → W) (X : Nat → W) (a b c d : W) (k s i : Nat) : W :=
  b + (a + f b c d + X k + BitVec.ofNat 32 (T.getD (i - 1) 0)).rotateLeft s

/-- one line of the RFC: `[ABCD k1 s1 i] [DABC k2 s2 i+1] [CDAB k3 s3 i+2] [BCDA k4 s4 i+3]` -/
def line (f : W → W → W → W) (X : Nat → W) (k : Nat → Nat) (s1 s2 s3 s4 i : Nat) (v : W × W × W × W) : W × W × W × W :=
  let (a, b, c, d) := v
  let a := op f X a b c d (k i) s1 i
  let d := op f X d a b c (k (i + 1)) s2 (i + 1)
  let c := op f X c d a b (k (i + 2)) s3 (i + 2)
  let b := op f X b c d a (k (i + 3)) s4 (i + 3)
  (a, b, c, d)

/-- the four rounds; the indices into the block go up by 1, 5, 3 and 7 -/
def rounds (X : Nat → W) (v : W × W × W × W) : W × W × W × W :=
  let v := [1, 5, 9, 13].foldl (fun v i => line F X (fun i => i - 1) 7 12 17 22 i v) v
  let v := [17, 21, 25, 29].foldl (fun v i => line G X (fun i => (1 + 5 * (i - 17)) % 16) 5 9 14 20 i v) v
  let v := [33, 37, 41, 45].foldl (fun v i => line H X (fun i => (5 + 3 * (i - 33)) % 16) 4 11 16 23 i v) v
  [49, 53, 57, 61].foldl (fun v i => line I X (fun i => 7 * (i - 49) % 16) 6 10 15 21 i v) v

/-- little endian -/
def word (b0 b1 b2 b3 : Nat) : W := BitVec.ofNat 32 (b0 + 256 * b1 + 65536 * b2 + 16777216 * b3)

/-- a block of 64 bytes as sixteen words -/
def blockWords (p : List Nat) (k : Nat) : W :=
  word (p.getD (4 * k) 0) (p.getD (4 * k + 1) 0) (p.getD (4 * k + 2) 0) (p.getD (4 * k + 3) 0)

def process (v : W × W × W × W) (p : List Nat) : W × W × W × W :=
  let (a, b, c, d) := rounds (blockWords p) v
  (v.1 + a, v.2.1 + b, v.2.2.1 + c, v.2.2.2 + d)

/-- the number as `n` bytes, low byte first -/
def bytesLE : Nat → Nat → List Nat
  | 0, _ => []
  | n + 1, x => x % 256 :: bytesLE n (x / 256)

/-- RFC 1321, 3.1 and 3.2: a 1 bit, 0 bits up to 56 bytes modulo 64, and the length in bits, 64 bits -/
def padded (m : List Nat) : List Nat :=
  m ++ [128] ++ List.replicate ((119 - m.length % 64) % 64) 0 ++ bytesLE 8 (8 * m.length)

/-- the block number `i` -/
def nthBlock (p : List Nat) (i : Nat) : List Nat := (p.drop (64 * i)).take 64

def md5 (m : List Nat) : List Nat :=
  let p := padded m
  let v := (List.range (p.length / 64)).foldl (fun v i => process v (nthBlock p i)) (0x67452301, 0xefcdab89, 0x98badcfe, 0x10325476)
  bytesLE 4 v.1.toNat ++ bytesLE 4 v.2.1.toNat ++ bytesLE 4 v.2.2.1.toNat ++ bytesLE 4 v.2.2.2.toNat

def alphabet : List Char := "ABCDEFGHIJKLMNOPQRSTUVWXYZabcdefghijklmnopqrstuvwxyz0123456789+/".toList

/-- RFC 4648, section 4, without the padding characters: three bytes are a number of four digits to the base 64 -/
def base64 : List Nat → List Char
  | x :: y :: z :: rest =>
    let n := x * 65536 + y * 256 + z
    [n / 262144 % 64, n / 4096 % 64, n / 64 % 64, n % 64].map (alphabet.getD · ' ') ++ base64 rest
  | [x, y] =>
    let n := x * 65536 + y * 256
    [n / 262144 % 64, n / 4096 % 64, n / 64 % 64].map (alphabet.getD · ' ')
  | [x] =>
    let n := x * 65536
    [n / 262144 % 64, n / 4096 % 64].map (alphabet.getD · ' ')
  | [] => []

end Mosml.Md5.Spec
