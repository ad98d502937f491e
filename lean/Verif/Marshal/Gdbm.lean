import Verif.Marshal.Model

/-!
Polygdbm's conversion of values to strings and back, src/runtime/mosml.c:1343-1413, on a little-endian 64-bit machine.

A string is given by all bytes of its block, padding included.  Simplifications: `alloc_shr` always succeeds (in the C
code a request that is too large raises an exception); `char` is signed, as on x86; `dsize` is not cut to an `int`.
-/
namespace Mosml.Marshal

/-- alloc.c:31-46 `alloc_string` followed by a copy of `s` into it: `(len + 8) / 8` words, the last one zeroed, and the
padding length in the last byte -/
def mkString (s : Bytes) : Bytes :=
  let n := (s.length + 8) / 8
  s ++ List.replicate (n * 8 - 1 - s.length) 0 ++ [n * 8 - 1 - s.length]

/-- str.c:9-15 `string_length`: `temp - Byte(s, temp)`, `Byte` being a signed char (mlvalues.h:197), modulo 2^64 -/
def strLen (blk : Bytes) : Nat :=
  let temp := blk.length - 1
  let c := blk.getD temp 0
  if c < 128 then (temp + 2 ^ 64 - c) % 2 ^ 64 else temp + (256 - c)

/-- mosml.c:1345-1378 `string_mlval`.  In the first case the second word, with the padding byte in it, is overwritten;
in the second the block is copied to byte 4 on, over the upper half of the word just written. -/
def stringMlval (m : Mem) (fuel : Nat) (v : Nat) : Out Bytes :=
  match emitAll 8 m fuel v with
  | .ok (res, block) =>
    if block.length = 0 then .ok (leBytes 8 0 ++ leBytes 8 res)
    else .ok ((leBytes 8 block.length).take 4 ++ block.flatMap (leBytes 8) ++ [0, 0, 0, 3])
  | .exn s => .exn s
  | .fuel => .fuel

/-- mosml.c:1382-1413 `mlval_string` -/
def mlvalString (al : Alloc) (m : Mem) (blk : Bytes) : Out (Nat × Mem) :=
  let whsize := ofLe (blk.take 8)
  if whsize = 0 then
    let res := ofLe ((blk.drop 8).take 8)
    if res % 2 = 1 then .ok (res, m) else .ok (atomAddr al.base (res / 4), m)
  else if whsize - 1 > 2 ^ 54 - 1 then .exn "mlval_string: structure too big"
  else if whsize * 8 + 4 > strLen blk then .exn "mlval_string: truncated object"
  else
    .ok (al.start + 8,
      store m al.start (adjustPointers al.base al.start al.color whsize (readWords 8 whsize (blk.drop 4))))

/-- mgdbm.c:46-64 `datum_string`, `string_datum`: the string as it comes back from the database; `none` when bytes
outside the block would be read -/
def throughDb (blk : Bytes) : Option Bytes :=
  if strLen blk ≤ blk.length then some (mkString (blk.take (strLen blk))) else none

end Mosml.Marshal
