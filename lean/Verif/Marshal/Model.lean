import Verif.Util

/-!
Structured output and input, src/runtime/extern.c and src/runtime/intern.c, "fast" format.

Memory is a map from addresses to machine words: `m a` is the word stored at byte address `a`.  A value is a word:
odd words are integers, even words are addresses of the first field of a block whose header is one word below
(mlvalues.h:6-60).  The word size of the machine is `W` bytes (4 or 8), so that dumps of 32-bit machines can be
modelled as well; the reading machine is a little-endian 64-bit one.

Simplifications.  The table of objects already emitted is an association list in order of insertion; the open
addressing hash table that implements it is modelled in Verif/Marshal/Table.lean.  The growth of the output buffer
(extern.c:49-54, 77) is not modelled: the buffer is a list.
-/
namespace Mosml.Marshal

abbrev Mem := Nat → Nat
abbrev Bytes := List Nat

/-- mlvalues.h:88 `Wosize_hd`: header bits 10 and up -/
def wosizeHd (hd : Nat) : Nat := hd / 1024
/-- mlvalues.h:87 `Tag_hd`: low 8 bits -/
def tagHd (hd : Nat) : Nat := hd % 256
/-- gc.h:29-33 `Make_header` -/
def mkHeader (size tag color : Nat) : Nat := size * 1024 + color + tag
/-- gc.h:13 `Black = 3 << 8` -/
def black : Nat := 768

/-- mlvalues.h:131-215 -/
def closureTag : Nat := 249
def noScanTag : Nat := 251
def abstractTag : Nat := 252
def stringTag : Nat := 253
def doubleTag : Nat := 254
def finalTag : Nat := 255

/-- outcome: result, the exception raised by invalid_argument/failwith, or fuel exhausted -/
inductive Out (α : Type) where
  | ok (a : α)
  | exn (msg : String)
  | fuel

/-- the byte order of a machine -/
inductive Endian where | little | big
deriving DecidableEq, Repr

/-- the globals extern_block (up to extern_pos) and extern_table, extern.c:16-47 -/
structure Ext where
  block : List Nat
  table : List (Nat × Nat)

/-- the fields of a block, in order -/
def fields (W : Nat) (m : Mem) (v : Nat) : Nat → List Nat
  | 0 => []
  | n + 1 => fields W m v n ++ [m (v + W * n)]

/-- extern.c:70-75: is the object in the table? -/
def lookupTab : List (Nat × Nat) → Nat → Option Nat
  | [], _ => none
  | (a, o) :: t, v => if a = v then some o else lookupTab t v

/-- extern.c:56-89 -/
def emit (W : Nat) (m : Mem) (v : Nat) (st : Ext) : Nat × Ext :=
  if v % 2 = 1 then (v, st)
  else
    let size := wosizeHd (m (v - W))
    if size = 0 then (tagHd (m (v - W)) * 4 + 2, st)
    else match lookupTab st.table v with
      | some ofs => (ofs, st)
      | none =>
        let res := (st.block.length + 1) * W
        (res, ⟨st.block ++ mkHeader size (tagHd (m (v - W))) black :: fields W m v size, st.table ++ [(v, res)]⟩)

/-- extern.c:117-122: the inner loop over the fields of a block -/
def scanFields (W : Nat) (m : Mem) : Nat → Nat → Ext → Ext
  | 0, _, st => st
  | sz + 1, read, st =>
    let r := emit W m (st.block.getD read 0) st
    scanFields W m sz (read + 1) { r.2 with block := r.2.block.set read r.1 }

/-- extern.c:101-125: the outer loop -/
def scanLoop (W : Nat) (m : Mem) : Nat → Nat → Ext → Out Ext
  | 0, _, _ => .fuel
  | fuel + 1, read, st =>
    if read < st.block.length then
      let hd := st.block.getD read 0
      let sz := wosizeHd hd
      let tag := tagHd hd
      if tag = stringTag ∨ tag = doubleTag then scanLoop W m fuel (read + 1 + sz) st
      else if tag = abstractTag ∨ tag = finalTag then .exn "output_value: abstract value"
      else if tag = closureTag then .exn "output_value: functional value"
      else scanLoop W m fuel (read + 1 + sz) (scanFields W m sz (read + 1) st)
    else .ok st

/-- extern.c:91-127 `emit_all`, from an empty block and table (extern.c:135-141) -/
def emitAll (W : Nat) (m : Mem) (fuel : Nat) (root : Nat) : Out (Nat × List Nat) :=
  let r := emit W m root ⟨[], []⟩
  match scanLoop W m fuel 0 r.2 with
  | .ok st => .ok (r.1, st.block)
  | .exn s => .exn s
  | .fuel => .fuel

/-- `n` bytes of `w`, least significant first -/
def leBytes : Nat → Nat → Bytes
  | 0, _ => []
  | n + 1, w => w % 256 :: leBytes n (w / 256)

/-- the bytes of a word in memory -/
def wordBytes (e : Endian) (W w : Nat) : Bytes :=
  match e with
  | .little => leBytes W w
  | .big => (leBytes W w).reverse

/-- io.c:125-131 `putword`: four bytes, most significant first; the argument is converted to uint32 -/
def putword (w : Nat) : Bytes := (leBytes 4 (w % 2 ^ 32)).reverse

/-- intext.h:12-34 -/
def baseMagic : Nat := 0x8495A6B9
def fastMagic (W : Nat) (e : Endian) : Nat :=
  baseMagic + (if W = 8 then 2 else 0) + (if e = .little then 1 else 0)
def compactMagic : Nat := baseMagic + 4

/-- extern.c:129-152 `extern_val`; `putblock` (io.c:139) takes the byte count as an `unsigned` -/
def externVal (W : Nat) (e : Endian) (m : Mem) (fuel : Nat) (v : Nat) : Out Bytes :=
  match emitAll W m fuel v with
  | .ok (res, block) =>
    .ok (putword (fastMagic W e) ++ putword block.length ++
      (if block.length = 0 then putword res
       else (block.flatMap (wordBytes e W)).take (block.length * W % 2 ^ 32)))
  | .exn s => .exn s
  | .fuel => .fuel

/-! ### Input -/

/-- value of a little-endian byte string -/
def ofLe : Bytes → Nat
  | [] => 0
  | b :: bs => b + 256 * ofLe bs

/-- io.c:342-352 `getword`; end of file raises an exception (`none`) -/
def getword (s : Bytes) : Option (Nat × Bytes) :=
  if s.length < 4 then none else some (ofLe (s.take 4).reverse, s.drop 4)

/-- `n` little-endian words of `W` bytes -/
def readWords (W : Nat) : Nat → Bytes → List Nat
  | 0, _ => []
  | n + 1, s => ofLe (s.take W) :: readWords W n (s.drop W)

/-- io.c:403-413 `really_getblock`: `none` when the file is too short.  Each round asks `getblock` for
`(unsigned) n` bytes, so a count of 2^32 or more ends with a request for 0 bytes, which is reported as end of file. -/
def getBlock (W : Nat) (n : Nat) (s : Bytes) : Option (List Nat × Bytes) :=
  if 2 ^ 32 ≤ n * W then none
  else if s.length < n * W then none else some (readWords W n (s.take (n * W)), s.drop (n * W))

/-- mlvalues.h:236 `Atom(tag)`: the address of the zero-sized block with that tag, in the table of atoms at `base`
(memory.c init_atoms) -/
def atomAddr (base tag : Nat) : Nat := base + 8 * (tag + 1)

/-- intern.c:36-51: one field -/
def adjustWord (base start v : Nat) : Nat :=
  if v % 4 = 0 then start + v
  else if v % 4 = 2 then atomAddr base (v / 4)
  else v

/-- intern.c:16-53 `adjust_pointers`, on the list of words of the block; `start` is its address.  The fuel is the
number of words. -/
def adjustPointers (base start color : Nat) : Nat → List Nat → List Nat
  | 0, ws => ws
  | _, [] => []
  | fuel + 1, hd :: ws =>
    let sz := wosizeHd hd
    let tag := tagHd hd
    mkHeader sz tag color ::
      ((if tag ≥ noScanTag then ws.take sz else (ws.take sz).map (adjustWord base start)) ++
        adjustPointers base start color fuel (ws.drop sz))

/-- reverse.h:8-47: byte swap of a `W`-byte word -/
def bswap (W w : Nat) : Nat := ofLe (leBytes W w).reverse

/-- intern.c:58-83 `rev_pointers` (64-bit words) -/
def revPointers : Nat → List Nat → List Nat
  | 0, ws => ws
  | _, [] => []
  | fuel + 1, w :: ws =>
    let hd := bswap 8 w
    let n := wosizeHd hd
    hd ::
      ((if tagHd hd = stringTag then ws.take n
        else if tagHd hd = doubleTag then (match ws.take n with | [] => [] | d :: ds => bswap 8 d :: ds)
        else (ws.take n).map (bswap 8)) ++ revPointers fuel (ws.drop n))

/-- conversion `(header_t) *p` of an int32: sign extension to 64 bits -/
def sext32 (w : Nat) : Nat := if w < 2 ^ 31 then w else w + (2 ^ 64 - 2 ^ 32)

/-- intern.c:94-119 `rev_pointers_32` -/
def revPointers32 : Nat → List Nat → List Nat
  | 0, ws => ws
  | _, [] => []
  | fuel + 1, w :: ws =>
    let hd := sext32 (bswap 4 w)
    let n := wosizeHd hd
    bswap 4 w ::
      ((if tagHd hd = stringTag then ws.take n
        else if tagHd hd = doubleTag then
          (match ws.take n with | d :: e :: ds => bswap 4 e :: bswap 4 d :: ds | ds => ds)
        else (ws.take n).map (bswap 4)) ++ revPointers32 fuel (ws.drop n))

/-- intern.c:124-150 `size_after_expansion` -/
def sizeAfter : Nat → List Nat → Nat
  | 0, _ => 0
  | _, [] => 0
  | fuel + 1, w :: ws =>
    let hd := sext32 w
    let n := wosizeHd hd
    1 + (if tagHd hd = stringTag then (n * 4 + 7) / 8 else if tagHd hd = doubleTag then 1 else n) +
      sizeAfter fuel (ws.drop n)

/-- intern.c:177-188: the words of the expanded string, from the `sz` 32-bit words `ws` -/
def expandString (sz : Nat) (ws : List Nat) : List Nat :=
  let bs := (ws.take sz).flatMap (leBytes 4)
  let len := sz * 4 - 1 - bs.getD (sz * 4 - 1) 0
  let newSz := (sz * 4 + 7) / 8
  readWords 8 newSz (bs.take len ++ List.replicate (newSz * 8 - 1 - len) 0 ++ [newSz * 8 - 1 - len])

/-- intern.c:169-212, first pass of `expand_block`: `src` the source words, `p` the index in it, `dest` the words
written so far.  `*forward_addr = dest_ofs` overwrites the first field in the source. -/
def expand1 (color : Nat) : Nat → List Nat → Nat → List Nat → List Nat × List Nat
  | 0, src, _, dest => (src, dest)
  | fuel + 1, src, p, dest =>
    if p < src.length then
      let hd := sext32 (src.getD p 0)
      let sz := wosizeHd hd
      let tag := tagHd hd
      let fwd := (dest.length + 1) % 2 ^ 32
      let ws := src.drop (p + 1)
      if tag = stringTag then
        expand1 color fuel (src.set (p + 1) fwd) (p + 1 + sz)
          (dest ++ mkHeader ((sz * 4 + 7) / 8) stringTag color :: expandString sz ws)
      else if tag = doubleTag then
        expand1 color fuel (src.set (p + 1) fwd) (p + 3)
          (dest ++ [mkHeader 1 doubleTag color, ws.getD 0 0 + 2 ^ 32 * ws.getD 1 0])
      else
        expand1 color fuel (src.set (p + 1) fwd) (p + 1 + sz)
          (dest ++ mkHeader sz tag color :: (ws.take sz).map (fun w => if w % 2 = 0 then w else sext32 w))
    else (src, dest)

/-- intern.c:226-239: one field in the second pass -/
def expandWord (base start : Nat) (src : List Nat) (v : Nat) : Nat :=
  if v % 4 = 0 then start + 8 * src.getD (v / 4) 0
  else if v % 4 = 2 then atomAddr base (v / 4)
  else v

/-- intern.c:218-242, second pass of `expand_block` -/
def expand2 (base start : Nat) (src : List Nat) : Nat → List Nat → List Nat
  | 0, ws => ws
  | _, [] => []
  | fuel + 1, hd :: ws =>
    let sz := wosizeHd hd
    hd ::
      ((if tagHd hd ≥ noScanTag then ws.take sz else (ws.take sz).map (expandWord base start src)) ++
        expand2 base start src fuel (ws.drop sz))

/-- memory with the words `ws` stored from address `start` -/
def store (m : Mem) (start : Nat) (ws : List Nat) : Mem :=
  fun a => if start ≤ a ∧ a < start + 8 * ws.length then ws.getD ((a - start) / 8) 0 else m a

/-- where `alloc_shr` puts a block, and the colour it gives it -/
structure Alloc where
  base : Nat
  start : Nat
  color : Nat

/-- intern.c:437-549 `intern_fast_val` on a little-endian 64-bit machine.  The result is the value, the memory and
the remaining input. -/
def internFast (al : Alloc) (m : Mem) (magic : Nat) (s : Bytes) : Out (Nat × Mem × Bytes) :=
  match getword s with
  | none => .exn "end of file"
  | some (whsize, s1) =>
    if whsize = 0 then
      match getword s1 with
      | none => .exn "end of file"
      | some (res, s2) => .ok (if res % 2 = 1 then res else atomAddr al.base (res / 4), m, s2)
    else if magic = fastMagic 4 .little ∨ magic = fastMagic 4 .big then
      match getBlock 4 whsize s1 with
      | none => .exn "intern : truncated object"
      | some (block, s2) =>
        let block := if magic = fastMagic 4 .big then revPointers32 whsize block else block
        let wh := sizeAfter whsize block
        let p1 := expand1 al.color whsize block 0 []
        .ok (al.start + 8, store m al.start (expand2 al.base al.start p1.1 wh p1.2), s2)
    else
      match getBlock 8 whsize s1 with
      | none => .exn "intern : truncated object"
      | some (block, s2) =>
        let block := if magic = fastMagic 8 .big then revPointers whsize block else block
        .ok (al.start + 8, store m al.start (adjustPointers al.base al.start al.color whsize block), s2)

end Mosml.Marshal
