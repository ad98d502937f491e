import Verif.Marshal.Model

/-!
The compact format, src/runtime/externcp.c and src/runtime/interncp.c, and the dispatch of `intern_val`, on a
little-endian 64-bit machine.

Simplifications: as in Verif/Marshal/Model.lean the table of objects seen is an association list.  The three length
words are written first as zeros and patched with `seek_out` (externcp.c:136-163); here they are written at once (the
channel is the subject of another part).  The C stack is not bounded.
-/
namespace Mosml.Marshal

/-- mlvalues.h:33-34 `Long_val`: the signed 64-bit word shifted right by one -/
def longVal (v : Nat) : Int := ((if v < 2 ^ 63 then (v : Int) else (v : Int) - 2 ^ 64) - 1) / 2
/-- mlvalues.h:30-32 `Val_long`, a 64-bit word -/
def valLong (n : Int) : Nat := ((2 * n + 1) % 2 ^ 64).toNat

/-- externcp.c:13-18 `output_number`: code byte, then the low bits, most significant byte first -/
def outNumber (code : Nat) (val : Int) (nbytes : Nat) : Bytes :=
  code :: (leBytes nbytes (val % 2 ^ 64).toNat).reverse

structure CpOut where
  out : Bytes
  table : List (Nat × Nat)
  cnt : Nat
  s32 : Nat
  s64 : Nat

/-- externcp.c:26-41: integers -/
def cpInt (n : Int) : Bytes :=
  if 0 ≤ n ∧ n < 0x40 then [0x40 + n.toNat]
  else if -(2 ^ 7) ≤ n ∧ n < 2 ^ 7 then outNumber 0 n 1
  else if -(2 ^ 15) ≤ n ∧ n < 2 ^ 15 then outNumber 1 n 2
  else if n < -(2 ^ 31) ∨ n ≥ 2 ^ 31 then outNumber 3 n 8
  else outNumber 2 n 4

/-- externcp.c:61-67: back references -/
def cpShared (d : Nat) : Bytes :=
  if d < 0x100 then outNumber 4 d 1
  else if d < 0x10000 then outNumber 5 d 2
  else outNumber 6 d 4

/-- externcp.c:79-87: strings -/
def cpString (s : Bytes) : Bytes :=
  (if s.length < 0x20 then [0x20 + s.length]
   else if s.length < 0x100 then outNumber 9 s.length 1
   else outNumber 10 s.length 4) ++ s

/-- externcp.c:115-119: block headers; the whole header is written, in 32 bits -/
def cpHeader (hd : Nat) : Bytes :=
  if tagHd hd < 16 ∧ wosizeHd hd < 8 then [0x80 + tagHd hd + wosizeHd hd * 16] else outNumber 8 hd 4

/-- the bytes of the block at `v` -/
def bytesAt (m : Mem) (v n : Nat) : Bytes := (fields 8 m v n).flatMap (leBytes 8)

/-- str.c `string_length` and the characters -/
def cpChars (m : Mem) (v sz : Nat) : Bytes :=
  let bs := bytesAt m v sz
  bs.take (sz * 8 - 1 - bs.getD (sz * 8 - 1) 0)

def emitList (g : Nat → CpOut → Out CpOut) : List Nat → CpOut → Out CpOut
  | [], st => .ok st
  | v :: vs, st =>
    match g v st with
    | .ok st' => emitList g vs st'
    | .exn s => .exn s
    | .fuel => .fuel

/-- externcp.c:24-130 `emit_compact` -/
def emitCp (m : Mem) : Nat → Nat → CpOut → Out CpOut
  | 0, _, _ => .fuel
  | fuel + 1, v, st =>
    if v % 2 = 1 then .ok { st with out := st.out ++ cpInt (longVal v) }
    else
      let hd := m (v - 8)
      let tag := tagHd hd
      let sz := wosizeHd hd
      if sz = 0 then
        .ok { st with out := st.out ++ (if tag < 16 then [0x80 + tag] else outNumber 8 hd 4) }
      else match lookupTab st.table v with
        | some ofs => .ok { st with out := st.out ++ cpShared (st.cnt - ofs) }
        | none =>
          let st := { st with table := st.table ++ [(v, st.cnt)], cnt := st.cnt + 1 }
          if tag = stringTag then
            let s := cpChars m v sz
            .ok { st with out := st.out ++ cpString s, s32 := st.s32 + (1 + (s.length + 4) / 4),
                          s64 := st.s64 + (1 + (s.length + 8) / 8) }
          else if tag = doubleTag then
            .ok { st with out := st.out ++ 11 :: (leBytes 8 (m v)).reverse, s32 := st.s32 + 3, s64 := st.s64 + 2 }
          else if tag = abstractTag ∨ tag = finalTag then .exn "output_compact_value: abstract value"
          else if tag = closureTag then .exn "output_compact_value: functional value"
          else
            emitList (emitCp m fuel) (fields 8 m v sz)
              { st with out := st.out ++ cpHeader hd, s32 := st.s32 + (1 + sz), s64 := st.s64 + (1 + sz) }

/-- externcp.c:132-166 `extern_compact_val` -/
def externCompact (m : Mem) (fuel : Nat) (v : Nat) : Out Bytes :=
  match emitCp m fuel v ⟨[], [], 0, 0, 0⟩ with
  | .ok st =>
    if st.s32 ≥ 2 ^ 32 ∨ st.s64 ≥ 2 ^ 32 then .exn "output_compact_value: object too big"
    else .ok (putword compactMagic ++ putword st.cnt ++ putword st.s32 ++ putword st.s64 ++ st.out)
  | .exn s => .exn s
  | .fuel => .fuel

/-! ### Reading -/

/-- interncp.c:19-29 `input_bytes`; `none` at end of file -/
def inputBytes (nbytes : Nat) (sign : Bool) (s : Bytes) : Option (Int × Bytes) :=
  if s.length < nbytes then none
  else
    let b := s.headD 0
    let r0 : Int := if sign ∧ b ≥ 128 then (b : Int) - 256 else b
    some (((s.take nbytes).drop 1).foldl (fun (r : Int) (b : Nat) => r * 256 + b) r0, s.drop nbytes)

structure CpIn where
  inp : Bytes
  mem : Mem
  ptr : Nat
  objs : List Nat

def upd (m : Mem) (a w : Nat) : Mem := fun x => if x = a then w else m x

/-- the words `ws` written from address `a` -/
def upds : Mem → Nat → List Nat → Mem
  | m, _, [] => m
  | m, a, w :: ws => upds (upd m a w) (a + 8) ws

/-- the loop at interncp.c:61-63 over the fields from address `dest` -/
def readList (g : Nat → CpIn → Out CpIn) : Nat → Nat → CpIn → Out CpIn
  | 0, _, st => .ok st
  | n + 1, dest, st =>
    match g dest st with
    | .ok st' => readList g n (dest + 8) st'
    | .exn s => .exn s
    | .fuel => .fuel

/-- interncp.c:75-84 `read_string`.  A short file leaves the characters unspecified in the C code; an exception here. -/
def readString (color dest len : Nat) (st : CpIn) : Out CpIn :=
  if st.inp.length < len then .exn "end of file"
  else
    let sz := (len + 8) / 8
    let v := st.ptr + 8
    let ws := readWords 8 sz (st.inp.take len ++ List.replicate (sz * 8 - 1 - len) 0 ++ [sz * 8 - 1 - len])
    .ok ⟨st.inp.drop len, upd (upds st.mem st.ptr (mkHeader sz stringTag color :: ws)) dest v, st.ptr + 8 * (1 + sz),
      st.objs ++ [v]⟩

/-- interncp.c:51-66 `read_block`; `g` reads one value -/
def readBlock (base color : Nat) (g : Nat → CpIn → Out CpIn) (dest tag sz : Nat) (st : CpIn) : Out CpIn :=
  if sz = 0 then .ok { st with mem := upd st.mem dest (atomAddr base tag) }
  else
    let v := st.ptr + 8
    readList g sz v ⟨st.inp, upd (upd st.mem dest v) st.ptr (mkHeader sz tag color), st.ptr + 8 * (1 + sz), st.objs ++ [v]⟩

/-- interncp.c:109-112 `read_shared` -/
def readShared (dest : Nat) (ofs : Int) (st : CpIn) : Out CpIn :=
  .ok { st with mem := upd st.mem dest (st.objs.getD (st.objs.length - ofs.toNat) 0) }

/-- read a number and go on -/
def withBytes (n : Nat) (sign : Bool) (st : CpIn) (k : Int → CpIn → Out CpIn) : Out CpIn :=
  match inputBytes n sign st.inp with
  | none => .exn "end of file"
  | some (x, s) => k x { st with inp := s }

/-- interncp.c:31-145 `read_compact`.  Codes that the writer never produces leave `*dest` unspecified in the C code; an
exception here. -/
def readCp (base color : Nat) : Nat → Nat → CpIn → Out CpIn
  | 0, _, _ => .fuel
  | fuel + 1, dest, st =>
    match st.inp with
    | [] => .exn "end of file"
    | code :: inp =>
      let st := { st with inp := inp }
      if code ≥ 0x80 then readBlock base color (readCp base color fuel) dest (code % 16) (code / 16 % 8) st
      else if code ≥ 0x40 then .ok { st with mem := upd st.mem dest (valLong (code % 64 : Nat)) }
      else if code ≥ 0x20 then readString color dest (code % 32) st
      else if code = 0 then withBytes 1 true st fun n st => .ok { st with mem := upd st.mem dest (valLong n) }
      else if code = 1 then withBytes 2 true st fun n st => .ok { st with mem := upd st.mem dest (valLong n) }
      else if code = 2 then withBytes 4 true st fun n st => .ok { st with mem := upd st.mem dest (valLong n) }
      else if code = 3 then withBytes 8 true st fun n st => .ok { st with mem := upd st.mem dest (valLong n) }
      else if code = 4 then withBytes 1 false st (readShared dest)
      else if code = 5 then withBytes 2 false st (readShared dest)
      else if code = 6 then withBytes 4 false st (readShared dest)
      else if code = 8 then withBytes 4 false st fun hd st =>
        readBlock base color (readCp base color fuel) dest (tagHd hd.toNat) (wosizeHd hd.toNat) st
      else if code = 9 then withBytes 1 false st fun len st => readString color dest len.toNat st
      else if code = 10 then withBytes 4 false st fun len st => readString color dest len.toNat st
      else if code = 11 then
        if st.inp.length < 8 then .exn "end of file"
        else
          let v := st.ptr + 8
          .ok ⟨st.inp.drop 8, upd (upds st.mem st.ptr [mkHeader 1 doubleTag color, ofLe (st.inp.take 8).reverse]) dest v,
            st.ptr + 16, st.objs ++ [v]⟩
      else .exn "code"

/-- interncp.c:147-177 `intern_compact_val`.  The C variable `res` is modelled as the memory word at address 0.  When
the value has no heap part nothing is allocated. -/
def internCompact (al : Alloc) (m : Mem) (fuel : Nat) (s : Bytes) : Out (Nat × Mem × Bytes) :=
  match getword s with
  | none => .exn "end of file"
  | some (_, s1) => match getword s1 with
    | none => .exn "end of file"
    | some (_, s2) => match getword s2 with
      | none => .exn "end of file"
      | some (whsize, s3) =>
        if whsize ≠ 0 ∧ whsize - 1 > 2 ^ 54 - 1 then .exn "intern: structure too big"
        else match readCp al.base al.color fuel 0 ⟨s3, m, al.start, []⟩ with
          | .ok st => .ok (st.mem 0, st.mem, st.inp)
          | .exn e => .exn e
          | .fuel => .fuel

/-- intern.c:551-561 `intern_val`; `fuel` is only for the compact format -/
def internVal (al : Alloc) (m : Mem) (fuel : Nat) (s : Bytes) : Out (Nat × Mem × Bytes) :=
  match getword s with
  | none => .exn "end of file"
  | some (magic, s1) =>
    if magic < baseMagic ∨ magic > baseMagic + 4 then .exn "intern: bad object"
    else if magic = compactMagic then internCompact al m fuel s1
    else internFast al m magic s1

end Mosml.Marshal
