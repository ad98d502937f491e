import Verif.PackReal.Model
import Verif.PackReal.Spec
import Verif.Util
import Mathlib.Data.Fintype.Pigeonhole
import Mathlib.Data.BitVec

/-! # C93: packing of reals into bytes -/
namespace Mosml.PackReal
open Mosml.Ints

theorem doubleToVec_eq (d : BitVec 64) : doubleToVec d = (bytesLE 8 d.toNat).reverse := rfl

theorem bytesLE_length (k n : Nat) : (bytesLE k n).length = k := by
  induction k generalizing n with
  | zero => rfl
  | succ k ih => simp [bytesLE, ih]

theorem bytesLE_bytes (k n : Nat) : Bytes (bytesLE k n) := by
  induction k generalizing n with
  | zero => intro x hx; cases hx
  | succ k ih =>
    intro x hx
    rw [bytesLE, List.mem_cons] at hx
    rcases hx with rfl | hx
    · exact Nat.mod_lt _ (by decide)
    · exact ih _ x hx

theorem leVal_bytesLE (k n : Nat) : leVal (bytesLE k n) = n % 256 ^ k := by
  induction k generalizing n with
  | zero => simp [bytesLE, leVal, Nat.mod_one]
  | succ k ih => rw [bytesLE, leVal, ih, Nat.pow_succ', Nat.mod_mul]

theorem leVal_foldr (v : List Nat) : v.foldr (fun x a => x + 256 * a) 0 = leVal v := by
  induction v with
  | nil => rfl
  | cons x v ih => simp [leVal, ih]

theorem leVal_lt {v : List Nat} (h : Bytes v) : leVal v < 256 ^ v.length := by
  induction v with
  | nil => simp [leVal]
  | cons x v ih =>
    have h1 := h x (by simp)
    have h2 := ih (fun y hy => h y (by simp [hy]))
    rw [leVal, List.length_cons, Nat.pow_succ']
    omega

theorem leVal_eq {v : List Nat} : leVal v = beVal v.reverse := by
  induction v with
  | nil => rfl
  | cons x v ih => simp [leVal, beVal, ih]; omega

theorem vecToDouble_be {v : List Nat} (h : v.length = 8) (hb : Bytes v) : (vecToDouble v).toNat = beVal v := by
  have e : (List.range 8).map (fun i => v.getD (7 - i) 0) = v.reverse := by
    apply List.ext_getElem
    · simp [h]
    · intro k h1 h2
      simp at h1
      simp [List.getElem?_eq_getElem (show 7 - k < v.length by omega), h]
  have hlt := leVal_lt (v := v.reverse) (fun x hx => hb x (List.mem_reverse.mp hx))
  rw [List.length_reverse, h] at hlt
  rw [vecToDouble, e, ofMem, BitVec.toNat_ofNat, leVal_foldr, Nat.mod_eq_of_lt
    (lt_of_lt_of_eq hlt (by norm_num)), leVal_eq, List.reverse_reverse]

theorem map_range_getD (v : List Nat) : (List.range v.length).map (fun j => v.getD j 0) = v := by
  apply List.ext_getElem
  · simp
  · intro n h1 h2
    simp [List.getElem?_eq_getElem h2]

theorem sliceVector_eq {a : List Nat} {i n : Nat} (h : i + n ≤ a.length) :
    sliceVector a (i, n) = (a.drop i).take n := by
  unfold sliceVector
  apply List.ext_getElem
  · simp; omega
  · intro k h1 h2
    simp at h1
    simp [List.getElem?_eq_getElem (show i + k < a.length by omega)]

theorem reverse_eq (v : List Nat) : Little.reverse v = v.reverse := by
  unfold Little.reverse
  apply List.ext_getElem
  · simp
  · intro k h1 h2
    simp at h1
    simp [List.getElem?_eq_getElem (show v.length - 1 - k < v.length by omega)]

theorem reverseSlice_eq {a : List Nat} {i n : Nat} (h : i + n ≤ a.length) :
    Little.reverseSlice a (i, n) = ((a.drop i).take n).reverse := by
  unfold Little.reverseSlice
  apply List.ext_getElem
  · simp; omega
  · intro k h1 h2
    simp at h1
    simp [List.getElem?_eq_getElem (show i + (n - 1 - k) < a.length by omega)]
    congr 1
    omega

/-- `toBytes` gives the eight bytes of the representation, most significant first for `PackRealBig`
(and `Mosml.doubleVec`), least significant first for `PackRealLittle`. -/
theorem C93_toBytes (d : BitVec 64) :
    (Big.toBytes d).length = 8 ∧ Bytes (Big.toBytes d) ∧ beVal (Big.toBytes d) = d.toNat ∧
    (Little.toBytes d).length = 8 ∧ Bytes (Little.toBytes d) ∧ leVal (Little.toBytes d) = d.toNat := by
  have hlt := d.isLt
  have hB : Bytes (Big.toBytes d) := by
    intro x hx
    rw [Big.toBytes, doubleToVec_eq, List.mem_reverse] at hx
    exact bytesLE_bytes _ _ x hx
  have hV : beVal (Big.toBytes d) = d.toNat := by
    rw [Big.toBytes, doubleToVec_eq, ← leVal_eq, leVal_bytesLE, Nat.mod_eq_of_lt (lt_of_lt_of_eq hlt (by norm_num))]
  refine ⟨rfl, hB, hV, rfl, ?_, ?_⟩
  · intro x hx
    rw [Little.toBytes, reverse_eq, List.mem_reverse] at hx
    exact hB x hx
  · rw [leVal_eq, Little.toBytes, reverse_eq, List.reverse_reverse, hV]

example : Big.toBytes 0x3FF0000000000001#64 = [0x3F, 0xF0, 0, 0, 0, 0, 0, 1] ∧
    Little.toBytes 0x3FF0000000000001#64 = [1, 0, 0, 0, 0, 0, 0xF0, 0x3F] := by decide +kernel

theorem slice_ok {a : List Nat} {i : Int} (h0 : 0 ≤ i) (h : i + 8 ≤ a.length) :
    slice a i 8 = .val (i.toNat, 8) := by
  rw [slice, if_pos ⟨h0, by omega, by omega⟩]; rfl

theorem slice_bad {a : List Nat} {i : Int} (h : i < 0 ∨ (a.length : Int) < i + 8) :
    slice a i 8 = .subscript := by
  rw [slice, if_neg (by omega)]

/-- `PackRealBig.fromBytes` reads the first eight bytes, most significant first, and raises `Subscript`
exactly if there are fewer; `Mosml.vecDouble` does so for vectors of eight bytes, and raises `Fail` for others. -/
theorem C93_big_fromBytes (v : List Nat) (hb : Bytes v) :
    (8 ≤ v.length → ∃ d, Big.fromBytes v = .val d ∧ d.toNat = beVal (v.take 8)) ∧
    (v.length < 8 → Big.fromBytes v = .subscript) ∧
    (v.length = 8 → ∃ d, vecDouble v = .val d ∧ d.toNat = beVal v) ∧
    (v.length ≠ 8 → vecDouble v = .fail) := by
  refine ⟨?_, ?_, ?_, ?_⟩
  · intro h
    unfold Big.fromBytes
    by_cases h8 : v.length = 8
    · rw [if_pos h8]
      refine ⟨_, rfl, ?_⟩
      rw [vecToDouble_be h8 hb, List.take_of_length_le (by omega)]
    · rw [if_neg h8, slice_ok (by omega) (by omega)]
      refine ⟨_, rfl, ?_⟩
      show (vecToDouble (sliceVector v (0, 8))).toNat = _
      rw [sliceVector_eq (by omega), List.drop_zero,
        vecToDouble_be (by simp; omega) (fun x hx => hb x (List.mem_of_mem_take hx))]
  · intro h
    rw [Big.fromBytes, if_neg (by omega), slice_bad (by omega)]; rfl
  · intro h
    exact ⟨_, if_pos h, vecToDouble_be h hb⟩
  · intro h; exact if_neg h

example : Big.fromBytes [0x3F, 0xF0, 0, 0, 0, 0, 0, 1, 7] = .val 0x3FF0000000000001#64 ∧
    Big.fromBytes [1, 2] = .subscript := by decide +kernel

/-- `PackRealLittle.fromBytes` on eight bytes reads them least significant first, and raises `Subscript` if
there are fewer. Missing: longer vectors, see `C93_little_fromBytes_violation`. -/
theorem C93_little_fromBytes_partial (v : List Nat) (hb : Bytes v) :
    (v.length = 8 → ∃ d, Little.fromBytes v = .val d ∧ d.toNat = leVal v) ∧
    (v.length < 8 → Little.fromBytes v = .subscript) := by
  have hb' : Bytes (Little.reverse v) := by
    intro x hx; rw [reverse_eq, List.mem_reverse] at hx; exact hb x hx
  have hl : (Little.reverse v).length = v.length := by rw [reverse_eq, List.length_reverse]
  obtain ⟨h1, h2, -⟩ := C93_big_fromBytes _ hb'
  constructor
  · intro h
    obtain ⟨d, hd, hv⟩ := h1 (by omega)
    refine ⟨d, hd, ?_⟩
    rw [hv, List.take_of_length_le (by omega), reverse_eq, leVal_eq]
  · intro h; exact h2 (by omega)

example : Little.fromBytes [1, 0, 0, 0, 0, 0, 0xF0, 0x3F] = .val 0x3FF0000000000001#64 := by decide +kernel

/-- Finding: on a longer vector `PackRealLittle.fromBytes` reads the last eight bytes, although the
documentation says "the first bytesPerElem bytes are used"; the result differs as soon as these have a
different value. -/
theorem C93_little_fromBytes_violation (v : List Nat) (hb : Bytes v) (h : 8 < v.length) :
    (∃ d, Little.fromBytes v = .val d ∧ d.toNat = leVal (v.drop (v.length - 8))) ∧
    Little.fromBytes [1, 0, 0, 0, 0, 0, 0, 0, 2] ≠ .val 1#64 := by
  refine ⟨?_, by decide +kernel⟩
  have hb' : Bytes (Little.reverse v) := by
    intro x hx; rw [reverse_eq, List.mem_reverse] at hx; exact hb x hx
  obtain ⟨d, hd, hv⟩ := (C93_big_fromBytes _ hb').1 (by rw [reverse_eq, List.length_reverse]; omega)
  refine ⟨d, hd, ?_⟩
  rw [hv, reverse_eq, leVal_eq, List.take_reverse]

example : leVal ([1, 0, 0, 0, 0, 0, 0, 0, 2].take 8) = 1 ∧
    Little.fromBytes [1, 0, 0, 0, 0, 0, 0, 0, 2] = .val 0x200000000000000#64 := by decide +kernel

theorem offset_eq {i : Int} (h : -2 ^ 59 ≤ i ∧ i < 2 ^ 59) : offset i = .val (8 * i) := by
  have : imul i 8 = some (8 * i) := by
    unfold imul
    rw [if_neg (by omega)]
    unfold chk
    rw [if_pos (by unfold InRange minInt maxInt; omega)]
    congr 1; omega
  rw [offset, this]

theorem offset_big {i : Int} (h : i < -2 ^ 59 ∨ 2 ^ 59 ≤ i) : offset i = .overflow := by
  have : imul i 8 = none := by
    unfold imul
    split_ifs
    · rfl
    · unfold chk
      rw [if_neg (by unfold InRange minInt maxInt; omega)]
  rw [offset, this]

/-- `subVec` and `subArr` read the eight bytes from `8*i`, in the byte order of the structure, and raise
`Subscript` exactly if `i` is negative or there are not that many bytes. Missing: indices so large that
`8*i` is not an integer, see `C93_overflow_violation`. -/
theorem C93_sub_partial (v : List Nat) (hb : Bytes v) (i : Int) (hi : -2 ^ 59 ≤ i ∧ i < 2 ^ 59) :
    (0 ≤ i → 8 * (i + 1) ≤ v.length →
      (∃ d, Big.subVec v i = .val d ∧ d.toNat = beVal ((v.drop (8 * i.toNat)).take 8)) ∧
      (∃ d, Little.subVec v i = .val d ∧ d.toNat = leVal ((v.drop (8 * i.toNat)).take 8))) ∧
    (i < 0 ∨ (v.length : Int) < 8 * (i + 1) → Big.subVec v i = .subscript ∧ Little.subVec v i = .subscript) := by
  constructor
  · intro h0 h
    have e : (8 * i).toNat = 8 * i.toNat := by omega
    have hs : slice v (8 * i) 8 = .val (8 * i.toNat, 8) := by
      rw [slice_ok (by omega) (by omega), e]
    have hle : 8 * i.toNat + 8 ≤ v.length := by omega
    have hB : Bytes ((v.drop (8 * i.toNat)).take 8) :=
      fun x hx => hb x (List.mem_of_mem_drop (List.mem_of_mem_take hx))
    have hL : ((v.drop (8 * i.toNat)).take 8).length = 8 := by simp; omega
    constructor
    · obtain ⟨d, hd, hv⟩ := (C93_big_fromBytes _ hB).1 (by omega)
      refine ⟨d, ?_, ?_⟩
      · rw [Big.subVec, offset_eq hi]
        show (slice v (8 * i) 8).bind _ = _
        rw [hs]
        show Big.fromBytes (sliceVector v (8 * i.toNat, 8)) = _
        rw [sliceVector_eq hle, hd]
      · rw [hv, List.take_take]; rfl
    · have hB' : Bytes ((v.drop (8 * i.toNat)).take 8).reverse :=
        fun x hx => hB x (List.mem_reverse.mp hx)
      obtain ⟨d, hd, hv⟩ := (C93_big_fromBytes _ hB').1 (by rw [List.length_reverse]; omega)
      refine ⟨d, ?_, ?_⟩
      · rw [Little.subVec, offset_eq hi]
        show (slice v (8 * i) 8).bind _ = _
        rw [hs]
        show Big.fromBytes (Little.reverseSlice v (8 * i.toNat, 8)) = _
        rw [reverseSlice_eq hle, hd]
      · rw [hv, leVal_eq, List.take_of_length_le (by rw [List.length_reverse]; omega)]
  · intro h
    have hs : slice v (8 * i) 8 = .subscript := slice_bad (by omega)
    constructor
    · rw [Big.subVec, offset_eq hi]
      show (slice v (8 * i) 8).bind _ = _
      rw [hs]; rfl
    · rw [Little.subVec, offset_eq hi]
      show (slice v (8 * i) 8).bind _ = _
      rw [hs]; rfl

example : Big.subVec [9, 9, 9, 9, 9, 9, 9, 9, 0, 0, 0, 0, 0, 0, 1, 2] 1 = .val 258#64 ∧
    Little.subVec [9, 9, 9, 9, 9, 9, 9, 9, 2, 1, 0, 0, 0, 0, 0, 0] 1 = .val 258#64 ∧
    Big.subVec [1] (-1) = .subscript := by decide +kernel

theorem copyVec_ok {src dst : List Nat} {di : Nat} (hd : dst.length ≤ 2 ^ 61) (h : di + src.length ≤ dst.length) :
    copyVec src dst di = .val (dst.take di ++ src ++ dst.drop (di + src.length)) := by
  have hadd : iadd di src.length = some ((di : Int) + src.length) := by
    unfold iadd chk
    rw [if_pos (by unfold InRange minInt maxInt; omega)]
  unfold copyVec
  rw [if_neg (by omega), hadd]
  show (if ((di : Int) + src.length) > dst.length then Res.subscript else _) = _
  rw [if_neg (by omega)]
  congr 1
  apply List.ext_getElem
  · simp; omega
  · intro k h1 h2
    simp at h1
    simp only [List.getElem_map, List.getElem_range, Int.toNat_natCast]
    by_cases ha : k < di
    · rw [if_neg (by omega), List.getElem_append_left (by simp; omega), List.getElem_append_left (by simp; omega)]
      simp [List.getElem?_eq_getElem h1]
    · by_cases hb : k < di + src.length
      · rw [if_pos (by omega), List.getElem_append_left (by simp; omega),
          List.getElem_append_right (by simp; omega)]
        have : k - di < src.length := by omega
        have e : (List.take di dst).length = di := by simp; omega
        simp [List.getElem?_eq_getElem this, e]
      · rw [if_neg (by omega), List.getElem_append_right (by simp; omega)]
        have e : (List.take di dst ++ src).length = di + src.length := by simp; omega
        simp [List.getElem?_eq_getElem h1, e]
        congr 1
        omega

/-- `update` replaces exactly the bytes `8*i` to `8*i+7` of the array by those of the number, and the number
is then read back by `subArr`; it raises `Subscript` exactly if `i` is negative or the array too short.
(No array is as long as 2^61 bytes.) Missing: huge indices, see `C93_overflow_violation`. -/
theorem C93_update_partial (a : List Nat) (i : Int) (d : BitVec 64) (hb : Bytes a) (ha : a.length ≤ 2 ^ 61)
    (hi : -2 ^ 59 ≤ i ∧ i < 2 ^ 59 - 1) :
    (0 ≤ i → 8 * (i + 1) ≤ a.length →
      Big.update a i d = .val (a.take (8 * i.toNat) ++ Big.toBytes d ++ a.drop (8 * i.toNat + 8)) ∧
      Little.update a i d = .val (a.take (8 * i.toNat) ++ Little.toBytes d ++ a.drop (8 * i.toNat + 8)) ∧
      (Big.update a i d).bind (fun a' => Big.subVec a' i) = .val d ∧
      (Little.update a i d).bind (fun a' => Little.subVec a' i) = .val d) ∧
    (i < 0 ∨ (a.length : Int) < 8 * (i + 1) → Big.update a i d = .subscript ∧ Little.update a i d = .subscript) := by
  obtain ⟨l1, b1, v1, l2, b2, v2⟩ := C93_toBytes d
  have hi' : -2 ^ 59 ≤ i ∧ i < 2 ^ 59 := by omega
  constructor
  · intro h0 h
    have e : 8 * i = ((8 * i.toNat : Nat) : Int) := by omega
    have hB : Big.update a i d = .val (a.take (8 * i.toNat) ++ Big.toBytes d ++ a.drop (8 * i.toNat + 8)) := by
      rw [Big.update, offset_eq hi']
      show copyVec (Big.toBytes d) a (8 * i) = _
      rw [e, copyVec_ok ha (by omega), l1]
    have hL : Little.update a i d =
        .val (a.take (8 * i.toNat) ++ Little.toBytes d ++ a.drop (8 * i.toNat + 8)) := by
      rw [Little.update, offset_eq hi']
      show copyVec (Little.toBytes d) a (8 * i) = _
      rw [e, copyVec_ok ha (by omega), l2]
    have key : ∀ bs : List Nat, bs.length = 8 → Bytes bs →
        let a' := a.take (8 * i.toNat) ++ bs ++ a.drop (8 * i.toNat + 8)
        Bytes a' ∧ 8 * (i + 1) ≤ a'.length ∧ (a'.drop (8 * i.toNat)).take 8 = bs := by
      intro bs hl hbs
      have et : (a.take (8 * i.toNat)).length = 8 * i.toNat := by simp; omega
      refine ⟨?_, ?_, ?_⟩
      · intro x hx
        rw [List.mem_append, List.mem_append] at hx
        rcases hx with (hx | hx) | hx
        · exact hb x (List.mem_of_mem_take hx)
        · exact hbs x hx
        · exact hb x (List.mem_of_mem_drop hx)
      · rw [List.length_append, List.length_append, et, hl]; push_cast; omega
      · rw [List.append_assoc, List.drop_append_of_le_length (by omega), List.drop_of_length_le (by omega),
          List.nil_append, List.take_append_of_le_length (by omega), List.take_of_length_le (by omega)]
    refine ⟨hB, hL, ?_, ?_⟩
    · rw [hB]
      obtain ⟨k1, k2, k3⟩ := key _ l1 b1
      obtain ⟨d', hd, hv⟩ := ((C93_sub_partial _ k1 i hi').1 h0 k2).1
      show Big.subVec _ i = _
      rw [hd]
      rw [k3, v1] at hv
      rw [BitVec.eq_of_toNat_eq hv]
    · rw [hL]
      obtain ⟨k1, k2, k3⟩ := key _ l2 b2
      obtain ⟨d', hd, hv⟩ := ((C93_sub_partial _ k1 i hi').1 h0 k2).2
      show Little.subVec _ i = _
      rw [hd]
      rw [k3, v2] at hv
      rw [BitVec.eq_of_toNat_eq hv]
  · intro h
    have hc : ∀ bs : List Nat, bs.length = 8 → copyVec bs a (8 * i) = .subscript := by
      intro bs hl
      unfold copyVec
      by_cases h0 : 8 * i < 0
      · rw [if_pos h0]
      · have hadd : iadd (8 * i) bs.length = some (8 * i + 8) := by
          unfold iadd chk
          rw [hl, if_pos (by unfold InRange minInt maxInt; omega)]
          rfl
        rw [if_neg h0, hadd]
        show (if 8 * i + 8 > (a.length : Int) then Res.subscript else _) = _
        rw [if_pos (by omega)]
    constructor
    · rw [Big.update, offset_eq hi']
      exact hc _ l1
    · rw [Little.update, offset_eq hi']
      exact hc _ l2

example : Little.update [9, 9, 9, 9, 9, 9, 9, 9, 5] 0 258#64 = .val [2, 1, 0, 0, 0, 0, 0, 0, 5] ∧
    Big.update [9, 9] 0 258#64 = .subscript := by decide +kernel

/-- Finding: an index of at least 2^59 (or below -2^59) raises `Overflow` instead of `Subscript`. -/
theorem C93_overflow_violation (v : List Nat) (i : Int) (d : BitVec 64) (h : i < -2 ^ 59 ∨ 2 ^ 59 ≤ i) :
    Big.subVec v i = .overflow ∧ Little.subVec v i = .overflow ∧ Big.update v i d = .overflow ∧
    Little.update v i d = .overflow := by
  refine ⟨?_, ?_, ?_, ?_⟩
  · rw [Big.subVec, offset_big h]; rfl
  · rw [Little.subVec, offset_big h]; rfl
  · rw [Big.update, offset_big h]; rfl
  · rw [Little.update, offset_big h]; rfl

example : Big.subVec [] 576460752303423488 = .overflow ∧ Big.subVec [] 576460752303423487 = .subscript := by decide +kernel

/-- What is packed is read back unchanged, bit by bit: also the sign of zero and the bits of a NaN. -/
theorem C93_roundtrip (d : BitVec 64) :
    Big.fromBytes (Big.toBytes d) = .val d ∧ Little.fromBytes (Little.toBytes d) = .val d ∧
    vecDouble (doubleToVec d) = .val d := by
  obtain ⟨l1, b1, v1, l2, b2, v2⟩ := C93_toBytes d
  refine ⟨?_, ?_, ?_⟩
  · obtain ⟨d', hd, hv⟩ := (C93_big_fromBytes _ b1).1 (by omega)
    rw [List.take_of_length_le (by omega), v1] at hv
    rw [hd, BitVec.eq_of_toNat_eq hv]
  · obtain ⟨d', hd, hv⟩ := (C93_little_fromBytes_partial _ b2).1 l2
    rw [v2] at hv
    rw [hd, BitVec.eq_of_toNat_eq hv]
  · obtain ⟨d', hd, hv⟩ := (C93_big_fromBytes _ b1).2.2.1 l1
    rw [v1] at hv
    show vecDouble (Big.toBytes d) = _
    rw [hd, BitVec.eq_of_toNat_eq hv]

example : Big.fromBytes (Big.toBytes 0x7FF0000000000001#64) = .val 0x7FF0000000000001#64 := by decide +kernel

/-- `Mosml.floatVec` gives the four bytes of the number converted to `float`, most significant first;
`Mosml.vecFloat` reads four such bytes and converts to `double`, and raises `Fail` for any other length. -/
theorem C93_float_partial (c32 : BitVec 64 → BitVec 32) (c64 : BitVec 32 → BitVec 64) (d : BitVec 64)
    (v : List Nat) (hb : Bytes v) :
    (∃ b, floatVec c32 d = .val b ∧ b.length = 4 ∧ Bytes b ∧ beVal b = (c32 d).toNat) ∧
    (v.length = 4 → ∃ f : BitVec 32, f.toNat = beVal v ∧ vecFloat c64 v = .val (c64 f)) ∧
    (v.length ≠ 4 → vecFloat c64 v = .fail) := by
  have hf : floatVec c32 d = .val (bytesLE 4 (c32 d).toNat).reverse := rfl
  refine ⟨⟨_, hf, ?_, ?_, ?_⟩, ?_, ?_⟩
  · rw [List.length_reverse, bytesLE_length]
  · intro x hx
    exact bytesLE_bytes _ _ x (List.mem_reverse.mp hx)
  · rw [← leVal_eq, leVal_bytesLE, Nat.mod_eq_of_lt (lt_of_lt_of_eq (c32 d).isLt (by norm_num))]
  · intro h
    refine ⟨_, ?_, if_pos h⟩
    have e : (List.range 4).map (fun i => v.getD (3 - i) 0) = v.reverse := by
      apply List.ext_getElem
      · simp [h]
      · intro k h1 h2
        simp at h1
        simp [List.getElem?_eq_getElem (show 3 - k < v.length by omega), h]
    have hlt := leVal_lt (v := v.reverse) (fun x hx => hb x (List.mem_reverse.mp hx))
    rw [List.length_reverse, h] at hlt
    rw [e, BitVec.toNat_ofNat, leVal_foldr, Nat.mod_eq_of_lt
      (lt_of_lt_of_eq hlt (by norm_num)), leVal_eq, List.reverse_reverse]
  · intro h; exact if_neg h

example : floatVec (fun _ => 0x3F800000#32) 0x3FF0000000000000#64 = .val [0x3F, 0x80, 0, 0] ∧
    vecFloat (fun _ => 1#64) [1, 2, 3] = .fail := by decide +kernel

/-- Finding: the documentation says that `Mosml.floatVec` "raises Fail if r is not representable as a 32-bit
float". However floats are made from doubles, there are two reals for which `floatVec` gives the same bytes,
so that one of them is not represented; yet no `Fail` is raised for either. -/
theorem C93_float_violation (c32 : BitVec 64 → BitVec 32) :
    ∃ r s : BitVec 64, r ≠ s ∧ ∃ b, floatVec c32 r = .val b ∧ floatVec c32 s = .val b := by
  obtain ⟨x, y, hne, he⟩ := Fintype.exists_ne_map_eq_of_card_lt
    (fun x : Fin (2 ^ 64) => (⟨(c32 (BitVec.ofFin x)).toNat, (c32 (BitVec.ofFin x)).isLt⟩ : Fin (2 ^ 32)))
    (by rw [Fintype.card_fin, Fintype.card_fin]; norm_num)
  have he' : c32 (BitVec.ofFin x) = c32 (BitVec.ofFin y) :=
    BitVec.eq_of_toNat_eq (by simpa using congrArg Fin.val he)
  refine ⟨BitVec.ofFin x, BitVec.ofFin y, ?_, _, rfl, ?_⟩
  · intro h; exact hne (by simpa using congrArg BitVec.toFin h)
  · rw [floatVec, he']

example : floatVec (fun d => d.truncate 32) 0x100000000#64 = floatVec (fun d => d.truncate 32) 0#64 := by decide +kernel

end Mosml.PackReal
