import Verif.Md5.Model
import Verif.Md5.Spec

/-! C30: `Mosml.md5sum` is MD5. -/
namespace Mosml.Md5

/-! ### The rounds -/

def fOf : Nat → W → W → W → W
  | 0 => Spec.F
  | 1 => Spec.G
  | 2 => Spec.H
  | _ => Spec.I

def kOf (i : Nat) : Nat :=
  match i / 16 with
  | 0 => i
  | 1 => (1 + 5 * (i - 16)) % 16
  | 2 => (5 + 3 * (i - 32)) % 16
  | _ => 7 * (i - 48) % 16

def sOf (i : Nat) : Nat := ([[7, 12, 17, 22], [5, 9, 14, 20], [4, 11, 16, 23], [6, 10, 15, 21]].getD (i / 16) []).getD (i % 4) 0

theorem tab_eq : ∀ i < 64, tab.getD i (0, 0, 0) = (BitVec.ofNat 32 (Spec.T.getD i 0), kOf i, sOf i) ∧ sOf i < 32 := by decide +kernel

theorem step_eq (x : Nat → W) (i : Nat) (hi : i < 64) (a b c d : W) :
    step x i (a, b, c, d) = (d, Spec.op (fOf (i / 16)) x a b c d (kOf i) (sOf i) (i + 1), b, c) := by
  obtain ⟨h1, h2⟩ := tab_eq i hi
  unfold step
  simp only [h1]
  have hr : ∀ y : W, (y <<< sOf i ||| y >>> (32 - sOf i)) = y.rotateLeft (sOf i) := by
    intro y
    rw [BitVec.rotateLeft_def, Nat.mod_eq_of_lt h2]
  rw [hr, Nat.shiftRight_eq_div_pow]
  have hd : i / 2 ^ 4 = 0 ∨ i / 2 ^ 4 = 1 ∨ i / 2 ^ 4 = 2 ∨ i / 2 ^ 4 = 3 := by omega
  have he : i / 16 = i / 2 ^ 4 := rfl
  simp only [Spec.op, Nat.add_sub_cancel, he]
  rcases hd with h | h | h | h <;> rw [h] <;>
    · simp only [fOf, Spec.F, Spec.G, Spec.H, Spec.I, Prod.mk.injEq, true_and, and_true]
      rw [BitVec.add_comm b, ← BitVec.add_assoc]

theorem steps_add (x : Nat → W) : ∀ m i n v, steps x i (m + n) v = steps x (i + m) n (steps x i m v) := by
  intro m
  induction m with
  | zero => intro i n v; simp [steps]
  | succ m ih =>
    intro i n v
    rw [show m + 1 + n = (m + n) + 1 by omega, steps, steps, ih, show i + 1 + m = i + (m + 1) by omega]

theorem four (x : Nat → W) (i : Nat) (hi : i + 3 < 64) (v : W × W × W × W) (k : Nat → Nat) (h16 : i / 16 = (i + 3) / 16)
    (hk : ∀ j < 4, k (i + 1 + j) = kOf (i + j)) :
    steps x i 4 v = Spec.line (fOf (i / 16)) x k (sOf i) (sOf (i + 1)) (sOf (i + 2)) (sOf (i + 3)) (i + 1) v := by
  obtain ⟨a, b, c, d⟩ := v
  simp only [steps]
  rw [step_eq x i (by omega), step_eq x (i + 1) (by omega), step_eq x (i + 1 + 1) (by omega), step_eq x (i + 1 + 1 + 1) (by omega)]
  have k0 := hk 0 (by omega)
  have k1 := hk 1 (by omega)
  have k2 := hk 2 (by omega)
  have k3 := hk 3 (by omega)
  have e1 : (i + 1) / 16 = i / 16 := by omega
  have e2 : (i + 1 + 1) / 16 = i / 16 := by omega
  have e3 : (i + 1 + 1 + 1) / 16 = i / 16 := by omega
  simp only [Nat.add_zero] at k0
  simp only [Spec.line, e1, e2, e3]
  rw [k0, k1, k2, k3]

theorem four_seq (x : Nat → W) (f : W → W → W → W) (k : Nat → Nat) (s1 s2 s3 s4 i : Nat) (hi : i + 15 < 64) (h16 : i % 16 = 0)
    (hf : fOf (i / 16) = f) (hk : ∀ j < 16, k (i + 1 + j) = kOf (i + j))
    (hs : ∀ j < 4, sOf (i + 4 * j) = s1 ∧ sOf (i + 4 * j + 1) = s2 ∧ sOf (i + 4 * j + 2) = s3 ∧ sOf (i + 4 * j + 3) = s4) (v : W × W × W × W) :
    steps x i 16 v = [i + 1, i + 5, i + 9, i + 13].foldl (fun v i => Spec.line f x k s1 s2 s3 s4 i v) v := by
  rw [show 16 = 4 + (4 + (4 + 4)) by rfl, steps_add, steps_add, steps_add]
  have g : ∀ j < 4, ∀ v, steps x (i + 4 * j) 4 v = Spec.line f x k s1 s2 s3 s4 (i + 4 * j + 1) v := by
    intro j hj v
    obtain ⟨q1, q2, q3, q4⟩ := hs j hj
    have hf' : fOf ((i + 4 * j) / 16) = f := by
      rw [show (i + 4 * j) / 16 = i / 16 by omega]; exact hf
    rw [four x (i + 4 * j) (by omega) v k (by omega) (by
      intro j' hj'
      have := hk (4 * j + j') (by omega)
      rw [show i + 1 + (4 * j + j') = i + 4 * j + 1 + j' by omega, show i + (4 * j + j') = i + 4 * j + j' by omega] at this
      exact this), hf', q1, q2, q3, q4]
  have g0 := g 0 (by omega)
  have g1 := g 1 (by omega)
  have g2 := g 2 (by omega)
  have g3 := g 3 (by omega)
  simp only [Nat.mul_zero, Nat.add_zero] at g0
  rw [g0, show i + 4 = i + 4 * 1 by rfl, g1, show i + 4 * 1 + 4 = i + 4 * 2 by rfl, g2, show i + 4 * 2 + 4 = i + 4 * 3 by rfl, g3]
  rfl

theorem steps_eq (x : Nat → W) (v : W × W × W × W) : steps x 0 64 v = Spec.rounds x v := by
  rw [show 64 = 16 + (16 + (16 + 16)) by rfl, steps_add, steps_add, steps_add]
  rw [four_seq x Spec.F (fun i => i - 1) 7 12 17 22 0 (by omega) (by omega) rfl (by decide) (by decide)]
  rw [four_seq x Spec.G (fun i => (1 + 5 * (i - 17)) % 16) 5 9 14 20 (0 + 16) (by omega) (by omega) rfl (by decide) (by decide)]
  rw [four_seq x Spec.H (fun i => (5 + 3 * (i - 33)) % 16) 4 11 16 23 (0 + 16 + 16) (by omega) (by omega) rfl (by decide) (by decide)]
  rw [four_seq x Spec.I (fun i => 7 * (i - 49) % 16) 6 10 15 21 (0 + 16 + 16 + 16) (by omega) (by omega) rfl (by decide) (by decide)]
  rfl

seal steps Spec.rounds

/-! ### Bytes and words -/

theorem or4 (a b c d : Nat) (ha : a < 256) (hb : b < 256) (hc : c < 256) (hd : d < 256) :
    a ||| b <<< 8 ||| c <<< 16 ||| d <<< 24 = a + 256 * b + 65536 * c + 16777216 * d := by
  have h1 : b <<< 8 ||| a = b <<< 8 + a := (Nat.shiftLeft_add_eq_or_of_lt (by simpa using ha) b).symm
  have h2 : c <<< 16 ||| (b <<< 8 + a) = c <<< 16 + (b <<< 8 + a) :=
    (Nat.shiftLeft_add_eq_or_of_lt (by rw [Nat.shiftLeft_eq]; omega) c).symm
  have h3 : d <<< 24 ||| (c <<< 16 + (b <<< 8 + a)) = d <<< 24 + (c <<< 16 + (b <<< 8 + a)) :=
    (Nat.shiftLeft_add_eq_or_of_lt (by rw [Nat.shiftLeft_eq, Nat.shiftLeft_eq]; omega) d).symm
  rw [Nat.or_comm a, h1, Nat.or_comm _ (c <<< 16), h2, Nat.or_comm _ (d <<< 24), h3]
  simp only [Nat.shiftLeft_eq]
  omega

theorem decode_eq (p : List Byte) (i : Nat) : decode p i = Spec.blockWords (p.map BitVec.toNat) i := by
  have hg : ∀ j, (p.map BitVec.toNat).getD j 0 = (p.getD j 0).toNat := by
    intro j
    simp only [List.getD_eq_getElem?_getD, List.getElem?_map]
    cases p[j]? <;> rfl
  unfold decode Spec.blockWords Spec.word
  rw [hg, hg, hg, hg]
  generalize p.getD (4 * i) 0 = a
  generalize p.getD (4 * i + 1) 0 = b
  generalize p.getD (4 * i + 2) 0 = c
  generalize p.getD (4 * i + 3) 0 = d
  apply BitVec.eq_of_toNat_eq
  have ha := a.isLt
  have hb := b.isLt
  have hc := c.isLt
  have hd := d.isLt
  have e : ∀ (y : Byte) (k : Nat), k ≤ 24 → ((y.zeroExtend 32) <<< k).toNat = y.toNat <<< k := by
    intro y k hk
    rw [BitVec.toNat_shiftLeft, BitVec.toNat_setWidth, Nat.mod_eq_of_lt (a := y.toNat) (by have := y.isLt; omega)]
    apply Nat.mod_eq_of_lt
    rw [Nat.shiftLeft_eq]
    have h1 : y.toNat * 2 ^ k ≤ y.toNat * 2 ^ 24 := Nat.mul_le_mul_left _ (Nat.pow_le_pow_right (by omega) hk)
    have := y.isLt
    omega
  rw [BitVec.toNat_or, BitVec.toNat_or, BitVec.toNat_or, e _ _ (by omega), e _ _ (by omega), e _ _ (by omega), BitVec.toNat_setWidth,
    Nat.mod_eq_of_lt (a := a.toNat) (by omega), or4 _ _ _ _ ha hb hc hd, BitVec.toNat_ofNat, Nat.mod_eq_of_lt (by omega)]

theorem encode_eq (ws : List W) : (encode ws).map BitVec.toNat = ws.flatMap (fun w => Spec.bytesLE 4 w.toNat) := by
  induction ws with
  | nil => rfl
  | cons w ws ih =>
    rw [encode, List.flatMap_cons, ← ih]
    simp only [List.map_cons, Spec.bytesLE, List.cons_append, List.nil_append, BitVec.toNat_setWidth, BitVec.toNat_ushiftRight,
      Nat.shiftRight_eq_div_pow, Nat.div_div_eq_div_mul]

theorem encode_length (ws : List W) : (encode ws).length = 4 * ws.length := by
  induction ws with
  | nil => rfl
  | cons w ws ih => simp only [encode, List.length_cons, ih]; omega

/-! ### The blocks -/

abbrev V := W × W × W × W

def stateV (s : MState) : V := (s.a, s.b, s.c, s.d)

/-- `n` blocks of `p` -/
def go (v : V) (p : List Nat) : Nat → V
  | 0 => v
  | n + 1 => go (Spec.process v (p.take 64)) (p.drop 64) n

theorem foldl_go (p : List Nat) : ∀ n v q, p = q →
    (List.range n).foldl (fun v i => Spec.process v (Spec.nthBlock p i)) v = go v q n := by
  intro n
  induction n generalizing p with
  | zero => intro v q _; rfl
  | succ n ih =>
    rintro v q rfl
    rw [List.range_succ_eq_map, List.foldl_cons, List.foldl_map, go]
    have h0 : Spec.nthBlock p 0 = p.take 64 := by simp [Spec.nthBlock]
    rw [h0, ← ih (p.drop 64) _ _ rfl]
    have hb : ∀ i, Spec.nthBlock p (i + 1) = Spec.nthBlock (p.drop 64) i := by
      intro i
      simp only [Spec.nthBlock, List.drop_drop]
      rw [show 64 * (i + 1) = 64 + 64 * i by omega]
    simp only [Nat.succ_eq_add_one, hb]

theorem go_add (m : Nat) : ∀ v p n, go v p (m + n) = go (go v p m) (p.drop (64 * m)) n := by
  induction m with
  | zero => intro v p n; simp [go]
  | succ m ih =>
    intro v p n
    rw [show m + 1 + n = (m + n) + 1 by omega, go, go, ih, List.drop_drop]
    congr 2
    omega

theorem go_append (n : Nat) : ∀ v p q, 64 * n ≤ p.length → go v (p ++ q) n = go v p n := by
  induction n with
  | zero => intro v p q _; rfl
  | succ n ih =>
    intro v p q h
    rw [go, go, List.take_append_of_le_length (by omega), List.drop_append_of_le_length (by omega), ih]
    rw [List.length_drop]; omega

theorem block_eq (s : MState) (p : List Byte) : stateV (block s p) = Spec.process (stateV s) (p.map BitVec.toNat) ∧ (block s p).len = s.len := by
  have hd : decode p = Spec.blockWords (p.map BitVec.toNat) := funext (decode_eq p)
  have h : steps (decode p) 0 64 (s.a, s.b, s.c, s.d) = Spec.rounds (Spec.blockWords (p.map BitVec.toNat)) (stateV s) := by
    rw [hd, steps_eq]; rfl
  have h2 : Spec.process (stateV s) (p.map BitVec.toNat) = (match Spec.rounds (Spec.blockWords (p.map BitVec.toNat)) (stateV s) with
    | (a, b, c, d) => (s.a + a, s.b + b, s.c + c, s.d + d)) := rfl
  have h3 : block s p = (match steps (decode p) 0 64 (s.a, s.b, s.c, s.d) with
    | (a, b, c, d) => { s with a := s.a + a, b := s.b + b, c := s.c + c, d := s.d + d }) := rfl
  rw [h2, h3, h]
  generalize Spec.rounds (Spec.blockWords (p.map BitVec.toNat)) (stateV s) = r
  obtain ⟨a, b, c, d⟩ := r
  exact ⟨rfl, rfl⟩

theorem blocks_eq (n : Nat) : ∀ (s : MState) (p : List Byte) (len : Nat), (len + 63) / 64 = n →
    stateV (blocks s p len) = go (stateV s) (p.map BitVec.toNat) n ∧ (blocks s p len).len = s.len := by
  induction n with
  | zero =>
    intro s p len h
    rw [blocks, if_neg (by omega)]
    exact ⟨rfl, rfl⟩
  | succ n ih =>
    intro s p len h
    rw [blocks, if_pos (by omega)]
    obtain ⟨h1, h2⟩ := ih (block s (p.take 64)) (p.drop 64) (len - 64) (by omega)
    obtain ⟨h3, h4⟩ := block_eq s (p.take 64)
    rw [h1, h2, h3, h4, go, List.map_take, List.map_drop]
    exact ⟨rfl, rfl⟩

theorem count_eq (n : Nat) (h : n < 2 ^ 32) :
    (encode [BitVec.ofNat 32 n <<< 3, BitVec.ofNat 32 n >>> 29]).map BitVec.toNat = Spec.bytesLE 8 (8 * n) := by
  rw [encode_eq]
  simp only [List.flatMap_cons, List.flatMap_nil, List.append_nil, BitVec.toNat_shiftLeft, BitVec.toNat_ushiftRight, BitVec.toNat_ofNat,
    Nat.mod_eq_of_lt h, Nat.shiftLeft_eq, Nat.shiftRight_eq_div_pow]
  simp only [Spec.bytesLE, List.cons_append, List.nil_append, Nat.div_div_eq_div_mul]
  simp only [List.cons.injEq, and_true]
  refine ⟨?_, ?_, ?_, ?_, ?_, ?_, ?_, ?_⟩ <;> omega

theorem land63 (n : Nat) : n &&& 0x3f = n % 64 := Nat.and_two_pow_sub_one_eq_mod n 6

/-- the last call -/
theorem md5_last (m : List Nat) (buf : List Byte) (k : Nat) (s : Option MState) (hm : m.length < 2 ^ 32) (hk : 64 * k ≤ m.length)
    (hb : buf.map BitVec.toNat = m.drop (64 * k)) (hlast : buf.length % 64 ≠ 0 ∨ buf.length = 0)
    (hs : stateV (s.getD seed) = go (stateV seed) m k) (hl : (s.getD seed).len = BitVec.ofNat 32 (64 * k)) :
    ∃ digest, md5 buf s = .inr digest ∧ digest.map BitVec.toNat = Spec.md5 m := by
  have hlen : buf.length = m.length - 64 * k := by rw [← List.length_map (f := BitVec.toNat), hb, List.length_drop]
  unfold md5
  simp only [land63]
  rw [if_pos hlast]
  generalize s.getD seed = s0 at *
  obtain ⟨i, hi⟩ : ∃ i, i = (if buf.length % 64 < 56 then 56 - buf.length % 64 else 120 - buf.length % 64) := ⟨_, rfl⟩
  have hi' : 1 ≤ i ∧ i ≤ 64 ∧ (buf.length + i) % 64 = 56 ∧ i - 1 = (119 - m.length % 64) % 64 := by
    rw [hi]; split <;> omega
  rw [← hi, if_pos (by omega)]
  have hlen2 : s0.len + BitVec.ofNat 32 buf.length = BitVec.ofNat 32 m.length := by
    rw [hl, ← BitVec.ofNat_add]
    congr 1; omega
  rw [hlen2]
  refine ⟨_, rfl, ?_⟩
  generalize hp : buf ++ 128#8 :: List.replicate (i - 1) 0 = p
  have hpl : p.length = buf.length + i := by
    rw [← hp]; simp only [List.length_append, List.length_cons, List.length_replicate]; omega
  obtain ⟨b1, b2⟩ := blocks_eq ((p.length + 63) / 64) { s0 with len := BitVec.ofNat 32 m.length }
    (p ++ encode [BitVec.ofNat 32 m.length <<< 3, BitVec.ofNat 32 m.length >>> 29]) p.length rfl
  have hmap : (p ++ encode [BitVec.ofNat 32 m.length <<< 3, BitVec.ofNat 32 m.length >>> 29]).map BitVec.toNat = (Spec.padded m).drop (64 * k) := by
    rw [List.map_append, count_eq _ hm, ← hp, List.map_append, hb, Spec.padded]
    simp only [List.append_assoc]
    rw [List.drop_append_of_le_length hk]
    congr 1
    simp only [List.map_cons, List.map_replicate, List.cons_append, List.nil_append]
    rw [hi'.2.2.2]
    rfl
  rw [hmap] at b1
  have hst : stateV { s0 with len := BitVec.ofNat 32 m.length } = go (stateV seed) (Spec.padded m) k := by
    rw [show stateV { s0 with len := BitVec.ofNat 32 m.length } = stateV s0 from rfl, hs, Spec.padded]
    simp only [List.append_assoc]
    rw [go_append _ _ _ _ hk]
  rw [hst, ← go_add] at b1
  have hblk : k + (p.length + 63) / 64 = (Spec.padded m).length / 64 := by
    have : (Spec.padded m).length = m.length + 1 + (119 - m.length % 64) % 64 + 8 := by
      simp [Spec.padded, Spec.bytesLE]; omega
    omega
  rw [hblk, ← foldl_go (Spec.padded m) _ _ _ rfl] at b1
  rw [encode_eq]
  simp only [List.flatMap_cons, List.flatMap_nil, List.append_nil]
  unfold Spec.md5
  dsimp only
  rw [show ((0x67452301, 0xefcdab89, 0x98badcfe, 0x10325476) : V) = stateV seed from rfl, ← b1]
  simp only [stateV, List.append_assoc]

theorem sumLoop_eq (str : List Byte) (hm : str.length < 2 ^ 32) : ∀ (fuel k : Nat) (s : Option MState), 64 * k ≤ str.length →
    (str.length - 64 * k) / 64 + 2 ≤ fuel → stateV (s.getD seed) = go (stateV seed) (str.map BitVec.toNat) k →
    (s.getD seed).len = BitVec.ofNat 32 (64 * k) →
    ∃ digest, sumLoop str str.length fuel ((64 * k : Nat) : Int) s = some digest ∧ digest.map BitVec.toNat = Spec.md5 (str.map BitVec.toNat) := by
  intro fuel
  induction fuel with
  | zero => intro k s _ h; omega
  | succ fuel ih =>
    intro k s hk hf hs hl
    rw [sumLoop]
    obtain ⟨n, hn⟩ : ∃ n : Nat, n = if str.length - 64 * k < 8192 then str.length - 64 * k else 8192 := ⟨_, rfl⟩
    have hn' : (if (str.length : Int) - ((64 * k : Nat) : Int) < 128 * 64 then (str.length : Int) - ((64 * k : Nat) : Int) else 128 * 64) = (n : Int) := by
      rw [hn]; split <;> split <;> omega
    dsimp only
    rw [hn', if_neg (by omega)]
    have hle : n ≤ str.length - 64 * k := by rw [hn]; split <;> omega
    have hbl : ((str.drop (64 * k)).take n).length = n := by rw [List.length_take, List.length_drop]; omega
    simp only [Int.toNat_natCast, land63]
    by_cases hlast : (n : Int) ≤ 0 ∨ n % 64 ≠ 0
    · rw [if_pos hlast]
      have hall : n = str.length - 64 * k := by
        rw [hn] at hlast ⊢
        split
        · rfl
        · rename_i h; rw [if_neg h] at hlast; omega
      obtain ⟨digest, d1, d2⟩ := md5_last (str.map BitVec.toNat) ((str.drop (64 * k)).take n) k s (by simpa using hm) (by simpa using hk)
        (by rw [hall, List.take_of_length_le (by simp), List.map_drop]) (by rw [hbl]; omega) hs hl
      rw [d1]
      exact ⟨digest, rfl, d2⟩
    · rw [if_neg hlast]
      have hn0 : 0 < n ∧ n % 64 = 0 := by omega
      have hmd : md5 ((str.drop (64 * k)).take n) s =
          .inl (blocks { s.getD seed with len := (s.getD seed).len + BitVec.ofNat 32 n } ((str.drop (64 * k)).take n) n) := by
        unfold md5
        simp only [land63, hbl]
        rw [if_neg (by omega)]
      rw [hmd]
      dsimp only
      obtain ⟨b1, b2⟩ := blocks_eq ((n + 63) / 64) { s.getD seed with len := (s.getD seed).len + BitVec.ofNat 32 n } ((str.drop (64 * k)).take n) n rfl
      have hq : (n + 63) / 64 = n / 64 := by omega
      have hkn : 64 * k + n = 64 * (k + n / 64) := by omega
      have := ih (k + n / 64) (some (blocks { s.getD seed with len := (s.getD seed).len + BitVec.ofNat 32 n } ((str.drop (64 * k)).take n) n))
        (by omega) (by omega) (by
          rw [Option.getD_some, b1, hq, go_add]
          rw [show stateV { s.getD seed with len := (s.getD seed).len + BitVec.ofNat 32 n } = stateV (s.getD seed) from rfl, hs]
          have e : ((str.map BitVec.toNat).drop (64 * k)) = ((str.drop (64 * k)).take n).map BitVec.toNat ++ ((str.map BitVec.toNat).drop (64 * k)).drop n := by
            rw [List.map_take, List.map_drop, List.take_append_drop]
          rw [e, go_append _ _ _ _ (by rw [List.length_map, hbl]; omega)]) (by
          rw [Option.getD_some, b2]
          show (s.getD seed).len + BitVec.ofNat 32 n = _
          rw [hl, ← BitVec.ofNat_add, hkn])
      rw [← hkn] at this
      rw [show ((64 * k : Nat) : Int) + (n : Int) = ((64 * k + n : Nat) : Int) by omega]
      exact this

/-! ### Base 64 -/

theorem t64_eq : ∀ j < 64, t64e.getD j '=' = Spec.alphabet.getD j ' ' := by decide +kernel

theorem enc64_eq : ∀ l : List Byte, ∃ pad, enc64 l = Spec.base64 (l.map BitVec.toNat) ++ pad
  | x :: y :: z :: rest => by
    obtain ⟨pad, ih⟩ := enc64_eq rest
    refine ⟨pad, ?_⟩
    have hx := x.isLt
    have hy := y.isLt
    have hz := z.isLt
    have e : x.toNat <<< 16 ||| y.toNat <<< 8 ||| z.toNat = x.toNat * 65536 + y.toNat * 256 + z.toNat := by
      have := or4 z.toNat y.toNat x.toNat 0 hz hy hx (by omega)
      rw [Nat.zero_shiftLeft, Nat.or_zero, Nat.or_comm z.toNat, Nat.or_comm _ (x.toNat <<< 16), ← Nat.or_assoc] at this
      omega
    simp only [enc64, Spec.base64, List.map_cons, e, ih, Nat.shiftRight_eq_div_pow, land63, List.map_nil, List.cons_append, List.nil_append]
    rw [t64_eq _ (by omega), t64_eq _ (by omega), t64_eq _ (by omega), t64_eq _ (by omega)]
    rw [Nat.mod_eq_of_lt (a := (x.toNat * 65536 + y.toNat * 256 + z.toNat) / 262144) (by omega)]
  | [x, y] => by
    refine ⟨['='], ?_⟩
    have hx := x.isLt
    have hy := y.isLt
    have e : x.toNat <<< 16 ||| y.toNat <<< 8 = x.toNat * 65536 + y.toNat * 256 := by
      have := or4 0 y.toNat x.toNat 0 (by omega) hy hx (by omega)
      rw [Nat.zero_shiftLeft, Nat.or_zero, Nat.zero_or, Nat.or_comm] at this
      omega
    simp only [enc64, Spec.base64, List.map_cons, e, Nat.shiftRight_eq_div_pow, land63, List.map_nil, List.cons_append, List.nil_append]
    rw [t64_eq _ (by omega), t64_eq _ (by omega), t64_eq _ (by omega)]
    rw [Nat.mod_eq_of_lt (a := (x.toNat * 65536 + y.toNat * 256) / 262144) (by omega)]
  | [x] => by
    refine ⟨['=', '='], ?_⟩
    have hx := x.isLt
    have e : x.toNat <<< 16 = x.toNat * 65536 := by rw [Nat.shiftLeft_eq]
    simp only [enc64, Spec.base64, List.map_cons, e, Nat.shiftRight_eq_div_pow, land63, List.map_nil, List.cons_append, List.nil_append]
    rw [t64_eq _ (by omega), t64_eq _ (by omega)]
    rw [Nat.mod_eq_of_lt (a := (x.toNat * 65536) / 262144) (by omega)]
  | [] => ⟨['='], rfl⟩

theorem base64_length : ∀ l : List Nat, (Spec.base64 l).length = (8 * l.length + 5) / 6
  | x :: y :: z :: rest => by
    have := base64_length rest
    simp only [Spec.base64, List.length_append, List.length_map, List.length_cons, List.length_nil, this]
    omega
  | [x, y] => by simp [Spec.base64]
  | [x] => by simp [Spec.base64]
  | [] => rfl

theorem bytesLE_length (n : Nat) : ∀ x, (Spec.bytesLE n x).length = n := by
  induction n with
  | zero => intro x; rfl
  | succ n ih => intro x; simp [Spec.bytesLE, ih]

theorem md5_length (m : List Nat) : (Spec.md5 m).length = 16 := by
  simp [Spec.md5, bytesLE_length]

theorem sum_eq (str : List Byte) (hm : str.length < 2 ^ 32) (fuel : Nat) (hf : str.length / 64 + 2 ≤ fuel) :
    (sumLoop str str.length fuel 0 none).map (fun digest => (enc64 digest).take 22) = some (Spec.base64 (Spec.md5 (str.map BitVec.toNat))) := by
  obtain ⟨digest, h1, h2⟩ := sumLoop_eq str hm fuel 0 none (by omega) (by omega) rfl rfl
  rw [show ((64 * 0 : Nat) : Int) = 0 from rfl] at h1
  rw [h1, Option.map_some, Option.some.injEq]
  obtain ⟨pad, h3⟩ := enc64_eq digest
  have hl : (Spec.base64 (digest.map BitVec.toNat)).length = 22 := by
    rw [base64_length, h2, md5_length]
  rw [h3, List.take_append_of_le_length (by omega), List.take_of_length_le (by omega), h2]

/-- C30: for every string of fewer than 2^31 characters the result is the base 64 coding, without padding, of the MD5 digest. -/
theorem C30_md5sum (str : List Byte) (h : str.length < 2 ^ 31) :
    md5sum str = some (Spec.base64 (Spec.md5 (str.map BitVec.toNat))) := by
  unfold md5sum
  have e : toInt32 str.length = str.length := by
    unfold toInt32
    rw [BitVec.toInt_eq_toNat_cond, BitVec.toNat_ofNat, Nat.mod_eq_of_lt (by omega), if_pos (by omega)]
  rw [e]
  exact sum_eq str (by omega) _ (Nat.le_refl _)

/-- C30: the result has 22 characters, all of the base 64 alphabet. -/
theorem C30_length (str : List Byte) (h : str.length < 2 ^ 31) : ∃ r, md5sum str = some r ∧ r.length = 22 := by
  refine ⟨_, C30_md5sum str h, ?_⟩
  rw [base64_length, md5_length]

/-- the limit is needed: the length is kept in an `int`, so a string of 2^32 characters gives the digest of the empty string -/
theorem C30_long_violation (str : List Byte) (h : str.length = 2 ^ 32) : md5sum str = md5sum [] := by
  have e : toInt32 str.length = 0 := by rw [h]; decide
  unfold md5sum
  rw [e]
  have e' : toInt32 ([] : List Byte).length = 0 := by decide
  rw [e']
  have : ∀ (s : List Byte) fuel, sumLoop s 0 (fuel + 1) 0 none = sumLoop [] 0 1 0 none := by
    intro s fuel
    simp [sumLoop]
  have h1 := this str (str.length / 64 + 1)
  have h2 := this [] (([] : List Byte).length / 64 + 1)
  rw [h1, h2]

/-- RFC 1321, A.5: `MD5 ("abc") = 900150983cd24fb0d6963f7d28e17f72` -/
example : Spec.md5 ("abc".toList.map Char.toNat) =
    [0x90, 0x01, 0x50, 0x98, 0x3c, 0xd2, 0x4f, 0xb0, 0xd6, 0x96, 0x3f, 0x7d, 0x28, 0xe1, 0x7f, 0x72] := by decide +kernel

example : md5sum ("abc".toList.map (fun c => BitVec.ofNat 8 c.toNat)) = some "kAFQmDzST7DWlj99KOF/cg".toList := by decide +kernel

/-- a message of 80 characters: two blocks (RFC 1321, A.5) -/
example : Spec.md5 ("12345678901234567890123456789012345678901234567890123456789012345678901234567890".toList.map Char.toNat) =
    [0x57, 0xed, 0xf4, 0xa2, 0x2b, 0xe3, 0xc9, 0x55, 0xac, 0x49, 0xda, 0x2e, 0x21, 0x07, 0xb6, 0x7a] := by decide +kernel

end Mosml.Md5
