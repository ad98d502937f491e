import Verif.Marshal.Model

/-!
Specification side: when the value `w` in memory `m'` is a copy of the value `v` in memory `m`.

`m` is the memory of the machine that wrote the value (word size `W`, byte order `e`), `m'` that of the
little-endian 64-bit machine that reads it.
-/
namespace Mosml.Marshal

/-- the size and tag in the header of the block `v` -/
def size (W : Nat) (m : Mem) (v : Nat) : Nat := wosizeHd (m (v - W))
def tag (W : Nat) (m : Mem) (v : Nat) : Nat := tagHd (m (v - W))

/-- the integer represented by an odd word, read on the 64-bit machine -/
def widen (W v : Nat) : Nat := if W = 8 then v else sext32 v

/-- all bytes of a block in memory order -/
def blockBytes (W : Nat) (e : Endian) (m : Mem) (a : Nat) : Bytes :=
  ((List.range (size W m a)).map fun i => m (a + W * i)).flatMap (wordBytes e W)

/-- the characters of a string block: the last byte tells how many of the others are padding -/
def strBytes (W : Nat) (e : Endian) (m : Mem) (a : Nat) : Bytes :=
  let bs := blockBytes W e m a
  bs.take (size W m a * W - 1 - bs.getD (size W m a * W - 1) 0)

/-- the 64 bits of a boxed double -/
def dblBits (W : Nat) (e : Endian) (m : Mem) (a : Nat) : Nat :=
  match e with
  | .little => ofLe (blockBytes W e m a)
  | .big => ofLe (blockBytes W e m a).reverse

/-- the words `v` (in `m`) and `w` (in `m'`) are the same value, `φ` being the correspondence of blocks -/
def Rel (W : Nat) (base : Nat) (m : Mem) (φ : Nat → Option Nat) (v w : Nat) : Prop :=
  (v % 2 = 1 ∧ w = widen W v) ∨
  (v % 2 = 0 ∧ size W m v = 0 ∧ w = atomAddr base (tag W m v)) ∨
  (v % 2 = 0 ∧ size W m v ≠ 0 ∧ φ v = some w)

/-- `φ` is an isomorphism from the graph of `v` in `m` to the graph of `w` in `m'`: related roots, different blocks
go to different blocks (sharing and cycles are kept), and related blocks have the same tag and related contents. -/
structure Iso (W : Nat) (e : Endian) (base : Nat) (m m' : Mem) (φ : Nat → Option Nat) (v w : Nat) : Prop where
  root : Rel W base m φ v w
  inj : ∀ a a' b, φ a = some b → φ a' = some b → a = a'
  tags : ∀ a b, φ a = some b → tag 8 m' b = tag W m a
  strs : ∀ a b, φ a = some b → tag W m a = stringTag → strBytes 8 .little m' b = strBytes W e m a
  dbls : ∀ a b, φ a = some b → tag W m a = doubleTag → dblBits 8 .little m' b = dblBits W e m a
  blks : ∀ a b, φ a = some b → tag W m a ≠ stringTag → tag W m a ≠ doubleTag →
    size 8 m' b = size W m a ∧
    ∀ i, i < size W m a → Rel W base m φ (m (a + W * i)) (m' (b + 8 * i))

/-- sum over a list -/
def total (f : Nat → Nat) : List Nat → Nat
  | [] => 0
  | a :: as => f a + total f as

/-- `S` lists, without repetition, all the blocks a marshallable value `v` is made of: data blocks, strings and
reals, well formed, and with their fields again integers, zero-sized blocks or members of `S`. -/
structure Graph (W : Nat) (e : Endian) (m : Mem) (S : List Nat) (v : Nat) : Prop where
  word : ∀ a, m a < 2 ^ (8 * W)
  nodup : S.Nodup
  root : v % 2 = 1 ∨ size W m v = 0 ∨ v ∈ S
  even : ∀ a ∈ S, a % 2 = 0
  nonempty : ∀ a ∈ S, size W m a ≠ 0
  data : ∀ a ∈ S, tag W m a < closureTag ∨ tag W m a = 250 ∨ tag W m a = stringTag ∨ tag W m a = doubleTag
  strs : ∀ a ∈ S, tag W m a = stringTag → (blockBytes W e m a).getD (size W m a * W - 1) 0 < W
  dbls : ∀ a ∈ S, tag W m a = doubleTag → size W m a * W = 8
  closed : ∀ a ∈ S, tag W m a ≠ stringTag → tag W m a ≠ doubleTag → ∀ i, i < size W m a →
    m (a + W * i) % 2 = 1 ∨ size W m (m (a + W * i)) = 0 ∨ m (a + W * i) ∈ S

/-- the number of words of the value, headers included -/
def words (W : Nat) (m : Mem) (S : List Nat) : Nat := total (fun a => size W m a + 1) S

end Mosml.Marshal
