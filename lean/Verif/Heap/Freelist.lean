import Verif.Util

/-!
The free list of the major heap, src/runtime/freelist.c, and allocation in it, src/runtime/memory.c.

Memory is a map from word addresses to words; the free list is threaded through memory as in the code.  Addresses count
words instead of bytes.  Simplifications: `malloc` is an argument giving the address and size of the new chunk; headers do
not overflow a word (a chunk has fewer than 2^54 words); loops over the list take a bound on their length.
-/
namespace Mosml.Heap

abbrev Mem := Nat → Nat

/-- memory after a store -/
def upd (m : Mem) (a v : Nat) : Mem := fun x => if x = a then v else m x

/-- gc.h:11-14 -/
inductive Color where
  | white | gray | blue | black
  deriving DecidableEq

def Color.code : Color → Nat
  | .white => 0
  | .gray => 1
  | .blue => 2
  | .black => 3

/-- gc.h:30-33 `Make_header` -/
def mkHd (wosize tag : Nat) (c : Color) : Nat := wosize * 1024 + c.code * 256 + tag

/-- mlvalues.h `Wosize_hd` -/
def wosizeHd (h : Nat) : Nat := h / 1024

/-- gc.h:16 `Color_hd` -/
def colorHd (h : Nat) : Nat := h / 256 % 4

/-- freelist.c:21-33: the memory and the static variables; `head` is the address `Fl_head`, 0 is NULL.  `fl_last`
keeps its value when the code leaves it alone -/
structure FL where
  mem : Mem
  head : Nat
  prev : Nat
  last : Nat
  merge : Nat

/-- freelist.c:71-94 `allocate_block`: the address of the header of the allocated block -/
def allocateBlock (s : FL) (whsz prev cur : Nat) : Nat × FL :=
  let h := s.mem (cur - 1)
  let s1 :=
    if wosizeHd h < whsz + 1 then
      { s with
        mem := upd (upd s.mem prev (s.mem cur)) (cur - 1) (mkHd 0 0 .white)
        merge := if s.merge = cur then prev else s.merge }
    else { s with mem := upd s.mem (cur - 1) (mkHd (wosizeHd h - whsz) 0 .blue) }
  (cur + wosizeHd h - whsz, { s1 with prev := prev })

/-- freelist.c:106-116: the search from `fl_prev` to the end: a block and its predecessor, or the last block -/
def search1 (m : Mem) (wosz : Nat) : Nat → Nat → (Nat × Nat) ⊕ Nat
  | 0, prev => .inr prev
  | fuel + 1, prev =>
    let cur := m prev
    if cur = 0 then .inr prev
    else if wosizeHd (m (cur - 1)) ≥ wosz then .inl (prev, cur)
    else search1 m wosz fuel cur

/-- freelist.c:118-126: the search from the start to `fl_prev` -/
def search2 (m : Mem) (wosz flprev : Nat) : Nat → Nat → Option (Nat × Nat)
  | 0, _ => none
  | fuel + 1, prev =>
    if prev = flprev then none
    else
      let cur := m prev
      if wosizeHd (m (cur - 1)) ≥ wosz then some (prev, cur) else search2 m wosz flprev fuel cur

/-- freelist.c:99-129 `fl_allocate`; `none` is NULL -/
def flAllocate (fuel : Nat) (s : FL) (wosz : Nat) : Option Nat × FL :=
  match search1 s.mem wosz fuel s.prev with
  | .inl (p, c) => let r := allocateBlock s (wosz + 1) p c; (some r.1, r.2)
  | .inr l =>
    let s := { s with last := l }
    match search2 s.mem wosz s.prev fuel s.head with
    | some (p, c) => let r := allocateBlock s (wosz + 1) p c; (some r.1, r.2)
    | none => (none, s)

/-- freelist.c:131-134 `fl_init_merge` -/
def flInitMerge (s : FL) : FL := { s with merge := s.head }

/-- freelist.c:156-177, the first part of `fl_merge_block`: merge with the following block if it is the next of the
list; the state, the header, the address after the block, and the next block of the list.  `Hp_bp (NULL)` equals no
address -/
def mergeNext (s : FL) (bp : Nat) : FL × Nat × Nat × Nat :=
  let hd := s.mem (bp - 1)
  let prev := s.merge
  let cur := s.mem prev
  let adj := bp + wosizeHd hd
  if cur ≠ 0 ∧ adj = cur - 1 then
    let nextCur := s.mem cur
    let curWhsz := wosizeHd (s.mem (cur - 1)) + 1
    let hd := mkHd (wosizeHd hd + curWhsz) 0 .blue
    ({ s with
        mem := upd (upd s.mem prev nextCur) (bp - 1) hd
        prev := if s.prev = cur then prev else s.prev },
      hd, bp + wosizeHd hd, nextCur)
  else (s, hd, adj, cur)

/-- freelist.c:178-192, the second part of `fl_merge_block`: merge with the preceding block, or insert -/
def mergePrev (s : FL) (bp hd cur : Nat) : FL :=
  let prev := s.merge
  if prev + wosizeHd (s.mem (prev - 1)) = bp - 1 then
    { s with mem := upd s.mem (prev - 1) (mkHd (wosizeHd (s.mem (prev - 1)) + (wosizeHd hd + 1)) 0 .blue) }
  else if wosizeHd hd > 0 then
    { s with
      mem := upd (upd (upd s.mem (bp - 1) (hd - colorHd hd * 256 + Color.blue.code * 256)) bp cur) prev bp
      merge := bp }
  else s

/-- freelist.c:138-193 `fl_merge_block`; the address after the freed block -/
def flMergeBlock (s : FL) (bp : Nat) : Nat × FL :=
  let r := mergeNext s bp
  (r.2.2.1, mergePrev r.1 bp r.2.1 r.2.2.2)

/-- freelist.c:21-29 and major_gc.c:755-757 in `init_major_heap`: the sentinel, and the first chunk, of `n` words at `a` -/
def flInit (m : Mem) (head a n : Nat) : FL :=
  let m := upd (upd m (head - 1) (mkHd 0 0 .blue)) head 0
  let s : FL := { mem := upd m a (mkHd (n - 1) 0 .blue), head, prev := head, last := 0, merge := head }
  (flMergeBlock (flInitMerge s) (a + 1)).2

/-- freelist.c:220-227: the place for a new chunk -/
def findPlace (m : Mem) (bp : Nat) : Nat → Nat → Nat
  | 0, prev => prev
  | fuel + 1, prev =>
    let cur := m prev
    if cur ≠ 0 ∧ cur < bp then findPlace m bp fuel cur else prev

/-- freelist.c:202-236 `fl_add_block`; `sweep` is `gc_sweep_hp` -/
def flAddBlock (fuel : Nat) (s : FL) (sweep bp : Nat) : FL :=
  if bp > s.last then { s with mem := upd (upd s.mem s.last bp) bp 0 }
  else
    let prev := findPlace s.mem bp fuel s.head
    let cur := s.mem prev
    { s with
      mem := upd (upd s.mem bp cur) prev bp
      merge := if prev = s.merge ∧ bp ≤ sweep then bp else s.merge }

/-- memory.c:130-150 `alloc_shr`: `chunk` is what `expand_heap` (memory.c:20-128) obtains from `malloc`, the address
and the size in words of a fresh chunk, or nothing; the colour is the caller's business.  `none` is an exception. -/
def allocShr (fuel : Nat) (s : FL) (sweep : Nat) (chunk : Option (Nat × Nat)) (wosz tag : Nat) (c : Color) :
    Option Nat × FL :=
  match flAllocate fuel s wosz with
  | (some hp, s) => (some hp, { s with mem := upd s.mem hp (mkHd wosz tag c) })
  | (none, s) =>
    match chunk with
    | none => (none, s)
    | some (a, n) =>
      let s := { s with mem := upd s.mem a (mkHd (n - 1) 0 .blue) }
      let s := flAddBlock fuel s sweep (a + 1)
      match flAllocate fuel s wosz with
      | (some hp, s) => (some hp, { s with mem := upd s.mem hp (mkHd wosz tag c) })
      | (none, s) => (none, s)

end Mosml.Heap
