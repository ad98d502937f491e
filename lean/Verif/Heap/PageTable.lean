import Verif.Util

/-!
The chunks of the major heap and the test whether an address is in it: src/runtime/major_gc.c, memory.c `expand_heap`,
gc_ctrl.c `norm_heapincr`.

Addresses are natural numbers below 2^63, so the signed shift of `RawPage` is division.  Addresses are in bytes.
-/
namespace Mosml.PageTable

/-- config.h:59 -/
def pageLog : Nat := 12
def pageSize : Nat := 2 ^ pageLog

/-- major_gc.c:55 `RawPage` -/
def rawPage (a : Nat) : Nat := a / pageSize

/-- `p_table`: the entries in use and the number of entries allocated -/
structure Table where
  entries : List (Nat × Nat)
  total : Nat
  deriving DecidableEq

/-- major_gc.c:47-53 `p_table_init` -/
def tableInit (n : Nat) : Table := ⟨[], n⟩

/-- major_gc.c:407-415 `p_table_update_size` and 417-424 `p_table_add_pages`; `none` is a write outside the table -/
def addPages (t : Table) (start stop : Nat) : Option Table :=
  let t := if t.entries.length = t.total then { t with total := t.total * 2 } else t
  if t.entries.length < t.total then some { t with entries := t.entries ++ [(rawPage start, rawPage stop)] } else none

/-- `p_table[i].low <= p && p < p_table[i].high`; `none` is a read outside the entries in use -/
def hit (t : List (Nat × Nat)) (p i : Nat) : Option Bool := t[i]?.map (fun e => decide (e.1 ≤ p) && decide (p < e.2))

/-- the tests of entries `i`, `i+1`, …, `n` of them, up to the first that holds -/
def tests (t : List (Nat × Nat)) (p : Nat) : Nat → Nat → Option Bool
  | _, 0 => some false
  | i, n + 1 =>
    match hit t p i with
    | some true => some true
    | some false => tests t p (i + 1) n
    | none => none

/-- major_gc.c:212-404: the switch; from `case n` on the cases fall through -/
def switch (t : List (Nat × Nat)) (p i n : Nat) : Option Bool := if 1 ≤ n ∧ n ≤ 63 then tests t p i n else some false

/-- major_gc.c:145-211: the loop -/
def loop (t : List (Nat × Nat)) (p i : Nat) : Option Bool :=
  if i + 63 < t.length then
    match tests t p i 64 with
    | some true => some true
    | some false => loop t p (i + 64)
    | none => none
  else switch t p i (t.length - i)
termination_by t.length - i

/-- major_gc.c:142-405 `p_table_in_heap` -/
def inTable (t : Table) (a : Nat) : Option Bool := loop t.entries (rawPage a) 0

/-! ### The heap -/

structure Heap where
  /-- the chunks in the order of the links from `heap_start`: address and size -/
  chain : List (Nat × Nat)
  heapEnd : Nat
  table : Table
  deriving DecidableEq

/-- the address of the first chunk; there always is one -/
def Heap.start (h : Heap) : Nat := match h.chain with | [] => 0 | c :: _ => c.1

/-- major_gc.h:32-34 `Is_in_heap` -/
def isInHeap (h : Heap) (a : Nat) : Option Bool :=
  if h.start ≤ a ∧ a < h.heapEnd then inTable h.table a else some false

/-- mlvalues.h:104 and config.h:100 -/
def heapChunkMax : Nat := 2 ^ 54 * 8

/-- major_gc.c:706-718 `round_heap_chunk_size`; `none` is the exception -/
def roundChunk (incr request : Nat) : Option Nat :=
  if request < incr then some incr
  else if request ≤ heapChunkMax then some ((request + pageSize - 1) / pageSize * pageSize)
  else none

/-- memory.c:83-100: the place in the chain -/
def link (mem size : Nat) : List (Nat × Nat) → List (Nat × Nat)
  | [] => [(mem, size)]
  | c :: cs => if c.1 < mem then c :: link mem size cs else (mem, size) :: c :: cs

/-- memory.c:21-127 `expand_heap`, when the memory is at `mem` -/
def expand (h : Heap) (incr request mem : Nat) : Option Heap := do
  let size ← roundChunk incr request
  let table ← addPages h.table mem (mem + size)
  if mem < h.start then some { h with chain := (mem, size) :: h.chain, table := table }
  else some { chain := link mem size h.chain, heapEnd := if h.heapEnd ≤ mem then mem + size else h.heapEnd, table := table }

/-- major_gc.c:720-757 in `init_major_heap` -/
def heapInit (incr request mem : Nat) : Option Heap := do
  let size ← roundChunk incr request
  let table ← addPages (tableInit 64) mem (mem + size)
  some { chain := [(mem, size)], heapEnd := mem + size, table := table }

/-- gc_ctrl.c:125-131 `norm_heapincr`.  `Heap_chunk_min` and `Heap_chunk_max` are unsigned, so `i` is compared as an unsigned number. -/
def normIncr (i : Int) : Int :=
  let i := (i + 4095) / 4096 * 4096
  let i := if i % 2 ^ 64 < 1024 then 1024 else i
  if i % 2 ^ 64 > heapChunkMax then heapChunkMax else i

/-- `aligned_malloc` gives memory that is on a page boundary and apart from what is in use (misc.c:133-152) -/
def Fresh (h : Heap) (mem size : Nat) : Prop :=
  0 < mem ∧ mem % pageSize = 0 ∧ ∀ c ∈ h.chain, mem + size ≤ c.1 ∨ c.1 + c.2 ≤ mem

/-- the heaps that occur while the increment is `incr` -/
inductive Reach (incr : Nat) : Heap → Prop
  | init {request mem h} : 0 < mem → mem % pageSize = 0 → heapInit incr request mem = some h → Reach incr h
  | expand {h request mem size h'} : Reach incr h → roundChunk incr request = some size → Fresh h mem size →
      expand h incr request mem = some h' → Reach incr h'

end Mosml.PageTable
