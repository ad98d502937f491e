/-!
# Model of the controls of the garbage collector, runtime/gc_ctrl.c

64-bit machine: a word has 8 bytes, a page 4096. `long` is modelled by the integers; what is converted to
`unsigned long` in the code is taken modulo 2^64. The overflow of `long` is not modelled. Messages and the collection that a
new size of the minor heap triggers are left out.
-/
namespace Mosml.GcCtrl

/-- conversion to unsigned long -/
abbrev toU (i : Int) : Int := i % 18446744073709551616

/-- mlvalues.h:63 Val_long -/
def valLong (x : Int) : Int := 2 * x + 1
/-- mlvalues.h:64 Long_val -/
def longVal (x : Int) : Int := x / 2
/-- mlvalues.h:58 Is_long -/
def isLong (x : Int) : Prop := x % 2 = 1
/-- mlvalues.h:120 Bsize_wsize -/
abbrev bsizeWsize (x : Int) : Int := x * 8
/-- mlvalues.h:121 Wsize_bsize -/
abbrev wsizeBsize (x : Int) : Int := x / 8

/-- config.h:82, 87 Minor_heap_min, Minor_heap_max -/
abbrev minorHeapMin : Int := 4096
abbrev minorHeapMax : Int := 268435456
/-- config.h:95 Heap_chunk_min = 2 * Page_size / sizeof (value), an unsigned long -/
abbrev heapChunkMin : Int := 1024
/-- config.h:100 Heap_chunk_max = Bhsize_wosize (Max_wosize) = 2^54 * 8, an unsigned long -/
abbrev heapChunkMax : Int := 144115188075855872
/-- config.h:51, 59 Page_size -/
abbrev pageSize : Int := 4096

/-- the settings: minor_heap_size and major_heap_increment in bytes, percent_free -/
structure St where
  minor : Int
  incr : Int
  pfree : Int
deriving DecidableEq, Repr

/-- gc_ctrl.c:119-123 norm_pfree -/
def normPfree (p : Int) : Int := if p < 1 then 1 else p

/-- gc_ctrl.c:125-131 norm_heapincr; the comparisons are of unsigned numbers because of sizeof in the limits -/
def normHeapincr (i : Int) : Int :=
  let i := (i + 4096 - 1) / 4096 * 4096
  let i := if toU i < heapChunkMin then heapChunkMin else i
  if toU i > heapChunkMax then heapChunkMax else i

/-- gc_ctrl.c:133-138 norm_minsize -/
def normMinsize (s : Int) : Int :=
  let s := if s < minorHeapMin then minorHeapMin else s
  if s > minorHeapMax then minorHeapMax else s

/-- gc_ctrl.c:105-117 gc_get: the fields 0 (increment), 1 (minor heap), 2 (percent_free) of the result -/
def gcGet (s : St) : Int × Int × Int :=
  (wsizeBsize (valLong s.incr), wsizeBsize (valLong s.minor), valLong s.pfree)

/-- gc_ctrl.c:140-165 gc_set, with the integers in the fields 0, 1, 2 -/
def gcSet (s : St) (incr minor pfree : Int) : St where
  pfree := normPfree pfree
  incr := if bsizeWsize incr ≠ s.incr then normHeapincr (bsizeWsize incr) else s.incr
  minor := if bsizeWsize minor ≠ s.minor then normMinsize (bsizeWsize minor) else s.minor

/-- gc_ctrl.c:188-202 init_gc -/
def initGc (minorSize majorIncr percentFr : Int) : St where
  minor := bsizeWsize (normMinsize minorSize)
  incr := bsizeWsize (normHeapincr majorIncr)
  pfree := normPfree percentFr

/-- major_gc.c:706-717 round_heap_chunk_size: the number of bytes by which the heap grows, none for Out_of_memory; the
assertions are not part of the function -/
def chunkSize (s : St) (request : Int) : Option Int :=
  if request < s.incr then some s.incr
  else if request ≤ heapChunkMax then some ((request + 4096 - 1) / 4096 * 4096)
  else none

end Mosml.GcCtrl
