import Verif.Heap.FreelistSteps

/-!
C24: the free-list allocator.

The theorems speak of the memory words only: the headers met by walking a chunk from its start, the list met by following the
links from the sentinel, and the blocks that were allocated and not freed.
-/
namespace Mosml.Heap

/-! ### Walking a chunk -/

/-- the addresses met by going from header to header -/
inductive Walk (m : Mem) (lo hi : Nat) : Nat → Prop
  | start : Walk m lo hi lo
  | next {h : Nat} : Walk m lo hi h → h < hi → Walk m lo hi (h + wosizeHd (m h) + 1)

theorem Walk.ge {m : Mem} {lo hi h : Nat} (w : Walk m lo hi h) : lo ≤ h := by
  induction w with
  | start => exact Nat.le_refl _
  | next _ _ ih => omega

theorem Tiling.chunkOf {chunks T} (i : Tiling chunks T) {c : Nat × Nat} (hc : c ∈ chunks) {h w a : Nat} (ht : T h = some w)
    (a1 : h ≤ a) (a2 : a ≤ h + w) (a3 : c.1 ≤ a) (a4 : a < c.2) : c.1 ≤ h ∧ h + w < c.2 := by
  obtain ⟨d, hd, d1, d2⟩ := i.inside h w ht
  by_cases e : c = d
  · subst e; exact ⟨d1, d2⟩
  · rcases i.gaps c hc d hd e with h | h <;> omega

theorem Inv.walk {s chunks T fl} (i : Inv s chunks T fl) {c : Nat × Nat} (hc : c ∈ chunks) {h : Nat}
    (hw : Walk s.mem c.1 c.2 h) : h = c.2 ∨ (h < c.2 ∧ T h = some (wosizeHd (s.mem h))) := by
  induction hw with
  | start =>
    right
    have hp := i.tl.pos c hc
    refine ⟨hp, ?_⟩
    obtain ⟨x, w, hx, h1, h2⟩ := (i.tl.cover c.1).mp ⟨c, hc, Nat.le_refl _, hp⟩
    have := i.tl.chunkOf hc hx h1 h2 (Nat.le_refl _) hp
    have : x = c.1 := by omega
    rw [← this, i.size x w hx]; exact hx
  | @next h _ hlt ih =>
    rcases ih with ih | ⟨_, ht⟩
    · omega
    · have hin := i.tl.chunkOf hc ht (a := h) (by omega) (by omega)
      by_cases hge : c.1 ≤ h
      · have hin := hin hge hlt
        by_cases he : h + wosizeHd (s.mem h) + 1 = c.2
        · left; exact he
        · right
          refine ⟨by omega, ?_⟩
          obtain ⟨x, w, hx, h1, h2⟩ := (i.tl.cover (h + wosizeHd (s.mem h) + 1)).mp ⟨c, hc, by omega, by omega⟩
          have : x = h + wosizeHd (s.mem h) + 1 := by
            by_contra hne
            have e := i.tl.same hx ht (a := h + wosizeHd (s.mem h)) (by
              by_contra hcon; omega) (by omega) (by omega) (by omega)
            subst e
            have := i.size x w hx
            omega
          rw [← this, i.size x w hx]; exact hx
      · exfalso
        exact hge (Walk.ge ‹_›)

theorem Inv.walk_mem {s chunks T fl} (i : Inv s chunks T fl) {c : Nat × Nat} (hc : c ∈ chunks) :
    ∀ h, (h = c.2 ∨ ∃ w, T h = some w ∧ c.1 ≤ h ∧ h < c.2) → Walk s.mem c.1 c.2 h := by
  intro h
  induction h using Nat.strong_induction_on with
  | _ h ih =>
    intro hh
    have hp := i.tl.pos c hc
    have hrng : c.1 ≤ h ∧ h ≤ c.2 := by
      rcases hh with h | ⟨_, _, h1, h2⟩ <;> omega
    by_cases hst : h = c.1
    · rw [hst]; exact Walk.start
    · obtain ⟨x, w, hx, h1, h2⟩ := (i.tl.cover (h - 1)).mp ⟨c, hc, by omega, by omega⟩
      have hin := i.tl.chunkOf hc hx h1 h2 (by omega) (by omega)
      have hend : x + w = h - 1 := by
        rcases hh with rfl | ⟨w', hw', h3, h4⟩
        · omega
        · by_contra hne
          have e := i.tl.same hx hw' (a := h) (by omega) (by omega) (by omega) (by omega)
          omega
      have hwx := ih x (by omega) (Or.inr ⟨w, hx, hin.1, by omega⟩)
      have := Walk.next hwx (by omega)
      rw [i.size x w hx] at this
      have e : x + w + 1 = h := by omega
      rw [e] at this
      exact this

/-! ### Executions -/

/-- the operations: allocate in the list; add a chunk to the list after a failed allocation; give a block back; and what
the program and the collector do to memory: store in a field, change the tag and the colour, and move the point of
insertion -/
inductive Op where
  | alloc (wo tag : Nat) (c : Color)
  | grow (wo a n sweep : Nat)
  | free (h : Nat)
  | write (a v : Nat)
  | recolor (h tag : Nat) (c : Color)
  | merge (q : Nat)

/-- the loops of `fl_allocate` end with this result -/
def Allocates (s : FL) (wo : Nat) (r : Option Nat × FL) : Prop := ∃ N, ∀ fuel, N ≤ fuel → flAllocate fuel s wo = r

/-- one operation; `live` are the header addresses and sizes of the blocks in use -/
inductive Step : FL → List (Nat × Nat) → List (Nat × Nat) → Op → FL → List (Nat × Nat) → List (Nat × Nat) → Prop
  | alloc {s s1 : FL} {chunks live hp} (wo tag c) : 0 < wo → tag < 256 → c ≠ .blue → Allocates s wo (some hp, s1) →
      Step s chunks live (.alloc wo tag c) { s1 with mem := upd s1.mem hp (mkHd wo tag c) } chunks ((hp, wo) :: live)
  | grow {s s1 : FL} {chunks live} (wo a n sweep fuel) : 0 < wo → Allocates s wo (none, s1) → Fresh s chunks a n →
      Step s chunks live (.grow wo a n sweep)
        (flAddBlock fuel { s1 with mem := upd s1.mem a (mkHd (n - 1) 0 .blue) } sweep (a + 1)) ((a, a + n) :: chunks) live
  | free {s : FL} {chunks live c h} : c ∈ chunks → Walk s.mem c.1 c.2 h → h < c.2 → colorHd (s.mem h) ≠ 2 →
      Step s chunks live (.free h) (flMergeBlock s (h + 1)).2 chunks (live.filter (fun b => b.1 ≠ h))
  | write {s : FL} {chunks live h w} (a v) : (h, w) ∈ live → h < a → a ≤ h + w →
      Step s chunks live (.write a v) { s with mem := upd s.mem a v } chunks live
  | recolor {s : FL} {chunks live h w} (tag c) : (h, w) ∈ live → tag < 256 → c ≠ .blue →
      Step s chunks live (.recolor h tag c) { s with mem := upd s.mem h (mkHd w tag c) } chunks live
  | init {s : FL} {chunks live} : Step s chunks live (.merge s.head) (flInitMerge s) chunks live
  | merge {s : FL} {chunks live c h} : c ∈ chunks → Walk s.mem c.1 c.2 h → h < c.2 → colorHd (s.mem h) = 2 →
      Step s chunks live (.merge (h + 1)) { s with merge := h + 1 } chunks live

/-- the states met from the initial heap on -/
inductive Reach : FL → List (Nat × Nat) → List (Nat × Nat) → Prop
  | init (m : Mem) (head a n : Nat) : 0 < head → 2 ≤ n → (a + n < head - 1 ∨ head < a) →
      Reach (flInit m head a n) [(a, a + n)] []
  | step {s chunks live op s' chunks' live'} : Reach s chunks live → Step s chunks live op s' chunks' live' →
      Reach s' chunks' live'

/-- the ghost state behind a reachable heap -/
def Behind (s : FL) (chunks live : List (Nat × Nat)) : Prop :=
  ∃ T fl, Inv s chunks T fl ∧ ∀ x y, Live T fl x y ↔ (x, y) ∈ live

theorem Inv.alloc_det {s chunks T fl} (i : Inv s chunks T fl) {wo : Nat} {r : Option Nat × FL} (ha : Allocates s wo r) :
    ∃ fuel, fl.length < fuel ∧ flAllocate fuel s wo = r := by
  obtain ⟨N, h⟩ := ha
  exact ⟨N + fl.length + 1, by omega, h _ (by omega)⟩

/-- what a step does -/
theorem step_ok {s chunks live op s' chunks' live'} (b : Behind s chunks live) (st : Step s chunks live op s' chunks' live') :
    Behind s' chunks' live' ∧
    ∀ h w, (h, w) ∈ live → (h, w) ∈ live' → ∀ z, h ≤ z → z ≤ h + w → (∀ v, op ≠ .write z v) →
      (∀ t c, op ≠ .recolor z t c) → s'.mem z = s.mem z := by
  obtain ⟨T, fl, i, hl⟩ := b
  cases st with
  | alloc wo tag c hwo htag hc ha =>
    obtain ⟨fuel, hf, e⟩ := i.alloc_det ha
    have hv1 := wosize_mkHd wo tag c htag
    have hv2 : colorHd (mkHd wo tag c) ≠ 2 := by
      rw [color_mkHd wo tag c htag]; cases c <;> simp [Color.code] at hc ⊢
    rcases flAllocate_ok i hwo fuel hf _ hv1 hv2 with ⟨hp, s1, e1, T', fl', k⟩ | ⟨e1, _⟩
    · rw [e] at e1
      obtain ⟨rfl, rfl⟩ : _ = hp ∧ _ = s1 := ⟨Option.some.inj (congrArg Prod.fst e1), congrArg Prod.snd e1⟩
      refine ⟨⟨T', fl', k.inv, ?_⟩, ?_⟩
      · intro x y
        rw [k.live x y, hl x y]
        simp only [List.mem_cons, Prod.mk.injEq]
        tauto
      · intro h w hm _ z h1 h2 _ _
        exact k.frame h w ((hl h w).mpr hm) z h1 h2
    · rw [e] at e1
      exact absurd (congrArg Prod.fst e1) (by simp)
  | grow wo a n sweep fuel' hwo ha hfr =>
    obtain ⟨fuel, hf, e⟩ := i.alloc_det ha
    rcases flAllocate_ok i hwo fuel hf (mkHd wo 0 .white) (wosize_mkHd _ _ _ (by omega))
      (by rw [color_mkHd _ _ _ (by omega)]; decide) with ⟨hp, s1, e1, _⟩ | ⟨e1, _⟩
    · rw [e] at e1
      exact absurd (congrArg Prod.fst e1) (by simp)
    · rw [e] at e1
      obtain rfl := congrArg Prod.snd e1
      obtain ⟨fl', k1, k2, k3, k4, k5⟩ := flAddBlock_ok (i.setLast (lastOf s.head fl)) (A := a) (n := n)
        ⟨hfr.two, hfr.apart, hfr.sentinel⟩ rfl fuel' sweep
      exact ⟨⟨_, fl', k1, fun x y => (k4 x y).trans (hl x y)⟩, fun h w hm _ z h1 h2 _ _ =>
        k5 h w ((hl h w).mpr hm) z h1 h2⟩
  | @free _ _ c h hc hw hlt hcol =>
    rcases i.walk hc hw with h1 | ⟨_, ht⟩
    · omega
    · have hnf : h + 1 ∉ fl := fun hm => hcol ((i.blue h _ ht).mpr hm)
      obtain ⟨T', fl', k⟩ := flMergeBlock_ok i ht hnf
      refine ⟨⟨T', fl', k.inv, ?_⟩, ?_⟩
      · intro x y
        rw [k.live x y, hl x y]
        simp
      · intro x w hm hm' z h1 h2 _ _
        have hne : x ≠ h := by simpa using (List.mem_filter.mp hm').2
        exact k.frame x w hne ((hl x w).mpr hm) z h1 h2
  | @write _ _ h w a v hm h1 h2 =>
    have l := (hl h w).mpr hm
    refine ⟨⟨T, fl, ⟨i.tl, ?_, ?_, i.free, ?_, i.nodup, i.prevIn, i.mergeIn, i.headPos, ?_, i.headOut⟩, hl⟩, ?_⟩
    · intro x y hx
      have : x ≠ a := by
        rintro rfl
        have := i.tl.same l.1 hx (a := x) (by omega) (by omega) (by omega) (by omega)
        omega
      show wosizeHd (upd s.mem a v x) = _
      rw [upd_ne _ _ this]; exact i.size x y hx
    · intro x y hx
      have : x ≠ a := by
        rintro rfl
        have := i.tl.same l.1 hx (a := x) (by omega) (by omega) (by omega) (by omega)
        omega
      show colorHd (upd s.mem a v x) = 2 ↔ _
      rw [upd_ne _ _ this]; exact i.blue x y hx
    · refine i.chain.congr ?_ ?_
      · exact upd_ne _ _ (i.linkNe (by simp) l.1 (by omega) h2 (Or.inr l.2.1)).symm
      · intro x hx
        exact upd_ne _ _ (i.linkNe (List.mem_cons_of_mem _ hx) l.1 (by omega) h2 (Or.inr l.2.1)).symm
    · show upd s.mem a v (s.head - 1) = _
      rw [upd_ne _ _ (i.out l.1 (by omega) h2).1.symm]; exact i.sent
    · intro x y _ _ z _ _ hz _
      exact upd_ne _ _ (fun e => hz v (by rw [e]))
  | @recolor _ _ h w tag c hm htag hcol =>
    have l := (hl h w).mpr hm
    have hcode : c.code ≠ 2 := by cases c <;> simp [Color.code] at hcol ⊢
    refine ⟨⟨T, fl, ⟨i.tl, ?_, ?_, i.free, ?_, i.nodup, i.prevIn, i.mergeIn, i.headPos, ?_, i.headOut⟩, hl⟩, ?_⟩
    · intro x y hx
      show wosizeHd (upd s.mem h _ x) = _
      by_cases e : x = h
      · subst e; rw [upd_same, wosize_mkHd _ _ _ htag]
        have := l.1; rw [hx] at this; exact (Option.some.inj this).symm
      · rw [upd_ne _ _ e]; exact i.size x y hx
    · intro x y hx
      show colorHd (upd s.mem h _ x) = 2 ↔ _
      by_cases e : x = h
      · subst e; rw [upd_same, color_mkHd _ _ _ htag]
        exact ⟨fun e => absurd e hcode, fun e => absurd e l.2.1⟩
      · rw [upd_ne _ _ e]; exact i.blue x y hx
    · refine i.chain.congr ?_ ?_
      · exact upd_ne _ _ (i.linkNe (by simp) l.1 (by omega) (by omega) (Or.inr l.2.1)).symm
      · intro x hx
        exact upd_ne _ _ (i.linkNe (List.mem_cons_of_mem _ hx) l.1 (by omega) (by omega) (Or.inr l.2.1)).symm
    · show upd s.mem h _ (s.head - 1) = _
      rw [upd_ne _ _ (i.out l.1 (by omega) (by omega)).1.symm]; exact i.sent
    · intro x y _ _ z _ _ _ hz
      exact upd_ne _ _ (fun e => hz tag c (by rw [e]))
  | init =>
    exact ⟨⟨T, fl, i.setMerge (by simp), hl⟩, fun _ _ _ _ _ _ _ _ _ => rfl⟩
  | @merge _ _ c h hc hw hlt hcol =>
    rcases i.walk hc hw with h1 | ⟨_, ht⟩
    · omega
    · have hm := (i.blue h _ ht).mp hcol
      exact ⟨⟨T, fl, i.setMerge (by simp [hm]), hl⟩, fun _ _ _ _ _ _ _ _ _ => rfl⟩

theorem init_ok (m : Mem) (head a n : Nat) (h0 : 0 < head) (h2 : 2 ≤ n) (hs : a + n < head - 1 ∨ head < a) :
    Behind (flInit m head a n) [(a, a + n)] [] := by
  -- the empty heap
  let s0 : FL := { mem := upd (upd m (head - 1) (mkHd 0 0 .blue)) head 0, head, prev := head, last := 0, merge := head }
  have i0 : Inv s0 [] (fun _ => none) [] := by
    refine ⟨⟨by simp, by simp, by simp, by simp, by simp⟩, by simp, by simp, by simp, ?_, by simp, by simp [s0], by simp [s0], h0, ?_, by simp⟩
    · exact upd_same _ _ _
    · show upd (upd m (head - 1) (mkHd 0 0 .blue)) head 0 (head - 1) = _
      rw [upd_ne _ _ (by omega), upd_same]
  obtain ⟨iw, hnw⟩ := grow_white i0 (A := a) (n := n) ⟨h2, by simp, hs⟩ (mkHd (n - 1) 0 .white)
    (wosize_mkHd _ _ _ (by omega)) (by rw [color_mkHd _ _ _ (by omega)]; decide)
  have hcur : upd s0.mem a (mkHd (n - 1) 0 .white) head = 0 := by
    rw [upd_ne _ _ (by omega)]; exact upd_same _ _ _
  obtain ⟨T', fl', k⟩ := free_second iw (h := a) (w := n - 1) (by rw [if_pos rfl]) hnw (mkHd (n - 1) 0 .blue)
    (wosize_mkHd _ _ _ (by omega)) (by omega) 0 hcur
  dsimp only at k
  rw [upd_upd] at k
  have hrun : flInit m head a n = mergePrev { s0 with mem := upd s0.mem a (mkHd (n - 1) 0 .blue) } (a + 1) (mkHd (n - 1) 0 .blue) 0 := by
    unfold flInit flMergeBlock flInitMerge
    dsimp only
    have e0 : a + 1 - 1 = a := by omega
    have hz : upd (upd (upd m (head - 1) (mkHd 0 0 .blue)) head 0) a (mkHd (n - 1) 0 .blue) head = 0 := by
      rw [upd_ne _ _ (by omega), upd_same]
    have : mergeNext (FL.mk (upd (upd (upd m (head - 1) (mkHd 0 0 .blue)) head 0) a (mkHd (n - 1) 0 .blue)) head head 0 head)
        (a + 1) = ({ s0 with mem := upd s0.mem a (mkHd (n - 1) 0 .blue) }, mkHd (n - 1) 0 .blue,
          a + 1 + wosizeHd (mkHd (n - 1) 0 .blue), 0) := by
      unfold mergeNext
      dsimp only
      rw [hz, e0, upd_same, if_neg (by simp)]
    rw [this]
  rw [hrun]
  refine ⟨T', fl', k.inv, ?_⟩
  intro x y
  rw [k.live x y]
  unfold Live
  by_cases hx : x = a
  · simp [hx]
  · simp [hx]

theorem Reach.behind {s chunks live} (r : Reach s chunks live) : Behind s chunks live := by
  induction r with
  | init m head a n h0 h2 hs => exact init_ok m head a n h0 h2 hs
  | step _ st ih => exact (step_ok ih st).1

/-! ### The theorems -/

/-- C24: in every heap reachable by allocating, growing, freeing and writing: going from header to header leads exactly to the end
of each chunk; the links from the sentinel lead through exactly the blue blocks, each once, to NULL; the blocks in use are
exactly the non-empty blocks of another colour, with the size they were allocated with; and they do not overlap. -/
theorem C24_heap {s : FL} {chunks live : List (Nat × Nat)} (r : Reach s chunks live) :
    (∀ c ∈ chunks, Walk s.mem c.1 c.2 c.2 ∧ ∀ h, Walk s.mem c.1 c.2 h → h ≤ c.2) ∧
    (∃ fl, Chain s.mem s.head fl ∧ fl.Nodup ∧ ∀ b, b ∈ fl ↔
      ∃ c ∈ chunks, ∃ h, b = h + 1 ∧ Walk s.mem c.1 c.2 h ∧ h < c.2 ∧ colorHd (s.mem h) = 2) ∧
    (∀ h w, (h, w) ∈ live ↔
      ∃ c ∈ chunks, Walk s.mem c.1 c.2 h ∧ h < c.2 ∧ colorHd (s.mem h) ≠ 2 ∧ wosizeHd (s.mem h) = w ∧ 0 < w) ∧
    (∀ h w h' w', (h, w) ∈ live → (h', w') ∈ live → (h, w) ≠ (h', w') → h + w < h' ∨ h' + w' < h) ∧
    (∀ h w, (h, w) ∈ live → ∃ c ∈ chunks, c.1 ≤ h ∧ h + w < c.2) := by
  obtain ⟨T, fl, i, hl⟩ := r.behind
  refine ⟨?_, ?_, ?_, ?_, ?_⟩
  · intro c hc
    refine ⟨i.walk_mem hc _ (Or.inl rfl), ?_⟩
    intro h hw
    rcases i.walk hc hw with h1 | h1
    · omega
    · omega
  · refine ⟨fl, i.chain, (List.nodup_cons.mp i.nodup).2, ?_⟩
    intro b
    constructor
    · intro hb
      obtain ⟨h, w, e, ht, hw⟩ := i.free b hb
      obtain ⟨c, hc, c1, c2⟩ := i.tl.inside h w ht
      exact ⟨c, hc, h, e, i.walk_mem hc _ (Or.inr ⟨w, ht, c1, by omega⟩), by omega, (i.blue h w ht).mpr (by rw [← e]; exact hb)⟩
    · rintro ⟨c, hc, h, e, hw, hlt, hcol⟩
      rcases i.walk hc hw with h1 | ⟨_, ht⟩
      · omega
      · rw [e]; exact (i.blue h _ ht).mp hcol
  · intro h w
    rw [← hl h w]
    constructor
    · rintro ⟨ht, hnf, hw⟩
      obtain ⟨c, hc, c1, c2⟩ := i.tl.inside h w ht
      exact ⟨c, hc, i.walk_mem hc _ (Or.inr ⟨w, ht, c1, by omega⟩), by omega, fun e => hnf ((i.blue h w ht).mp e), i.size h w ht, hw⟩
    · rintro ⟨c, hc, hw, hlt, hcol, hsz, hpos⟩
      rcases i.walk hc hw with h1 | ⟨_, ht⟩
      · omega
      · rw [hsz] at ht
        exact ⟨ht, fun hm => hcol ((i.blue h _ ht).mpr hm), hpos⟩
  · intro h w h' w' h1 h2 hne
    have l1 := ((hl h w).mpr h1).1
    have l2 := ((hl h' w').mpr h2).1
    refine i.tl.disj h w h' w' l1 l2 ?_
    rintro rfl
    rw [l1] at l2
    exact hne (by rw [Option.some.inj l2])
  · intro h w h1
    exact i.tl.inside h w ((hl h w).mpr h1).1

/-- C24: no operation changes a word of a block in use, header or field, except the one the program stores in and the header whose
colour is changed. -/
theorem C24_frame {s s' : FL} {chunks live chunks' live' : List (Nat × Nat)} {op : Op} (r : Reach s chunks live)
    (st : Step s chunks live op s' chunks' live') (h w : Nat) (h1 : (h, w) ∈ live) (h2 : (h, w) ∈ live') (z : Nat)
    (hz1 : h ≤ z) (hz2 : z ≤ h + w) (hw : ∀ v, op ≠ .write z v) (hc : ∀ t c, op ≠ .recolor z t c) : s'.mem z = s.mem z :=
  (step_ok r.behind st).2 h w h1 h2 z hz1 hz2 hw hc

/-- C24: `fl_allocate` ends; it returns a block apart from all blocks in use, or NULL when every block of the list is smaller
than the request. -/
theorem C24_allocate {s : FL} {chunks live : List (Nat × Nat)} (r : Reach s chunks live) (wo : Nat) (hwo : 0 < wo) :
    (∃ hp s', Allocates s wo (some hp, s') ∧ (∃ c ∈ chunks, c.1 ≤ hp ∧ hp + wo < c.2) ∧
      ∀ h w, (h, w) ∈ live → h + w < hp ∨ hp + wo < h) ∨
    ((∃ s', Allocates s wo (none, s')) ∧
      ∀ c ∈ chunks, ∀ h, Walk s.mem c.1 c.2 h → h < c.2 → colorHd (s.mem h) = 2 → wosizeHd (s.mem h) < wo) := by
  obtain ⟨T, fl, i, hl⟩ := r.behind
  have hv1 := wosize_mkHd wo 0 .white (by omega)
  have hv2 : colorHd (mkHd wo 0 .white) ≠ 2 := by rw [color_mkHd _ _ _ (by omega)]; decide
  have hcase := flAllocate_ok i hwo (fl.length + 1) (by omega) _ hv1 hv2
  -- more fuel makes no difference
  have hmono : ∀ fuel, fl.length + 1 ≤ fuel → flAllocate fuel s wo = flAllocate (fl.length + 1) s wo := by
    intro fuel hf
    exact flAllocate_fuel i wo fuel (by omega)
  rcases hcase with ⟨hp, s1, e1, T', fl', k⟩ | ⟨e1, e2⟩
  · left
    refine ⟨hp, s1, ⟨_, fun fuel hf => (hmono fuel hf).trans e1⟩, k.inv.tl.inside hp wo k.here, ?_⟩
    intro h w hm
    have l := (k.live h w).mpr (Or.inl ((hl h w).mpr hm))
    by_cases e : h = hp
    · exfalso
      -- the new block was free before
      subst e
      exact k.fresh w ((hl h w).mpr hm)
    · exact k.inv.tl.disj h w hp wo l.1 k.here e
  · right
    refine ⟨⟨_, _, fun fuel hf => (hmono fuel hf).trans e1⟩, ?_⟩
    intro c hc h hw hlt hcol
    rcases i.walk hc hw with h1 | ⟨_, ht⟩
    · omega
    · have := e2 (h + 1) ((i.blue h _ ht).mp hcol)
      simpa using this

theorem findPlace_fuel (m : Mem) (bp : Nat) : ∀ l p, Chain m p l → ∀ f g, l.length < f → l.length < g →
    findPlace m bp f p = findPlace m bp g p := by
  intro l
  induction l with
  | nil =>
    intro p hc f g hf hg
    obtain ⟨f, rfl⟩ := Nat.exists_eq_add_of_lt hf
    obtain ⟨g, rfl⟩ := Nat.exists_eq_add_of_lt hg
    have : m p = 0 := hc
    simp [findPlace, this]
  | cons b l ih =>
    intro p hc f g hf hg
    simp only [List.length_cons] at hf hg
    obtain ⟨f, rfl⟩ : ∃ f', f = f' + 1 := ⟨f - 1, by omega⟩
    obtain ⟨g, rfl⟩ : ∃ f', g = f' + 1 := ⟨g - 1, by omega⟩
    have : m p = b := hc.1
    simp only [findPlace, this, ih b hc.2 f g (by omega) (by omega)]

/-- C24: `alloc_shr` succeeds whenever the system grants a chunk that is large enough, and then has added just the new block; the
chunk is added only when the list has no room. -/
theorem C24_alloc_shr {s : FL} {chunks live : List (Nat × Nat)} (r : Reach s chunks live) (wo tag : Nat) (c : Color)
    (hwo : 0 < wo) (htag : tag < 256) (hc : c ≠ .blue) (sweep a n : Nat) (hf : Fresh s chunks a n) (hn : wo < n) :
    ∃ N hp s' chunks', (∀ fuel, N ≤ fuel → allocShr fuel s sweep (some (a, n)) wo tag c = (some hp, s')) ∧
      Reach s' chunks' ((hp, wo) :: live) ∧ (chunks' = chunks ∨ chunks' = (a, a + n) :: chunks) ∧
      s'.mem hp = mkHd wo tag c := by
  obtain ⟨T, fl, i, hl⟩ := r.behind
  have hv1 := wosize_mkHd wo tag c htag
  have hv2 : colorHd (mkHd wo tag c) ≠ 2 := by
    rw [color_mkHd wo tag c htag]; cases c <;> simp [Color.code] at hc ⊢
  rcases flAllocate_ok i hwo (fl.length + 1) (by omega) _ hv1 hv2 with ⟨hp, s1, e1, T', fl', k⟩ | ⟨e1, e2⟩
  · have ha : ∀ fuel, fl.length + 1 ≤ fuel → flAllocate fuel s wo = (some hp, s1) :=
      fun fuel hf => (flAllocate_fuel i wo fuel hf).trans e1
    refine ⟨fl.length + 1, hp, _, chunks, ?_, r.step (Step.alloc wo tag c hwo htag hc ⟨_, ha⟩), Or.inl rfl, upd_same _ _ _⟩
    intro fuel hf
    unfold allocShr
    rw [ha fuel hf]
  · have ha : ∀ fuel, fl.length + 1 ≤ fuel → flAllocate fuel s wo = (none, { s with last := lastOf s.head fl }) :=
      fun fuel hf => (flAllocate_fuel i wo fuel hf).trans e1
    obtain ⟨fl1, i1, k2, k3, k4, k5⟩ := flAddBlock_ok (i.setLast (lastOf s.head fl)) (A := a) (n := n)
        ⟨hf.two, hf.apart, hf.sentinel⟩ rfl (fl.length + 1) sweep
    have hstep := r.step (Step.grow wo a n sweep (fl.length + 1) hwo ⟨_, ha⟩ hf)
    have hadd : ∀ fuel, fl.length + 1 ≤ fuel →
        flAddBlock fuel { s with last := lastOf s.head fl, mem := upd s.mem a (mkHd (n - 1) 0 .blue) } sweep (a + 1) =
        flAddBlock (fl.length + 1) { s with last := lastOf s.head fl, mem := upd s.mem a (mkHd (n - 1) 0 .blue) } sweep (a + 1) := by
      intro fuel hfu
      have hch : Chain (upd s.mem a (mkHd (n - 1) 0 .blue)) s.head fl := by
        have hs := hf.sentinel
        have := hf.two
        refine i.chain.congr (upd_ne _ _ (by omega)) ?_
        intro x hx
        refine upd_ne _ _ ?_
        rintro rfl
        obtain ⟨h', w', e, ht, hw⟩ := i.free _ hx
        obtain ⟨d, hd, d1, d2⟩ := i.tl.inside h' w' ht
        have := hf.apart d hd
        omega
      unfold flAddBlock
      dsimp only
      rw [findPlace_fuel _ _ fl s.head hch fuel (fl.length + 1) (by omega) (by omega)]
    have hsz : wosizeHd ((flAddBlock (fl.length + 1) { s with last := lastOf s.head fl, mem := upd s.mem a (mkHd (n - 1) 0 .blue) }
        sweep (a + 1)).mem a) = n - 1 := i1.size a (n - 1) (by rw [if_pos rfl])
    rcases flAllocate_ok i1 hwo (fl1.length + 1) (by omega) _ hv1 hv2 with ⟨hp, s2, e3, T', fl', k⟩ | ⟨e3, e4⟩
    · have ha2 : ∀ fuel, fl1.length + 1 ≤ fuel → flAllocate fuel _ wo = (some hp, s2) :=
        fun fuel hf => (flAllocate_fuel i1 wo fuel hf).trans e3
      refine ⟨fl1.length + 1, hp, _, _, ?_, hstep.step (Step.alloc wo tag c hwo htag hc ⟨_, ha2⟩), Or.inr rfl, upd_same _ _ _⟩
      intro fuel hfu
      unfold allocShr
      rw [ha fuel (by omega)]
      dsimp only
      rw [hadd fuel (by omega), ha2 fuel hfu]
    · exfalso
      have := e4 (a + 1) k2
      have e0 : a + 1 - 1 = a := by omega
      rw [e0, hsz] at this
      omega

/-- C24: the address `fl_merge_block` returns is that of the next header, or the end of the chunk; sweeping can go on from there -/
theorem C24_next {s : FL} {chunks live : List (Nat × Nat)} (r : Reach s chunks live) (c : Nat × Nat) (hc : c ∈ chunks) (h : Nat)
    (hw : Walk s.mem c.1 c.2 h) (hlt : h < c.2) (hcol : colorHd (s.mem h) ≠ 2) :
    Walk (flMergeBlock s (h + 1)).2.mem c.1 c.2 (flMergeBlock s (h + 1)).1 ∧ h < (flMergeBlock s (h + 1)).1 ∧
      (flMergeBlock s (h + 1)).1 ≤ c.2 := by
  obtain ⟨T, fl, i, hl⟩ := r.behind
  rcases i.walk hc hw with h1 | ⟨_, ht⟩
  · omega
  · have hnf : h + 1 ∉ fl := fun hm => hcol ((i.blue h _ ht).mpr hm)
    obtain ⟨T', fl', k⟩ := flMergeBlock_ok i ht hnf
    obtain ⟨h0, w0, g1, g2, g3, g4⟩ := k.next
    have hin := k.inv.tl.chunkOf hc g1 (a := h) g2 (by omega) hw.ge hlt
    have hwk := (k.inv.walk_mem hc h0 (Or.inr ⟨w0, g1, hin.1, by omega⟩)).next (by omega)
    rw [k.inv.size h0 w0 g1, ← g4] at hwk
    exact ⟨hwk, g3, by omega⟩

/-! ### A concrete execution, on which the list loses its order -/

theorem Chain.unique {m : Mem} {l l' : List Nat} : ∀ {p}, Chain m p l → Chain m p l' → (∀ x ∈ l, x ≠ 0) → (∀ x ∈ l', x ≠ 0) →
    l = l' := by
  induction l generalizing l' with
  | nil =>
    intro p h h' _ hn
    cases l' with
    | nil => rfl
    | cons b l' => exact absurd (h'.1.symm.trans h) (hn b (by simp))
  | cons b l ih =>
    intro p h h' hn hn'
    cases l' with
    | nil => exact absurd (h.1.symm.trans h') (hn b (by simp))
    | cons b' l' =>
      have e : b = b' := h.1.symm.trans h'.1
      subst e
      rw [ih h.2 h'.2 (fun x hx => hn x (by simp [hx])) (fun x hx => hn' x (by simp [hx]))]

theorem Reach.allocates {s : FL} {chunks live : List (Nat × Nat)} (r : Reach s chunks live) {l : List Nat}
    (hc : Chain s.mem s.head l) (h0 : ∀ x ∈ l, x ≠ 0) (wo : Nat) : Allocates s wo (flAllocate (l.length + 1) s wo) := by
  obtain ⟨T, fl, i, _⟩ := r.behind
  have := hc.unique i.chain h0 i.ne0
  subst this
  exact ⟨_, fun fuel hf => flAllocate_fuel i wo fuel hf⟩

instance (m : Mem) : ∀ p l, Decidable (Chain m p l)
  | p, [] => inferInstanceAs (Decidable (m p = 0))
  | p, b :: l => @instDecidableAnd _ _ _ (instDecidableChain m b l)

/-- a heap of one chunk of three words, then a second chunk far above it -/
def w0 : FL := flInit (fun _ => 0) 1 10 3
def w1 : FL := flAddBlock 5 { (flAllocate 2 w0 5).2 with mem := upd (flAllocate 2 w0 5).2.mem 100 (mkHd 2 0 .blue) } 0 101
/-- both are allocated -/
def w2 : FL := { (flAllocate 3 w1 2).2 with mem := upd (flAllocate 3 w1 2).2.mem 10 (mkHd 2 0 .black) }
def w3 : FL := { (flAllocate 2 w2 2).2 with mem := upd (flAllocate 2 w2 2).2.mem 100 (mkHd 2 0 .black) }
/-- sweeping frees the first -/
def w4 : FL := (flMergeBlock w3 11).2
/-- while the second chunk is being swept, the heap grows by a chunk between the two -/
def w5 : FL := flAddBlock 5 { (flAllocate 2 w4 5).2 with mem := upd (flAllocate 2 w4 5).2.mem 50 (mkHd 2 0 .blue) } 100 51
/-- sweeping frees the block of the second chunk -/
def w6 : FL := (flMergeBlock w5 101).2

theorem w0_reach : Reach w0 [(10, 13)] [] := Reach.init _ 1 10 3 (by omega) (by omega) (by omega)

theorem w1_reach : Reach w1 [(100, 103), (10, 13)] [] := by
  have ha := w0_reach.allocates (l := [11]) (by decide +kernel) (by decide) 5
  have e : flAllocate 2 w0 5 = (none, (flAllocate 2 w0 5).2) := Prod.ext (by decide +kernel) rfl
  exact w0_reach.step (Step.grow 5 100 3 0 5 (by omega) (e ▸ ha) ⟨by omega, by decide, by decide +kernel⟩)

theorem w2_reach : Reach w2 [(100, 103), (10, 13)] [(10, 2)] := by
  have ha := w1_reach.allocates (l := [11, 101]) (by decide +kernel) (by decide) 2
  have e : flAllocate 3 w1 2 = (some 10, (flAllocate 3 w1 2).2) := Prod.ext (by decide +kernel) rfl
  exact w1_reach.step (Step.alloc 2 0 .black (by omega) (by omega) (by decide) (e ▸ ha))

theorem w3_reach : Reach w3 [(100, 103), (10, 13)] [(100, 2), (10, 2)] := by
  have ha := w2_reach.allocates (l := [101]) (by decide +kernel) (by decide) 2
  have e : flAllocate 2 w2 2 = (some 100, (flAllocate 2 w2 2).2) := Prod.ext (by decide +kernel) rfl
  exact w2_reach.step (Step.alloc 2 0 .black (by omega) (by omega) (by decide) (e ▸ ha))

theorem w4_reach : Reach w4 [(100, 103), (10, 13)] [(100, 2)] :=
  w3_reach.step (Step.free (c := (10, 13)) (h := 10) (by decide) Walk.start (by decide) (by decide +kernel))

theorem w5_reach : Reach w5 [(50, 53), (100, 103), (10, 13)] [(100, 2)] := by
  have ha := w4_reach.allocates (l := [11]) (by decide +kernel) (by decide) 5
  have e : flAllocate 2 w4 5 = (none, (flAllocate 2 w4 5).2) := Prod.ext (by decide +kernel) rfl
  exact w4_reach.step (Step.grow 5 50 3 100 5 (by omega) (e ▸ ha) ⟨by omega, by decide, by decide +kernel⟩)

theorem w6_reach : Reach w6 [(50, 53), (100, 103), (10, 13)] [] :=
  w5_reach.step (Step.free (c := (100, 103)) (h := 100) (by decide) Walk.start (by decide) (by decide +kernel))

/-- C24, against freelist.c:147-150 and 206-236: the list is meant to be in the order of addresses, and `fl_merge` to be the last
free block before the sweeping point, but a chunk that comes after the last free block and before the sweeping point is appended without
moving `fl_merge`; the next block freed above it then precedes it in the list.  No memory is lost or doubly used (`C24_heap`), but
adjacent free blocks may stay unmerged. -/
theorem C24_order_violation : ∃ s chunks live, Reach s chunks live ∧
    ∃ fl, Chain s.mem s.head fl ∧ ¬ fl.Pairwise (· < ·) :=
  ⟨w6, _, _, w6_reach, [11, 101, 51], by decide +kernel, by decide⟩

/-- `C24_heap`, `C24_frame`, `C24_allocate`: reachable heaps with blocks in use, and a step from them -/
example : Reach w3 [(100, 103), (10, 13)] [(100, 2), (10, 2)] ∧
    Step w3 [(100, 103), (10, 13)] [(100, 2), (10, 2)] (.write 101 7) { w3 with mem := upd w3.mem 101 7 } [(100, 103), (10, 13)]
      [(100, 2), (10, 2)] ∧ (10, 2) ∈ [(100, 2), (10, 2)] :=
  ⟨w3_reach, Step.write (h := 100) (w := 2) 101 7 (by simp) (by omega) (by omega), by simp⟩

/-- `C24_alloc_shr`: a full heap and a chunk with enough room -/
example : Reach w3 [(100, 103), (10, 13)] [(100, 2), (10, 2)] ∧ Fresh w3 [(100, 103), (10, 13)] 200 8 ∧ 5 < 8 :=
  ⟨w3_reach, ⟨by omega, by decide, by decide +kernel⟩, by omega⟩

/-- `C24_next`: a block to free -/
example : Reach w5 [(50, 53), (100, 103), (10, 13)] [(100, 2)] ∧ Walk w5.mem 100 103 100 ∧ colorHd (w5.mem 100) ≠ 2 :=
  ⟨w5_reach, Walk.start, by decide +kernel⟩

end Mosml.Heap
