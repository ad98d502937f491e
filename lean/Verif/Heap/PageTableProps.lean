import Verif.Heap.PageTable

/-! C28: the page table and the chain of chunks. -/
namespace Mosml.PageTable

theorem tests_eq (t : List (Nat × Nat)) (p : Nat) : ∀ n i, i + n ≤ t.length →
    tests t p i n = some (((t.drop i).take n).any (fun e => decide (e.1 ≤ p) && decide (p < e.2))) := by
  intro n
  induction n with
  | zero => intro i _; simp [tests]
  | succ n ih =>
    intro i h
    have hi : i < t.length := by omega
    rw [tests, hit, List.getElem?_eq_getElem hi, Option.map_some, List.drop_eq_getElem_cons hi, List.take_succ_cons, List.any_cons]
    cases hb : (decide (t[i].1 ≤ p) && decide (p < t[i].2)) with
    | true => simp
    | false => simp only [Bool.false_or]; exact ih (i + 1) (by omega)

theorem loop_eq (t : List (Nat × Nat)) (p i : Nat) (hi : i ≤ t.length) :
    loop t p i = some ((t.drop i).any (fun e => decide (e.1 ≤ p) && decide (p < e.2))) := by
  induction hn : t.length - i using Nat.strongRecOn generalizing i with
  | _ n ih =>
    rw [loop]
    by_cases h : i + 63 < t.length
    · rw [if_pos h, tests_eq t p 64 i (by omega)]
      have hd : t.drop i = (t.drop i).take 64 ++ t.drop (i + 64) := by
        conv_lhs => rw [← List.take_append_drop 64 (t.drop i)]
        rw [List.drop_drop]
      rw [hd, List.any_append]
      have ht : List.take 64 (List.take 64 (List.drop i t) ++ List.drop (i + 64) t) = (t.drop i).take 64 := by rw [← hd]
      rw [ht]
      cases hb : ((t.drop i).take 64).any (fun e => decide (e.1 ≤ p) && decide (p < e.2)) with
      | true => simp
      | false =>
        simp only [Bool.false_or]
        exact ih (t.length - (i + 64)) (by omega) (i + 64) (by omega) rfl
    · rw [if_neg h, switch]
      by_cases h1 : 1 ≤ t.length - i ∧ t.length - i ≤ 63
      · rw [if_pos h1, tests_eq t p _ i (by omega), List.take_of_length_le (by simp)]
      · rw [if_neg h1]
        have : t.drop i = [] := List.drop_eq_nil_of_le (by omega)
        rw [this]; rfl

/-- C28: the unrolled search reads inside the table only and answers as a search of the whole table would. -/
theorem C28_lookup (t : Table) (a : Nat) : ∃ b, inTable t a = some b ∧ (b = true ↔ ∃ e ∈ t.entries, e.1 ≤ rawPage a ∧ rawPage a < e.2) := by
  refine ⟨_, loop_eq t.entries (rawPage a) 0 (Nat.zero_le _), ?_⟩
  simp [List.any_eq_true]

theorem roundChunk_mult {incr request size : Nat} (hi : incr % pageSize = 0) (hp : 0 < incr) (h : roundChunk incr request = some size) : size % pageSize = 0 ∧ 0 < size := by
  unfold roundChunk at h
  split at h
  · rw [← Option.some.inj h]; exact ⟨hi, hp⟩
  · split at h
    · rw [← Option.some.inj h]
      refine ⟨Nat.mul_mod_left _ _, ?_⟩
      have h1 : pageSize = 4096 := rfl
      rw [h1]; omega
    · exact absurd h (by simp)

structure Inv (h : Heap) : Prop where
  ne : h.chain ≠ []
  sorted : h.chain.Pairwise (fun c d => c.1 + c.2 ≤ d.1)
  mult : ∀ c ∈ h.chain, c.1 % pageSize = 0 ∧ c.2 % pageSize = 0 ∧ 0 < c.2
  pos : 0 < h.table.total ∧ h.table.entries.length ≤ h.table.total
  table : h.table.entries.Perm (h.chain.map (fun c => (rawPage c.1, rawPage (c.1 + c.2))))
  stop : ∀ c ∈ h.chain, c.1 + c.2 ≤ h.heapEnd
  stopMem : ∃ c ∈ h.chain, c.1 + c.2 = h.heapEnd

theorem addPages_eq {t : Table} (h : 0 < t.total ∧ t.entries.length ≤ t.total) (a b : Nat) :
    ∃ n, addPages t a b = some ⟨t.entries ++ [(rawPage a, rawPage b)], n⟩ ∧ 0 < n ∧ t.entries.length + 1 ≤ n := by
  unfold addPages
  by_cases e : t.entries.length = t.total
  · simp only [e, if_true]
    rw [if_pos (by omega)]
    exact ⟨t.total * 2, rfl, by omega, by omega⟩
  · simp only [e, if_false]
    rw [if_pos (by omega)]
    exact ⟨t.total, rfl, by omega, by omega⟩

theorem link_perm (mem size : Nat) (cs : List (Nat × Nat)) : (link mem size cs).Perm ((mem, size) :: cs) := by
  induction cs with
  | nil => exact .refl _
  | cons c cs ih =>
    unfold link
    split
    · exact (ih.cons c).trans (.swap _ _ _)
    · exact .refl _

theorem link_sorted (mem size : Nat) (cs : List (Nat × Nat)) (hs : cs.Pairwise (fun c d => c.1 + c.2 ≤ d.1))
    (hp : ∀ c ∈ cs, 0 < c.2) (hd : ∀ c ∈ cs, mem + size ≤ c.1 ∨ c.1 + c.2 ≤ mem) : (link mem size cs).Pairwise (fun c d => c.1 + c.2 ≤ d.1) := by
  induction cs with
  | nil => exact List.pairwise_singleton _ _
  | cons c cs ih =>
    have hs' := List.pairwise_cons.mp hs
    unfold link
    by_cases h : c.1 < mem
    · rw [if_pos h]
      refine List.pairwise_cons.mpr ⟨?_, ih hs'.2 (fun d hd' => hp d (List.mem_cons_of_mem _ hd')) (fun d hd' => hd d (List.mem_cons_of_mem _ hd'))⟩
      intro d hmem
      rcases List.mem_cons.mp ((link_perm mem size cs).mem_iff.mp hmem) with rfl | hm
      · rcases hd c List.mem_cons_self with h2 | h2
        · omega
        · exact h2
      · exact hs'.1 d hm
    · rw [if_neg h]
      refine List.pairwise_cons.mpr ⟨?_, hs⟩
      intro d hmem
      have hc : mem + size ≤ c.1 := by
        rcases hd c List.mem_cons_self with h2 | h2
        · exact h2
        · have := hp c List.mem_cons_self
          omega
      rcases List.mem_cons.mp hmem with rfl | hm
      · exact hc
      · have := hs'.1 d hm
        show mem + size ≤ d.1
        omega

theorem reach_inv {incr : Nat} (hi : incr % pageSize = 0) (hp : 0 < incr) {h : Heap} (r : Reach incr h) : Inv h := by
  induction r with
  | @init request mem h h0 h1 h2 =>
    obtain ⟨size, hs⟩ : ∃ size, roundChunk incr request = some size := by
      cases hc : roundChunk incr request with
      | none => simp [heapInit, hc] at h2
      | some size => exact ⟨size, rfl⟩
    obtain ⟨m1, m2⟩ := roundChunk_mult hi hp hs
    obtain ⟨n, a1, a2, a3⟩ := addPages_eq (t := tableInit 64) ⟨by decide, by decide⟩ mem (mem + size)
    simp only [heapInit, hs, a1, Option.bind_eq_bind, Option.bind_some, Option.some.injEq] at h2
    subst h2
    refine ⟨by simp, by simp, by simp [h1, m1, m2], ⟨a2, by simpa using a3⟩, by simp [tableInit], by simp, by simp⟩
  | @expand h request mem size h' r hs hf he ih =>
    obtain ⟨m1, m2⟩ := roundChunk_mult hi hp hs
    obtain ⟨n, a1, a2, a3⟩ := addPages_eq ih.pos mem (mem + size)
    obtain ⟨f0, f1, f2⟩ := hf
    simp only [expand, hs, a1, Option.bind_eq_bind, Option.bind_some] at he
    have htab : ∀ cs : List (Nat × Nat), cs.Perm ((mem, size) :: h.chain) → (h.table.entries ++ [(rawPage mem, rawPage (mem + size))]).Perm
        (cs.map (fun c => (rawPage c.1, rawPage (c.1 + c.2)))) := by
      intro cs hcs
      refine (List.perm_append_singleton _ _).trans ?_
      refine ((ih.table.cons _).trans ?_).trans (hcs.map _).symm
      exact .refl _
    obtain ⟨c0, cs, hc⟩ : ∃ c0 cs, h.chain = c0 :: cs := by
      cases hch : h.chain with
      | nil => exact absurd hch ih.ne
      | cons c0 cs => exact ⟨c0, cs, rfl⟩
    have hst : h.start = c0.1 := by simp [Heap.start, hc]
    by_cases hlt : mem < h.start
    · rw [if_pos hlt] at he
      obtain rfl := Option.some.inj he
      refine ⟨by simp, ?_, ?_, ⟨a2, by simpa using a3⟩, htab _ (.refl _), ?_, ?_⟩
      · refine List.pairwise_cons.mpr ⟨?_, ih.sorted⟩
        intro c hm
        rcases f2 c hm with k | k
        · exact k
        · have : c0.1 ≤ c.1 := by
            rw [hc] at hm
            rcases List.mem_cons.mp hm with rfl | hm'
            · exact Nat.le_refl _
            · have := ih.sorted
              rw [hc] at this
              have := (List.pairwise_cons.mp this).1 c hm'
              omega
          omega
      · intro c hm
        rcases List.mem_cons.mp hm with rfl | hm
        · exact ⟨f1, m1, m2⟩
        · exact ih.mult c hm
      · intro c hm
        rcases List.mem_cons.mp hm with rfl | hm
        · have hm0 : c0 ∈ h.chain := by rw [hc]; exact List.mem_cons_self
          have := ih.stop c0 hm0
          show mem + size ≤ h.heapEnd
          rcases f2 c0 hm0 with k | k <;> omega
        · exact ih.stop c hm
      · obtain ⟨c, k1, k2⟩ := ih.stopMem
        exact ⟨c, List.mem_cons_of_mem _ k1, k2⟩
    · rw [if_neg hlt] at he
      obtain rfl := Option.some.inj he
      have hperm := link_perm mem size h.chain
      refine ⟨?_, ?_, ?_, ⟨a2, by simpa using a3⟩, htab _ hperm, ?_, ?_⟩
      · intro e
        have := hperm.length_eq
        have e' : link mem size h.chain = [] := e
        rw [e'] at this
        simp at this
      · exact link_sorted mem size h.chain ih.sorted (fun c hm => (ih.mult c hm).2.2) f2
      · intro c hm
        rcases List.mem_cons.mp (hperm.mem_iff.mp hm) with rfl | hm
        · exact ⟨f1, m1, m2⟩
        · exact ih.mult c hm
      · intro c hm
        show c.1 + c.2 ≤ if h.heapEnd ≤ mem then mem + size else h.heapEnd
        rcases List.mem_cons.mp (hperm.mem_iff.mp hm) with rfl | hm
        · split
          · exact Nat.le_refl _
          · obtain ⟨c, k1, k2⟩ := ih.stopMem
            show mem + size ≤ h.heapEnd
            rcases f2 c k1 with k | k <;> omega
        · have := ih.stop c hm
          split <;> omega
      · show ∃ c ∈ link mem size h.chain, c.1 + c.2 = if h.heapEnd ≤ mem then mem + size else h.heapEnd
        by_cases hh : h.heapEnd ≤ mem
        · rw [if_pos hh]
          exact ⟨(mem, size), hperm.mem_iff.mpr List.mem_cons_self, rfl⟩
        · rw [if_neg hh]
          obtain ⟨c, k1, k2⟩ := ih.stopMem
          exact ⟨c, hperm.mem_iff.mpr (List.mem_cons_of_mem _ k1), k2⟩

theorem page_iff {a b n : Nat} (hb : b % pageSize = 0) (hn : n % pageSize = 0) :
    rawPage b ≤ rawPage a ∧ rawPage a < rawPage (b + n) ↔ b ≤ a ∧ a < b + n := by
  have h : pageSize = 4096 := rfl
  unfold rawPage
  rw [h] at hb hn ⊢
  omega

/-- C28, partial (chunks of whole pages): the test reads inside its table, and holds of the addresses in the chunks and no others. -/
theorem C28_in_heap_partial {incr : Nat} (hi : incr % pageSize = 0) (hp : 0 < incr) {h : Heap} (r : Reach incr h) (a : Nat) :
    ∃ b, isInHeap h a = some b ∧ (b = true ↔ ∃ c ∈ h.chain, c.1 ≤ a ∧ a < c.1 + c.2) := by
  have i := reach_inv hi hp r
  obtain ⟨b, k1, k2⟩ := C28_lookup h.table a
  have hiff : (∃ e ∈ h.table.entries, e.1 ≤ rawPage a ∧ rawPage a < e.2) ↔ ∃ c ∈ h.chain, c.1 ≤ a ∧ a < c.1 + c.2 := by
    constructor
    · rintro ⟨e, he, h1⟩
      obtain ⟨c, hc, rfl⟩ := List.mem_map.mp (i.table.mem_iff.mp he)
      obtain ⟨m1, m2, _⟩ := i.mult c hc
      exact ⟨c, hc, (page_iff m1 m2).mp h1⟩
    · rintro ⟨c, hc, h1⟩
      obtain ⟨m1, m2, _⟩ := i.mult c hc
      exact ⟨_, i.table.mem_iff.mpr (List.mem_map.mpr ⟨c, hc, rfl⟩), (page_iff m1 m2).mpr h1⟩
  unfold isInHeap
  by_cases hb : h.start ≤ a ∧ a < h.heapEnd
  · rw [if_pos hb]
    exact ⟨b, k1, k2.trans hiff⟩
  · rw [if_neg hb]
    refine ⟨false, rfl, by simp, ?_⟩
    rintro ⟨c, hc, h1, h2⟩
    refine absurd ⟨?_, ?_⟩ hb
    · obtain ⟨c0, cs, e⟩ : ∃ c0 cs, h.chain = c0 :: cs := by
        cases hch : h.chain with
        | nil => exact absurd hch i.ne
        | cons c0 cs => exact ⟨c0, cs, rfl⟩
      have hst : h.start = c0.1 := by simp [Heap.start, e]
      rw [e] at hc
      rcases List.mem_cons.mp hc with rfl | hm
      · omega
      · have := i.sorted
        rw [e] at this
        have := (List.pairwise_cons.mp this).1 c hm
        omega
    · have := i.stop c hc
      omega

/-- C28: the chunks are chained by increasing address, none overlaps the next; this is what the walks over the heap rely on (C26). -/
theorem C28_chain {incr : Nat} (hi : incr % pageSize = 0) (hp : 0 < incr) {h : Heap} (r : Reach incr h) :
    h.chain ≠ [] ∧ h.chain.Pairwise (fun c d => c.1 + c.2 ≤ d.1) :=
  ⟨(reach_inv hi hp r).ne, (reach_inv hi hp r).sorted⟩

/-- C28: growing the heap loses no chunk, and there is always room in the table. -/
theorem C28_expand {incr : Nat} (hi : incr % pageSize = 0) (hp : 0 < incr) {h : Heap} (r : Reach incr h) {request mem size : Nat}
    (hs : roundChunk incr request = some size) :
    ∃ h', expand h incr request mem = some h' ∧ h'.chain.Perm ((mem, size) :: h.chain) := by
  have i := reach_inv hi hp r
  obtain ⟨n, a1, _, _⟩ := addPages_eq i.pos mem (mem + size)
  simp only [expand, hs, a1, Option.bind_eq_bind, Option.bind_some]
  by_cases hlt : mem < h.start
  · rw [if_pos hlt]; exact ⟨_, rfl, .refl _⟩
  · rw [if_neg hlt]; exact ⟨_, rfl, link_perm _ _ _⟩

/-- a chunk is at least as big as asked for -/
theorem C28_round {incr request size : Nat} (h : roundChunk incr request = some size) : request ≤ size := by
  unfold roundChunk at h
  split at h
  · rw [← Option.some.inj h]; omega
  · split at h
    · rw [← Option.some.inj h]
      have : pageSize = 4096 := rfl
      rw [this]; omega
    · exact absurd h (by simp)

/-- C28: the increment set when the system starts is a number of whole pages, whatever is asked for (gc_ctrl.c:195). -/
theorem C28_init_incr (i : Int) (h : -2 ^ 62 ≤ i ∧ i < 2 ^ 62) : (8 * normIncr i) % 4096 = 0 ∧ 0 < 8 * normIncr i := by
  unfold normIncr
  have hm : ((heapChunkMax : Nat) : Int) = 2 ^ 57 := by decide +kernel
  rw [hm]
  dsimp only
  split <;> split <;> omega

/-- C28, the exception: when the increment is set to 0 by `gc_set` (gc_ctrl.c:153), it becomes 1024 bytes; a chunk of that size is not
in the table at all. -/
theorem C28_incr_violation : normIncr 0 = 1024 ∧ ∃ h, Reach 1024 h ∧ ∃ c ∈ h.chain, ∃ a, c.1 ≤ a ∧ a < c.1 + c.2 ∧ isInHeap h a = some false := by
  refine ⟨by decide +kernel, ⟨[(4096, 1024)], 5120, ⟨[(1, 1)], 64⟩⟩, ?_, (4096, 1024), by simp, 4096, by simp, by simp, ?_⟩
  · exact .init (request := 100) (mem := 4096) (by decide) (by decide) (by decide +kernel)
  · obtain ⟨b, h1, h2⟩ := C28_lookup ⟨[(1, 1)], 64⟩ 4096
    have hb : b = false := by
      cases b with
      | false => rfl
      | true =>
        obtain ⟨e, he, h3, h4⟩ := h2.mp rfl
        simp only [List.mem_singleton] at he
        subst he
        omega
    subst hb
    exact h1

/-- the hypotheses hold: the first chunk and one below it -/
example : Reach 4096 ⟨[(8192, 4096), (40960, 8192)], 49152, ⟨[(10, 12), (2, 3)], 64⟩⟩ := by
  have h1 : Reach 4096 ⟨[(40960, 8192)], 49152, ⟨[(10, 12)], 64⟩⟩ :=
    .init (request := 5000) (mem := 40960) (by decide) (by decide) (by decide +kernel)
  exact .expand (request := 10) (mem := 8192) (size := 4096) h1 (by decide +kernel) ⟨by decide, by decide, by simp⟩ (by decide +kernel)

end Mosml.PageTable
