import Verif.Matrix.Safe

/-!
# C76: two-dimensional arrays

As in C75, functions that are passed to the library may do anything but alter the
length of an array (`Steady`), also update the array that is being traversed.
-/

namespace Mosml.Matrix

open Mosml.Arrays

variable {V X : Type}

/-- A small machine: two arrays, with 3 rows and 2 columns, and with 2 rows and 3 columns. -/
def w1 : World Nat Nat := ⟨[[1, 2], [3, 4], [5, 6], [7, 8, 9], [10, 11, 12]], 0⟩
def a1 : Arr2 := ⟨[0, 1, 2], 3, 2⟩
def b1 : Arr2 := ⟨[3, 4], 2, 3⟩

theorem made_a1 : Made w1 a1 := by
  refine ⟨?_, ?_, ?_, ?_, ?_, ?_, ?_⟩ <;> decide +kernel

theorem made_b1 : Made w1 b1 := by
  refine ⟨?_, ?_, ?_, ?_, ?_, ?_, ?_⟩ <;> decide +kernel

/-! ## Elements -/

/-- `sub` and `update`, for all indices: the element, or Subscript and nothing has happened.
`dimensions` are the number of rows and their length. -/
theorem C76_subscript (w : World V X) (a : Arr2) (hm : Made w a) (i j : Int) (v : V) :
    (0 ≤ i ∧ i < (dimensions a).1 → 0 ≤ j ∧ j < (dimensions a).2 →
      (∃ x, elem (mat w a) (i, j) = some x ∧ sub a i j w = .ok x w) ∧
      ∃ w', update a i j v w = .ok () w' ∧ w'.ext = w.ext ∧ Keeps w w' ∧
        (∀ l, l ∉ a.rows → w'.heap.getD l [] = w.heap.getD l []) ∧
        ∀ q : Int × Int, 0 ≤ q.1 → 0 ≤ q.2 →
          elem (mat w' a) q = if q = (i, j) then some v else elem (mat w a) q) ∧
    (¬ ((0 ≤ i ∧ i < (dimensions a).1) ∧ 0 ≤ j ∧ j < (dimensions a).2) →
      sub a i j w = .raise .subscript w ∧ update a i j v w = .raise .subscript w) ∧
    (dimensions a).1 = (mat w a).length ∧ (∀ r ∈ mat w a, (r.length : Int) = (dimensions a).2) ∧
    nRows a = (dimensions a).1 ∧ nCols a = (dimensions a).2 := by
  have hh := hm.height
  simp only [dimensions]
  refine ⟨?_, ?_, ?_, ?_, rfl, rfl⟩
  · intro hi hj
    refine ⟨?_, ?_⟩
    · obtain ⟨x, h1, h2⟩ := cell_ok hm hi hj
      exact ⟨x, h2, by rw [sub_eq hm hi hj, h1]⟩
    · obtain ⟨w', k1, k2, k3, k4, k5⟩ := mat_setCell hm (i := i) (j := j) hi v
      refine ⟨w', by rw [update_eq hm hi hj, k1], k3, k4, k5, ?_⟩
      intro q h1 h2
      have hrow := hm.row hi.1 hi.2
      have hg : ((mat w a).getD i.toNat []).length = a.n := by
        rw [List.getD_eq_getElem?_getD, mat, List.getElem?_map,
          List.getElem?_eq_getElem (by omega)]
        simp only [Option.map_some, Option.getD_some]
        rw [← getD_get _ _ (by omega)]
        exact hm.width _ hrow
      rw [k2, elem_put2 (mat w a) (i, j) q v hi.1 hj.1 h1 h2
        (by simp only [mat, List.length_map]; omega) (by simp only; omega)]
      by_cases e : (i, j) = q
      · rw [if_pos e, if_pos e.symm]
      · rw [if_neg e, if_neg (fun h => e h.symm)]
  · intro h
    simp only [sub, update, bind_apply]
    by_cases hi : 0 ≤ i ∧ i < a.m
    · have hr := hm.row hi.1 hi.2
      have hw := hm.width _ hr
      rw [rowAt_eq w hi.1 (by omega)]
      simp only
      exact ⟨(C75_subscript w (.arr (a.rows.getD i.toNat 0)) 0 j v).2.1 (by
          simp only [cells]; omega),
        (C75_subscript w (.arr 0) (a.rows.getD i.toNat 0) j v).2.2.2 (by omega)⟩
    · rw [rowAt_raise w (by omega)]
      exact ⟨rfl, rfl⟩
  · simp [mat, hh]
  · intro r hr
    simp only [mat, List.mem_map] at hr
    obtain ⟨l, hl, rfl⟩ := hr
    exact hm.width l hl

example : sub a1 2 0 w1 = .ok 5 w1 ∧ sub a1 3 0 w1 = .raise .subscript w1 ∧
    update a1 1 1 40 w1 = .ok () ⟨[[1, 2], [3, 40], [5, 6], [7, 8, 9], [10, 11, 12]], 0⟩ := by
  refine ⟨?_, ?_, ?_⟩ <;> rfl

/-- `row` and `column` are the vectors of the elements, or raise Subscript. -/
theorem C76_vectors (w : World V X) (a : Arr2) (hm : Made w a) (k : Int) :
    row a k w = (if 0 ≤ k ∧ k < a.m then .ok ((mat w a).getD k.toNat []) w
      else .raise .subscript w) ∧
    (0 ≤ k ∧ k < a.n → ∃ vs, column a k w = .ok vs w ∧
      vs.map some = (mat w a).map (fun r => r[k.toNat]?)) ∧
    (¬ (0 ≤ k ∧ k < a.n) → column a k w = .raise .subscript w) := by
  have hh := hm.height
  have hf := hm.few
  refine ⟨?_, ?_, ?_⟩
  · simp only [row, bind_apply]
    by_cases hk : 0 ≤ k ∧ k < a.m
    · rw [if_pos hk, rowAt_eq w hk.1 (by omega)]
      obtain ⟨h1, h2⟩ := rowFull hm hk
      simp only [whole, bind_apply, len]
      rw [h1, C75_vector w _ h2]
      have hr := hm.row hk.1 hk.2
      have hw := hm.width _ hr
      have e : (mat w a).getD k.toNat [] = w.heap.getD (a.rows.getD k.toNat 0) [] := by
        rw [List.getD_eq_getElem?_getD, mat, List.getElem?_map, List.getElem?_eq_getElem (by omega),
          getD_get _ _ (by omega)]
        rfl
      rw [e]
      simp only [elems, seg, cells]
      congr 1
      simp only [Int.toNat_zero, List.drop_zero]
      exact List.take_of_length_le (by omega)
    · rw [if_neg hk, rowAt_raise w (by omega)]
  · intro hk
    simp only [column]
    rw [if_neg (by omega), (C75_tabulate w a.m _).1, if_pos ⟨by omega, hf⟩, collect_results]
    obtain ⟨vs, h1, h2⟩ := results_read (fun i => sub a i k) (fun i => elem (mat w a) (i, k)) w
      (idx 0 a.m.toNat) (by
        intro i hi
        rw [mem_idx] at hi
        obtain ⟨v, h1, h2⟩ := cell_ok hm (i := i) (j := k) ⟨by omega, by omega⟩ hk
        exact ⟨v, by rw [sub_eq hm ⟨by omega, by omega⟩ hk, h1], h2⟩)
    refine ⟨vs, h1, ?_⟩
    rw [h2]
    refine List.ext_getElem (by simp [idx, mat, hh]) ?_
    intro q q1 q2
    have hq : q < a.rows.length := by simpa [mat] using q2
    simp only [idx, List.map_map, List.getElem_map, List.getElem_range, Function.comp]
    rw [mat_elem _ _ _ (by simp) (by simp only; omega)]
    simp only [mat, List.getElem_map, zero_add, Int.toNat_natCast]
    rw [getD_get _ _ hq]
  · intro hk
    simp only [column]
    rw [if_pos (by omega)]
    rfl

example : row a1 1 w1 = .ok [3, 4] w1 ∧ column a1 1 w1 = .ok [2, 4, 6] w1 ∧
    column a1 2 w1 = .raise .subscript w1 := by
  refine ⟨?_, ?_, ?_⟩ <;> rfl

/-! ## Traversals -/

/-- `foldi`, `appi` and `modifyi` visit every position of a valid region once, in the order
that was asked for, and pass the element that is there at the time. -/
theorem C76_regions {β : Type} (w : World V X) (reg : Region) (hm : Made w reg.base)
    (hv : ValidRegion reg) (tr : Traversal) :
    (∀ (f : Int → Int → V → β → Prog (World V X) β) (b : β), (∀ i j x b, Steady (f i j x b)) →
      foldi tr f b reg w = walk (visit reg.base f) (positions tr reg) b w) ∧
    (∀ f : Int → Int → V → Prog (World V X) Unit, (∀ i j x, Steady (f i j x)) →
      appi tr f reg w =
        walk (visit reg.base (fun i j x _ => f i j x)) (positions tr reg) () w) ∧
    (∀ f : Int → Int → V → Prog (World V X) V, (∀ i j x, Steady (f i j x)) →
      modifyi tr f reg w = walk (fun p _ => alter reg.base f p) (positions tr reg) () w) :=
  ⟨fun f b hf => foldi_eq w reg hm hv tr f hf b, fun f hf => appi_eq w reg hm hv tr f hf,
   fun f hf => modifyi_eq w reg hm hv tr f hf⟩

/-- `fold`, `app` and `modify` do the same for the whole array. -/
theorem C76_whole {β : Type} (w : World V X) (a : Arr2) (hm : Made w a) (tr : Traversal) :
    (∀ (f : V → β → Prog (World V X) β) (b : β), (∀ x b, Steady (f x b)) →
      fold tr f b a w = walk (visit a (fun _ _ x b => f x b)) (places tr a) b w) ∧
    (∀ f : V → Prog (World V X) Unit, (∀ x, Steady (f x)) →
      app tr f a w = walk (visit a (fun _ _ x _ => f x)) (places tr a) () w) ∧
    (∀ f : V → Prog (World V X) V, (∀ x, Steady (f x)) →
      modify tr f a w = walk (fun p _ => alter a (fun _ _ x => f x) p) (places tr a) () w) :=
  ⟨fun f b hf => fold_eq w a hm tr f hf b, fun f hf => app_eq w a hm tr f hf,
   fun f hf => modify_eq w a hm tr f hf⟩

/-- The positions are those of the region, each once; row-major is lexicographically
increasing in `(i, j)`, column-major in `(j, i)`. -/
theorem C76_positions (tr : Traversal) (reg : Region) :
    (∀ p : Int × Int, p ∈ positions tr reg ↔
      (reg.row ≤ p.1 ∧ p.1 < reg.row + extent reg.base.m reg.row reg.nrows) ∧
      reg.col ≤ p.2 ∧ p.2 < reg.col + extent reg.base.n reg.col reg.ncols) ∧
    (positions tr reg).Pairwise (fun p q => match tr with
      | .rowMajor => p.1 < q.1 ∨ p.1 = q.1 ∧ p.2 < q.2
      | .colMajor => p.2 < q.2 ∨ p.2 = q.2 ∧ p.1 < q.1) := by
  have hidx : ∀ (j : Int) (k : Nat), (idx j k).Pairwise (· < ·) := by
    intro j k
    simp only [idx]
    rw [List.pairwise_map]
    exact List.pairwise_lt_range.imp (by intro a b h; omega)
  refine ⟨?_, ?_⟩
  · intro p
    refine ⟨fun hp => ?_, fun hp => ?_⟩
    · obtain ⟨h1, h2⟩ := mem_order hp
      rw [mem_idx] at h1 h2
      exact ⟨h1, h2⟩
    · have h1 := mem_idx.2 hp.1
      have h2 := mem_idx.2 hp.2
      cases tr <;> simp only [positions, order, List.mem_flatMap, List.mem_map]
      · exact ⟨p.1, h1, p.2, h2, rfl⟩
      · exact ⟨p.2, h2, p.1, h1, rfl⟩
  · cases tr with
    | rowMajor =>
      simp only [positions, order]
      rw [List.pairwise_flatMap]
      refine ⟨fun i _ => ?_, (hidx _ _).imp ?_⟩
      · rw [List.pairwise_map]
        exact (hidx _ _).imp (fun h => Or.inr ⟨rfl, h⟩)
      · intro i i' hlt p hp q hq
        simp only [List.mem_map] at hp hq
        obtain ⟨_, _, rfl⟩ := hp
        obtain ⟨_, _, rfl⟩ := hq
        exact Or.inl hlt
    | colMajor =>
      simp only [positions, order]
      rw [List.pairwise_flatMap]
      refine ⟨fun i _ => ?_, (hidx _ _).imp ?_⟩
      · rw [List.pairwise_map]
        exact (hidx _ _).imp (fun h => Or.inr ⟨rfl, h⟩)
      · intro i i' hlt p hp q hq
        simp only [List.mem_map] at hp hq
        obtain ⟨_, _, rfl⟩ := hp
        obtain ⟨_, _, rfl⟩ := hq
        exact Or.inl hlt

/-- The rows 1 and 2 of `a1`, column 0 onwards. -/
def r1 : Region := ⟨a1, 1, 0, none, some 2⟩

theorem valid_r1 : ValidRegion r1 := by
  constructor <;> decide +kernel

example : positions .rowMajor r1 = [(1, 0), (1, 1), (2, 0), (2, 1)] ∧
    positions .colMajor r1 = [(1, 0), (2, 0), (1, 1), (2, 1)] := by
  constructor <;> rfl

example : foldi .colMajor (fun i j x b => pure ((i, j, x) :: b)) [] r1 w1 =
    .ok [(2, 1, 6), (1, 1, 4), (2, 0, 5), (1, 0, 3)] w1 := by rfl

/-- `foldi` with a mathematical function, in terms of the elements. -/
theorem C76_fold_pure {β : Type} (w : World V X) (reg : Region) (hm : Made w reg.base)
    (hv : ValidRegion reg) (tr : Traversal) (g : Int → Int → V → β → β) (b : β) :
    (∀ p ∈ positions tr reg, (elem (mat w reg.base) p).isSome) ∧
    foldi tr (fun i j x b => pure (g i j x b)) b reg w =
      .ok ((positions tr reg).foldl
        (fun b p => ((elem (mat w reg.base) p).map (fun x => g p.1 p.2 x b)).getD b) b) w := by
  refine ⟨?_, ?_⟩
  · intro p hp
    obtain ⟨h1, h2⟩ := pos_range hv hp
    obtain ⟨v, _, hv'⟩ := cell_ok hm h1 h2
    have e : elem (mat w reg.base) p = some v := hv'
    rw [e]
    rfl
  · rw [foldi_eq w reg hm hv tr _ (fun _ _ _ _ => steady_pure _) b]
    exact visit_pure reg.base g w hm _ b (fun p hp => pos_range hv hp)

/-- `modifyi` with a mathematical function: the elements in the region are replaced, nothing
else is touched. -/
theorem C76_modify_pure (w : World V X) (reg : Region) (hm : Made w reg.base)
    (hv : ValidRegion reg) (tr : Traversal) (g : Int → Int → V → V) :
    ∃ w', modifyi tr (fun i j x => pure (g i j x)) reg w = .ok () w' ∧ w'.ext = w.ext ∧
      Keeps w w' ∧ (∀ l, l ∉ reg.base.rows → w'.heap.getD l [] = w.heap.getD l []) ∧
      ∀ q : Int × Int, 0 ≤ q.1 → 0 ≤ q.2 → elem (mat w' reg.base) q =
        if q ∈ positions tr reg then (elem (mat w reg.base) q).map (g q.1 q.2)
        else elem (mat w reg.base) q := by
  rw [modifyi_eq w reg hm hv tr _ (fun _ _ _ => steady_pure _)]
  exact alter_pure reg.base g (positions tr reg) w hm (fun p hp => pos_range hv hp)
    (order_nodup _ _ _ _ _)

example : modifyi .rowMajor (fun _ j x => pure (x + 10 * j.toNat)) r1 w1 =
    .ok () ⟨[[1, 2], [3, 14], [5, 16], [7, 8, 9], [10, 11, 12]], 0⟩ := by rfl

/-- Invalid regions raise Subscript before anything is done, provided that, in row-major
order, there is a row, and, in column-major order, `row + nrows` and `col + ncols` are
integers.  What is missing is shown by `C76_region_violation`. -/
theorem C76_invalid_partial {β : Type} (w : World V X) (reg : Region) (hm : Made w reg.base)
    (hrow : reg.row ≤ maxInt) (hcol : reg.col ≤ maxInt) (hv : ¬ ValidRegion reg)
    (tr : Traversal)
    (hrm : tr = .rowMajor → ¬ (Within reg.base.m reg.row reg.nrows ∧
      extent reg.base.m reg.row reg.nrows = 0))
    (hcm : tr = .colMajor → (∀ k, reg.nrows = some k → reg.row + k ≤ maxInt) ∧
      ∀ k, reg.ncols = some k → reg.col + k ≤ maxInt) :
    (∀ (f : Int → Int → V → β → Prog (World V X) β) (b : β),
      foldi tr f b reg w = .raise .subscript w) ∧
    (∀ f : Int → Int → V → Prog (World V X) Unit, appi tr f reg w = .raise .subscript w) ∧
    (∀ f : Int → Int → V → Prog (World V X) V, modifyi tr f reg w = .raise .subscript w) := by
  cases tr with
  | rowMajor =>
    refine ⟨fun f b => ?_, fun f => ?_, fun f => ?_⟩
    · rw [foldi_invalid w reg hm hrow hcol hv, if_neg (hrm rfl)]
    · rw [appi_invalid w reg hm hrow hcol hv, if_neg (hrm rfl)]
    · rw [modifyi_invalid w reg hm hrow hcol hv, if_neg (hrm rfl)]
  | colMajor =>
    obtain ⟨h1, h2⟩ := hcm rfl
    exact ⟨fun f b => col_subscript w reg hm h1 h2 hv f b,
      fun f => col_subscript w reg hm h1 h2 hv _ (),
      fun f => col_subscript w reg hm h1 h2 hv _ ()⟩

example : ¬ ValidRegion ⟨a1, 1, 1, none, some 2⟩ ∧
    ¬ (Within 3 1 none ∧ extent 3 1 none = 0) := by
  constructor
  · exact fun h => absurd h.2 (by decide +kernel)
  · decide +kernel

/-- Array2.sig says that `appi`, `modifyi` and `foldi` raise Subscript if the region is not
valid.  In row-major order the columns are looked at only with the rows: a region of no rows
at column 99 passes.  In column-major order a region that is too large may raise Overflow. -/
theorem C76_region_violation :
    ¬ ValidRegion ⟨a1, 0, 99, some 0, none⟩ ∧
    appi .rowMajor (fun _ _ _ => pure ()) ⟨a1, 0, 99, some 0, none⟩ w1 = .ok () w1 ∧
    appi .colMajor (fun _ _ _ => pure ()) ⟨a1, 0, 99, some 0, none⟩ w1 = .raise .subscript w1 ∧
    ¬ ValidRegion ⟨a1, 1, 0, some maxInt, none⟩ ∧
    appi .rowMajor (fun _ _ _ => pure ()) ⟨a1, 1, 0, some maxInt, none⟩ w1 =
      .raise .subscript w1 ∧
    appi .colMajor (fun _ _ _ => pure ()) ⟨a1, 1, 0, some maxInt, none⟩ w1 =
      .raise .overflow w1 := by
  refine ⟨fun h => absurd h.2 (by decide +kernel), rfl, rfl,
    fun h => absurd h.1 (by decide +kernel), rfl, rfl⟩

/-! ## Nothing goes wrong -/

/-- No function of the unit accesses memory outside the arrays, whatever the region and
whatever the functions do that it is passed: it ends with its result or an exception, and all
arrays have the length they had. -/
theorem C76_safe {β : Type} (w : World V X) (reg : Region) (hm : Made w reg.base)
    (hrow : reg.row ≤ maxInt) (hcol : reg.col ≤ maxInt) (tr : Traversal) :
    (∀ (f : Int → Int → V → β → Prog (World V X) β) (b : β), (∀ i j x b, Steady (f i j x b)) →
      (∀ i j x b, Safe (f i j x b)) → Fine w (foldi tr f b reg w)) ∧
    (∀ f : Int → Int → V → Prog (World V X) Unit, (∀ i j x, Steady (f i j x)) →
      (∀ i j x, Safe (f i j x)) → Fine w (appi tr f reg w)) ∧
    (∀ f : Int → Int → V → Prog (World V X) V, (∀ i j x, Steady (f i j x)) →
      (∀ i j x, Safe (f i j x)) → Fine w (modifyi tr f reg w)) ∧
    (∀ (dst : Arr2) (dr dc : Int), Made w dst → Fine w (copy reg dst dr dc w)) := by
  refine ⟨fun f b hf hf' => ?_, fun f hf hf' => ?_, fun f hf hf' => ?_,
    fun dst dr dc hd => copy_fine w reg dst dr dc hm hd hcol⟩
  · by_cases hv : ValidRegion reg
    · rw [foldi_eq w reg hm hv tr f hf b]
      exact walk_fine _ _ _ _ (fun p hp b w' hk =>
        visit_fine hf hf' (hm.keeps hk) (pos_range hv hp) b)
    · cases tr with
      | rowMajor =>
        rw [foldi_invalid w reg hm hrow hcol hv]
        split
        · exact keeps_refl w
        · exact keeps_refl w
      | colMajor =>
        obtain ⟨e, he⟩ := col_invalid w reg hm hv f b
        rw [he]
        exact keeps_refl w
  · by_cases hv : ValidRegion reg
    · rw [appi_eq w reg hm hv tr f hf]
      exact walk_fine _ _ _ _ (fun p hp b w' hk =>
        visit_fine (fun i j x _ => hf i j x) (fun i j x _ => hf' i j x) (hm.keeps hk)
          (pos_range hv hp) b)
    · cases tr with
      | rowMajor =>
        rw [appi_invalid w reg hm hrow hcol hv]
        split
        · exact keeps_refl w
        · exact keeps_refl w
      | colMajor =>
        obtain ⟨e, he⟩ := col_invalid w reg hm hv (fun i j x _ => f i j x) ()
        simp only [appi]
        rw [he]
        exact keeps_refl w
  · by_cases hv : ValidRegion reg
    · rw [modifyi_eq w reg hm hv tr f hf]
      exact walk_fine _ _ _ _ (fun p hp b w' hk =>
        alter_fine hf hf' (hm.keeps hk) (pos_range hv hp))
    · cases tr with
      | rowMajor =>
        rw [modifyi_invalid w reg hm hrow hcol hv]
        split
        · exact keeps_refl w
        · exact keeps_refl w
      | colMajor =>
        obtain ⟨e, he⟩ := col_invalid w reg hm hv (fun i j x _ => do
          let y ← f i j x
          update reg.base i j y) ()
        simp only [modifyi]
        rw [he]
        exact keeps_refl w

/-- A function that updates the array that is being traversed. -/
example : Steady (fun w : World Nat Nat => update a1 0 0 7 w) := fun w => by
  have h : Steady (update a1 0 0 7 : Prog (World Nat Nat) Unit) := steady_update a1 0 0 7
  exact h w

/-! ## copy -/

/-- `copy` of a valid region to where there is room for it: the elements of the destination
are those the source had before, also when source and destination are the same array and
overlap; nothing else is touched.  Distinct arrays have no row in common
(`C76_array_partial`, `C76_fromList`, `C76_tabulate_partial`). -/
theorem C76_copy (w : World V X) (src : Region) (dst : Arr2) (dr dc : Int)
    (hs : Made w src.base) (hd : Made w dst) (hv : ValidRegion src)
    (hr : Within dst.m dr (some (extent src.base.m src.row src.nrows)))
    (hc : Within dst.n dc (some (extent src.base.n src.col src.ncols)))
    (hsh : src.base.rows = dst.rows ∨ ∀ r ∈ src.base.rows, r ∉ dst.rows) :
    ∃ w', copy src dst dr dc w = .ok () w' ∧ w'.ext = w.ext ∧ Keeps w w' ∧
      (∀ l, l ∉ dst.rows → w'.heap.getD l [] = w.heap.getD l []) ∧
      ∀ p : Int × Int, 0 ≤ p.1 ∧ p.1 < dst.m → 0 ≤ p.2 ∧ p.2 < dst.n →
        elem (mat w' dst) p =
          if (dr ≤ p.1 ∧ p.1 < dr + extent src.base.m src.row src.nrows) ∧
            (dc ≤ p.2 ∧ p.2 < dc + extent src.base.n src.col src.ncols)
          then elem (mat w src.base) (p.1 - dr + src.row, p.2 - dc + src.col)
          else elem (mat w dst) p :=
  copy_ok w src dst dr dc hs hd hv hr hc hsh

example : Within a1.m 1 (some (extent a1.m 0 (some 2))) ∧
    Within a1.n 0 (some (extent a1.n 0 none)) ∧ ValidRegion ⟨a1, 0, 0, some 2, none⟩ := by
  refine ⟨?_, ?_, ?_, ?_⟩ <;> decide +kernel

example : copy ⟨a1, 0, 0, some 2, none⟩ a1 1 0 w1 =
    .ok () ⟨[[1, 2], [1, 2], [3, 4], [7, 8, 9], [10, 11, 12]], 0⟩ := by rfl

/-- `copy` raises Subscript if the source region is invalid or there is no room for it,
provided that the region has a row and the indices that are computed are integers.  What is
missing is shown by `C76_copy_violation`. -/
theorem C76_copy_invalid_partial (w : World V X) (src : Region) (dst : Arr2) (dr dc : Int)
    (hs : Made w src.base) (hd : Made w dst) (hcol : src.col ≤ maxInt)
    (hdr : minInt ≤ dr)
    (hrow : ∀ k, src.nrows = some k → src.row + k ≤ maxInt)
    (hov : Within src.base.n src.col src.ncols →
      dc + extent src.base.n src.col src.ncols ≤ maxInt)
    (hov' : Within src.base.m src.row src.nrows →
      src.row + extent src.base.m src.row src.nrows + dr ≤ maxInt)
    (hne : Within src.base.m src.row src.nrows → 0 < extent src.base.m src.row src.nrows)
    (hb : ¬ (ValidRegion src ∧
      Within dst.m dr (some (extent src.base.m src.row src.nrows)) ∧
      Within dst.n dc (some (extent src.base.n src.col src.ncols)))) :
    ∃ w', copy src dst dr dc w = .raise .subscript w' :=
  copy_raise w src dst dr dc hs hd hcol hdr hrow hov hov' hne hb

example : ¬ Within a1.m 2 (some (extent a1.m 1 none)) ∧ 0 < extent a1.m 1 none ∧
    copy ⟨a1, 1, 0, none, none⟩ a1 2 0 w1 = .raise .subscript w1 := by
  refine ⟨?_, ?_, rfl⟩ <;> decide +kernel

/-- Array2.sig says that `copy` raises Subscript if the region is invalid or there is no room
for it.  It does not if the region has no rows; it raises Overflow if `dst_row` is too large;
and, going top-down, it has copied rows when it finds that there is no room for the next. -/
theorem C76_copy_violation :
    copy ⟨a1, 0, 99, some 0, none⟩ a1 77 (-5) w1 = .ok () w1 ∧
    copy ⟨a1, 0, 0, some 2, none⟩ a1 maxInt 0 w1 = .raise .overflow w1 ∧
    copy ⟨a1, 1, 0, none, none⟩ ⟨[3], 1, 3⟩ 0 0 w1 =
      .raise .subscript ⟨[[1, 2], [3, 4], [5, 6], [3, 4, 9], [10, 11, 12]], 0⟩ := by
  refine ⟨rfl, ?_, rfl⟩
  rfl

/-! ## Making arrays -/

/-- `array` makes a new array of the dimensions and with the element asked for, or raises Size,
except for dimensions `(0, n)` where `n` is not a size: `C76_size_violation`. -/
theorem C76_array_partial (w : World V X) (m n : Int) (v : V)
    (hx : m = 0 → 0 ≤ n ∧ n ≤ maxLen) :
    ((0 ≤ m ∧ m ≤ maxLen) ∧ 0 ≤ n ∧ n ≤ maxLen → ∃ a w', array m n v w = .ok a w' ∧
      w'.ext = w.ext ∧ Made w' a ∧ a.m = m ∧ a.n = n ∧ New w w' a ∧
      mat w' a = List.replicate m.toNat (List.replicate n.toNat v)) ∧
    (¬ ((0 ≤ m ∧ m ≤ maxLen) ∧ 0 ≤ n ∧ n ≤ maxLen) → array m n v w = .raise .size w) := by
  refine ⟨?_, ?_⟩
  · rintro ⟨hm, hn⟩
    obtain ⟨k1, k2, k3⟩ := made_new w.heap
      (List.replicate m.toNat (List.replicate n.toNat v)) w.ext n hn.1 hn.2 (by simp; omega)
      (fun xs hxs => by rw [List.eq_of_mem_replicate hxs]; simp; omega)
    have e : ((List.replicate m.toNat (List.replicate n.toNat v)).length : Int) = m := by
      simp; omega
    rw [e] at k1 k2 k3
    rw [List.length_replicate] at k1 k2 k3
    exact ⟨_, _, array_eq m n v hm hn w, rfl, k1, rfl, rfl, k3 w.ext, k2⟩
  · intro h
    simp only [array, bind_apply]
    rw [vecTab]
    by_cases hm : 0 ≤ m ∧ m ≤ maxLen
    · have hn : ¬ (0 ≤ n ∧ n ≤ maxLen) := fun hn => h ⟨hm, hn⟩
      have hpos : 0 < m := by
        by_contra hc
        exact hn (hx (by omega))
      rw [if_pos hm]
      obtain ⟨k, hk⟩ : ∃ k, m.toNat = k + 1 := ⟨m.toNat - 1, by omega⟩
      rw [hk, idx_succ, results_cons]
      simp only [Arrays.array]
      rw [if_pos (by omega)]
      rfl
    · rw [if_neg hm]

example : ∃ w', array 2 2 5 w1 = .ok ⟨[5, 6], 2, 2⟩ w' ∧ mat w' ⟨[5, 6], 2, 2⟩ = [[5, 5], [5, 5]] :=
  ⟨_, rfl, rfl⟩

/-- `fromList` makes a new array of the elements, or raises Size if the lists are not all of
the same length. -/
theorem C76_fromList (w : World V X) (xss : List (List V)) :
    (xss = [] → fromList xss w = .ok ⟨[], 0, 0⟩ w) ∧
    (∀ n : Nat, xss ≠ [] → (∀ xs ∈ xss, xs.length = n) → (n : Int) ≤ maxLen →
      (xss.length : Int) ≤ maxLen → ∃ a w', fromList xss w = .ok a w' ∧ w'.ext = w.ext ∧
        Made w' a ∧ a.m = xss.length ∧ a.n = n ∧ New w w' a ∧ mat w' a = xss) ∧
    ((∃ xs ∈ xss, ∃ ys ∈ xss, xs.length ≠ ys.length) →
      ∃ w', fromList xss w = .raise .size w' ∧ w.heap <+: w'.heap ∧ w'.ext = w.ext) := by
  refine ⟨?_, ?_, ?_⟩
  · rintro rfl
    simp only [fromList, bind_apply]
    rw [vecFromList [] (by decide +kernel)]
    rfl
  · intro n hne hx hn hm
    obtain ⟨k1, k2, k3⟩ := made_new w.heap xss w.ext n (by omega) hn hm
      (fun xs hxs => by rw [hx xs hxs])
    exact ⟨_, _, fromList_eq xss hne n hx hn hm w, rfl, k1, rfl, rfl, k3 w.ext, k2⟩
  · rintro ⟨xs, h1, ys, h2, hd⟩
    exact fromList_size xss xs ys h1 h2 hd w

example : ∃ w', fromList [[1, 2, 3], [4, 5, 6]] w1 = .ok ⟨[5, 6], 2, 3⟩ w' ∧
    mat w' ⟨[5, 6], 2, 3⟩ = [[1, 2, 3], [4, 5, 6]] := ⟨_, rfl, rfl⟩

/-- `tabulate` calls `f` once for every position, in the order asked for; the elements are its
results; an exception ends it.  Stated for functions `f` that have any effect but on arrays. -/
theorem C76_tabulate_partial (w : World V X) (m n : Int) (hm : 0 ≤ m ∧ m ≤ maxLen)
    (hn : 0 ≤ n ∧ n ≤ maxLen) (tr : Traversal) (g : Int → Int → Prog X V) :
    (∀ vs x', results (fun p : Int × Int => g p.1 p.2) (order tr 0 m.toNat 0 n.toNat) w.ext =
        .ok vs x' →
      ∃ a w', tabulate tr m n (fun i j => effect (g i j)) w = .ok a w' ∧ w'.ext = x' ∧
        Made w' a ∧ a.m = m ∧ a.n = n ∧ New w w' a ∧
        (order tr 0 m.toNat 0 n.toNat).map (elem (mat w' a)) = vs.map some) ∧
    (∀ e x', results (fun p : Int × Int => g p.1 p.2) (order tr 0 m.toNat 0 n.toNat) w.ext =
        .raise e x' →
      ∃ w', tabulate tr m n (fun i j => effect (g i j)) w = .raise e w' ∧ w'.ext = x' ∧
        w.heap <+: w'.heap) := by
  cases tr with
  | rowMajor =>
    exact ⟨fun vs x' h => tabulateRow_ok m n hm hn g w vs x' h,
      fun e x' h => tabulateRow_raise m n hm hn g w e x' h⟩
  | colMajor =>
    by_cases hp : m > 0 ∧ n > 0
    · obtain ⟨m', rfl⟩ : ∃ k : Nat, m = (k + 1 : Nat) := ⟨(m - 1).toNat, by omega⟩
      obtain ⟨n', rfl⟩ : ∃ k : Nat, n = (k + 1 : Nat) := ⟨(n - 1).toNat, by omega⟩
      simp only [Int.toNat_natCast]
      exact ⟨fun vs x' h => tabCol_ok m' n' hm.2 hn.2 g w vs x' h,
        fun e x' h => tabCol_raise m' n' hm.2 hn.2 g w e x' h⟩
    · have hz : ∀ tr, order tr 0 m.toNat 0 n.toNat = [] := by
        intro tr
        have hz : m.toNat = 0 ∨ n.toNat = 0 := by omega
        cases tr <;> rcases hz with h | h <;> simp [order, h, idx]
      have e : tabulate .colMajor m n (fun i j => effect (g i j)) w =
          tabulateRow m n (fun i j => effect (g i j)) w := by
        simp only [tabulate]
        rw [if_neg hp]
      have e2 := hz .rowMajor
      rw [hz .colMajor, e]
      refine ⟨fun vs x' h => ?_, fun ex x' h => ?_⟩
      · have := tabulateRow_ok m n hm hn g w vs x' (by rw [e2]; exact h)
        rw [e2] at this
        exact this
      · have := tabulateRow_raise m n hm hn g w ex x' (by rw [e2]; exact h)
        exact this

/-- A function that numbers its calls. -/
def counter (_ _ : Int) : Prog Nat Nat := fun x => .ok x (x + 1)

example : results (fun p : Int × Int => counter p.1 p.2) (order .colMajor 0 2 0 3) 0 =
    .ok [0, 1, 2, 3, 4, 5] 6 := by rfl

example : ∃ w', tabulate .colMajor 2 3 (fun i j => effect (counter i j)) w1 =
    .ok ⟨[5, 6], 2, 3⟩ w' ∧ mat w' ⟨[5, 6], 2, 3⟩ = [[0, 2, 4], [1, 3, 5]] := ⟨_, rfl, rfl⟩

/-- `tabulate` raises Size, before `f` is called, if a dimension is negative, except for
dimensions `(0, n)`: `C76_size_violation`. -/
theorem C76_tabulate_size_partial (w : World V X) (m n : Int) (tr : Traversal)
    (f : Int → Int → Prog (World V X) V) (h : m < 0 ∨ n < 0) (hm : m ≠ 0) (hl : m ≤ maxLen) :
    tabulate tr m n f w = .raise .size w := by
  have key : tabulateRow m n f w = .raise .size w := by
    simp only [tabulateRow, bind_apply]
    rw [vecTab]
    by_cases h0 : m < 0
    · rw [if_neg (by omega)]
    · rw [if_pos (by omega)]
      obtain ⟨k, hk⟩ : ∃ k, m.toNat = k + 1 := ⟨m.toNat - 1, by omega⟩
      rw [hk, idx_succ, results_cons, (C75_tabulate w n _).2, if_neg (by omega)]
  cases tr with
  | rowMajor => exact key
  | colMajor =>
    simp only [tabulate]
    rw [if_neg (by omega)]
    exact key

example : tabulate .colMajor 2 (-3) (fun i j => effect (counter i j)) w1 =
    .raise .size w1 := by rfl

/-- Array2.sig says that `array` and `tabulate` raise Size if `n < 0` or `m < 0`.  If there are
no rows they make an array with a negative number of columns, whose elements can be modified in
row-major order but not in column-major order, although there are none. -/
theorem C76_size_violation (w : World V X) (v : V) (tr : Traversal)
    (f : Int → Int → Prog (World V X) V) (g : V → Prog (World V X) V) :
    array 0 (-1) v w = .ok ⟨[], 0, -1⟩ w ∧ tabulate tr 0 (-1) f w = .ok ⟨[], 0, -1⟩ w ∧
    modify .rowMajor g ⟨[], 0, -1⟩ w = .ok () w ∧
    modify .colMajor g ⟨[], 0, -1⟩ w = .raise .subscript w := by
  refine ⟨rfl, ?_, rfl, rfl⟩
  cases tr <;> rfl

end Mosml.Matrix
