import Verif.Matrix.Tab

namespace Mosml.Matrix

open Mosml.Arrays

variable {V X : Type}

theorem splice_get (xs ys : List V) (j : Int) (hj : 0 ≤ j) (hl : j + ys.length ≤ xs.length)
    (q : Int) (hq : 0 ≤ q) :
    (splice xs j ys)[q.toNat]? =
      if j ≤ q ∧ q < j + ys.length then ys[(q - j).toNat]? else xs[q.toNat]? := by
  simp only [splice]
  have h1 : (xs.take j.toNat).length = j.toNat := by simp; omega
  by_cases a : q < j
  · rw [if_neg (by omega), List.append_assoc, List.getElem?_append_left (by omega),
      List.getElem?_take_of_lt (by omega)]
  · by_cases b : q < j + ys.length
    · rw [if_pos (by omega), List.append_assoc, List.getElem?_append_right (by omega), h1,
        List.getElem?_append_left (by omega)]
      congr 1
      omega
    · rw [if_neg (by omega), List.getElem?_append_right (by simp; omega), List.getElem?_drop]
      congr 1
      simp
      omega

theorem splice_length (xs ys : List V) (j : Int) (hj : 0 ≤ j) (hl : j + ys.length ≤ xs.length) :
    (splice xs j ys).length = xs.length := by
  simp only [splice, List.length_append, List.length_take, List.length_drop]
  omega

theorem seg_get (xs : List V) (c : Int) (hc : 0 ≤ c) (k : Nat) (q : Nat) (hq : q < k) :
    (seg xs c k)[q]? = xs[(c + q).toNat]? := by
  simp only [seg]
  rw [List.getElem?_take_of_lt hq, List.getElem?_drop]
  congr 1
  omega

theorem withArr_getD (w : World V X) (l r : Nat) (xs : List V) (hl : l < w.heap.length) :
    (withArr w l xs).heap.getD r [] = if l = r then xs else w.heap.getD r [] := by
  simp only [withArr, List.getD_eq_getElem?_getD, List.getElem?_set]
  by_cases h : l = r
  · subst h
    rw [if_pos rfl, if_pos hl, if_pos rfl]
    rfl
  · rw [if_neg h, if_neg h]

theorem withArr_keeps (w : World V X) (l : Nat) (xs : List V) (hl : l < w.heap.length)
    (hx : xs.length = (w.heap.getD l []).length) : Keeps w (withArr w l xs) := by
  intro r hr
  refine ⟨by simpa [withArr] using hr, ?_⟩
  rw [withArr_getD w l r xs hl]
  split
  · next e => rw [hx, e]
  · rfl

/-- The copying of one row. -/
def step (sl dl : Nat → Nat) (col : Int) (k : Nat) (dc : Int) (w : World V X) (t : Nat) :
    World V X :=
  withArr w (dl t) (splice (w.heap.getD (dl t) []) dc (seg (w.heap.getD (sl t) []) col k))

theorem steps (sl dl : Nat → Nat) (col : Int) (k : Nat) (dc : Int) (hc : 0 ≤ col) (hd : 0 ≤ dc)
    (ts : List Nat) : ∀ w : World V X,
    (∀ t ∈ ts, dl t < w.heap.length ∧ col + k ≤ (w.heap.getD (sl t) []).length ∧
      dc + k ≤ (w.heap.getD (dl t) []).length) →
    (∀ t ∈ ts, ∀ t' ∈ ts, dl t = dl t' → t = t') → ts.Nodup →
    ts.Pairwise (fun t t' => sl t' ≠ dl t) →
    (∀ t ∈ ts, (ts.foldl (step sl dl col k dc) w).heap.getD (dl t) [] =
      splice (w.heap.getD (dl t) []) dc (seg (w.heap.getD (sl t) []) col k)) ∧
    (∀ l, (∀ t ∈ ts, l ≠ dl t) →
      (ts.foldl (step sl dl col k dc) w).heap.getD l [] = w.heap.getD l []) ∧
    (ts.foldl (step sl dl col k dc) w).ext = w.ext ∧
    Keeps w (ts.foldl (step sl dl col k dc) w) := by
  induction ts with
  | nil => intro w _ _ _ _; exact ⟨by simp, fun l _ => rfl, rfl, keeps_refl w⟩
  | cons t ts ih =>
    intro w hok hinj hnd hpw
    obtain ⟨h1, h2, h3⟩ := hok t (by simp)
    rw [List.nodup_cons] at hnd
    rw [List.pairwise_cons] at hpw
    have hsl : (seg (w.heap.getD (sl t) []) col k).length = k := seg_length _ hc _ h2
    have hk : Keeps w (step sl dl col k dc w t) := by
      refine withArr_keeps w _ _ h1 ?_
      rw [splice_length _ _ _ hd (by rw [hsl]; exact h3)]
    have hget : ∀ r, (step sl dl col k dc w t).heap.getD r [] = if dl t = r then
        splice (w.heap.getD (dl t) []) dc (seg (w.heap.getD (sl t) []) col k)
        else w.heap.getD r [] := fun r => withArr_getD w _ r _ h1
    have hlen : ∀ r, ((step sl dl col k dc w t).heap.getD r []).length =
        (w.heap.getD r []).length := by
      intro r
      rw [hget]
      split
      · next e => rw [splice_length _ _ _ hd (by rw [hsl]; exact h3), e]
      · rfl
    obtain ⟨i1, i2, i3, i4⟩ := ih (step sl dl col k dc w t) (by
      intro t' ht'
      obtain ⟨a, b, c⟩ := hok t' (by simp [ht'])
      refine ⟨(hk _ a).1, ?_, ?_⟩
      · rw [hlen]; exact b
      · rw [hlen]; exact c)
      (fun a ha b hb => hinj a (by simp [ha]) b (by simp [hb])) hnd.2 hpw.2
    rw [List.foldl_cons]
    refine ⟨?_, ?_, i3, keeps_trans hk i4⟩
    · intro t' ht'
      rcases List.mem_cons.1 ht' with rfl | ht'
      · rw [i2 (dl t') (fun u hu e => hnd.1 (by
          rw [hinj t' (by simp) u (by simp [hu]) e]; exact hu)), hget, if_pos rfl]
      · rw [i1 t' ht', hget, hget, if_neg, if_neg]
        · exact fun e => hpw.1 t' ht' e.symm
        · intro e
          exact hnd.1 (by rw [hinj t (by simp) t' (by simp [ht']) e]; exact ht')
    · intro l hl
      rw [i2 l (fun u hu => hl u (by simp [hu])), hget, if_neg]
      exact fun e => hl t (by simp) e.symm

theorem within_start {len i : Int} {o : Option Int} (h : Within len i o) :
    0 ≤ i ∧ i + extent len i o ≤ len := by
  cases o <;> simp only [Within] at h <;> simp only [extent] <;> omega

section
variable (sa da : Arr2) (col : Int) (ncols : Option Int) (dc : Int)

theorem copyRow_ok {w : World V X} (hs : Made w sa) (hd : Made w da) (hc : Within sa.n col ncols)
    (hdc : 0 ≤ dc ∧ dc + extent sa.n col ncols ≤ da.n) {i i' : Int} (hi : 0 ≤ i ∧ i < sa.m)
    (hi' : 0 ≤ i' ∧ i' < da.m) :
    copyRow sa da col ncols dc i i' w = .ok () (withArr w (da.rows.getD i'.toNat 0)
      (splice (w.heap.getD (da.rows.getD i'.toNat 0) []) dc
        (seg (w.heap.getD (sa.rows.getD i.toNat 0) []) col (extent sa.n col ncols)))) := by
  have hml : maxLen = 18014398509481983 := rfl
  have hma : maxInt = 4611686018427387903 := rfl
  have e1 := hs.height
  have e2 := hd.height
  have e3 := hd.narrow
  obtain ⟨h1, h2⟩ := rowSlice hs hi col ncols hc
  have hr' := hd.row hi'.1 hi'.2
  have hw' := hd.width _ hr'
  simp only [copyRow, bind_apply]
  rw [rowAt_eq w hi.1 (by omega)]
  simp only
  rw [h1]
  simp only
  rw [rowAt_eq w hi'.1 (by omega)]
  simp only
  rw [C75_copy_partial w _ _ _ _ dc h2 (hd.there _ hr') (by omega) (by omega),
    if_pos ⟨hdc.1, by omega⟩]
  simp only [elems, cells, Int.toNat_natCast]

theorem copyRow_raise {w : World V X} (hs : Made w sa) (hd : Made w da) {i i' : Int}
    (hi : 0 ≤ i ∧ i < sa.m) (hcol : col ≤ maxInt)
    (hov : Within sa.n col ncols → dc + extent sa.n col ncols ≤ maxInt)
    (hbad : ¬ (Within sa.n col ncols ∧ (0 ≤ dc ∧ dc + extent sa.n col ncols ≤ da.n) ∧
      0 ≤ i' ∧ i' < da.m)) :
    copyRow sa da col ncols dc i i' w = .raise .subscript w := by
  have e1 := hs.height
  have e2 := hd.height
  have e3 := hd.narrow
  have e4 := hs.narrow
  have hr := hs.row hi.1 hi.2
  have hw := hs.width _ hr
  simp only [copyRow, bind_apply]
  rw [rowAt_eq w hi.1 (by omega)]
  simp only
  by_cases hc : Within sa.n col ncols
  · obtain ⟨h1, h2⟩ := rowSlice hs hi col ncols hc
    rw [h1]
    simp only
    by_cases hi' : 0 ≤ i' ∧ i' < da.m
    · have hr' := hd.row hi'.1 hi'.2
      have hw' := hd.width _ hr'
      rw [rowAt_eq w hi'.1 (by omega)]
      simp only
      rw [C75_copy_partial w _ _ _ _ dc h2 (hd.there _ hr') (by omega) (hov hc), if_neg]
      intro hh
      exact hbad ⟨hc, ⟨hh.1, by omega⟩, hi'⟩
    · rw [rowAt_raise w (by omega)]
  · rw [slice_raise w (.arr (sa.rows.getD i.toNat 0)) (hs.there _ hr) (by simp only [cells]; omega) col hcol ncols
      (by simp only [cells]; rw [hw]; exact hc)]

theorem topDown_eq (row dr stoprow : Int) (hc : Within sa.n col ncols)
    (hdc : 0 ≤ dc ∧ dc + extent sa.n col ncols ≤ da.n) (h0 : 0 ≤ row) (hst : stoprow ≤ sa.m)
    (hd0 : 0 ≤ dr) (hdst : dr + (stoprow - row) ≤ da.m) :
    ∀ (q fuel t : Nat) (w : World V X), q < fuel → row + t + q = stoprow →
    Made w sa → Made w da →
    topDown sa da col ncols dc stoprow fuel (row + t) (dr + t) w =
      .ok () ((List.range' t q).foldl (step (fun t => sa.rows.getD (row + t).toNat 0)
        (fun t => da.rows.getD (dr + t).toNat 0) col (extent sa.n col ncols) dc) w) := by
  have hml : maxLen = 18014398509481983 := rfl
  have hmi : minInt = -4611686018427387904 := rfl
  have hma : maxInt = 4611686018427387903 := rfl
  have hcs := within_start hc
  intro q
  induction q with
  | zero =>
    intro fuel t w hf ht hs hd
    obtain ⟨fuel, rfl⟩ : ∃ n, fuel = n + 1 := ⟨fuel - 1, by omega⟩
    simp only [topDown]
    rw [if_pos (by omega)]
    rfl
  | succ q ih =>
    intro fuel t w hf ht hs hd
    obtain ⟨fuel, rfl⟩ : ∃ n, fuel = n + 1 := ⟨fuel - 1, by omega⟩
    have e1 := hs.few
    have e2 := hd.few
    simp only [topDown]
    rw [if_neg (by omega), bind_apply,
      copyRow_ok sa da col ncols dc hs hd hc hdc (i := row + t) (i' := dr + t)
        ⟨by omega, by omega⟩ ⟨by omega, by omega⟩]
    simp only
    rw [chk_ok (by omega) (by omega), chk_ok (by omega) (by omega)]
    have hr := hs.row (i := row + t) (by omega) (by omega)
    have hr' := hd.row (i := dr + t) (by omega) (by omega)
    have hk : Keeps w (step (fun t => sa.rows.getD (row + t).toNat 0)
        (fun t => da.rows.getD (dr + t).toNat 0) col (extent sa.n col ncols) dc w t) := by
      refine withArr_keeps w _ _ (hd.there _ hr') ?_
      rw [splice_length _ _ _ hdc.1]
      rw [seg_length _ hcs.1 _ (by rw [hs.width _ hr]; exact hcs.2), hd.width _ hr']
      exact hdc.2
    have := ih fuel (t + 1) _ (by omega) (by push_cast; omega) (hs.keeps hk) (hd.keeps hk)
    push_cast at this
    rw [← add_assoc, ← add_assoc] at this
    rw [List.range'_succ, List.foldl_cons]
    exact this

theorem bottomUp_eq (row dr : Int) (h : Nat) (hc : Within sa.n col ncols)
    (hdc : 0 ≤ dc ∧ dc + extent sa.n col ncols ≤ da.n) (h0 : 0 ≤ row) (hst : row + h ≤ sa.m)
    (hd0 : 0 ≤ dr) (hdst : dr + h ≤ da.m) :
    ∀ (q fuel : Nat) (w : World V X), q < fuel → q ≤ h →
    Made w sa → Made w da →
    bottomUp sa da col ncols dc row fuel (row + q - 1) (dr + q - 1) w =
      .ok () ((List.range q).reverse.foldl (step (fun t => sa.rows.getD (row + t).toNat 0)
        (fun t => da.rows.getD (dr + t).toNat 0) col (extent sa.n col ncols) dc) w) := by
  have hml : maxLen = 18014398509481983 := rfl
  have hmi : minInt = -4611686018427387904 := rfl
  have hma : maxInt = 4611686018427387903 := rfl
  have hcs := within_start hc
  intro q
  induction q with
  | zero =>
    intro fuel w hf ht hs hd
    obtain ⟨fuel, rfl⟩ : ∃ n, fuel = n + 1 := ⟨fuel - 1, by omega⟩
    simp only [bottomUp]
    rw [if_pos (by omega)]
    rfl
  | succ q ih =>
    intro fuel w hf ht hs hd
    obtain ⟨fuel, rfl⟩ : ∃ n, fuel = n + 1 := ⟨fuel - 1, by omega⟩
    have e1 := hs.few
    have e2 := hd.few
    have e3 : row + ((q + 1 : Nat) : Int) - 1 = row + q := by omega
    have e4 : dr + ((q + 1 : Nat) : Int) - 1 = dr + q := by omega
    rw [e3, e4]
    simp only [bottomUp]
    rw [if_neg (by omega), bind_apply,
      copyRow_ok sa da col ncols dc hs hd hc hdc (i := row + q) (i' := dr + q)
        ⟨by omega, by omega⟩ ⟨by omega, by omega⟩]
    simp only
    rw [chk_ok (by omega) (by omega), chk_ok (by omega) (by omega)]
    have hr := hs.row (i := row + q) (by omega) (by omega)
    have hr' := hd.row (i := dr + q) (by omega) (by omega)
    have hk : Keeps w (step (fun t => sa.rows.getD (row + t).toNat 0)
        (fun t => da.rows.getD (dr + t).toNat 0) col (extent sa.n col ncols) dc w q) := by
      refine withArr_keeps w _ _ (hd.there _ hr') ?_
      rw [splice_length _ _ _ hdc.1]
      rw [seg_length _ hcs.1 _ (by rw [hs.width _ hr]; exact hcs.2), hd.width _ hr']
      exact hdc.2
    have := ih fuel _ (by omega) (by omega) (hs.keeps hk) (hd.keeps hk)
    rw [List.range_succ, List.reverse_append, List.reverse_singleton, List.singleton_append,
      List.foldl_cons]
    exact this

theorem topDown_raise (row dr stoprow : Int) (hcol : col ≤ maxInt)
    (hov : Within sa.n col ncols → dc + extent sa.n col ncols ≤ maxInt)
    (h0 : 0 ≤ row) (hst : stoprow ≤ sa.m) :
    ∀ (q fuel t : Nat) (w : World V X), q + 1 < fuel → row + t + (q + 1 : Nat) = stoprow →
    ¬ (Within sa.n col ncols ∧ (0 ≤ dc ∧ dc + extent sa.n col ncols ≤ da.n) ∧
      0 ≤ dr + t ∧ dr + t + (q + 1 : Nat) ≤ da.m) → Made w sa → Made w da →
    ∃ w', topDown sa da col ncols dc stoprow fuel (row + t) (dr + t) w = .raise .subscript w' := by
  have hml : maxLen = 18014398509481983 := rfl
  have hmi : minInt = -4611686018427387904 := rfl
  have hma : maxInt = 4611686018427387903 := rfl
  intro q
  induction q with
  | zero =>
    intro fuel t w hf ht hb hs hd
    obtain ⟨fuel, rfl⟩ : ∃ n, fuel = n + 1 := ⟨fuel - 1, by omega⟩
    refine ⟨w, ?_⟩
    simp only [topDown]
    rw [if_neg (by omega), bind_apply, copyRow_raise sa da col ncols dc hs hd
      ⟨by omega, by omega⟩ hcol hov (fun h => hb ⟨h.1, h.2.1, h.2.2.1, by omega⟩)]
  | succ q ih =>
    intro fuel t w hf ht hb hs hd
    obtain ⟨fuel, rfl⟩ : ∃ n, fuel = n + 1 := ⟨fuel - 1, by omega⟩
    have e1 := hs.few
    have e2 := hd.few
    simp only [topDown]
    rw [if_neg (by omega), bind_apply]
    by_cases hb' : Within sa.n col ncols ∧ (0 ≤ dc ∧ dc + extent sa.n col ncols ≤ da.n) ∧
        0 ≤ dr + t ∧ dr + t < da.m
    · obtain ⟨hc, hdc, hi'⟩ := hb'
      have hcs := within_start hc
      rw [copyRow_ok sa da col ncols dc hs hd hc hdc (i := row + t) (i' := dr + t)
        ⟨by omega, by omega⟩ hi']
      simp only
      rw [chk_ok (by omega) (by omega), chk_ok (by omega) (by omega)]
      have hr := hs.row (i := row + t) (by omega) (by omega)
      have hr' := hd.row (i := dr + t) (by omega) (by omega)
      have hk : Keeps w (step (fun t => sa.rows.getD (row + t).toNat 0)
          (fun t => da.rows.getD (dr + t).toNat 0) col (extent sa.n col ncols) dc w t) := by
        refine withArr_keeps w _ _ (hd.there _ hr') ?_
        rw [splice_length _ _ _ hdc.1]
        rw [seg_length _ hcs.1 _ (by rw [hs.width _ hr]; exact hcs.2), hd.width _ hr']
        exact hdc.2
      have := ih fuel (t + 1) _ (by omega) (by push_cast; omega)
        (fun h => hb ⟨h.1, h.2.1, by omega, by push_cast at h ⊢; omega⟩)
        (hs.keeps hk) (hd.keeps hk)
      push_cast at this
      rw [← add_assoc, ← add_assoc] at this
      exact this
    · rw [copyRow_raise sa da col ncols dc hs hd ⟨by omega, by omega⟩ hcol hov hb']
      exact ⟨w, rfl⟩

theorem bottomUp_raise (row dr : Int) (h : Nat) (hcol : col ≤ maxInt)
    (hov : Within sa.n col ncols → dc + extent sa.n col ncols ≤ maxInt)
    (h0 : 0 ≤ row) (hst : row + (h + 1 : Nat) ≤ sa.m) (hd1 : row ≤ dr)
    (hb : ¬ (Within sa.n col ncols ∧ (0 ≤ dc ∧ dc + extent sa.n col ncols ≤ da.n) ∧
      0 ≤ dr ∧ dr + (h + 1 : Nat) ≤ da.m)) (fuel : Nat) (w : World V X) (hs : Made w sa)
    (hd : Made w da) :
    bottomUp sa da col ncols dc row (fuel + 1) (row + (h + 1 : Nat) - 1) (dr + (h + 1 : Nat) - 1) w =
      .raise .subscript w := by
  simp only [bottomUp]
  rw [if_neg (by omega), bind_apply, copyRow_raise sa da col ncols dc hs hd
    ⟨by omega, by omega⟩ hcol hov (fun h => hb ⟨h.1, h.2.1, by omega, by omega⟩)]

end

theorem mat_elem (w : World V X) (a : Arr2) (p : Int × Int) (h1 : 0 ≤ p.1)
    (h2 : p.1 < a.rows.length) :
    elem (mat w a) p = (w.heap.getD (a.rows.getD p.1.toNat 0) [])[p.2.toNat]? := by
  simp only [elem, mat, List.getElem?_map]
  rw [getD_get _ _ (by omega), List.getElem?_eq_getElem (by omega)]
  rfl

/-- The two directions copy the same rows, no row of the source after it was overwritten. -/
theorem copy_steps (w : World V X) (src : Region) (dst : Arr2) (dr dc : Int)
    (hs : Made w src.base) (hd : Made w dst) (hv : ValidRegion src)
    (hr : Within dst.m dr (some (extent src.base.m src.row src.nrows)))
    (hc : Within dst.n dc (some (extent src.base.n src.col src.ncols))) :
    ∃ ts : List Nat, (∀ t, t ∈ ts ↔ t < extent src.base.m src.row src.nrows) ∧ ts.Nodup ∧
      (src.row ≤ dr → ts.Pairwise (fun t t' => t' < t)) ∧
      (dr < src.row → ts.Pairwise (fun t t' => t < t')) ∧
      copy src dst dr dc w =
      .ok () (ts.foldl (step (fun t => src.base.rows.getD (src.row + t).toNat 0)
        (fun t => dst.rows.getD (dr + t).toNat 0) src.col
        (extent src.base.n src.col src.ncols) dc) w) := by
  have hml : maxLen = 18014398509481983 := rfl
  have hmi : minInt = -4611686018427387904 := rfl
  have hma : maxInt = 4611686018427387903 := rfl
  have e1 := hs.few
  have e2 := hd.few
  have h1 := within_start hv.1
  have h2 := within_start hv.2
  simp only [Within] at hr hc
  simp only [copy, bind_apply]
  rw [stop_ok _ _ _ hv.1 e1]
  simp only
  by_cases hle : src.row ≤ dr
  · refine ⟨(List.range (extent src.base.m src.row src.nrows)).reverse, by simp,
      List.nodup_reverse.2 List.nodup_range, fun _ => ?_, fun h => absurd h (by omega), ?_⟩
    · rw [List.pairwise_reverse]
      exact List.pairwise_lt_range
    · rw [if_pos hle, chk_ok (by omega) (by omega), chk_ok (by omega) (by omega),
        chk_ok (by omega) (by omega)]
      have := bottomUp_eq src.base dst src.col src.ncols dc src.row dr
        (extent src.base.m src.row src.nrows) hv.2 ⟨hc.1, by omega⟩ h1.1 h1.2 hr.1 (by omega)
        (extent src.base.m src.row src.nrows)
        (rounds (src.row + extent src.base.m src.row src.nrows - src.row)) w
        (by simp only [rounds]; omega) le_rfl hs hd
      have e3 : src.row + (extent src.base.m src.row src.nrows : Int) - 1 + dr - src.row =
        dr + extent src.base.m src.row src.nrows - 1 := by omega
      rw [e3]
      exact this
  · refine ⟨List.range' 0 (extent src.base.m src.row src.nrows), by
      simp [List.mem_range'_1], List.nodup_range', fun h => absurd h hle, fun _ => ?_, ?_⟩
    · exact List.pairwise_lt_range'
    · rw [if_neg hle]
      have := topDown_eq src.base dst src.col src.ncols dc src.row dr
        (src.row + extent src.base.m src.row src.nrows) hv.2 ⟨hc.1, by omega⟩ h1.1 h1.2 hr.1
        (by omega) (extent src.base.m src.row src.nrows)
        (rounds (src.row + extent src.base.m src.row src.nrows - src.row)) 0 w
        (by simp only [rounds]; omega) (by simp) hs hd
      simpa using this

theorem copy_ok (w : World V X) (src : Region) (dst : Arr2) (dr dc : Int)
    (hs : Made w src.base) (hd : Made w dst) (hv : ValidRegion src)
    (hr : Within dst.m dr (some (extent src.base.m src.row src.nrows)))
    (hc : Within dst.n dc (some (extent src.base.n src.col src.ncols)))
    (hsh : src.base.rows = dst.rows ∨ ∀ r ∈ src.base.rows, r ∉ dst.rows) :
    ∃ w', copy src dst dr dc w = .ok () w' ∧ w'.ext = w.ext ∧ Keeps w w' ∧
      (∀ l, l ∉ dst.rows → w'.heap.getD l [] = w.heap.getD l []) ∧
      ∀ p : Int × Int, 0 ≤ p.1 ∧ p.1 < dst.m → 0 ≤ p.2 ∧ p.2 < dst.n →
        elem (mat w' dst) p =
          if (dr ≤ p.1 ∧ p.1 < dr + extent src.base.m src.row src.nrows) ∧
            (dc ≤ p.2 ∧ p.2 < dc + extent src.base.n src.col src.ncols)
          then elem (mat w src.base) (p.1 - dr + src.row, p.2 - dc + src.col)
          else elem (mat w dst) p := by
  obtain ⟨ts, t1, t2, t3, t4, t5⟩ := copy_steps w src dst dr dc hs hd hv hr hc
  have h1 := within_start hv.1
  have h2 := within_start hv.2
  have e1 := hs.height
  have e2 := hd.height
  simp only [Within] at hr hc
  have hinj : ∀ i j : Int, 0 ≤ i → i < dst.m → 0 ≤ j → j < dst.m →
      dst.rows.getD i.toNat 0 = dst.rows.getD j.toNat 0 → i = j := by
    intro i j a b c d e
    rw [getD_get _ _ (by omega), getD_get _ _ (by omega)] at e
    have := (List.Nodup.getElem_inj_iff hd.distinct).1 e
    omega
  obtain ⟨s1, s2, s3, s4⟩ := steps (fun t => src.base.rows.getD (src.row + t).toNat 0)
    (fun t => dst.rows.getD (dr + t).toNat 0) src.col
    (extent src.base.n src.col src.ncols) dc h2.1 hc.1 ts w (by
      intro t ht
      rw [t1] at ht
      have a := hs.row (i := src.row + t) (by omega) (by omega)
      have b := hd.row (i := dr + t) (by omega) (by omega)
      refine ⟨hd.there _ b, ?_, ?_⟩
      · rw [hs.width _ a]; exact h2.2
      · rw [hd.width _ b]; omega) (by
      intro t ht t' ht' e
      rw [t1] at ht ht'
      have := hinj (dr + t) (dr + t') (by omega) (by omega) (by omega) (by omega) e
      omega) t2 (by
      have key : ∀ t t', t < extent src.base.m src.row src.nrows →
          t' < extent src.base.m src.row src.nrows →
          src.base.rows.getD (src.row + (t' : Int)).toNat 0 = dst.rows.getD (dr + (t : Int)).toNat 0 →
          src.row + t' = dr + t := by
        intro t t' ht ht' e
        rcases hsh with hsh | hsh
        · rw [hsh] at e
          have : src.base.m = dst.m := by rw [e1, e2, hsh]
          exact hinj _ _ (by omega) (by omega) (by omega) (by omega) e
        · exact absurd (e ▸ hd.row (i := dr + t) (by omega) (by omega))
            (hsh _ (hs.row (i := src.row + t') (by omega) (by omega)))
      by_cases hle : src.row ≤ dr
      · refine (List.Pairwise.and_mem.1 (t3 hle)).imp ?_
        rintro t t' ⟨ht, ht', hlt⟩ e
        have := key t t' ((t1 t).1 ht) ((t1 t').1 ht') e
        omega
      · refine (List.Pairwise.and_mem.1 (t4 (by omega))).imp ?_
        rintro t t' ⟨ht, ht', hlt⟩ e
        have := key t t' ((t1 t).1 ht) ((t1 t').1 ht') e
        omega)
  refine ⟨_, t5, s3, s4, ?_, ?_⟩
  · intro l hl
    refine s2 l ?_
    intro t ht e
    rw [t1] at ht
    exact hl (e ▸ hd.row (i := dr + t) (by omega) (by omega))
  · intro p hp1 hp2
    rw [mat_elem _ _ p hp1.1 (by omega), mat_elem _ _ p hp1.1 (by omega)]
    by_cases hin : dr ≤ p.1 ∧ p.1 < dr + extent src.base.m src.row src.nrows
    · have hidx : dr + ((p.1 - dr).toNat : Int) = p.1 := by omega
      have := s1 (p.1 - dr).toNat ((t1 _).2 (by omega))
      simp only [hidx] at this
      rw [this]
      have a := hs.row (i := src.row + (p.1 - dr).toNat) (by omega) (by omega)
      have b := hd.row hp1.1 hp1.2
      have hsl : (seg (w.heap.getD (src.base.rows.getD (src.row + ((p.1 - dr).toNat : Int)).toNat 0) [])
          src.col (extent src.base.n src.col src.ncols)).length =
          extent src.base.n src.col src.ncols :=
        seg_length _ h2.1 _ (by rw [hs.width _ a]; exact h2.2)
      rw [splice_get _ _ _ hc.1 (by rw [hsl, hd.width _ b]; omega) _ hp2.1, hsl]
      by_cases hjn : dc ≤ p.2 ∧ p.2 < dc + extent src.base.n src.col src.ncols
      · rw [if_pos hjn, if_pos ⟨hin, hjn⟩, seg_get _ _ h2.1 _ _ (by omega),
          mat_elem _ _ _ (by simp only; omega) (by simp only; omega)]
        have u1 : (src.row + ((p.1 - dr).toNat : Int)).toNat = (p.1 - dr + src.row).toNat := by omega
        have u2 : (src.col + ((p.2 - dc).toNat : Int)).toNat = (p.2 - dc + src.col).toNat := by omega
        rw [u1, u2]
      · rw [if_neg hjn, if_neg (fun h => hjn h.2)]
    · rw [if_neg (fun h => hin h.1), s2]
      intro t ht e
      rw [t1] at ht
      have := hinj p.1 (dr + t) hp1.1 hp1.2 (by omega) (by omega) e
      omega

theorem copy_raise (w : World V X) (src : Region) (dst : Arr2) (dr dc : Int)
    (hs : Made w src.base) (hd : Made w dst) (hcol : src.col ≤ maxInt)
    (hdr : minInt ≤ dr)
    (hrow : ∀ k, src.nrows = some k → src.row + k ≤ maxInt)
    (hov : Within src.base.n src.col src.ncols →
      dc + extent src.base.n src.col src.ncols ≤ maxInt)
    (hov' : Within src.base.m src.row src.nrows →
      src.row + extent src.base.m src.row src.nrows + dr ≤ maxInt)
    (hne : Within src.base.m src.row src.nrows → 0 < extent src.base.m src.row src.nrows)
    (hb : ¬ (ValidRegion src ∧
      Within dst.m dr (some (extent src.base.m src.row src.nrows)) ∧
      Within dst.n dc (some (extent src.base.n src.col src.ncols)))) :
    ∃ w', copy src dst dr dc w = .raise .subscript w' := by
  have hml : maxLen = 18014398509481983 := rfl
  have hmi : minInt = -4611686018427387904 := rfl
  have hma : maxInt = 4611686018427387903 := rfl
  have e1 := hs.few
  have e2 := hd.few
  simp only [copy, bind_apply]
  by_cases hwr : Within src.base.m src.row src.nrows
  · have h1 := within_start hwr
    have hpos := hne hwr
    rw [stop_ok _ _ _ hwr e1]
    simp only
    obtain ⟨h, hh⟩ : ∃ h, extent src.base.m src.row src.nrows = h + 1 :=
      ⟨extent src.base.m src.row src.nrows - 1, by omega⟩
    have hb' : ¬ (Within src.base.n src.col src.ncols ∧
        (0 ≤ dc ∧ dc + extent src.base.n src.col src.ncols ≤ dst.n) ∧
        0 ≤ dr ∧ dr + (h + 1 : Nat) ≤ dst.m) := by
      rintro ⟨a, b, c⟩
      refine hb ⟨⟨hwr, a⟩, ?_, ?_⟩
      · simp only [Within]; omega
      · simp only [Within]; omega
    have hov' := hov' hwr
    rw [hh] at h1 hov' ⊢
    by_cases hle : src.row ≤ dr
    · rw [if_pos hle, chk_ok (by omega) (by omega), chk_ok (by omega) (by omega),
        chk_ok (by omega) (by omega)]
      refine ⟨w, ?_⟩
      have e3 : src.row + ((h + 1 : Nat) : Int) - 1 + dr - src.row = dr + (h + 1 : Nat) - 1 := by
        omega
      rw [e3]
      exact bottomUp_raise src.base dst src.col src.ncols dc src.row dr h hcol hov h1.1 h1.2 hle
        hb' _ w hs hd
    · rw [if_neg hle]
      have := topDown_raise src.base dst src.col src.ncols dc src.row dr
        (src.row + (h + 1 : Nat)) hcol hov h1.1 h1.2 h
        (rounds (src.row + (h + 1 : Nat) - src.row)) 0 w (by simp only [rounds]; omega)
        (by simp) (by simpa using hb') hs hd
      simpa using this
  · rw [stop_raise _ _ _ hwr hrow]
    exact ⟨w, rfl⟩

end Mosml.Matrix
