import Verif.Matrix.Copy

namespace Mosml.Matrix

open Mosml.Arrays

variable {V X : Type}

theorem cell_ok {w : World V X} {a : Arr2} (h : Made w a) {i j : Int} (hi : 0 ≤ i ∧ i < a.m)
    (hj : 0 ≤ j ∧ j < a.n) :
    ∃ v, cell a i j w = .ok v w ∧ elem (mat w a) (i, j) = some v := by
  have hr := h.row hi.1 hi.2
  have hw := h.width _ hr
  have hh := h.height
  refine ⟨_, item_ok w _ hj.1 (by simp only [cells]; omega), ?_⟩
  rw [mat_elem _ _ _ hi.1 (by simp only; omega)]
  simp only [cells]
  rw [List.getElem?_eq_getElem (by omega)]

theorem mat_setCell {w : World V X} {a : Arr2} (h : Made w a) {i j : Int} (hi : 0 ≤ i ∧ i < a.m)
    (v : V) : ∃ w', setCell a i j v w = .ok () w' ∧ mat w' a = put2 (mat w a) (i, j) v ∧
      w'.ext = w.ext ∧ Keeps w w' ∧
      ∀ l, l ∉ a.rows → w'.heap.getD l [] = w.heap.getD l [] := by
  have hr := h.row hi.1 hi.2
  have hh := h.height
  have hl := h.there _ hr
  have hloc := getD_get a.rows i.toNat (by omega)
  simp only [setCell]
  generalize a.rows.getD i.toNat 0 = r at hr hl hloc ⊢
  refine ⟨withArr w r ((w.heap.getD r []).set j.toNat v), rfl, ?_, rfl,
    keeps_become w _ j v, ?_⟩
  · refine List.ext_getElem (by simp [put2, mat]) ?_
    intro k h1 h2
    have hk : k < a.rows.length := by simpa [mat] using h1
    simp only [mat, put2, List.getElem_map, List.getElem_set]
    rw [withArr_getD _ _ _ _ hl]
    by_cases e : i.toNat = k
    · subst e
      rw [if_pos hloc, if_pos rfl]
      have : (a.rows.map (fun r => w.heap.getD r [])).getD i.toNat [] = w.heap.getD r [] := by
        rw [hloc, List.getD_eq_getElem?_getD, List.getElem?_map, List.getElem?_eq_getElem hk]
        rfl
      rw [this]
    · rw [if_neg e, if_neg]
      intro e'
      exact e ((List.Nodup.getElem_inj_iff h.distinct).1 (hloc.symm.trans e'))
  · intro l hl'
    rw [withArr_getD _ _ _ _ hl, if_neg]
    intro e
    exact hl' (e ▸ hr)

/-- A walk that modifies distinct positions. -/
theorem alter_pure (a : Arr2) (g : Int → Int → V → V) : ∀ (ps : List (Int × Int)) (w : World V X),
    Made w a → (∀ p ∈ ps, (0 ≤ p.1 ∧ p.1 < a.m) ∧ 0 ≤ p.2 ∧ p.2 < a.n) → ps.Nodup →
    ∃ w', walk (fun p (_ : Unit) => alter a (fun i j x => pure (g i j x)) p) ps () w = .ok () w' ∧
      w'.ext = w.ext ∧ Keeps w w' ∧ (∀ l, l ∉ a.rows → w'.heap.getD l [] = w.heap.getD l []) ∧
      ∀ q : Int × Int, 0 ≤ q.1 → 0 ≤ q.2 → elem (mat w' a) q =
        if q ∈ ps then (elem (mat w a) q).map (g q.1 q.2) else elem (mat w a) q := by
  intro ps
  induction ps with
  | nil => intro w _ _ _; exact ⟨w, rfl, rfl, keeps_refl w, fun l _ => rfl, by simp⟩
  | cons p ps ih =>
    intro w hm hp hnd
    obtain ⟨hp1, hp2⟩ := hp p (by simp)
    rw [List.nodup_cons] at hnd
    obtain ⟨v, hv, hv'⟩ := cell_ok hm hp1 hp2
    obtain ⟨w1, k1, k2, k3, k4, k5⟩ := mat_setCell hm (i := p.1) (j := p.2) hp1 (g p.1 p.2 v)
    obtain ⟨w', i1, i2, i3, i4, i5⟩ := ih w1 (hm.keeps k4) (fun q hq => hp q (by simp [hq])) hnd.2
    refine ⟨w', ?_, i2.trans k3, keeps_trans k4 i3, fun l hl => (i4 l hl).trans (k5 l hl), ?_⟩
    · rw [walk_cons]
      simp only [alter, bind_apply, hv, pure_apply, k1]
      exact i1
    · intro q h1 h2
      have hrow := hm.row hp1.1 hp1.2
      have hh := hm.height
      have hg : ((mat w a).getD p.1.toNat []).length = a.n := by
        rw [List.getD_eq_getElem?_getD, mat, List.getElem?_map,
          List.getElem?_eq_getElem (by omega)]
        simp only [Option.map_some, Option.getD_some]
        rw [← getD_get _ _ (by omega)]
        exact hm.width _ hrow
      rw [i5 q h1 h2, k2]
      rw [elem_put2 (mat w a) (p.1, p.2) q _ hp1.1 hp2.1 h1 h2 (by simp only [mat, List.length_map]; omega)
        (by simp only; omega)]
      by_cases e : p = q
      · subst e
        rw [if_neg hnd.1, if_pos rfl, if_pos (by simp), hv']
        rfl
      · have e' : ¬ ((p.1, p.2) = q) := e
        rw [if_neg e']
        by_cases hq : q ∈ ps
        · rw [if_pos hq, if_pos (by simp [hq])]
        · rw [if_neg hq, if_neg]
          simp only [List.mem_cons, not_or]
          exact ⟨fun h => e h.symm, hq⟩

theorem visit_pure {β : Type} (a : Arr2) (g : Int → Int → V → β → β) (w : World V X)
    (hm : Made w a) : ∀ (ps : List (Int × Int)) (b : β),
    (∀ p ∈ ps, (0 ≤ p.1 ∧ p.1 < a.m) ∧ 0 ≤ p.2 ∧ p.2 < a.n) →
    walk (visit a (fun i j x b => pure (g i j x b))) ps b w =
      .ok (ps.foldl (fun b p => ((elem (mat w a) p).map (fun x => g p.1 p.2 x b)).getD b) b) w := by
  intro ps
  induction ps with
  | nil => intro b _; rfl
  | cons p ps ih =>
    intro b hp
    obtain ⟨hp1, hp2⟩ := hp p (by simp)
    obtain ⟨v, hv, hv'⟩ := cell_ok hm hp1 hp2
    rw [walk_cons, List.foldl_cons]
    simp only [visit, bind_apply, hv, pure_apply]
    have := ih (g p.1 p.2 v b) (fun q hq => hp q (by simp [hq]))
    have e : elem (mat w a) p = some v := hv'
    rw [e]
    exact this

theorem results_read {W ι β : Type} (g : ι → Prog W β) (u : ι → Option β) (w : W) (ks : List ι)
    (h : ∀ k ∈ ks, ∃ v, g k w = .ok v w ∧ u k = some v) :
    ∃ vs, results g ks w = .ok vs w ∧ vs.map some = ks.map u := by
  induction ks with
  | nil => exact ⟨[], rfl, rfl⟩
  | cons k ks ih =>
    obtain ⟨v, h1, h2⟩ := h k (by simp)
    obtain ⟨vs, h3, h4⟩ := ih (fun k' hk' => h k' (by simp [hk']))
    refine ⟨v :: vs, ?_, by simp [h2, h4]⟩
    rw [results_cons, h1]
    simp only [h3]

theorem pos_range {tr : Traversal} {reg : Region} (hv : ValidRegion reg) {p : Int × Int}
    (hp : p ∈ positions tr reg) :
    (0 ≤ p.1 ∧ p.1 < reg.base.m) ∧ 0 ≤ p.2 ∧ p.2 < reg.base.n := by
  obtain ⟨h1, h2⟩ := mem_order hp
  exact ⟨within_idx hv.1 h1, within_idx hv.2 h2⟩

/-! ## Nothing goes wrong -/

theorem stop_cases {W : Type} (len i : Int) (o : Option Int) (hl : len ≤ maxLen) (w : W) :
    (Within len i o ∧ stop len i o w = .ok (i + extent len i o) w) ∨
    ∃ e, stop len i o w = .raise e w := by
  by_cases h : Within len i o
  · exact Or.inl ⟨h, stop_ok _ _ _ h hl w⟩
  · right
    cases o with
    | none =>
      simp only [Within] at h
      simp only [stop]
      rw [if_pos (by omega)]
      exact ⟨_, rfl⟩
    | some k =>
      simp only [Within] at h
      simp only [stop]
      by_cases h' : i < 0 ∨ k < 0
      · rw [if_pos h']; exact ⟨_, rfl⟩
      · rw [if_neg h']
        simp only [chk]
        split
        · rw [if_pos (by omega)]; exact ⟨_, rfl⟩
        · exact ⟨_, rfl⟩

theorem slice_cases (w : World V X) (c : Cont V) (hc : Exists w c)
    (hm : ((cells w c).length : Int) ≤ maxLen) (i : Int) (hi : i ≤ maxInt) (o : Option Int) :
    Within (cells w c).length i o ∨ slice c i o w = .raise .subscript w := by
  by_cases h : Within (cells w c).length i o
  · exact Or.inl h
  · exact Or.inr (slice_raise w c hc hm i hi o h)

theorem visit_fine {β : Type} {a : Arr2} {f : Int → Int → V → β → Prog (World V X) β}
    (hf : ∀ i j x b, Steady (f i j x b)) (hf' : ∀ i j x b, Safe (f i j x b)) {w : World V X}
    (hm : Made w a) {p : Int × Int} (hp : (0 ≤ p.1 ∧ p.1 < a.m) ∧ 0 ≤ p.2 ∧ p.2 < a.n) (b : β) :
    Fine w (visit a f p b w) := by
  obtain ⟨v, hv, _⟩ := cell_ok hm hp.1 hp.2
  simp only [visit, bind_apply, hv]
  exact fine_of (hf' _ _ _ _) (hf _ _ _ _) w

theorem alter_fine {a : Arr2} {f : Int → Int → V → Prog (World V X) V}
    (hf : ∀ i j x, Steady (f i j x)) (hf' : ∀ i j x, Safe (f i j x)) {w : World V X}
    (hm : Made w a) {p : Int × Int} (hp : (0 ≤ p.1 ∧ p.1 < a.m) ∧ 0 ≤ p.2 ∧ p.2 < a.n) :
    Fine w (alter a f p w) := by
  obtain ⟨v, hv, _⟩ := cell_ok hm hp.1 hp.2
  simp only [alter]
  refine fine_bind (by rw [hv]; exact keeps_refl w) (fun x w' hk => ?_)
  exact fine_bind (fine_of (hf' _ _ _) (hf _ _ _) w') (fun y w'' _ => fine_become w'' _ _ y)

/-- When the columns are invalid, a row-major walk raises at the first row. -/
theorem rowWalk_raise {β : Type} (w : World V X) (a : Arr2) (hm : Made w a) (col : Int)
    (hcol : col ≤ maxInt) (o : Option Int) (hc : ¬ Within a.n col o)
    (k : Int → β → Slice V → Prog (World V X) β) (is : List Int)
    (his : ∀ i ∈ is, 0 ≤ i ∧ i < a.m) (b : β) :
    walk (fun i b => do
      let t ← slice (.arr (a.rows.getD i.toNat 0)) col o
      k i b t) is b w = if is = [] then .ok b w else .raise .subscript w := by
  cases is with
  | nil => rfl
  | cons i is =>
    obtain ⟨h0, h1⟩ := his i (by simp)
    have hr := hm.row h0 h1
    have hw := hm.width _ hr
    have hn := hm.narrow
    rw [walk_cons, bind_apply,
      slice_raise w (.arr (a.rows.getD i.toNat 0)) (hm.there _ hr) (by simp only [cells]; omega)
        col hcol o (by simp only [cells]; rw [hw]; exact hc)]
    simp

theorem vec_raise {α : Type} (w : World V X) (a : Arr2) (hm : Made w a) (row : Int)
    (hrow : row ≤ maxInt) (o : Option Int) (hr : ¬ Within a.m row o)
    (k : Slice Nat → Prog (World Nat (World V X)) α) :
    vecOp (do let s ← slice (.vec a.rows) row o; k s) w = .raise .subscript w := by
  have hh := hm.height
  have hf := hm.few
  refine vecOp_lift _ _ _ ?_
  rw [bind_apply, slice_raise (V := Nat) ⟨[], w⟩ (.vec a.rows) trivial
    (by simp only [cells]; omega) row hrow o (by simp only [cells]; rw [← hh]; exact hr)]
  rfl

theorem extent_nil {r : Int} {h : Nat} : idx r h = [] ↔ h = 0 := by
  simp [idx]

/-- The outcome for a region whose rows or columns are invalid. -/
theorem foldi_invalid {β : Type} (w : World V X) (reg : Region) (hm : Made w reg.base)
    (hrow : reg.row ≤ maxInt) (hcol : reg.col ≤ maxInt) (hv : ¬ ValidRegion reg)
    (f : Int → Int → V → β → Prog (World V X) β) (b : β) :
    foldi .rowMajor f b reg w =
      if Within reg.base.m reg.row reg.nrows ∧ extent reg.base.m reg.row reg.nrows = 0
      then .ok b w else .raise .subscript w := by
  by_cases hr : Within reg.base.m reg.row reg.nrows
  · have hc : ¬ Within reg.base.n reg.col reg.ncols := fun h => hv ⟨hr, h⟩
    simp only [foldi]
    refine (rowWalk w reg.base hm reg.row reg.nrows hr (fun i xs res => do
      let t ← slice (.arr xs) reg.col reg.ncols
      foldli (fun j x res => f i j x res) res t) b).trans ?_
    rw [rowWalk_raise w reg.base hm reg.col hcol reg.ncols hc
      (fun i b t => foldli (fun j x res => f i j x res) b t) _ (fun i hi => within_idx hr hi) b]
    simp only [extent_nil, hr, true_and]
  · rw [if_neg (fun h => hr h.1)]
    exact vec_raise w reg.base hm reg.row hrow reg.nrows hr _

theorem appi_invalid (w : World V X) (reg : Region) (hm : Made w reg.base)
    (hrow : reg.row ≤ maxInt) (hcol : reg.col ≤ maxInt) (hv : ¬ ValidRegion reg)
    (f : Int → Int → V → Prog (World V X) Unit) :
    appi .rowMajor f reg w =
      if Within reg.base.m reg.row reg.nrows ∧ extent reg.base.m reg.row reg.nrows = 0
      then .ok () w else .raise .subscript w := by
  by_cases hr : Within reg.base.m reg.row reg.nrows
  · have hc : ¬ Within reg.base.n reg.col reg.ncols := fun h => hv ⟨hr, h⟩
    simp only [appi]
    refine (rowWalkApp w reg.base hm reg.row reg.nrows hr (fun i xs => do
      let t ← slice (.arr xs) reg.col reg.ncols
      Arrays.appi (fun j x => f i j x) t)).trans ?_
    rw [rowWalk_raise w reg.base hm reg.col hcol reg.ncols hc
      (fun i _ t => Arrays.appi (fun j x => f i j x) t) _ (fun i hi => within_idx hr hi) ()]
    simp only [extent_nil, hr, true_and]
  · rw [if_neg (fun h => hr h.1)]
    exact vec_raise w reg.base hm reg.row hrow reg.nrows hr _

theorem modifyi_invalid (w : World V X) (reg : Region) (hm : Made w reg.base)
    (hrow : reg.row ≤ maxInt) (hcol : reg.col ≤ maxInt) (hv : ¬ ValidRegion reg)
    (f : Int → Int → V → Prog (World V X) V) :
    modifyi .rowMajor f reg w =
      if Within reg.base.m reg.row reg.nrows ∧ extent reg.base.m reg.row reg.nrows = 0
      then .ok () w else .raise .subscript w := by
  by_cases hr : Within reg.base.m reg.row reg.nrows
  · have hc : ¬ Within reg.base.n reg.col reg.ncols := fun h => hv ⟨hr, h⟩
    simp only [modifyi]
    refine (rowWalkApp w reg.base hm reg.row reg.nrows hr (fun i xs => do
      let t ← slice (.arr xs) reg.col reg.ncols
      Arrays.modifyi (fun j x => f i j x) xs t.i t.n)).trans ?_
    rw [rowWalk_raise w reg.base hm reg.col hcol reg.ncols hc
      (fun i _ t => Arrays.modifyi (fun j x => f i j x) (reg.base.rows.getD i.toNat 0) t.i t.n) _
      (fun i hi => within_idx hr hi) ()]
    simp only [extent_nil, hr, true_and]
  · rw [if_neg (fun h => hr h.1)]
    exact vec_raise w reg.base hm reg.row hrow reg.nrows hr _

/-- The column-major functions: both ranges are checked first. -/
theorem col_invalid {β : Type} (w : World V X) (reg : Region) (hm : Made w reg.base)
    (hv : ¬ ValidRegion reg) (f : Int → Int → V → β → Prog (World V X) β) (b : β) :
    ∃ e, foldi .colMajor f b reg w = .raise e w := by
  simp only [foldi, bind_apply]
  rcases stop_cases reg.base.m reg.row reg.nrows hm.few w with ⟨h1, e1⟩ | ⟨e, e1⟩
  · rw [e1]
    simp only
    rcases stop_cases reg.base.n reg.col reg.ncols hm.narrow w with ⟨h2, e2⟩ | ⟨e, e2⟩
    · exact absurd ⟨h1, h2⟩ hv
    · rw [e2]; exact ⟨e, rfl⟩
  · rw [e1]; exact ⟨e, rfl⟩

theorem col_subscript {β : Type} (w : World V X) (reg : Region) (hm : Made w reg.base)
    (hrow : ∀ k, reg.nrows = some k → reg.row + k ≤ maxInt)
    (hcol : ∀ k, reg.ncols = some k → reg.col + k ≤ maxInt)
    (hv : ¬ ValidRegion reg) (f : Int → Int → V → β → Prog (World V X) β) (b : β) :
    foldi .colMajor f b reg w = .raise .subscript w := by
  simp only [foldi, bind_apply]
  by_cases h1 : Within reg.base.m reg.row reg.nrows
  · rw [stop_ok _ _ _ h1 hm.few]
    simp only
    rw [stop_raise _ _ _ (fun h2 => hv ⟨h1, h2⟩) hcol]
  · rw [stop_raise _ _ _ h1 hrow]

theorem fine_raise {α : Type} (w : World V X) (e : Exn) :
    Fine w (.raise e w : Out (World V X) α) := keeps_refl w

theorem copyRow_fine (sa da : Arr2) (col : Int) (ncols : Option Int) (dc : Int)
    {w : World V X} (hs : Made w sa) (hd : Made w da) (hcol : col ≤ maxInt) {i i' : Int} :
    Fine w (copyRow sa da col ncols dc i i' w) := by
  have e1 := hs.height
  have e2 := hd.height
  have e3 := hd.narrow
  have e4 := hs.narrow
  have hml : maxLen = 18014398509481983 := rfl
  have hmi : minInt = -4611686018427387904 := rfl
  by_cases hi : 0 ≤ i ∧ i < sa.m
  · by_cases hall : Within sa.n col ncols ∧ dc + extent sa.n col ncols > maxInt ∧ 0 ≤ i' ∧ i' < da.m
    · obtain ⟨hc, hov, hi'⟩ := hall
      obtain ⟨h1, h2⟩ := rowSlice hs hi col ncols hc
      have hcs := within_start hc
      have hma : maxInt = 4611686018427387903 := rfl
      simp only [copyRow, bind_apply]
      rw [rowAt_eq w hi.1 (by omega)]
      simp only
      rw [h1]
      simp only
      rw [rowAt_eq w hi'.1 (by omega)]
      simp only [Arrays.copy, bind_apply, len]
      rw [if_neg (by omega)]
      simp only [chk]
      rw [if_neg (by omega)]
      exact fine_raise w _
    · by_cases hok : Within sa.n col ncols ∧ (0 ≤ dc ∧ dc + extent sa.n col ncols ≤ da.n) ∧
          0 ≤ i' ∧ i' < da.m
      · obtain ⟨hc, hdc, hi'⟩ := hok
        have hcs := within_start hc
        have hr := hs.row hi.1 hi.2
        have hr' := hd.row hi'.1 hi'.2
        rw [copyRow_ok sa da col ncols dc hs hd hc hdc hi hi']
        refine withArr_keeps w _ _ (hd.there _ hr') ?_
        rw [splice_length _ _ _ hdc.1]
        rw [seg_length _ hcs.1 _ (by rw [hs.width _ hr]; exact hcs.2), hd.width _ hr']
        exact hdc.2
      · by_cases hi' : 0 ≤ i' ∧ i' < da.m
        · rw [copyRow_raise sa da col ncols dc hs hd hi hcol (fun hc => by
            by_contra hx
            exact hall ⟨hc, by omega, hi'⟩) hok]
          exact fine_raise w _
        · -- the row of the destination is missing
          have hr := hs.row hi.1 hi.2
          have hw := hs.width _ hr
          simp only [copyRow, bind_apply]
          rw [rowAt_eq w hi.1 (by omega)]
          simp only
          by_cases hc : Within sa.n col ncols
          · obtain ⟨h1, h2⟩ := rowSlice hs hi col ncols hc
            rw [h1]
            simp only
            rw [rowAt_raise w (by omega)]
            exact fine_raise w _
          · rw [slice_raise w (.arr (sa.rows.getD i.toNat 0)) (hs.there _ hr)
              (by simp only [cells]; omega) col hcol ncols (by simp only [cells]; rw [hw]; exact hc)]
            exact fine_raise w _
  · simp only [copyRow, bind_apply]
    rw [rowAt_raise w (by omega)]
    exact fine_raise w _

theorem chk_fine {α : Type} (w : World V X) (n : Int) (p : Prog (World V X) α)
    (h : Fine w (p w)) : Fine w (chk n p w) := by
  simp only [chk]
  split
  · exact h
  · exact fine_raise w _

theorem copy_fine (w : World V X) (src : Region) (dst : Arr2) (dr dc : Int)
    (hs : Made w src.base) (hd : Made w dst) (hcol : src.col ≤ maxInt) :
    Fine w (copy src dst dr dc w) := by
  have hup : ∀ (fuel : Nat) (i i' : Int) (w : World V X), i < src.row + fuel → Made w src.base →
      Made w dst → 0 < fuel →
      Fine w (bottomUp src.base dst src.col src.ncols dc src.row fuel (i - 1) i' w) := by
    intro fuel
    induction fuel with
    | zero => intro i i' w _ _ _ h; omega
    | succ fuel ih =>
      intro i i' w hf hs hd _
      simp only [bottomUp]
      by_cases h : i - 1 < src.row
      · rw [if_pos h]; exact fine_pure w ()
      · rw [if_neg h]
        refine fine_bind (copyRow_fine _ _ _ _ _ hs hd hcol) (fun _ w' hk => ?_)
        refine chk_fine _ _ _ (chk_fine _ _ _ ?_)
        exact ih (i - 1) _ w' (by omega) (hs.keeps hk) (hd.keeps hk) (by omega)
  have hdown : ∀ (stoprow : Int) (fuel : Nat) (i i' : Int) (w : World V X),
      stoprow < i + fuel → Made w src.base → Made w dst →
      Fine w (topDown src.base dst src.col src.ncols dc stoprow fuel i i' w) ∨ fuel = 0 := by
    intro stoprow fuel
    induction fuel with
    | zero => intro i i' w _ _ _; exact Or.inr rfl
    | succ fuel ih =>
      intro i i' w hf hs hd
      left
      simp only [topDown]
      by_cases h : i ≥ stoprow
      · rw [if_pos h]; exact fine_pure w ()
      · rw [if_neg h]
        refine fine_bind (copyRow_fine _ _ _ _ _ hs hd hcol) (fun _ w' hk => ?_)
        refine chk_fine _ _ _ (chk_fine _ _ _ ?_)
        rcases ih (i + 1) (i' + 1) w' (by omega) (hs.keeps hk) (hd.keeps hk) with h' | h'
        · exact h'
        · subst h'; omega
  simp only [copy, bind_apply]
  rcases stop_cases src.base.m src.row src.nrows hs.few w with ⟨h1, e1⟩ | ⟨e, e1⟩
  · rw [e1]
    simp only
    by_cases hle : src.row ≤ dr
    · rw [if_pos hle]
      refine chk_fine _ _ _ (chk_fine _ _ _ (chk_fine _ _ _ ?_))
      exact hup _ _ _ w (by simp only [rounds]; omega) hs hd (by simp [rounds])
    · rw [if_neg hle]
      rcases hdown (src.row + extent src.base.m src.row src.nrows)
        (rounds (src.row + extent src.base.m src.row src.nrows - src.row)) src.row dr w
        (by simp only [rounds]; omega) hs hd with h | h
      · exact h
      · simp [rounds] at h
  · rw [e1]; exact fine_raise w e

end Mosml.Matrix
