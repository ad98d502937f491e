import Verif.Matrix.Spec
import Verif.Arrays.Props

namespace Mosml.Matrix

open Mosml.Arrays

variable {V X : Type}

/-! ## The machine of the vector of rows -/

/-- The outcome on the machine of rows, on the machine of the vector of rows. -/
def liftOut {W α : Type} (h : List (List Nat)) : Out W α → Out (World Nat W) α
  | .ok a w => .ok a ⟨h, w⟩
  | .raise e w => .raise e ⟨h, w⟩
  | .bad => .bad

theorem inner_apply {W α : Type} (p : Prog W α) (h : List (List Nat)) (w : W) :
    inner p ⟨h, w⟩ = liftOut h (p w) := by
  simp only [inner]
  cases p w <;> rfl

theorem vecOp_lift {W α : Type} (p : Prog (World Nat W) α) (w : W) (o : Out W α)
    (h : p ⟨[], w⟩ = liftOut [] o) : vecOp p w = o := by
  simp only [vecOp, h]
  cases o <;> rfl

theorem steady_inner {W α : Type} (p : Prog W α) : Steady (inner p) := by
  intro w
  obtain ⟨h, w⟩ := w
  rw [inner_apply]
  cases p w with
  | bad => trivial
  | ok a w' => exact fun l hl => ⟨hl, rfl⟩
  | raise e w' => exact fun l hl => ⟨hl, rfl⟩

theorem getD_get (xs : List Nat) (k : Nat) (h : k < xs.length) : xs.getD k 0 = xs[k] := by
  simp [List.getD_eq_getElem?_getD, List.getElem?_eq_getElem h]

/-! ## Walks -/

theorem walk_nil {W ι β : Type} (body : ι → β → Prog W β) (b : β) (w : W) :
    walk body [] b w = .ok b w := rfl

theorem walk_cons {W ι β : Type} (body : ι → β → Prog W β) (k : ι) (ks : List ι) (b : β) (w : W) :
    walk body (k :: ks) b w = match body k b w with
      | .ok b' w' => walk body ks b' w'
      | .raise e w' => .raise e w'
      | .bad => .bad := rfl

theorem walk_append {W ι β : Type} (body : ι → β → Prog W β) (ks ks' : List ι) (b : β) (w : W) :
    walk body (ks ++ ks') b w = match walk body ks b w with
      | .ok b' w' => walk body ks' b' w'
      | .raise e w' => .raise e w'
      | .bad => .bad := by
  induction ks generalizing b w with
  | nil => rfl
  | cons k ks ih =>
    rw [List.cons_append, walk_cons, walk_cons]
    cases body k b w with
    | bad => rfl
    | raise e w' => rfl
    | ok b' w' => exact ih b' w'

theorem walk_map {W ι κ β : Type} (body : κ → β → Prog W β) (g : ι → κ) (ks : List ι) (b : β)
    (w : W) : walk body (ks.map g) b w = walk (fun k => body (g k)) ks b w := by
  induction ks generalizing b w with
  | nil => rfl
  | cons k ks ih =>
    rw [List.map_cons, walk_cons, walk_cons]
    cases body (g k) b w with
    | bad => rfl
    | raise e w' => rfl
    | ok b' w' => exact ih b' w'

theorem walk_flatMap {W ι κ β : Type} (body : κ → β → Prog W β) (g : ι → List κ) (ks : List ι)
    (b : β) (w : W) :
    walk body (ks.flatMap g) b w = walk (fun k b => walk body (g k) b) ks b w := by
  induction ks generalizing b w with
  | nil => rfl
  | cons k ks ih =>
    rw [List.flatMap_cons, walk_append, walk_cons]
    cases walk body (g k) b w with
    | bad => rfl
    | raise e w' => rfl
    | ok b' w' => exact ih b' w'

theorem thread_walk {W β : Type} (body : Int → β → Prog W β) (js : List Int) (b : β) (w : W) :
    thread body js b w = walk body js b w := by
  induction js generalizing b w with
  | nil => rfl
  | cons j js ih =>
    rw [walk_cons]
    simp only [thread, bind_apply]
    cases body j b w with
    | bad => rfl
    | raise e w' => rfl
    | ok b' w' => exact ih b' w'

theorem each_walk {W : Type} (body : Int → Prog W Unit) (js : List Int) (w : W) :
    each body js w = walk (fun j _ => body j) js () w := by
  induction js generalizing w with
  | nil => rfl
  | cons j js ih =>
    rw [walk_cons]
    simp only [each, bind_apply]
    cases body j w with
    | bad => rfl
    | raise e w' => rfl
    | ok b' w' => exact ih w'

theorem walk_inner {W β : Type} (rows : List Nat) (g : Int → Nat → β → Prog W β)
    (h : List (List Nat)) (js : List Int) (hj : ∀ j ∈ js, 0 ≤ j ∧ j < rows.length) (b : β) (w : W) :
    walk (fun j b => do let x ← item (.vec rows) j; inner (g j x b)) js b ⟨h, w⟩ =
      liftOut h (walk (fun j b => g j (rows.getD j.toNat 0) b) js b w) := by
  induction js generalizing b w with
  | nil => rfl
  | cons j js ih =>
    obtain ⟨h0, h1⟩ := hj j (by simp)
    rw [walk_cons, walk_cons]
    simp only [bind_apply]
    rw [item_ok _ _ h0 (by simpa [cells] using h1)]
    simp only [cells, inner_apply]
    have : rows.getD j.toNat 0 = rows[j.toNat]'(by omega) := by
      exact getD_get _ _ _
    rw [this]
    cases g j rows[j.toNat] b w with
    | bad => rfl
    | raise e w' => rfl
    | ok b' w' => exact ih (fun j' hj' => hj j' (by simp [hj'])) b' w'

/-! ## Steadiness -/

theorem steady_bind {α β : Type} {p : Prog (World V X) α} {k : α → Prog (World V X) β}
    (hp : Steady p) (hk : ∀ a, Steady (k a)) : Steady (p >>= k) := by
  intro w
  have h1 := hp w
  rw [bind_apply]
  cases e : p w with
  | bad => trivial
  | raise x w' => rw [e] at h1; exact h1
  | ok a w' =>
    rw [e] at h1
    have h2 := hk a w'
    simp only
    cases e' : k a w' with
    | bad => trivial
    | raise x w'' => rw [e'] at h2; exact keeps_trans h1 h2
    | ok b w'' => rw [e'] at h2; exact keeps_trans h1 h2

theorem steady_item (c : Cont V) (j : Int) : Steady (item c j : Prog (World V X) V) := by
  intro w
  simp only [item]
  cases (cells w c)[j.toNat]? with
  | none => trivial
  | some v => exact keeps_refl w

theorem steady_become (l : Nat) (j : Int) (v : V) :
    Steady (become l j v : Prog (World V X) Unit) := fun w => keeps_become w l j v

theorem steady_walk {ι β : Type} (body : ι → β → Prog (World V X) β)
    (h : ∀ k b, Steady (body k b)) (ks : List ι) (b : β) : Steady (walk body ks b) := by
  induction ks generalizing b with
  | nil => exact steady_pure b
  | cons k ks ih => exact steady_bind (h k b) (fun b' => ih b')

theorem walk_congr {ι β : Type} (body body' : ι → β → Prog (World V X) β)
    (hs : ∀ k b, Steady (body' k b)) (ks : List ι) :
    ∀ (b : β) (w : World V X),
    (∀ k ∈ ks, ∀ b w', Keeps w w' → body k b w' = body' k b w') →
    walk body ks b w = walk body' ks b w := by
  induction ks with
  | nil => intros; rfl
  | cons k ks ih =>
    intro b w he
    rw [walk_cons, walk_cons, he k (by simp) b w (keeps_refl w)]
    have := hs k b w
    cases e : body' k b w with
    | bad => rfl
    | raise x w' => rfl
    | ok b' w' =>
      rw [e] at this
      exact ih b' w' (fun k' hk' b'' w'' hw =>
        he k' (by simp [hk']) b'' w'' (keeps_trans this hw))

theorem walk_fine {ι β : Type} (body : ι → β → Prog (World V X) β) (ks : List ι) :
    ∀ (b : β) (w : World V X),
    (∀ k ∈ ks, ∀ b w', Keeps w w' → Fine w' (body k b w')) → Fine w (walk body ks b w) := by
  induction ks with
  | nil => intro b w _; exact fine_pure w b
  | cons k ks ih =>
    intro b w h
    exact fine_bind (h k (by simp) b w (keeps_refl w)) (fun b' w' hk => ih b' w' (fun k' hk' b'' w'' hw =>
      h k' (by simp [hk']) b'' w'' (keeps_trans hk hw)))

/-! ## Arrays -/

theorem Made.keeps {w w' : World V X} {a : Arr2} (h : Made w a) (hk : Keeps w w') : Made w' a where
  height := h.height
  width r hr := by rw [(hk r (h.there r hr)).2]; exact h.width r hr
  there r hr := (hk r (h.there r hr)).1
  distinct := h.distinct
  nonneg := h.nonneg
  few := h.few
  narrow := h.narrow

theorem Made.row {w : World V X} {a : Arr2} (h : Made w a) {i : Int} (h0 : 0 ≤ i) (h1 : i < a.m) :
    a.rows.getD i.toNat 0 ∈ a.rows := by
  have := h.height
  rw [getD_get _ _ (by omega)]
  exact List.getElem_mem _

theorem rowAt_eq (w : World V X) {a : Arr2} {i : Int} (h0 : 0 ≤ i) (h1 : i < a.rows.length) :
    rowAt a i w = .ok (a.rows.getD i.toNat 0) w := by
  refine vecOp_lift _ _ _ ?_
  rw [(C75_subscript (V := Nat) ⟨[], w⟩ (.vec a.rows) 0 i 0).1 ⟨h0, by simpa [cells] using h1⟩]
  simp only [cells, liftOut]
  rw [getD_get _ _ (by omega)]

theorem rowAt_raise (w : World V X) {a : Arr2} {i : Int} (h : ¬ (0 ≤ i ∧ i < a.rows.length)) :
    rowAt a i w = .raise .subscript w := by
  refine vecOp_lift _ _ _ ?_
  exact (C75_subscript (V := Nat) ⟨[], w⟩ (.vec a.rows) 0 i 0).2.1 (by simpa [cells] using h)

theorem sub_eq {w : World V X} {a : Arr2} (h : Made w a) {i j : Int} (hi : 0 ≤ i ∧ i < a.m)
    (hj : 0 ≤ j ∧ j < a.n) : sub a i j w = cell a i j w := by
  have hh := h.height
  have hr := h.row hi.1 hi.2
  have hw := h.width _ hr
  simp only [sub, bind_apply]
  rw [rowAt_eq w hi.1 (by omega)]
  simp only [cell]
  rw [item_ok w _ hj.1 (by simp only [cells]; omega)]
  exact (C75_subscript w (.arr (a.rows.getD i.toNat 0)) 0 j
    ((cells w (.arr (a.rows.getD i.toNat 0)))[j.toNat]'(by simp only [cells]; omega))).1
    ⟨hj.1, by simp only [cells]; omega⟩

theorem update_eq {w : World V X} {a : Arr2} (h : Made w a) {i j : Int} (hi : 0 ≤ i ∧ i < a.m)
    (hj : 0 ≤ j ∧ j < a.n) (v : V) : update a i j v w = setCell a i j v w := by
  have hh := h.height
  have hr := h.row hi.1 hi.2
  have hw := h.width _ hr
  simp only [update, bind_apply]
  rw [rowAt_eq w hi.1 (by omega)]
  exact (C75_subscript w (.arr 0) (a.rows.getD i.toNat 0) j v).2.2.1 ⟨hj.1, by omega⟩

theorem steady_visit {β : Type} (a : Arr2) (f : Int → Int → V → β → Prog (World V X) β)
    (hf : ∀ i j x b, Steady (f i j x b)) (p : Int × Int) (b : β) : Steady (visit a f p b) :=
  steady_bind (steady_item _ _) (fun x => hf _ _ x b)

theorem rowsLoop_eq {β : Type} (a : Arr2) (f : Int → Int → V → β → Prog (World V X) β)
    (hf : ∀ i j x b, Steady (f i j x b)) (stop j : Int) (hj : 0 ≤ j ∧ j < a.n)
    (hst : stop ≤ a.m) :
    ∀ (k fuel : Nat) (i : Int) (b : β) (w : World V X), k < fuel → stop = i + k → 0 ≤ i →
      Made w a →
      rowsLoop a f stop j fuel i b w = walk (visit a f) ((idx i k).map (fun i => (i, j))) b w := by
  have hml : maxLen = 18014398509481983 := rfl
  have hmi : minInt = -4611686018427387904 := rfl
  have hma : maxInt = 4611686018427387903 := rfl
  intro k
  induction k with
  | zero =>
    intro fuel i b w hfu hs hi hm
    obtain ⟨fuel, rfl⟩ : ∃ n, fuel = n + 1 := ⟨fuel - 1, by omega⟩
    simp only [rowsLoop]
    rw [if_pos (by omega)]
    rfl
  | succ k ih =>
    intro fuel i b w hfu hs hi hm
    obtain ⟨fuel, rfl⟩ : ∃ n, fuel = n + 1 := ⟨fuel - 1, by omega⟩
    have := hm.few
    simp only [rowsLoop]
    rw [if_neg (by omega), chk_ok (by omega) (by omega), idx_succ, List.map_cons, walk_cons]
    simp only [bind_apply, visit]
    rw [sub_eq hm ⟨hi, by omega⟩ hj]
    have hs1 := steady_item (X := X) (.arr (a.rows.getD i.toNat 0) : Cont V) j w
    simp only [cell] at hs1 ⊢
    cases e : item (.arr (a.rows.getD i.toNat 0)) j w with
    | bad => rfl
    | raise x w' => rfl
    | ok x w' =>
      rw [e] at hs1
      have hs2 := hf i j x b w'
      simp only
      cases e' : f i j x b w' with
      | bad => rfl
      | raise x w' => rfl
      | ok b' w'' =>
        rw [e'] at hs2
        exact ih fuel (i + 1) b' w'' (by omega) (by omega) (by omega)
          (hm.keeps (keeps_trans hs1 hs2))

theorem colsLoop_eq {β : Type} (a : Arr2) (f : Int → Int → V → β → Prog (World V X) β)
    (hf : ∀ i j x b, Steady (f i j x b)) (row stoprow stopcol : Int) (h : Nat)
    (hr : 0 ≤ row) (hh : stoprow = row + h) (hst : stoprow ≤ a.m) (hsc : stopcol ≤ a.n) :
    ∀ (k fuel : Nat) (j : Int) (b : β) (w : World V X), k < fuel → stopcol = j + k → 0 ≤ j →
      Made w a →
      colsLoop a f row stoprow stopcol fuel j b w =
        walk (visit a f) (order .colMajor row h j k) b w := by
  have hml : maxLen = 18014398509481983 := rfl
  have hmi : minInt = -4611686018427387904 := rfl
  have hma : maxInt = 4611686018427387903 := rfl
  intro k
  induction k with
  | zero =>
    intro fuel j b w hfu hs hj hm
    obtain ⟨fuel, rfl⟩ : ∃ n, fuel = n + 1 := ⟨fuel - 1, by omega⟩
    simp only [colsLoop]
    rw [if_pos (by omega)]
    rfl
  | succ k ih =>
    intro fuel j b w hfu hs hj hm
    obtain ⟨fuel, rfl⟩ : ∃ n, fuel = n + 1 := ⟨fuel - 1, by omega⟩
    have := hm.narrow
    simp only [colsLoop]
    rw [if_neg (by omega), chk_ok (by omega) (by omega)]
    simp only [order, idx_succ, List.flatMap_cons]
    rw [walk_append]
    simp only [bind_apply]
    rw [rowsLoop_eq a f hf stoprow j ⟨hj, by omega⟩ hst h _ row b w (by simp only [rounds]; omega)
      hh hr hm]
    have hs := steady_walk (visit a f) (steady_visit a f hf)
      ((idx row h).map (fun i => (i, j))) b w
    cases e : walk (visit a f) ((idx row h).map (fun i => (i, j))) b w with
    | bad => rfl
    | raise x w' => rfl
    | ok b' w' =>
      rw [e] at hs
      exact ih fuel (j + 1) b' w' (by omega) (by omega) (by omega) (hm.keeps hs)

theorem stop_ok {W : Type} (len i : Int) (o : Option Int) (h : Within len i o) (hl : len ≤ maxLen)
    (w : W) : stop len i o w = .ok (i + extent len i o) w := by
  have hml : maxLen = 18014398509481983 := rfl
  have hmi : minInt = -4611686018427387904 := rfl
  have hma : maxInt = 4611686018427387903 := rfl
  cases o with
  | none =>
    simp only [Within] at h
    simp only [stop, extent]
    rw [if_neg (by omega), pure_apply]
    congr 1
    omega
  | some k =>
    simp only [Within] at h
    simp only [stop, extent]
    rw [if_neg (by omega), chk_ok (by omega) (by omega), if_neg (by omega), pure_apply]
    congr 1
    omega

theorem stop_raise {W : Type} (len i : Int) (o : Option Int) (h : ¬ Within len i o)
    (hi : ∀ k, o = some k → i + k ≤ maxInt) (w : W) :
    stop len i o w = .raise .subscript w := by
  have hmi : minInt = -4611686018427387904 := rfl
  have hma : maxInt = 4611686018427387903 := rfl
  cases o with
  | none =>
    simp only [Within] at h
    simp only [stop]
    rw [if_pos (by omega)]
    rfl
  | some k =>
    simp only [Within] at h
    simp only [stop]
    have := hi k rfl
    by_cases h' : i < 0 ∨ k < 0
    · rw [if_pos h']; rfl
    · rw [if_neg h', chk_ok (by omega) (by omega), if_pos (by omega)]; rfl

theorem slice_ok (w : World V X) (c : Cont V) (hc : Exists w c)
    (hm : ((cells w c).length : Int) ≤ maxLen) (i : Int) (o : Option Int)
    (h : Within (cells w c).length i o) :
    slice c i o w = .ok ⟨c, i, extent (cells w c).length i o⟩ w ∧
      Valid w ⟨c, i, extent (cells w c).length i o⟩ := by
  have hml : maxLen = 18014398509481983 := rfl
  have hma : maxInt = 4611686018427387903 := rfl
  have hi : i ≤ maxInt := by
    cases o <;> simp only [Within] at h <;> omega
  cases o with
  | none =>
    simp only [Within] at h
    obtain ⟨h1, _, _, h4⟩ := C75_slice w c hc hm i hi ((cells w c).length - i)
    have e : ((extent (cells w c).length i none : Nat) : Int) = (cells w c).length - i := by
      simp only [extent]; omega
    rw [e]
    refine ⟨?_, h4.2 (by omega)⟩
    rw [h1, if_pos h]
  | some k =>
    simp only [Within] at h
    obtain ⟨_, h2, _, h4⟩ := C75_slice w c hc hm i hi k
    have e : ((extent (cells w c).length i (some k) : Nat) : Int) = k := by
      simp only [extent]; omega
    rw [e]
    exact ⟨by rw [h2, if_pos h], h4.2 h⟩

theorem slice_raise (w : World V X) (c : Cont V) (hc : Exists w c)
    (hm : ((cells w c).length : Int) ≤ maxLen) (i : Int) (hi : i ≤ maxInt) (o : Option Int)
    (h : ¬ Within (cells w c).length i o) :
    slice c i o w = .raise .subscript w := by
  cases o with
  | none =>
    simp only [Within] at h
    rw [(C75_slice w c hc hm i hi 0).1, if_neg h]
  | some k =>
    simp only [Within] at h
    rw [(C75_slice w c hc hm i hi k).2.1, if_neg h]

theorem within_idx {len i j : Int} {o : Option Int} (h : Within len i o)
    (hj : j ∈ idx i (extent len i o)) : 0 ≤ j ∧ j < len := by
  rw [mem_idx] at hj
  cases o <;> simp only [Within, extent] at h hj <;> omega

/-! ## Row-major traversals -/

/-- What the row-major functions do with the vector of rows. -/
theorem rowWalk {β : Type} (w : World V X) (a : Arr2) (hm : Made w a) (row : Int)
    (o : Option Int) (hr : Within a.m row o) (g : Int → Nat → β → Prog (World V X) β) (b : β) :
    vecOp (do
      let s ← slice (.vec a.rows) row o
      foldli (fun i xs res => inner (g i xs res)) b s) w =
    walk (fun i b => g i (a.rows.getD i.toNat 0) b) (idx row (extent a.m row o)) b w := by
  refine vecOp_lift _ _ _ ?_
  have hh := hm.height
  have hf := hm.few
  obtain ⟨h1, h2⟩ := slice_ok (V := Nat) ⟨[], w⟩ (.vec a.rows) trivial
    (by simp only [cells]; omega) row o (by simp only [cells]; rw [← hh]; exact hr)
  rw [bind_apply, h1]
  simp only
  rw [((C75_fold _ _ h2 b).1 _ (fun i xs res => steady_inner (g i xs res))).1, thread_walk]
  simp only [indices, cells, Int.toNat_natCast]
  rw [walk_inner a.rows g [] _ ?_ b w, ← hh]
  intro j hj
  rw [← hh] at hj ⊢
  exact within_idx hr hj

theorem rowWalkApp (w : World V X) (a : Arr2) (hm : Made w a) (row : Int)
    (o : Option Int) (hr : Within a.m row o) (g : Int → Nat → Prog (World V X) Unit) :
    vecOp (do
      let s ← slice (.vec a.rows) row o
      Arrays.appi (fun i xs => inner (g i xs)) s) w =
    walk (fun i _ => g i (a.rows.getD i.toNat 0)) (idx row (extent a.m row o)) () w := by
  refine vecOp_lift _ _ _ ?_
  have hh := hm.height
  have hf := hm.few
  obtain ⟨h1, h2⟩ := slice_ok (V := Nat) ⟨[], w⟩ (.vec a.rows) trivial
    (by simp only [cells]; omega) row o (by simp only [cells]; rw [← hh]; exact hr)
  rw [bind_apply, h1]
  simp only
  rw [(C75_app _ _ h2).1 _ (fun i xs => steady_inner (g i xs)), each_walk]
  simp only [indices, cells, Int.toNat_natCast]
  rw [walk_inner a.rows (fun i xs _ => g i xs) [] _ ?_ () w, ← hh]
  intro j hj
  rw [← hh] at hj ⊢
  exact within_idx hr hj

theorem rowSlice {w : World V X} {a : Arr2} (hm : Made w a) {i : Int} (hi : 0 ≤ i ∧ i < a.m)
    (col : Int) (o : Option Int) (hc : Within a.n col o) :
    slice (.arr (a.rows.getD i.toNat 0)) col o w =
      .ok ⟨.arr (a.rows.getD i.toNat 0), col, extent a.n col o⟩ w ∧
    Valid w (⟨.arr (a.rows.getD i.toNat 0), col, extent a.n col o⟩ : Slice V) := by
  have hr := hm.row hi.1 hi.2
  have hw := hm.width _ hr
  have hn := hm.narrow
  have := slice_ok w (.arr (a.rows.getD i.toNat 0)) (hm.there _ hr)
    (by simp only [cells]; omega) col o (by simp only [cells]; rw [hw]; exact hc)
  simp only [cells, hw] at this
  exact this

theorem walk_order_row {β : Type} (body : Int × Int → β → Prog (World V X) β) (r : Int) (h : Nat)
    (c : Int) (k : Nat) (b : β) (w : World V X) :
    walk body (order .rowMajor r h c k) b w =
      walk (fun i b => walk (fun j b => body (i, j) b) (idx c k) b) (idx r h) b w := by
  simp only [order]
  rw [walk_flatMap]
  congr 1
  funext i b w
  rw [walk_map]

theorem foldi_eq {β : Type} (w : World V X) (reg : Region) (hm : Made w reg.base)
    (hv : ValidRegion reg) (tr : Traversal) (f : Int → Int → V → β → Prog (World V X) β)
    (hf : ∀ i j x b, Steady (f i j x b)) (b : β) :
    foldi tr f b reg w = walk (visit reg.base f) (positions tr reg) b w := by
  obtain ⟨hr, hc⟩ := hv
  cases tr with
  | rowMajor =>
    simp only [foldi, positions]
    refine (rowWalk w reg.base hm reg.row reg.nrows hr (fun i xs res => do
      let t ← slice (.arr xs) reg.col reg.ncols
      foldli (fun j x res => f i j x res) res t) b).trans ?_
    rw [walk_order_row]
    refine walk_congr _ _ (fun i b => steady_walk _ (fun j b => steady_visit _ f hf _ b) _ _) _ _ _ ?_
    intro i hi b w' hk
    have hm' := hm.keeps hk
    have hir := within_idx hr hi
    obtain ⟨h1, h2⟩ := rowSlice hm' hir reg.col reg.ncols hc
    rw [bind_apply, h1]
    simp only
    rw [((C75_fold _ _ h2 b).1 _ (fun j x b => hf i j x b)).1, thread_walk]
    simp only [indices, Int.toNat_natCast]
    rfl
  | colMajor =>
    simp only [foldi, positions, bind_apply]
    rw [stop_ok _ _ _ hr hm.few]
    simp only
    rw [stop_ok _ _ _ hc hm.narrow]
    simp only
    refine colsLoop_eq _ f hf _ _ _ (extent reg.base.m reg.row reg.nrows) ?_ rfl ?_ ?_ _ _ _ _ _
      ?_ rfl ?_ hm
    · cases h : reg.nrows <;> rw [h] at hr <;> simp only [Within] at hr <;> omega
    · cases h : reg.nrows <;> rw [h] at hr <;> simp only [Within] at hr <;>
        simp only [extent] <;> omega
    · cases h : reg.ncols <;> rw [h] at hc <;> simp only [Within] at hc <;>
        simp only [extent] <;> omega
    · simp only [rounds]; omega
    · cases h : reg.ncols <;> rw [h] at hc <;> simp only [Within] at hc <;> omega

end Mosml.Matrix
