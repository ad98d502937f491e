import Verif.Matrix.Lemmas

namespace Mosml.Matrix

open Mosml.Arrays

variable {V X : Type}

theorem steady_alter (a : Arr2) (f : Int → Int → V → Prog (World V X) V)
    (hf : ∀ i j x, Steady (f i j x)) (p : Int × Int) : Steady (alter a f p) :=
  steady_bind (steady_item _ _) (fun x => steady_bind (hf _ _ x) (fun y => steady_become _ _ y))

theorem steady_update (a : Arr2) (i j : Int) (v : V) :
    Steady (update a i j v : Prog (World V X) Unit) := by
  refine steady_bind ?_ ?_
  · intro w
    by_cases h : 0 ≤ i ∧ i < a.rows.length
    · rw [rowAt_eq w h.1 h.2]; exact keeps_refl w
    · rw [rowAt_raise w h]; exact keeps_refl w
  · intro r w
    by_cases h : 0 ≤ j ∧ j < (w.heap.getD r []).length
    · rw [(C75_subscript w (.arr 0) r j v).2.2.1 h]
      exact keeps_become w r j v
    · rw [(C75_subscript w (.arr 0) r j v).2.2.2 h]
      exact keeps_refl w

theorem mem_order {tr : Traversal} {r c : Int} {h k : Nat} {p : Int × Int}
    (hp : p ∈ order tr r h c k) : p.1 ∈ idx r h ∧ p.2 ∈ idx c k := by
  cases tr <;> simp only [order, List.mem_flatMap, List.mem_map] at hp <;>
    obtain ⟨a, ha, b, hb, rfl⟩ := hp <;> simp [ha, hb]

theorem full_region (tr : Traversal) (a : Arr2) :
    positions tr ⟨a, 0, 0, none, none⟩ = places tr a := by
  simp [positions, places, extent]

theorem Made.full {w : World V X} {a : Arr2} (h : Made w a) :
    ValidRegion ⟨a, 0, 0, none, none⟩ := by
  have := h.height
  have := h.nonneg
  exact ⟨⟨le_rfl, by simp only; omega⟩, ⟨le_rfl, by simp only; omega⟩⟩

theorem appi_eq (w : World V X) (reg : Region) (hm : Made w reg.base)
    (hv : ValidRegion reg) (tr : Traversal) (f : Int → Int → V → Prog (World V X) Unit)
    (hf : ∀ i j x, Steady (f i j x)) :
    appi tr f reg w =
      walk (visit reg.base (fun i j x _ => f i j x)) (positions tr reg) () w := by
  cases tr with
  | colMajor => exact foldi_eq w reg hm hv .colMajor _ (fun i j x _ => hf i j x) ()
  | rowMajor =>
    obtain ⟨hr, hc⟩ := hv
    simp only [appi, positions]
    refine (rowWalkApp w reg.base hm reg.row reg.nrows hr (fun i xs => do
      let t ← slice (.arr xs) reg.col reg.ncols
      Arrays.appi (fun j x => f i j x) t)).trans ?_
    rw [walk_order_row]
    refine walk_congr _ _ (fun i b => steady_walk _
      (fun j b => steady_visit _ _ (fun i j x _ => hf i j x) _ b) _ _) _ _ _ ?_
    intro i hi b w' hk
    have hm' := hm.keeps hk
    obtain ⟨h1, h2⟩ := rowSlice hm' (within_idx hr hi) reg.col reg.ncols hc
    rw [bind_apply, h1]
    simp only
    rw [(C75_app _ _ h2).1 _ (fun j x => hf i j x), each_walk]
    simp only [indices, Int.toNat_natCast]
    rfl

theorem modifyi_eq (w : World V X) (reg : Region) (hm : Made w reg.base)
    (hv : ValidRegion reg) (tr : Traversal) (f : Int → Int → V → Prog (World V X) V)
    (hf : ∀ i j x, Steady (f i j x)) :
    modifyi tr f reg w =
      walk (fun p _ => alter reg.base f p) (positions tr reg) () w := by
  cases tr with
  | colMajor =>
    simp only [modifyi]
    rw [foldi_eq w reg hm hv .colMajor _
      (fun i j x _ => steady_bind (hf i j x) (fun y => steady_update _ i j y)) ()]
    refine walk_congr _ _ (fun p _ => steady_alter _ f hf p) _ _ _ ?_
    intro p hp b w' hk
    have hm' := hm.keeps hk
    obtain ⟨hp1, hp2⟩ := mem_order hp
    have h1 := within_idx hv.1 hp1
    have h2 := within_idx hv.2 hp2
    simp only [visit, alter, bind_apply]
    have hs1 := steady_item (X := X) (.arr (reg.base.rows.getD p.1.toNat 0) : Cont V) p.2 w'
    simp only [cell] at hs1 ⊢
    cases e : item (.arr (reg.base.rows.getD p.1.toNat 0)) p.2 w' with
    | bad => rfl
    | raise x w' => rfl
    | ok x w'' =>
      rw [e] at hs1
      have hs2 := hf p.1 p.2 x w''
      simp only
      cases e' : f p.1 p.2 x w'' with
      | bad => rfl
      | raise x w' => rfl
      | ok y w3 =>
        rw [e'] at hs2
        exact update_eq (hm'.keeps (keeps_trans hs1 hs2)) h1 h2 y
  | rowMajor =>
    obtain ⟨hr, hc⟩ := hv
    simp only [modifyi, positions]
    refine (rowWalkApp w reg.base hm reg.row reg.nrows hr (fun i xs => do
      let t ← slice (.arr xs) reg.col reg.ncols
      Arrays.modifyi (fun j x => f i j x) xs t.i t.n)).trans ?_
    rw [walk_order_row]
    refine walk_congr _ _ (fun i b => steady_walk _ (fun j b => steady_alter _ f hf _) _ _) _ _ _ ?_
    intro i hi b w' hk
    have hm' := hm.keeps hk
    obtain ⟨h1, h2⟩ := rowSlice hm' (within_idx hr hi) reg.col reg.ncols hc
    rw [bind_apply, h1]
    simp only
    rw [(C75_modify _ _ _ _ h2).1 _ (fun j x => hf i j x), each_walk]
    simp only [indices, Int.toNat_natCast]
    rfl

theorem wholeWalk {β : Type} (w : World V X) (a : Arr2) (hm : Made w a)
    (g : Nat → β → Prog (World V X) β) (b : β) :
    vecOp (whole (.vec a.rows) (Arrays.foldl (fun xs res => inner (g xs res)) b)) w =
    walk (fun i b => g (a.rows.getD i.toNat 0) b) (idx 0 a.m.toNat) b w := by
  refine vecOp_lift _ _ _ ?_
  have hh := hm.height
  have hf := hm.few
  have hv : Valid (V := Nat) ⟨[], w⟩ ⟨.vec a.rows, 0, a.rows.length⟩ :=
    ⟨trivial, le_rfl, by simp only; omega, by simp [cells], by simp only [cells]; omega⟩
  simp only [whole, bind_apply, len, cells]
  rw [((C75_fold _ _ hv b).2 _ (fun xs res => steady_inner (g xs res))).1, thread_walk]
  simp only [indices, Int.toNat_natCast]
  rw [walk_inner a.rows (fun _ xs b => g xs b) [] _ ?_ b w]
  · rw [hh]; rfl
  · intro j hj
    rw [mem_idx] at hj
    omega

theorem wholeWalkApp (w : World V X) (a : Arr2) (hm : Made w a)
    (g : Nat → Prog (World V X) Unit) :
    vecOp (whole (.vec a.rows) (Arrays.app (fun xs => inner (g xs)))) w =
    walk (fun i _ => g (a.rows.getD i.toNat 0)) (idx 0 a.m.toNat) () w := by
  refine vecOp_lift _ _ _ ?_
  have hh := hm.height
  have hf := hm.few
  have hv : Valid (V := Nat) ⟨[], w⟩ ⟨.vec a.rows, 0, a.rows.length⟩ :=
    ⟨trivial, le_rfl, by simp only; omega, by simp [cells], by simp only [cells]; omega⟩
  simp only [whole, bind_apply, len, cells]
  rw [(C75_app _ _ hv).2 _ (fun xs => steady_inner (g xs)), each_walk]
  simp only [indices, Int.toNat_natCast]
  rw [walk_inner a.rows (fun _ xs _ => g xs) [] _ ?_ () w]
  · rw [hh]; rfl
  · intro j hj
    rw [mem_idx] at hj
    omega

theorem rowFull {w : World V X} {a : Arr2} (hm : Made w a) {i : Int} (hi : 0 ≤ i ∧ i < a.m) :
    ((cells w (.arr (a.rows.getD i.toNat 0))).length : Int) = a.n ∧
    Valid w (⟨.arr (a.rows.getD i.toNat 0), 0, a.n⟩ : Slice V) := by
  have hr := hm.row hi.1 hi.2
  have hw := hm.width _ hr
  have hn := hm.narrow
  have h0 := hm.nonneg
  refine ⟨hw, hm.there _ hr, le_rfl, h0, ?_, ?_⟩
  · simp only [cells]; omega
  · simp only [cells]; omega

theorem fold_eq {β : Type} (w : World V X) (a : Arr2) (hm : Made w a) (tr : Traversal)
    (f : V → β → Prog (World V X) β) (hf : ∀ x b, Steady (f x b)) (b : β) :
    fold tr f b a w = walk (visit a (fun _ _ x b => f x b)) (places tr a) b w := by
  have hh := hm.height
  have hn := hm.nonneg
  cases tr with
  | colMajor =>
    simp only [fold, places]
    exact colsLoop_eq a _ (fun _ _ x b => hf x b) 0 a.m a.n a.m.toNat le_rfl (by omega) le_rfl
      le_rfl a.n.toNat _ 0 b w (by simp [rounds]) (by omega) le_rfl hm
  | rowMajor =>
    simp only [fold, places]
    refine (wholeWalk w a hm (fun xs res => whole (.arr xs) (Arrays.foldl f res)) b).trans ?_
    rw [walk_order_row]
    refine walk_congr _ _ (fun i b => steady_walk _
      (fun j b => steady_visit _ _ (fun _ _ x b => hf x b) _ b) _ _) _ _ _ ?_
    intro i hi b w' hk
    have hm' := hm.keeps hk
    rw [mem_idx] at hi
    obtain ⟨h1, h2⟩ := rowFull hm' (i := i) ⟨hi.1, by omega⟩
    simp only [whole, bind_apply, len]
    rw [h1, ((C75_fold _ _ h2 b).2 _ hf).1, thread_walk]
    rfl

theorem app_eq (w : World V X) (a : Arr2) (hm : Made w a) (tr : Traversal)
    (f : V → Prog (World V X) Unit) (hf : ∀ x, Steady (f x)) :
    app tr f a w = walk (visit a (fun _ _ x _ => f x)) (places tr a) () w := by
  cases tr with
  | colMajor => exact fold_eq w a hm .colMajor _ (fun x _ => hf x) ()
  | rowMajor =>
    simp only [app, places]
    refine (wholeWalkApp w a hm (fun xs => whole (.arr xs) (Arrays.app f))).trans ?_
    rw [walk_order_row]
    refine walk_congr _ _ (fun i b => steady_walk _
      (fun j b => steady_visit _ _ (fun _ _ x b => hf x) _ b) _ _) _ _ _ ?_
    intro i hi b w' hk
    have hm' := hm.keeps hk
    have hh := hm.height
    rw [mem_idx] at hi
    obtain ⟨h1, h2⟩ := rowFull hm' (i := i) ⟨hi.1, by omega⟩
    simp only [whole, bind_apply, len]
    rw [h1, (C75_app _ _ h2).2 _ hf, each_walk]
    rfl

theorem modify_eq (w : World V X) (a : Arr2) (hm : Made w a) (tr : Traversal)
    (f : V → Prog (World V X) V) (hf : ∀ x, Steady (f x)) :
    modify tr f a w = walk (fun p _ => alter a (fun _ _ x => f x) p) (places tr a) () w := by
  cases tr with
  | colMajor =>
    rw [← full_region]
    exact modifyi_eq w ⟨a, 0, 0, none, none⟩ hm hm.full .colMajor (fun _ _ x => f x)
      (fun _ _ x => hf x)
  | rowMajor =>
    simp only [modify, places]
    refine (wholeWalkApp w a hm (fun xs => do
      let k ← len (.arr xs)
      Arrays.modify f xs 0 k)).trans ?_
    rw [walk_order_row]
    refine walk_congr _ _ (fun i b => steady_walk _
      (fun j b => steady_alter _ _ (fun _ _ x => hf x) _) _ _) _ _ _ ?_
    intro i hi b w' hk
    have hm' := hm.keeps hk
    have hh := hm.height
    rw [mem_idx] at hi
    obtain ⟨h1, h2⟩ := rowFull hm' (i := i) ⟨hi.1, by omega⟩
    simp only [bind_apply, len]
    rw [h1, (C75_modify _ _ _ _ h2).2 _ hf, each_walk]
    rfl

end Mosml.Matrix
