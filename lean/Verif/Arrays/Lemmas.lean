import Verif.Arrays.Spec

/-! # Lemmas on arrays, vectors and slices -/

namespace Mosml.Arrays

variable {V X : Type}

theorem bind_apply {W α β : Type} (p : Prog W α) (k : α → Prog W β) (w : W) :
    (p >>= k) w = match p w with
      | .ok a w' => k a w'
      | .raise e w' => .raise e w'
      | .bad => .bad := rfl

theorem pure_apply {W α : Type} (a : α) (w : W) : (pure a : Prog W α) w = .ok a w := rfl

theorem chk_ok {W α : Type} {n : Int} (h1 : minInt ≤ n) (h2 : n ≤ maxInt) (p : Prog W α) :
    chk n p = p := by
  simp only [chk, h1, h2, and_self, if_true]

theorem rd_eq (w : World V X) (c : Cont V) {j : Int} (h : 0 ≤ j) : rd c j w = item c j w := by
  simp only [rd, item, h, if_true]
  rfl

theorem item_ok (w : World V X) (c : Cont V) {j : Int} (h : 0 ≤ j)
    (h' : j < (cells w c).length) :
    item c j w = .ok ((cells w c)[j.toNat]'(by omega)) w := by
  simp only [item]
  rw [List.getElem?_eq_getElem (by omega)]

theorem wr_eq (w : World V X) (l : Nat) {j : Int} (v : V) (h : 0 ≤ j)
    (h' : j < (w.heap.getD l []).length) : wr l j v w = become l j v w := by
  simp only [wr, become]
  rw [if_pos ⟨h, by omega⟩]

theorem keeps_refl (w : World V X) : Keeps w w := fun _ h => ⟨h, rfl⟩

theorem keeps_trans {w w' w'' : World V X} (h : Keeps w w') (h' : Keeps w' w'') :
    Keeps w w'' := fun l hl =>
  ⟨(h' l (h l hl).1).1, ((h' l (h l hl).1).2).trans (h l hl).2⟩

theorem keeps_exists {w w' : World V X} (h : Keeps w w') {c : Cont V} (hc : Exists w c) :
    Exists w' c := by
  cases c with
  | arr l => exact (h l hc).1
  | vec xs => trivial

theorem keeps_len {w w' : World V X} (h : Keeps w w') {c : Cont V} (hc : Exists w c) :
    (cells w' c).length = (cells w c).length := by
  cases c with
  | arr l => exact (h l hc).2
  | vec xs => rfl

theorem idx_zero (j : Int) : idx j 0 = [] := rfl

theorem idx_succ (j : Int) (k : Nat) : idx j (k + 1) = j :: idx (j + 1) k := by
  simp only [idx, List.range_succ_eq_map, List.map_cons, List.map_map]
  congr 1
  · simp
  · apply List.map_congr_left
    intro a _
    simp only [Function.comp, Nat.succ_eq_add_one]
    push_cast
    ring

theorem idx_snoc (j : Int) (k : Nat) : idx j (k + 1) = idx j k ++ [j + k] := by
  simp [idx, List.range_succ]

theorem mem_idx {j m : Int} {k : Nat} : m ∈ idx j k ↔ j ≤ m ∧ m < j + k := by
  simp only [idx, List.mem_map, List.mem_range]
  constructor
  · rintro ⟨a, ha, rfl⟩
    omega
  · intro h
    exact ⟨(m - j).toNat, by omega, by omega⟩

theorem seg_zero (xs : List V) (j : Int) : seg xs j 0 = [] := by simp [seg]

theorem seg_succ (xs : List V) {j : Int} (h : 0 ≤ j) (h' : j < xs.length) (k : Nat) :
    seg xs j (k + 1) = xs[j.toNat]'(by omega) :: seg xs (j + 1) k := by
  simp only [seg]
  rw [List.drop_eq_getElem_cons (by omega), List.take_succ_cons]
  have : (j + 1).toNat = j.toNat + 1 := by omega
  rw [this]

theorem seg_snoc (xs : List V) {j : Int} (h : 0 ≤ j) (k : Nat) (h' : j + k < xs.length) :
    seg xs j (k + 1) = seg xs j k ++ [xs[(j + k).toNat]'(by omega)] := by
  simp only [seg]
  rw [List.take_add_one, List.getElem?_drop, List.getElem?_eq_getElem (by omega)]
  have : (j + (k : Int)).toNat = j.toNat + k := by omega
  simp [this]

theorem seg_length (xs : List V) {j : Int} (h : 0 ≤ j) (k : Nat) (h' : j + k ≤ xs.length) :
    (seg xs j k).length = k := by
  simp only [seg, List.length_take, List.length_drop]
  omega

/-! ## Loops are traversals of the indices -/

theorem lrApp_eq (c : Cont V) (f : Int → V → Prog (World V X) Unit)
    (hf : ∀ j x, Steady (f j x)) (stop : Int) :
    ∀ (k fuel : Nat) (j : Int) (w : World V X), k < fuel → stop = j + k → 0 ≤ j →
      Exists w c → stop ≤ (cells w c).length → ((cells w c).length : Int) ≤ maxLen →
      lrApp c f stop fuel j w = each (fun j => do let x ← item c j; f j x) (idx j k) w := by
  intro k
  induction k with
  | zero =>
    intro fuel j w hf' hs h0 _ _ _
    obtain ⟨fuel, rfl⟩ : ∃ m, fuel = m + 1 := ⟨fuel - 1, by omega⟩
    simp only [lrApp, idx_zero, each]
    rw [if_neg (by omega)]
  | succ k ih =>
    intro fuel j w hf' hs h0 hc hl hm
    obtain ⟨fuel, rfl⟩ : ∃ m, fuel = m + 1 := ⟨fuel - 1, by omega⟩
    simp only [lrApp, idx_succ, each]
    rw [if_pos (by omega)]
    have hm' : maxLen = 18014398509481983 := rfl
    have hmi : minInt = -4611686018427387904 := rfl
    have hma : maxInt = 4611686018427387903 := rfl
    simp only [bind_apply]
    rw [rd_eq _ _ h0, item_ok _ _ h0 (by omega)]
    dsimp only
    have hst := hf j ((cells w c)[j.toNat]'(by omega)) w
    cases hr : f j ((cells w c)[j.toNat]'(by omega)) w with
    | bad => rfl
    | raise e w' => rfl
    | ok u w' =>
      rw [hr] at hst
      dsimp only
      rw [chk_ok (by omega) (by omega)]
      have hlen := keeps_len hst hc
      exact ih fuel (j + 1) w' (by omega) (by push_cast at hs; omega) (by omega)
        (keeps_exists hst hc) (by omega) (by omega)

theorem lrFold_eq {β : Type} (c : Cont V) (f : Int → V → β → Prog (World V X) β)
    (hf : ∀ j x b, Steady (f j x b)) (stop : Int) :
    ∀ (k fuel : Nat) (j : Int) (b : β) (w : World V X), k < fuel → stop = j + k → 0 ≤ j →
      Exists w c → stop ≤ (cells w c).length → ((cells w c).length : Int) ≤ maxLen →
      lrFold c f stop fuel j b w =
        thread (fun j b => do let x ← item c j; f j x b) (idx j k) b w := by
  intro k
  induction k with
  | zero =>
    intro fuel j b w hf' hs h0 _ _ _
    obtain ⟨fuel, rfl⟩ : ∃ m, fuel = m + 1 := ⟨fuel - 1, by omega⟩
    simp only [lrFold, idx_zero, thread]
    rw [if_neg (by omega)]
  | succ k ih =>
    intro fuel j b w hf' hs h0 hc hl hm
    obtain ⟨fuel, rfl⟩ : ∃ m, fuel = m + 1 := ⟨fuel - 1, by omega⟩
    simp only [lrFold, idx_succ, thread]
    rw [if_pos (by omega)]
    have hm' : maxLen = 18014398509481983 := rfl
    have hmi : minInt = -4611686018427387904 := rfl
    have hma : maxInt = 4611686018427387903 := rfl
    rw [chk_ok (by omega) (by omega)]
    simp only [bind_apply]
    rw [rd_eq _ _ h0, item_ok _ _ h0 (by omega)]
    dsimp only
    have hst := hf j ((cells w c)[j.toNat]'(by omega)) b w
    cases hr : f j ((cells w c)[j.toNat]'(by omega)) b w with
    | bad => rfl
    | raise e w' => rfl
    | ok u w' =>
      rw [hr] at hst
      dsimp only
      have hlen := keeps_len hst hc
      exact ih fuel (j + 1) u w' (by omega) (by push_cast at hs; omega) (by omega)
        (keeps_exists hst hc) (by omega) (by omega)

theorem rlFold_eq {β : Type} (c : Cont V) (f : Int → V → β → Prog (World V X) β)
    (hf : ∀ j x b, Steady (f j x b)) (start : Int) (h0 : 0 ≤ start) :
    ∀ (k fuel : Nat) (b : β) (w : World V X), k < fuel →
      Exists w c → start + k ≤ (cells w c).length → ((cells w c).length : Int) ≤ maxLen →
      rlFold c f start fuel (start + k - 1) b w =
        thread (fun j b => do let x ← item c j; f j x b) (idx start k).reverse b w := by
  intro k
  induction k with
  | zero =>
    intro fuel b w hf' _ _ _
    obtain ⟨fuel, rfl⟩ : ∃ m, fuel = m + 1 := ⟨fuel - 1, by omega⟩
    simp only [rlFold, idx_zero, List.reverse_nil, thread]
    rw [if_neg (by push_cast; omega)]
  | succ k ih =>
    intro fuel b w hf' hc hl hm
    obtain ⟨fuel, rfl⟩ : ∃ m, fuel = m + 1 := ⟨fuel - 1, by omega⟩
    push_cast at hl
    simp only [rlFold, idx_snoc, List.reverse_append, List.reverse_cons, List.reverse_nil,
      List.nil_append, List.cons_append, thread]
    have hj : start + ((k + 1 : Nat) : Int) - 1 = start + k := by push_cast; ring
    rw [hj, if_pos (by omega)]
    have hm' : maxLen = 18014398509481983 := rfl
    have hmi : minInt = -4611686018427387904 := rfl
    have hma : maxInt = 4611686018427387903 := rfl
    rw [chk_ok (by omega) (by omega)]
    simp only [bind_apply]
    rw [rd_eq _ _ (by omega), item_ok _ _ (by omega) (by omega)]
    dsimp only
    have hst := hf (start + k) ((cells w c)[(start + k : Int).toNat]'(by omega)) b w
    cases hr : f (start + k) ((cells w c)[(start + k : Int).toNat]'(by omega)) b w with
    | bad => rfl
    | raise e w' => rfl
    | ok u w' =>
      rw [hr] at hst
      dsimp only
      have hlen := keeps_len hst hc
      exact ih fuel u w' (by omega) (keeps_exists hst hc) (by omega) (by omega)

theorem lrFind_eq (c : Cont V) (p : Int → V → Prog (World V X) Bool)
    (hp : ∀ j x, Steady (p j x)) (stop : Int) :
    ∀ (k fuel : Nat) (j : Int) (w : World V X), k < fuel → stop = j + k → 0 ≤ j →
      Exists w c → stop ≤ (cells w c).length → ((cells w c).length : Int) ≤ maxLen →
      lrFind c p stop fuel j w =
        firstly (fun j => do
          let x ← item c j
          let b ← p j x
          if b then do
            let y ← item c j
            pure (some (j, y))
          else pure none) (idx j k) w := by
  intro k
  induction k with
  | zero =>
    intro fuel j w hf' hs h0 _ _ _
    obtain ⟨fuel, rfl⟩ : ∃ m, fuel = m + 1 := ⟨fuel - 1, by omega⟩
    simp only [lrFind, idx_zero, firstly]
    rw [if_neg (by omega)]
  | succ k ih =>
    intro fuel j w hf' hs h0 hc hl hm
    obtain ⟨fuel, rfl⟩ : ∃ m, fuel = m + 1 := ⟨fuel - 1, by omega⟩
    simp only [lrFind, idx_succ, firstly]
    rw [if_pos (by omega)]
    have hm' : maxLen = 18014398509481983 := rfl
    have hmi : minInt = -4611686018427387904 := rfl
    have hma : maxInt = 4611686018427387903 := rfl
    simp only [bind_apply]
    rw [rd_eq _ _ h0, item_ok _ _ h0 (by omega)]
    dsimp only
    have hst := hp j ((cells w c)[j.toNat]'(by omega)) w
    cases hr : p j ((cells w c)[j.toNat]'(by omega)) w with
    | bad => rfl
    | raise e w' => rfl
    | ok u w' =>
      rw [hr] at hst
      dsimp only
      have hlen := keeps_len hst hc
      cases u with
      | true =>
        simp only [if_true, bind_apply]
        rw [rd_eq _ _ h0, item_ok _ _ h0 (by omega)]
        rfl
      | false =>
        simp only [Bool.false_eq_true, if_false, pure_apply]
        rw [chk_ok (by omega) (by omega)]
        exact ih fuel (j + 1) w' (by omega) (by push_cast at hs; omega) (by omega)
          (keeps_exists hst hc) (by omega) (by omega)

theorem lrExists_eq (c : Cont V) (p : V → Prog (World V X) Bool)
    (hp : ∀ x, Steady (p x)) (stop : Int) :
    ∀ (k fuel : Nat) (j : Int) (w : World V X), k < fuel → stop = j + k → 0 ≤ j →
      Exists w c → stop ≤ (cells w c).length → ((cells w c).length : Int) ≤ maxLen →
      lrExists c p stop fuel j w =
        (do
          let r ← firstly (fun j => do
            let x ← item c j
            let b ← p x
            pure (if b then some () else none)) (idx j k)
          pure r.isSome) w := by
  intro k
  induction k with
  | zero =>
    intro fuel j w hf' hs h0 _ _ _
    obtain ⟨fuel, rfl⟩ : ∃ m, fuel = m + 1 := ⟨fuel - 1, by omega⟩
    simp only [lrExists, idx_zero, firstly]
    rw [if_neg (by omega)]
    rfl
  | succ k ih =>
    intro fuel j w hf' hs h0 hc hl hm
    obtain ⟨fuel, rfl⟩ : ∃ m, fuel = m + 1 := ⟨fuel - 1, by omega⟩
    simp only [lrExists, idx_succ, firstly]
    rw [if_pos (by omega)]
    have hm' : maxLen = 18014398509481983 := rfl
    have hmi : minInt = -4611686018427387904 := rfl
    have hma : maxInt = 4611686018427387903 := rfl
    simp only [bind_apply]
    rw [rd_eq _ _ h0, item_ok _ _ h0 (by omega)]
    dsimp only
    have hst := hp ((cells w c)[j.toNat]'(by omega)) w
    cases hr : p ((cells w c)[j.toNat]'(by omega)) w with
    | bad => rfl
    | raise e w' => rfl
    | ok u w' =>
      rw [hr] at hst
      dsimp only
      have hlen := keeps_len hst hc
      cases u with
      | true => rfl
      | false =>
        simp only [Bool.false_eq_true, if_false, pure_apply]
        rw [chk_ok (by omega) (by omega)]
        rw [ih fuel (j + 1) w' (by omega) (by push_cast at hs; omega) (by omega)
          (keeps_exists hst hc) (by omega) (by omega)]
        rfl

theorem lrAll_eq (c : Cont V) (p : V → Prog (World V X) Bool)
    (hp : ∀ x, Steady (p x)) (stop : Int) :
    ∀ (k fuel : Nat) (j : Int) (w : World V X), k < fuel → stop = j + k → 0 ≤ j →
      Exists w c → stop ≤ (cells w c).length → ((cells w c).length : Int) ≤ maxLen →
      lrAll c p stop fuel j w =
        (do
          let r ← firstly (fun j => do
            let x ← item c j
            let b ← p x
            pure (if b then none else some ())) (idx j k)
          pure r.isNone) w := by
  intro k
  induction k with
  | zero =>
    intro fuel j w hf' hs h0 _ _ _
    obtain ⟨fuel, rfl⟩ : ∃ m, fuel = m + 1 := ⟨fuel - 1, by omega⟩
    simp only [lrAll, idx_zero, firstly]
    rw [if_pos (by omega)]
    rfl
  | succ k ih =>
    intro fuel j w hf' hs h0 hc hl hm
    obtain ⟨fuel, rfl⟩ : ∃ m, fuel = m + 1 := ⟨fuel - 1, by omega⟩
    simp only [lrAll, idx_succ, firstly]
    rw [if_neg (by omega)]
    have hm' : maxLen = 18014398509481983 := rfl
    have hmi : minInt = -4611686018427387904 := rfl
    have hma : maxInt = 4611686018427387903 := rfl
    simp only [bind_apply]
    rw [rd_eq _ _ h0, item_ok _ _ h0 (by omega)]
    dsimp only
    have hst := hp ((cells w c)[j.toNat]'(by omega)) w
    cases hr : p ((cells w c)[j.toNat]'(by omega)) w with
    | bad => rfl
    | raise e w' => rfl
    | ok u w' =>
      rw [hr] at hst
      dsimp only
      have hlen := keeps_len hst hc
      cases u with
      | false => rfl
      | true =>
        simp only [if_true, pure_apply]
        rw [chk_ok (by omega) (by omega)]
        rw [ih fuel (j + 1) w' (by omega) (by push_cast at hs; omega) (by omega)
          (keeps_exists hst hc) (by omega) (by omega)]
        rfl

theorem keeps_become (w : World V X) (l : Nat) (j : Int) (v : V) :
    Keeps w { w with heap := w.heap.set l ((w.heap.getD l []).set j.toNat v) } := by
  intro m hm
  refine ⟨by simpa using hm, ?_⟩
  simp only [List.getD_eq_getElem?_getD, List.getElem?_set]
  by_cases h : l = m
  · subst h
    simp [hm]
  · simp [h]

theorem lrModify_eq (l : Nat) (f : Int → V → Prog (World V X) V)
    (hf : ∀ j x, Steady (f j x)) (stop : Int) :
    ∀ (k fuel : Nat) (j : Int) (w : World V X), k < fuel → stop = j + k → 0 ≤ j →
      Exists w (.arr l : Cont V) → stop ≤ (cells w (.arr l)).length →
      ((cells w (.arr l)).length : Int) ≤ maxLen →
      lrModify l f stop fuel j w =
        each (fun j => do
          let x ← item (.arr l) j
          let y ← f j x
          become l j y) (idx j k) w := by
  intro k
  induction k with
  | zero =>
    intro fuel j w hf' hs h0 _ _ _
    obtain ⟨fuel, rfl⟩ : ∃ m, fuel = m + 1 := ⟨fuel - 1, by omega⟩
    simp only [lrModify, idx_zero, each]
    rw [if_neg (by omega)]
  | succ k ih =>
    intro fuel j w hf' hs h0 hc hl hm
    obtain ⟨fuel, rfl⟩ : ∃ m, fuel = m + 1 := ⟨fuel - 1, by omega⟩
    simp only [lrModify, idx_succ, each]
    rw [if_pos (by omega)]
    have hm' : maxLen = 18014398509481983 := rfl
    have hmi : minInt = -4611686018427387904 := rfl
    have hma : maxInt = 4611686018427387903 := rfl
    simp only [bind_apply]
    rw [rd_eq _ _ h0, item_ok _ _ h0 (by omega)]
    dsimp only
    have hst := hf j ((cells w (.arr l))[j.toNat]'(by omega)) w
    cases hr : f j ((cells w (.arr l))[j.toNat]'(by omega)) w with
    | bad => rfl
    | raise e w' => rfl
    | ok u w' =>
      rw [hr] at hst
      dsimp only
      have hlen := keeps_len hst hc
      rw [wr_eq w' l u h0 (by simp only [cells] at hlen hl; omega)]
      simp only [become]
      rw [chk_ok (by omega) (by omega)]
      have hk := keeps_become w' l j u
      have hc' := keeps_exists hst hc
      have hlen' := keeps_len hk hc'
      exact ih fuel (j + 1) _ (by omega) (by push_cast at hs; omega) (by omega)
        (keeps_exists hk hc') (by omega) (by omega)

/-! ## Building vectors -/

theorem put_next {U W : Type} (ys : List U) (k : Nat) (j : Int) (y : U) (w : W)
    (hj : j = ys.length) :
    put (ys.map some ++ List.replicate (k + 1) none) j y w =
      .ok ((ys ++ [y]).map some ++ List.replicate k none) w := by
  subst hj
  simp only [put]
  rw [if_pos (by simp)]
  congr 1
  simp [List.replicate_succ]

theorem handOut_some {U W : Type} (ys : List U) (w : W) :
    handOut (ys.map some) w = .ok ys w := by
  simp only [handOut]
  have : (ys.map some).mapM id = some ys := by
    induction ys with
    | nil => rfl
    | cons y ys ih => simp [List.mapM_cons, ih]
  rw [this]

theorem lrMap_eq {U : Type} (c : Cont V) (f : Int → V → Prog (World V X) U)
    (hf : ∀ j x, Steady (f j x)) (i stop : Int) :
    ∀ (k fuel : Nat) (j : Int) (ys : List U) (w : World V X), k < fuel → stop = j + k → 0 ≤ i →
      j - i = ys.length →
      Exists w c → stop ≤ (cells w c).length → ((cells w c).length : Int) ≤ maxLen →
      lrMap c f i stop fuel j (ys.map some ++ List.replicate k none) w =
        (do
          let zs ← collect (fun j => do let x ← item c j; f j x) (idx j k)
          pure ((ys ++ zs).map some)) w := by
  intro k
  induction k with
  | zero =>
    intro fuel j ys w hf' hs h0 hj _ _ _
    obtain ⟨fuel, rfl⟩ : ∃ m, fuel = m + 1 := ⟨fuel - 1, by omega⟩
    simp only [lrMap, idx_zero, collect]
    rw [if_neg (by omega)]
    simp [bind_apply, pure_apply]
  | succ k ih =>
    intro fuel j ys w hf' hs h0 hj hc hl hm
    obtain ⟨fuel, rfl⟩ : ∃ m, fuel = m + 1 := ⟨fuel - 1, by omega⟩
    simp only [lrMap, idx_succ, collect]
    rw [if_pos (by omega)]
    have hm' : maxLen = 18014398509481983 := rfl
    have hmi : minInt = -4611686018427387904 := rfl
    have hma : maxInt = 4611686018427387903 := rfl
    have hj0 : 0 ≤ j := by omega
    simp only [bind_apply]
    rw [rd_eq _ _ hj0, item_ok _ _ hj0 (by omega)]
    dsimp only
    have hst := hf j ((cells w c)[j.toNat]'(by omega)) w
    cases hr : f j ((cells w c)[j.toNat]'(by omega)) w with
    | bad => rfl
    | raise e w' => rfl
    | ok u w' =>
      rw [hr] at hst
      dsimp only
      have hlen := keeps_len hst hc
      rw [chk_ok (by omega) (by omega)]
      simp only [bind_apply]
      rw [put_next ys k (j - i) u w' hj]
      dsimp only
      rw [chk_ok (by omega) (by omega)]
      rw [ih fuel (j + 1) (ys ++ [u]) w' (by omega) (by push_cast at hs; omega) h0
        (by simp; omega) (keeps_exists hst hc) (by omega) (by omega)]
      simp only [bind_apply]
      cases collect (fun j => do let x ← item c j; f j x) (idx (j + 1) k) w' with
      | bad => rfl
      | raise e w'' => rfl
      | ok zs w'' => simp [pure_apply]

theorem lrTab_eq (f : Int → Prog (World V X) V) (n : Int) (hn : n ≤ maxLen) :
    ∀ (k fuel : Nat) (j : Int) (ys : List V) (w : World V X), k < fuel → n = j + k →
      j = ys.length →
      lrTab f n fuel j (ys.map some ++ List.replicate k none) w =
        (do
          let zs ← collect f (idx j k)
          pure ((ys ++ zs).map some)) w := by
  intro k
  induction k with
  | zero =>
    intro fuel j ys w hf' hs hj
    obtain ⟨fuel, rfl⟩ : ∃ m, fuel = m + 1 := ⟨fuel - 1, by omega⟩
    simp only [lrTab, idx_zero, collect]
    rw [if_pos (by omega)]
    simp [bind_apply, pure_apply]
  | succ k ih =>
    intro fuel j ys w hf' hs hj
    obtain ⟨fuel, rfl⟩ : ∃ m, fuel = m + 1 := ⟨fuel - 1, by omega⟩
    simp only [lrTab, idx_succ, collect]
    rw [if_neg (by omega)]
    have hm' : maxLen = 18014398509481983 := rfl
    have hmi : minInt = -4611686018427387904 := rfl
    have hma : maxInt = 4611686018427387903 := rfl
    simp only [bind_apply]
    cases hr : f j w with
    | bad => rfl
    | raise e w' => rfl
    | ok u w' =>
      dsimp only
      rw [put_next ys k j u w' hj]
      dsimp only
      rw [chk_ok (by omega) (by omega)]
      rw [ih fuel (j + 1) (ys ++ [u]) w' (by omega) (by push_cast at hs; omega)
        (by simp; omega)]
      simp only [bind_apply]
      cases collect f (idx (j + 1) k) w' with
      | bad => rfl
      | raise e w'' => rfl
      | ok zs w'' => simp [pure_apply]

theorem lrInit_eq {W : Type} (w : W) : ∀ (vs ys : List V) (j : Int), j = ys.length →
    j + vs.length ≤ maxLen →
    lrInit vs j (ys.map some ++ List.replicate vs.length none) w =
      .ok ((ys ++ vs).map some) w := by
  intro vs
  induction vs with
  | nil => intro ys j _ _; simp [lrInit, pure_apply]
  | cons v vs ih =>
    intro ys j hj hl
    have hm' : maxLen = 18014398509481983 := rfl
    have hmi : minInt = -4611686018427387904 := rfl
    have hma : maxInt = 4611686018427387903 := rfl
    simp only [List.length_cons] at hl ⊢
    push_cast at hl
    simp only [lrInit, bind_apply]
    rw [put_next ys vs.length j v w hj]
    dsimp only
    rw [chk_ok (by omega) (by omega), ih (ys ++ [v]) (j + 1) (by simp; omega) (by omega)]
    simp

theorem lrVector_eq (c : Cont V) (i n : Int) (w : World V X) (h0 : 0 ≤ i)
    (hl : i + n ≤ (cells w c).length) (hm : ((cells w c).length : Int) ≤ maxLen) :
    ∀ (k fuel : Nat) (j : Int) (ys : List V), k < fuel → n = j + k → j = ys.length →
      lrVector c i n fuel j (ys.map some ++ List.replicate k none) w =
        .ok ((ys ++ seg (cells w c) (i + j) k).map some) w := by
  intro k
  induction k with
  | zero =>
    intro fuel j ys hf' hs hj
    obtain ⟨fuel, rfl⟩ : ∃ m, fuel = m + 1 := ⟨fuel - 1, by omega⟩
    simp only [lrVector, seg_zero]
    rw [if_neg (by omega)]
    simp [pure_apply]
  | succ k ih =>
    intro fuel j ys hf' hs hj
    obtain ⟨fuel, rfl⟩ : ∃ m, fuel = m + 1 := ⟨fuel - 1, by omega⟩
    have hm' : maxLen = 18014398509481983 := rfl
    have hmi : minInt = -4611686018427387904 := rfl
    have hma : maxInt = 4611686018427387903 := rfl
    simp only [lrVector]
    rw [if_pos (by omega), chk_ok (by omega) (by omega)]
    simp only [bind_apply]
    rw [rd_eq _ _ (by omega), item_ok _ _ (by omega) (by omega)]
    dsimp only
    rw [put_next ys k j _ w hj]
    dsimp only
    rw [chk_ok (by omega) (by omega)]
    rw [ih fuel (j + 1) _ (by omega) (by push_cast at hs; omega) (by simp; omega)]
    rw [seg_succ _ (by omega) (by omega)]
    simp [add_assoc]

theorem lrPut_eq (c : Cont V) (i n pos : Int) (w : World V X) (h0 : 0 ≤ i)
    (hl : i + n ≤ (cells w c).length) (hm : ((cells w c).length : Int) ≤ maxLen)
    (m : Nat) :
    ∀ (k fuel : Nat) (j : Int) (ys : List V), k < fuel → n = j + k → 0 ≤ j →
      pos + j = ys.length → pos + n + m ≤ maxLen →
      lrPut c i n pos fuel j (ys.map some ++ List.replicate (k + m) none) w =
        .ok ((ys ++ seg (cells w c) (i + j) k).map some ++ List.replicate m none) w := by
  intro k
  induction k with
  | zero =>
    intro fuel j ys hf' hs hj0 hj _
    obtain ⟨fuel, rfl⟩ : ∃ m, fuel = m + 1 := ⟨fuel - 1, by omega⟩
    simp only [lrPut, seg_zero]
    rw [if_neg (by omega)]
    simp [pure_apply]
  | succ k ih =>
    intro fuel j ys hf' hs hj0 hj hb
    obtain ⟨fuel, rfl⟩ : ∃ m, fuel = m + 1 := ⟨fuel - 1, by omega⟩
    have hm' : maxLen = 18014398509481983 := rfl
    have hmi : minInt = -4611686018427387904 := rfl
    have hma : maxInt = 4611686018427387903 := rfl
    simp only [lrPut]
    rw [if_pos (by omega), chk_ok (by omega) (by omega), chk_ok (by omega) (by omega)]
    simp only [bind_apply]
    rw [rd_eq _ _ (by omega), item_ok _ _ (by omega) (by omega)]
    dsimp only
    have hk : k + 1 + m = (k + m) + 1 := by omega
    rw [hk, put_next ys (k + m) (pos + j) _ w hj]
    dsimp only
    rw [chk_ok (by omega) (by omega)]
    rw [ih fuel (j + 1) _ (by omega) (by push_cast at hs; omega) (by omega)
      (by simp; omega) hb]
    rw [seg_succ _ (by omega) (by omega)]
    simp [add_assoc]

end Mosml.Arrays
