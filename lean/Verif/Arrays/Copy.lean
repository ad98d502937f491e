import Verif.Arrays.Lemmas

/-! # Copying, and traversals with functions that have no effect -/

namespace Mosml.Arrays

variable {V X : Type}

theorem splice_nil (xs : List V) (j : Int) : splice xs j [] = xs := by
  simp [splice]

theorem splice_snoc (xs ys : List V) {i p : Int} (v : V) (hi : 0 ≤ i) (hp : p = i + ys.length)
    (h : p < xs.length) : splice (xs.set p.toNat v) i ys = splice xs i (ys ++ [v]) := by
  obtain ⟨a, rfl⟩ := Int.eq_ofNat_of_zero_le hi
  have : p.toNat = a + ys.length := by omega
  simp only [splice, this, Int.toNat_natCast, List.length_append, List.length_cons,
    List.length_nil]
  have ha : a + ys.length < xs.length := by omega
  rw [List.take_set_of_le (by omega), List.drop_eq_getElem_cons (by simpa using ha),
    List.drop_set_of_lt (by omega)]
  simp [add_assoc]

theorem splice_cons (xs ys : List V) {i : Int} (v : V) (hi : 0 ≤ i)
    (h : i < xs.length) : splice (xs.set i.toNat v) (i + 1) ys = splice xs i (v :: ys) := by
  obtain ⟨a, rfl⟩ := Int.eq_ofNat_of_zero_le hi
  have : ((a : Int) + 1).toNat = a + 1 := by omega
  simp only [splice, this, Int.toNat_natCast, List.length_cons]
  have ha : a < xs.length := by omega
  rw [List.take_add_one, List.take_set_of_le (by omega), List.getElem?_set_self ha,
    List.drop_set_of_lt (by omega)]
  have : a + 1 + ys.length = a + (ys.length + 1) := by omega
  simp [this]

theorem splice_length (xs ys : List V) {i : Int} (hi : 0 ≤ i)
    (h : i + ys.length ≤ xs.length) : (splice xs i ys).length = xs.length := by
  simp only [splice, List.length_append, List.length_take, List.length_drop]
  omega

theorem withArr_self (w : World V X) (l : Nat) : withArr w l (w.heap.getD l []) = w := by
  simp only [withArr]
  have : w.heap.set l (w.heap.getD l []) = w.heap := by
    apply List.ext_getElem?
    intro m
    rw [List.getElem?_set]
    by_cases h : l = m
    · subst h
      by_cases h' : l < w.heap.length
      · simp [h']
      · simp [h']
    · simp [h]
  rw [this]

theorem withArr_get (w : World V X) (l : Nat) (xs : List V) (h : l < w.heap.length) :
    (withArr w l xs).heap.getD l [] = xs := by
  simp [withArr, h]

theorem withArr_other (w : World V X) (l m : Nat) (xs : List V) (h : l ≠ m) :
    (withArr w l xs).heap.getD m [] = w.heap.getD m [] := by
  simp [withArr, h]

theorem withArr_twice (w : World V X) (l : Nat) (xs ys : List V) :
    withArr (withArr w l xs) l ys = withArr w l ys := by
  simp [withArr]

theorem become_eq (w : World V X) (l : Nat) (j : Int) (v : V) :
    become l j v w = .ok () (withArr w l ((w.heap.getD l []).set j.toNat v)) := rfl

/-- Reading from a container after a cell of an array was written. -/
theorem cells_withArr_set (w : World V X) (c : Cont V) (l : Nat) (p q : Nat) (v : V)
    (hl : l < w.heap.length) (h : c = .arr l → p ≠ q) :
    (cells (withArr w l ((w.heap.getD l []).set p v)) c)[q]? = (cells w c)[q]? := by
  cases c with
  | vec xs => rfl
  | arr m =>
    simp only [cells]
    by_cases hm : l = m
    · subst hm
      rw [withArr_get _ _ _ hl, List.getElem?_set_ne (h rfl)]
    · rw [withArr_other _ _ _ _ hm]

theorem hi2lo_eq (c1 : Cont V) (l2 : Nat) (i1 i2 : Int) (S : List V) (h1 : 0 ≤ i1) (h2 : 0 ≤ i2)
    (hov : c1 = .arr l2 → i1 ≤ i2) :
    ∀ (k fuel : Nat) (w : World V X), k < fuel → k ≤ S.length → l2 < w.heap.length →
      i1 + k ≤ maxLen → i2 + k ≤ (w.heap.getD l2 []).length →
      ((w.heap.getD l2 []).length : Int) ≤ maxLen →
      (∀ t : Nat, t < k → (cells w c1)[(i1 + t).toNat]? = S[t]?) →
      hi2lo c1 l2 i1 i2 fuel ((k : Int) - 1) w =
        .ok () (withArr w l2 (splice (w.heap.getD l2 []) i2 (S.take k))) := by
  intro k
  induction k with
  | zero =>
    intro fuel w hf' _ _ _ _ _ _
    obtain ⟨fuel, rfl⟩ : ∃ m, fuel = m + 1 := ⟨fuel - 1, by omega⟩
    simp only [hi2lo]
    rw [if_neg (by omega)]
    simp only [pure_apply, List.take_zero, splice_nil, withArr_self]
  | succ k ih =>
    intro fuel w hf' hk hl2 hi1 hi2 hm hS
    obtain ⟨fuel, rfl⟩ : ∃ m, fuel = m + 1 := ⟨fuel - 1, by omega⟩
    have hm' : maxLen = 18014398509481983 := rfl
    have hmi : minInt = -4611686018427387904 := rfl
    have hma : maxInt = 4611686018427387903 := rfl
    push_cast at hi1 hi2
    have hj : ((k + 1 : Nat) : Int) - 1 = k := by push_cast; ring
    simp only [hi2lo, hj]
    rw [if_pos (by omega), chk_ok (by omega) (by omega), chk_ok (by omega) (by omega)]
    simp only [bind_apply]
    rw [rd_eq _ _ (by omega)]
    have hit : item c1 (i1 + k) w = .ok (S[k]'(by omega)) w := by
      simp only [item]
      rw [hS k (by omega), List.getElem?_eq_getElem (by omega)]
    rw [hit]
    dsimp only
    rw [wr_eq w l2 _ (by omega) (by omega), become_eq]
    dsimp only
    rw [chk_ok (by omega) (by omega)]
    set w' := withArr w l2 ((w.heap.getD l2 []).set (i2 + (k : Int)).toNat S[k]) with hw'
    have hg : w'.heap.getD l2 [] = (w.heap.getD l2 []).set (i2 + (k : Int)).toNat S[k] :=
      withArr_get _ _ _ hl2
    rw [ih fuel w' (by omega) (by omega) (by simpa [hw', withArr] using hl2) (by omega)
      (by rw [hg, List.length_set]; omega) (by rw [hg, List.length_set]; exact hm)]
    · rw [hg, hw', withArr_twice, splice_snoc _ _ _ h2 (by simp; omega) (by omega)]
      rw [List.take_add_one, List.getElem?_eq_getElem (by omega)]
      rfl
    · intro t ht
      rw [hw', cells_withArr_set w c1 l2 _ _ _ hl2 (fun h => by have := hov h; omega)]
      exact hS t (by omega)

theorem lo2hi_eq (c1 : Cont V) (l2 : Nat) (i1 i2 n : Int) (S : List V) (h1 : 0 ≤ i1)
    (h2 : 0 ≤ i2) (hov : c1 = .arr l2 → i2 ≤ i1) (hS' : n = S.length) (hi1 : i1 + n ≤ maxLen) :
    ∀ (k fuel : Nat) (j : Int) (w : World V X), k < fuel → n = j + k → 0 ≤ j →
      l2 < w.heap.length → i2 + n ≤ (w.heap.getD l2 []).length →
      ((w.heap.getD l2 []).length : Int) ≤ maxLen →
      (∀ t : Nat, j ≤ t → t < n → (cells w c1)[(i1 + t).toNat]? = S[t]?) →
      lo2hi c1 l2 i1 i2 n fuel j w =
        .ok () (withArr w l2 (splice (w.heap.getD l2 []) (i2 + j) (S.drop j.toNat))) := by
  intro k
  induction k with
  | zero =>
    intro fuel j w hf' hn _ _ _ _ _
    obtain ⟨fuel, rfl⟩ : ∃ m, fuel = m + 1 := ⟨fuel - 1, by omega⟩
    simp only [lo2hi]
    rw [if_neg (by omega), List.drop_of_length_le (by omega)]
    simp only [pure_apply, splice_nil, withArr_self]
  | succ k ih =>
    intro fuel j w hf' hn hj hl2 hi2 hm hS
    obtain ⟨fuel, rfl⟩ : ∃ m, fuel = m + 1 := ⟨fuel - 1, by omega⟩
    have hm' : maxLen = 18014398509481983 := rfl
    have hmi : minInt = -4611686018427387904 := rfl
    have hma : maxInt = 4611686018427387903 := rfl
    simp only [lo2hi]
    rw [if_pos (by omega), chk_ok (by omega) (by omega), chk_ok (by omega) (by omega)]
    simp only [bind_apply]
    rw [rd_eq _ _ (by omega)]
    have hit : item c1 (i1 + j) w = .ok (S[j.toNat]'(by omega)) w := by
      simp only [item]
      have := hS j.toNat (by omega) (by omega)
      rw [Int.toNat_of_nonneg hj] at this
      rw [this, List.getElem?_eq_getElem (by omega)]
    rw [hit]
    dsimp only
    rw [wr_eq w l2 _ (by omega) (by omega), become_eq]
    dsimp only
    rw [chk_ok (by omega) (by omega)]
    set w' := withArr w l2 ((w.heap.getD l2 []).set (i2 + j).toNat S[j.toNat]) with hw'
    have hg : w'.heap.getD l2 [] = (w.heap.getD l2 []).set (i2 + j).toNat S[j.toNat] :=
      withArr_get _ _ _ hl2
    rw [ih fuel (j + 1) w' (by omega) (by push_cast at hn; omega) (by omega)
      (by simpa [hw', withArr] using hl2)
      (by rw [hg, List.length_set]; omega) (by rw [hg, List.length_set]; exact hm)]
    · rw [hg, hw', withArr_twice, ← add_assoc, splice_cons _ _ _ (by omega) (by omega)]
      have : (j + 1).toNat = j.toNat + 1 := by omega
      rw [this, ← List.drop_eq_getElem_cons (by omega)]
    · intro t ht ht'
      rw [hw', cells_withArr_set w c1 l2 _ _ _ hl2 (fun h => by have := hov h; omega)]
      exact hS t (by omega) ht'

/-! ## Functions without effect -/

theorem thread_pure {β : Type} (c : Cont V) (g : Int → V → β → β) (w : World V X) :
    ∀ (k : Nat) (j : Int) (b : β), 0 ≤ j → j + k ≤ (cells w c).length →
      thread (fun j b => do let x ← item c j; pure (g j x b)) (idx j k) b w =
        .ok (((idx j k).zip (seg (cells w c) j k)).foldl (fun b p => g p.1 p.2 b) b) w := by
  intro k
  induction k with
  | zero => intro j b _ _; simp [idx_zero, thread, pure_apply]
  | succ k ih =>
    intro j b h0 hl
    push_cast at hl
    rw [idx_succ, seg_succ _ h0 (by omega)]
    simp only [thread, bind_apply]
    rw [item_ok _ _ h0 (by omega)]
    simp only [pure_apply, List.zip_cons_cons, List.foldl_cons]
    exact ih (j + 1) _ (by omega) (by omega)

theorem thread_pure_rev {β : Type} (c : Cont V) (g : Int → V → β → β) (w : World V X) :
    ∀ (k : Nat) (j : Int) (b : β), 0 ≤ j → j + k ≤ (cells w c).length →
      thread (fun j b => do let x ← item c j; pure (g j x b)) (idx j k).reverse b w =
        .ok (((idx j k).zip (seg (cells w c) j k)).foldr (fun p b => g p.1 p.2 b) b) w := by
  intro k
  induction k with
  | zero => intro j b _ _; simp [idx_zero, thread, pure_apply]
  | succ k ih =>
    intro j b h0 hl
    push_cast at hl
    rw [idx_snoc, seg_snoc _ h0 k (by omega), List.zip_append
      (by rw [seg_length _ h0 k (by omega)]; simp [idx]), List.foldr_append]
    simp only [List.reverse_append, List.reverse_cons, List.reverse_nil, List.nil_append,
      List.cons_append, thread, bind_apply]
    rw [item_ok _ _ (by omega) (by omega)]
    simp only [pure_apply, List.zip_cons_cons, List.zip_nil_right, List.foldr_cons,
      List.foldr_nil]
    exact ih j _ h0 (by omega)

theorem firstly_pure {β : Type} (c : Cont V) (g : Int → V → Option β) (w : World V X) :
    ∀ (k : Nat) (j : Int), 0 ≤ j → j + k ≤ (cells w c).length →
      firstly (fun j => do let x ← item c j; pure (g j x)) (idx j k) w =
        .ok (((idx j k).zip (seg (cells w c) j k)).findSome? (fun p => g p.1 p.2)) w := by
  intro k
  induction k with
  | zero => intro j _ _; simp [idx_zero, firstly, pure_apply]
  | succ k ih =>
    intro j h0 hl
    push_cast at hl
    rw [idx_succ, seg_succ _ h0 (by omega)]
    simp only [firstly, bind_apply]
    rw [item_ok _ _ h0 (by omega)]
    simp only [pure_apply, List.zip_cons_cons, List.findSome?_cons]
    cases g j ((cells w c)[j.toNat]'(by omega)) with
    | some b => rfl
    | none => exact ih (j + 1) (by omega) (by omega)

theorem collect_pure {U : Type} (c : Cont V) (g : Int → V → U) (w : World V X) :
    ∀ (k : Nat) (j : Int), 0 ≤ j → j + k ≤ (cells w c).length →
      collect (fun j => do let x ← item c j; pure (g j x)) (idx j k) w =
        .ok (((idx j k).zip (seg (cells w c) j k)).map (fun p => g p.1 p.2)) w := by
  intro k
  induction k with
  | zero => intro j _ _; simp [idx_zero, collect, pure_apply]
  | succ k ih =>
    intro j h0 hl
    push_cast at hl
    rw [idx_succ, seg_succ _ h0 (by omega)]
    simp only [collect, bind_apply]
    rw [item_ok _ _ h0 (by omega)]
    simp only [pure_apply, List.zip_cons_cons, List.map_cons]
    rw [ih (j + 1) (by omega) (by omega)]

theorem each_modify_pure (l : Nat) (g : Int → V → V) :
    ∀ (k : Nat) (j : Int) (w : World V X), 0 ≤ j → l < w.heap.length →
      j + k ≤ (w.heap.getD l []).length →
      each (fun j => do
          let x ← item (.arr l) j
          let y ← (pure (g j x) : Prog (World V X) V)
          become l j y) (idx j k) w =
        .ok () (withArr w l (splice (w.heap.getD l []) j
          (((idx j k).zip (seg (w.heap.getD l []) j k)).map (fun p => g p.1 p.2)))) := by
  intro k
  induction k with
  | zero => intro j w _ _ _; simp [idx_zero, each, pure_apply, splice_nil, -List.getD_eq_getElem?_getD, withArr_self]
  | succ k ih =>
    intro j w h0 hl2 hl
    push_cast at hl
    rw [idx_succ, seg_succ _ h0 (by omega)]
    simp only [each, bind_apply]
    rw [item_ok _ _ h0 (by simp only [cells]; omega)]
    simp only [pure_apply, become_eq, List.zip_cons_cons, List.map_cons]
    have hg := withArr_get w l ((w.heap.getD l []).set j.toNat
      (g j ((cells w (.arr l))[j.toNat]'(by simp only [cells]; omega)))) hl2
    rw [ih (j + 1) _ (by omega) (by simpa [withArr] using hl2)
      (by rw [hg, List.length_set]; omega), hg, withArr_twice, splice_cons _ _ _ h0 (by omega)]
    have hseg : ∀ v, seg ((w.heap.getD l []).set j.toNat v) (j + 1) k =
        seg (w.heap.getD l []) (j + 1) k := by
      intro v
      simp only [seg]
      rw [List.drop_set_of_lt (by omega)]
    rw [hseg]
    rfl

end Mosml.Arrays
