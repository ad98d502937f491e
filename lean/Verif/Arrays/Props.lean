import Verif.Arrays.Safe

/-!
# C75: arrays, vectors and slices

Functions that are passed to the library may do anything, also update the very
array that is being traversed; all that is assumed of them is that they do not
alter the length of an array (`Steady`) and, for the statements that nothing goes
wrong, that they do not go wrong themselves (`Safe`).
-/

namespace Mosml.Arrays

variable {V X : Type}

/-- A small machine: an array of five elements, another of two. -/
def w0 : World Nat Nat := ⟨[[10, 11, 12, 13, 14], [7, 8]], 0⟩

/-- `(a,1,3)` of the first array of `w0`. -/
def s0 : Slice Nat := ⟨.arr 0, 1, 3⟩

theorem valid_s0 : Valid w0 s0 := by
  refine ⟨show (0 : Nat) < 2 by decide, ?_, ?_, ?_, ?_⟩ <;> decide +kernel

theorem steady_pure {α : Type} (a : α) : Steady (pure a : Prog (World V X) α) :=
  fun w => keeps_refl w

theorem safe_pure {α : Type} (a : α) : Safe (pure a : Prog (World V X) α) :=
  fun w h => by cases h

/-! ## Subscripts -/

/-- `sub` and `update` on arrays and vectors, for every index: the element, or
Subscript and nothing has happened. -/
theorem C75_subscript (w : World V X) (c : Cont V) (l : Nat) (k : Int) (v : V) :
    (∀ h : 0 ≤ k ∧ k < (cells w c).length,
      sub c k w = .ok ((cells w c)[k.toNat]'(by omega)) w) ∧
    (¬ (0 ≤ k ∧ k < (cells w c).length) → sub c k w = .raise .subscript w) ∧
    (0 ≤ k ∧ k < (w.heap.getD l []).length →
      update l k v w = .ok () (withArr w l ((w.heap.getD l []).set k.toNat v))) ∧
    (¬ (0 ≤ k ∧ k < (w.heap.getD l []).length) →
      update l k v w = .raise .subscript w) := by
  refine ⟨?_, ?_, ?_, ?_⟩
  · intro h
    simp only [sub, bind_apply, len]
    rw [if_neg (by omega), rd_eq _ _ h.1, item_ok _ _ h.1 h.2]
  · intro h
    simp only [sub, bind_apply, len]
    rw [if_pos (by omega)]
    rfl
  · intro h
    simp only [update, bind_apply, len, cells]
    rw [if_neg (by omega), wr_eq _ _ _ h.1 h.2]
    rfl
  · intro h
    simp only [update, bind_apply, len, cells]
    rw [if_pos (by omega)]
    rfl

example : sub (.arr 0) 4 w0 = .ok 14 w0 ∧ sub (.arr 0) 5 w0 = .raise .subscript w0 ∧
    sub (.arr 0) (-1) w0 = .raise .subscript w0 ∧
    update 1 0 9 w0 = .ok () ⟨[[10, 11, 12, 13, 14], [9, 8]], 0⟩ := ⟨rfl, rfl, rfl, rfl⟩

/-- `sub` and `update` on slices: the `k`'th element of the slice is the `i+k`'th of the
array, and nothing outside the slice can be reached. -/
theorem C75_slice_subscript (w : World V X) (s : Slice V) (hs : Valid w s) (k : Int)
    (l : Nat) (v : V) :
    (∀ h : 0 ≤ k ∧ k < s.n, sliceSub s k w = .ok ((elems w s)[k.toNat]'(by
      obtain ⟨_, hi, hn, hl, _⟩ := hs
      rw [elems, seg_length _ hi _ (by omega)]; omega)) w) ∧
    (¬ (0 ≤ k ∧ k < s.n) → sliceSub s k w = .raise .subscript w) ∧
    (s.c = .arr l → 0 ≤ k ∧ k < s.n → sliceUpdate l s.i s.n k v w =
      .ok () (withArr w l ((w.heap.getD l []).set (s.i + k).toNat v))) ∧
    (¬ (0 ≤ k ∧ k < s.n) → sliceUpdate l s.i s.n k v w = .raise .subscript w) := by
  obtain ⟨hc, hi, hn, hl, hm⟩ := hs
  have hmi : minInt = -4611686018427387904 := rfl
  have hma : maxInt = 4611686018427387903 := rfl
  have hml : maxLen = 18014398509481983 := rfl
  refine ⟨?_, ?_, ?_, ?_⟩
  · intro h
    simp only [sliceSub]
    rw [if_neg (by omega), chk_ok (by omega) (by omega), rd_eq _ _ (by omega),
      item_ok _ _ (by omega) (by omega)]
    have hk : (s.i + k).toNat = s.i.toNat + k.toNat := by omega
    simp only [elems, seg, List.getElem_take, List.getElem_drop, hk]
  · intro h
    simp only [sliceSub]
    rw [if_pos (by omega)]
    rfl
  · intro hsc h
    rw [hsc] at hl hm
    simp only [cells] at hl hm
    simp only [sliceUpdate]
    rw [if_neg (by omega), chk_ok (by omega) (by omega), wr_eq _ _ _ (by omega) (by omega)]
    rfl
  · intro h
    simp only [sliceUpdate]
    rw [if_pos (by omega)]
    rfl

example : sliceSub s0 2 w0 = .ok 13 w0 ∧ sliceSub s0 3 w0 = .raise .subscript w0 ∧
    sliceUpdate 0 1 3 0 9 w0 = .ok () ⟨[[10, 9, 12, 13, 14], [7, 8]], 0⟩ := ⟨rfl, rfl, rfl⟩

/-! ## Making slices -/

/-- `slice` and `full` make exactly the valid slices, for every index and length that is
an `int`. -/
theorem C75_slice (w : World V X) (c : Cont V) (hc : Exists w c)
    (hm : ((cells w c).length : Int) ≤ maxLen) (i : Int) (hi : i ≤ maxInt) (n : Int) :
    slice c i none w = (if 0 ≤ i ∧ i ≤ (cells w c).length
      then .ok ⟨c, i, (cells w c).length - i⟩ w else .raise .subscript w) ∧
    slice c i (some n) w = (if 0 ≤ i ∧ 0 ≤ n ∧ i + n ≤ (cells w c).length
      then .ok ⟨c, i, n⟩ w else .raise .subscript w) ∧
    full c w = .ok ⟨c, 0, (cells w c).length⟩ w ∧
    (Valid w ⟨c, i, n⟩ ↔ 0 ≤ i ∧ 0 ≤ n ∧ i + n ≤ (cells w c).length) := by
  have hmi : minInt = -4611686018427387904 := rfl
  have hma : maxInt = 4611686018427387903 := rfl
  have hml : maxLen = 18014398509481983 := rfl
  refine ⟨?_, ?_, rfl, ?_⟩
  · simp only [slice, bind_apply, len]
    by_cases h : 0 ≤ i ∧ i ≤ (cells w c).length
    · rw [if_pos h, if_pos h, chk_ok (by omega) (by omega)]
      rfl
    · rw [if_neg h, if_neg h]
      rfl
  · simp only [slice, bind_apply, len]
    by_cases h1 : 0 ≤ i
    · by_cases h2 : 0 ≤ n
      · rw [if_pos h1, if_pos h2, chk_ok (by omega) (by omega)]
        by_cases h3 : n ≤ (cells w c).length - i
        · rw [if_pos h3, if_pos ⟨h1, h2, by omega⟩]
          rfl
        · rw [if_neg h3, if_neg (by omega)]
          rfl
      · rw [if_pos h1, if_neg h2, if_neg (by omega)]
        rfl
    · rw [if_neg h1, if_neg (by omega)]
      rfl
  · constructor
    · rintro ⟨_, h1, h2, h3, _⟩
      exact ⟨h1, h2, h3⟩
    · rintro ⟨h1, h2, h3⟩
      exact ⟨hc, h1, h2, h3, hm⟩

example : slice (.arr 0) 1 (some 3) w0 = .ok s0 w0 ∧ slice (.arr 0) 5 none w0 = .ok ⟨.arr 0, 5, 0⟩ w0 ∧
    slice (.arr 0) 1 (some maxInt) w0 = .raise .subscript w0 := ⟨rfl, rfl, rfl⟩

/-- `subslice` makes a valid slice of a valid slice, and its elements are those documented. -/
theorem C75_subslice (w : World V X) (s : Slice V) (hs : Valid w s) (i : Int) (n : Int)
    (hi : i ≤ maxInt) :
    subslice s i none w = (if 0 ≤ i ∧ i ≤ s.n
      then .ok ⟨s.c, s.i + i, s.n - i⟩ w else .raise .subscript w) ∧
    subslice s i (some n) w = (if 0 ≤ i ∧ 0 ≤ n ∧ i + n ≤ s.n
      then .ok ⟨s.c, s.i + i, n⟩ w else .raise .subscript w) ∧
    (0 ≤ i ∧ 0 ≤ n ∧ i + n ≤ s.n → Valid w ⟨s.c, s.i + i, n⟩ ∧
      elems w ⟨s.c, s.i + i, n⟩ = ((elems w s).drop i.toNat).take n.toNat) := by
  obtain ⟨hc, hi0, hn, hl, hm⟩ := hs
  have hmi : minInt = -4611686018427387904 := rfl
  have hma : maxInt = 4611686018427387903 := rfl
  have hml : maxLen = 18014398509481983 := rfl
  refine ⟨?_, ?_, ?_⟩
  · simp only [subslice]
    by_cases h : 0 ≤ i ∧ i ≤ s.n
    · rw [if_pos h, if_pos h, chk_ok (by omega) (by omega), chk_ok (by omega) (by omega)]
      rfl
    · rw [if_neg h, if_neg h]
      rfl
  · simp only [subslice]
    by_cases h1 : 0 ≤ i
    · by_cases h2 : 0 ≤ n
      · rw [if_pos h1, if_pos h2, chk_ok (by omega) (by omega)]
        by_cases h3 : n ≤ s.n - i
        · rw [if_pos h3, if_pos ⟨h1, h2, by omega⟩, chk_ok (by omega) (by omega)]
          rfl
        · rw [if_neg h3, if_neg (by omega)]
          rfl
      · rw [if_pos h1, if_neg h2, if_neg (by omega)]
        rfl
    · rw [if_neg h1, if_neg (by omega)]
      rfl
  · rintro ⟨h1, h2, h3⟩
    refine ⟨⟨hc, by simp only; omega, h2, by simp only; omega, hm⟩, ?_⟩
    simp only [elems, seg]
    have e : (s.i + i).toNat = s.i.toNat + i.toNat := by omega
    rw [e, List.drop_take, List.take_take, List.drop_drop]
    congr 1
    omega

example : subslice s0 1 (some 2) w0 = .ok ⟨.arr 0, 2, 2⟩ w0 ∧
    elems w0 ⟨.arr 0, 2, 2⟩ = [12, 13] ∧ subslice s0 2 (some 2) w0 = .raise .subscript w0 :=
  ⟨rfl, rfl, rfl⟩

/-- `getItem`: the first element and the slice of the others. -/
theorem C75_getItem (w : World V X) (s : Slice V) (hs : Valid w s) :
    (elems w s = [] ∧ getItem s w = .ok none w) ∨
    (∃ x s', elems w s = x :: elems w s' ∧ Valid w s' ∧
      getItem s w = .ok (some (x, s')) w) := by
  obtain ⟨hc, hi, hn, hl, hm⟩ := hs
  have hmi : minInt = -4611686018427387904 := rfl
  have hma : maxInt = 4611686018427387903 := rfl
  have hml : maxLen = 18014398509481983 := rfl
  by_cases h : s.n = 0
  · left
    simp [elems, getItem, h, seg_zero, pure_apply]
  · right
    refine ⟨(cells w s.c)[s.i.toNat]'(by omega), ⟨s.c, s.i + 1, s.n - 1⟩, ?_,
      ⟨hc, by simp only; omega, by simp only; omega, by simp only; omega, hm⟩, ?_⟩
    · simp only [elems]
      obtain ⟨m, hm'⟩ : ∃ m : Nat, s.n = m + 1 := ⟨(s.n - 1).toNat, by omega⟩
      have e1 : s.n.toNat = m + 1 := by omega
      have e2 : (s.n - 1).toNat = m := by omega
      rw [e1, e2, seg_succ _ hi (by omega)]
    · simp only [getItem]
      rw [if_neg h]
      simp only [bind_apply]
      rw [rd_eq _ _ hi, item_ok _ _ hi (by omega)]
      dsimp only
      rw [chk_ok (by omega) (by omega), chk_ok (by omega) (by omega)]
      rfl

example : getItem s0 w0 = .ok (some (11, ⟨.arr 0, 2, 2⟩)) w0 := rfl

/-- A slice that was made stays valid, whatever happens to the elements. -/
theorem C75_valid (w w' : World V X) (s : Slice V) (hs : Valid w s) (hk : Keeps w w') :
    Valid w' s := by
  obtain ⟨hc, hi, hn, hl, hm⟩ := hs
  have := keeps_len hk hc
  exact ⟨keeps_exists hk hc, hi, hn, by omega, by omega⟩

example : Keeps w0 ⟨[[1, 2, 3, 4, 5], [0, 0], [3]], 7⟩ := by
  intro l hl
  have : l = 0 ∨ l = 1 := by simp only [w0, List.length_cons, List.length_nil] at hl; omega
  rcases this with rfl | rfl <;> exact ⟨by simp, rfl⟩

/-! ## Traversals -/

/-- `appi` and `app` visit the indices of the slice from left to right, each once, and pass
the element that is there at the time. -/
theorem C75_app (w : World V X) (s : Slice V) (hs : Valid w s) :
    (∀ f : Int → V → Prog (World V X) Unit, (∀ j x, Steady (f j x)) →
      appi f s w = each (fun j => do let x ← item s.c j; f j x) (indices s) w) ∧
    (∀ f : V → Prog (World V X) Unit, (∀ x, Steady (f x)) →
      app f s w = each (fun j => do let x ← item s.c j; f x) (indices s) w) := by
  obtain ⟨hc, hi, hn, hl, hm⟩ := hs
  have hmi : minInt = -4611686018427387904 := rfl
  have hma : maxInt = 4611686018427387903 := rfl
  have hml : maxLen = 18014398509481983 := rfl
  refine ⟨fun f hf => ?_, fun f hf => ?_⟩
  · simp only [appi]
    rw [chk_ok (by omega) (by omega)]
    exact lrApp_eq s.c f hf _ s.n.toNat _ s.i w (by simp [rounds]) (by omega) hi hc hl hm
  · simp only [app]
    rw [chk_ok (by omega) (by omega)]
    exact lrApp_eq s.c (fun _ x => f x) (fun _ x => hf x) _ s.n.toNat _ s.i w
      (by simp [rounds]) (by omega) hi hc hl hm

/-- A function that counts in `ext` and overwrites the last element of the first array. -/
def bump (j : Int) (x : Nat) : Prog (World Nat Nat) Unit := fun w =>
  .ok () ⟨w.heap.set 0 ((w.heap.getD 0 []).set 3 99), w.ext + 100 * x + j.toNat⟩

theorem steady_bump (j : Int) (x : Nat) : Steady (bump j x) := by
  intro w l hl
  refine ⟨by simpa [bump] using hl, ?_⟩
  simp only [List.getD_eq_getElem?_getD, List.getElem?_set]
  by_cases h : 0 = l
  · subst h
    simp [hl]
  · simp [h]

theorem safe_bump (j : Int) (x : Nat) : Safe (bump j x) := fun w h => by cases h

example : appi bump s0 w0 =
    .ok () ⟨[[10, 11, 12, 99, 14], [7, 8]], 1101 + 1202 + 9903⟩ := by rfl

/-- `foldli` and `foldl` go from left to right, `foldri` and `foldr` from right to left. -/
theorem C75_fold {β : Type} (w : World V X) (s : Slice V) (hs : Valid w s) (e : β) :
    (∀ f : Int → V → β → Prog (World V X) β, (∀ j x b, Steady (f j x b)) →
      foldli f e s w =
        thread (fun j b => do let x ← item s.c j; f j x b) (indices s) e w ∧
      foldri f e s w =
        thread (fun j b => do let x ← item s.c j; f j x b) (indices s).reverse e w) ∧
    (∀ f : V → β → Prog (World V X) β, (∀ x b, Steady (f x b)) →
      foldl f e s w =
        thread (fun j b => do let x ← item s.c j; f x b) (indices s) e w ∧
      foldr f e s w =
        thread (fun j b => do let x ← item s.c j; f x b) (indices s).reverse e w) := by
  obtain ⟨hc, hi, hn, hl, hm⟩ := hs
  have hmi : minInt = -4611686018427387904 := rfl
  have hma : maxInt = 4611686018427387903 := rfl
  have hml : maxLen = 18014398509481983 := rfl
  have hn' : s.n = (s.n.toNat : Int) := by omega
  refine ⟨fun f hf => ⟨?_, ?_⟩, fun f hf => ⟨?_, ?_⟩⟩
  · simp only [foldli]
    rw [chk_ok (by omega) (by omega)]
    exact lrFold_eq s.c f hf _ s.n.toNat _ s.i e w (by simp [rounds]) (by omega) hi hc hl hm
  · simp only [foldri]
    rw [chk_ok (by omega) (by omega), chk_ok (by omega) (by omega)]
    have := rlFold_eq s.c f hf s.i hi s.n.toNat (rounds s.n) e w (by simp [rounds]) hc
      (by omega) hm
    rw [← hn'] at this
    exact this
  · simp only [foldl]
    rw [chk_ok (by omega) (by omega)]
    exact lrFold_eq s.c (fun _ x b => f x b) (fun _ x b => hf x b) _ s.n.toNat _ s.i e w
      (by simp [rounds]) (by omega) hi hc hl hm
  · simp only [foldr]
    rw [chk_ok (by omega) (by omega), chk_ok (by omega) (by omega)]
    have := rlFold_eq s.c (fun _ x b => f x b) (fun _ x b => hf x b) s.i hi s.n.toNat
      (rounds s.n) e w (by simp [rounds]) hc (by omega) hm
    rw [← hn'] at this
    exact this

example : foldri (fun j x (b : List Nat) => pure (j.toNat :: x :: b)) [] s0 w0 =
    .ok [1, 11, 2, 12, 3, 13] w0 := by rfl

/-- `exists`, `all`, `find` and `findi` go from left to right and stop at the first element
that decides. The element that `find` and `findi` return is read again after the
predicate was applied. -/
theorem C75_search (w : World V X) (s : Slice V) (hs : Valid w s) :
    (∀ p : V → Prog (World V X) Bool, (∀ x, Steady (p x)) →
      «exists» p s w = (do
        let r ← firstly (fun j => do
          let x ← item s.c j
          let b ← p x
          pure (if b then some () else none)) (indices s)
        pure r.isSome) w ∧
      all p s w = (do
        let r ← firstly (fun j => do
          let x ← item s.c j
          let b ← p x
          pure (if b then none else some ())) (indices s)
        pure r.isNone) w ∧
      find p s w = (do
        let r ← firstly (fun j => do
          let x ← item s.c j
          let b ← p x
          if b then do
            let y ← item s.c j
            pure (some (j, y))
          else pure none) (indices s)
        pure (r.map Prod.snd)) w) ∧
    (∀ p : Int → V → Prog (World V X) Bool, (∀ j x, Steady (p j x)) →
      findi p s w = firstly (fun j => do
          let x ← item s.c j
          let b ← p j x
          if b then do
            let y ← item s.c j
            pure (some (j, y))
          else pure none) (indices s) w) := by
  obtain ⟨hc, hi, hn, hl, hm⟩ := hs
  have hmi : minInt = -4611686018427387904 := rfl
  have hma : maxInt = 4611686018427387903 := rfl
  have hml : maxLen = 18014398509481983 := rfl
  refine ⟨fun p hp => ⟨?_, ?_, ?_⟩, fun p hp => ?_⟩
  · simp only [«exists»]
    rw [chk_ok (by omega) (by omega)]
    exact lrExists_eq s.c p hp _ s.n.toNat _ s.i w (by simp [rounds]) (by omega) hi hc hl hm
  · simp only [all]
    rw [chk_ok (by omega) (by omega)]
    exact lrAll_eq s.c p hp _ s.n.toNat _ s.i w (by simp [rounds]) (by omega) hi hc hl hm
  · simp only [find]
    rw [chk_ok (by omega) (by omega)]
    simp only [bind_apply]
    rw [lrFind_eq s.c (fun _ x => p x) (fun _ x => hp x) _ s.n.toNat _ s.i w (by simp [rounds])
      (by omega) hi hc hl hm]
    rfl
  · simp only [findi]
    rw [chk_ok (by omega) (by omega)]
    exact lrFind_eq s.c p hp _ s.n.toNat _ s.i w (by simp [rounds]) (by omega) hi hc hl hm

example : findi (fun j x => pure (decide (x > 11) && decide (j > 0))) s0 w0 =
    .ok (some (2, 12)) w0 := by rfl

/-- `modifyi` and `modify` replace the elements of the slice one after the other. -/
theorem C75_modify (w : World V X) (l : Nat) (i n : Int) (hs : Valid w ⟨.arr l, i, n⟩) :
    (∀ f : Int → V → Prog (World V X) V, (∀ j x, Steady (f j x)) →
      modifyi f l i n w = each (fun j => do
        let x ← item (.arr l) j
        let y ← f j x
        become l j y) (indices (⟨.arr l, i, n⟩ : Slice V)) w) ∧
    (∀ f : V → Prog (World V X) V, (∀ x, Steady (f x)) →
      modify f l i n w = each (fun j => do
        let x ← item (.arr l) j
        let y ← f x
        become l j y) (indices (⟨.arr l, i, n⟩ : Slice V)) w) := by
  obtain ⟨hc, hi, hn, hl, hm⟩ := hs
  simp only at hc hi hn hl hm
  have hmi : minInt = -4611686018427387904 := rfl
  have hma : maxInt = 4611686018427387903 := rfl
  have hml : maxLen = 18014398509481983 := rfl
  refine ⟨fun f hf => ?_, fun f hf => ?_⟩
  · simp only [modifyi]
    rw [chk_ok (by omega) (by omega)]
    exact lrModify_eq l f hf _ n.toNat _ i w (by simp [rounds]) (by omega) hi hc hl hm
  · simp only [modify]
    rw [chk_ok (by omega) (by omega)]
    exact lrModify_eq l (fun _ x => f x) (fun _ x => hf x) _ n.toNat _ i w
      (by simp [rounds]) (by omega) hi hc hl hm

example : modifyi (fun j x => pure (x + 100 * j.toNat)) 0 1 3 w0 =
    .ok () ⟨[[10, 111, 212, 313, 14], [7, 8]], 0⟩ := by rfl

/-- `mapi` and `map` collect the results in the new vector. -/
theorem C75_map {U : Type} (w : World V X) (s : Slice V) (hs : Valid w s) :
    (∀ f : Int → V → Prog (World V X) U, (∀ j x, Steady (f j x)) →
      mapi f s w = collect (fun j => do let x ← item s.c j; f j x) (indices s) w) ∧
    (∀ f : V → Prog (World V X) U, (∀ x, Steady (f x)) →
      map f s w = collect (fun j => do let x ← item s.c j; f x) (indices s) w) := by
  obtain ⟨hc, hi, hn, hl, hm⟩ := hs
  have hmi : minInt = -4611686018427387904 := rfl
  have hma : maxInt = 4611686018427387903 := rfl
  have hml : maxLen = 18014398509481983 := rfl
  have key : ∀ f : Int → V → Prog (World V X) U, (∀ j x, Steady (f j x)) →
      (do
        let nv ← lrMap s.c f s.i (s.i + s.n) (rounds s.n) s.i (blank s.n)
        handOut nv) w = collect (fun j => do let x ← item s.c j; f j x) (indices s) w := by
    intro f hf
    have h := lrMap_eq s.c f hf s.i (s.i + s.n) s.n.toNat (rounds s.n) s.i [] w
      (by simp [rounds]) (by omega) hi (by simp) hc hl hm
    simp only [List.map_nil, List.nil_append] at h
    rw [bind_apply, blank, h]
    simp only [bind_apply, indices]
    cases collect (fun j => do let x ← item s.c j; f j x) (idx s.i s.n.toNat) w with
    | bad => rfl
    | raise e w' => rfl
    | ok zs w' => simp only [pure_apply, handOut_some]
  refine ⟨fun f hf => ?_, fun f hf => ?_⟩
  · simp only [mapi]
    rw [chk_ok (by omega) (by omega)]
    exact key f hf
  · simp only [map]
    rw [chk_ok (by omega) (by omega)]
    exact key (fun _ x => f x) (fun _ x => hf x)

example : mapi (fun j x => pure (x + 100 * j.toNat)) s0 w0 = .ok [111, 212, 313] w0 := by rfl

/-- `collate` compares the elements pairwise until they differ or a slice ends. -/
theorem C75_collate (w : World V X) (s1 s2 : Slice V) (h1 : Valid w s1) (h2 : Valid w s2)
    (cmp : V → V → Prog (World V X) Ordering) (hf : ∀ x y, Steady (cmp x y)) :
    collate cmp s1 s2 w = (do
      let r ← firstly (fun k => do
        let x ← item s1.c (s1.i + k)
        let y ← item s2.c (s2.i + k)
        let o ← cmp x y
        pure (if o = Ordering.eq then none else some o)) (idx 0 (min s1.n.toNat s2.n.toNat))
      pure (r.getD (if s1.n < s2.n then .lt else if s1.n > s2.n then .gt else .eq))) w := by
  obtain ⟨hc1, hi1, hn1, hl1, hm1⟩ := h1
  obtain ⟨hc2, hi2, hn2, hl2, hm2⟩ := h2
  simp only [collate]
  have hstop : (if s1.n < s2.n then s1.n else s2.n) = ((min s1.n.toNat s2.n.toNat : Nat) : Int) := by
    split <;> omega
  rw [hstop]
  exact lrCollate_eq s1.c s2.c s1.i s2.i s1.n s2.n cmp hf _ hi1 hi2 _ _ 0 w
    (by simp only [rounds]; omega) (by omega) le_rfl hc1 hc2 (by omega) hm1 (by omega) hm2

example : collate (fun x y => pure (compare x y)) s0 ⟨.arr 0, 1, 2⟩ w0 = .ok .gt w0 := by rfl

/-! ## Traversals with functions that have no effect -/

/-- Folding with a function that has no effect is folding the list of elements. -/
theorem C75_fold_pure {β : Type} (w : World V X) (s : Slice V) (hs : Valid w s) (e : β) :
    (∀ g : Int → V → β → β,
      foldli (fun j x b => pure (g j x b)) e s w =
        .ok (((indices s).zip (elems w s)).foldl (fun b p => g p.1 p.2 b) e) w ∧
      foldri (fun j x b => pure (g j x b)) e s w =
        .ok (((indices s).zip (elems w s)).foldr (fun p b => g p.1 p.2 b) e) w) ∧
    (∀ g : V → β → β,
      foldl (fun x b => pure (g x b)) e s w =
        .ok ((elems w s).foldl (fun b x => g x b) e) w ∧
      foldr (fun x b => pure (g x b)) e s w =
        .ok ((elems w s).foldr g e) w) := by
  obtain ⟨p1, p2⟩ := C75_fold w s hs e
  obtain ⟨hc, hi, hn, hl, hm⟩ := hs
  have hlen : (indices s).length = (elems w s).length := by
    simp only [elems, indices]
    rw [seg_length _ hi _ (by omega)]
    simp [idx]
  have hz2 : ((indices s).zip (elems w s)).map Prod.snd = elems w s :=
    List.map_snd_zip (by omega)
  refine ⟨fun g => ⟨?_, ?_⟩, fun g => ⟨?_, ?_⟩⟩
  · rw [(p1 (fun j x b => pure (g j x b)) (fun _ _ _ => steady_pure _)).1]
    exact thread_pure s.c g w s.n.toNat s.i e hi (by omega)
  · rw [(p1 (fun j x b => pure (g j x b)) (fun _ _ _ => steady_pure _)).2]
    exact thread_pure_rev s.c g w s.n.toNat s.i e hi (by omega)
  · rw [(p2 (fun x b => pure (g x b)) (fun _ _ => steady_pure _)).1]
    refine (thread_pure s.c (fun _ => g) w s.n.toNat s.i e hi (by omega)).trans ?_
    have : ∀ ps : List (Int × V), ∀ b, ps.foldl (fun b p => g p.2 b) b =
        (ps.map Prod.snd).foldl (fun b x => g x b) b := by
      intro ps
      induction ps with
      | nil => intro b; rfl
      | cons p ps ih => intro b; exact ih _
    simp only [indices] at hz2
    rw [this, show seg (cells w s.c) s.i s.n.toNat = elems w s from rfl, hz2]
  · rw [(p2 (fun x b => pure (g x b)) (fun _ _ => steady_pure _)).2]
    refine (thread_pure_rev s.c (fun _ => g) w s.n.toNat s.i e hi (by omega)).trans ?_
    have : ∀ ps : List (Int × V), ∀ b, ps.foldr (fun p b => g p.2 b) b =
        (ps.map Prod.snd).foldr g b := by
      intro ps
      induction ps with
      | nil => intro b; rfl
      | cons p ps ih => intro b; simp [ih]
    simp only [indices] at hz2
    rw [this, show seg (cells w s.c) s.i s.n.toNat = elems w s from rfl, hz2]

example : foldl (fun x b => pure (x :: b)) [] s0 w0 = .ok [13, 12, 11] w0 := by rfl

/-- `map` and `mapi` with a function that has no effect. -/
theorem C75_map_pure {U : Type} (w : World V X) (s : Slice V) (hs : Valid w s) :
    (∀ g : Int → V → U, mapi (fun j x => pure (g j x)) s w =
      .ok (((indices s).zip (elems w s)).map (fun p => g p.1 p.2)) w) ∧
    (∀ g : V → U, map (fun x => pure (g x)) s w = .ok ((elems w s).map g) w) := by
  obtain ⟨p1, p2⟩ := C75_map (U := U) w s hs
  obtain ⟨hc, hi, hn, hl, hm⟩ := hs
  have hlen : (indices s).length = (elems w s).length := by
    simp only [elems, indices]
    rw [seg_length _ hi _ (by omega)]
    simp [idx]
  refine ⟨fun g => ?_, fun g => ?_⟩
  · rw [p1 (fun j x => pure (g j x)) (fun _ _ => steady_pure _)]
    exact collect_pure s.c g w s.n.toNat s.i hi (by omega)
  · rw [p2 (fun x => pure (g x)) (fun _ => steady_pure _)]
    refine (collect_pure s.c (fun _ => g) w s.n.toNat s.i hi (by omega)).trans ?_
    have hz2 : ((indices s).zip (elems w s)).map Prod.snd = elems w s :=
      List.map_snd_zip (by omega)
    simp only [indices] at hz2
    rw [show (fun p : Int × V => g p.2) = g ∘ Prod.snd from rfl, ← List.map_map,
      show seg (cells w s.c) s.i s.n.toNat = elems w s from rfl, hz2]

/-- `modify` and `modifyi` with a function that has no effect: the elements of the slice are
mapped, and no other element of any array is different. -/
theorem C75_modify_pure (w : World V X) (l : Nat) (i n : Int) (hs : Valid w ⟨.arr l, i, n⟩)
    (g : Int → V → V) :
    modifyi (fun j x => pure (g j x)) l i n w = .ok () (withArr w l
      (splice (w.heap.getD l []) i (((indices (⟨.arr l, i, n⟩ : Slice V)).zip
        (elems w ⟨.arr l, i, n⟩)).map (fun p => g p.1 p.2)))) := by
  rw [(C75_modify w l i n hs).1 (fun j x => pure (g j x)) (fun _ _ => steady_pure _)]
  obtain ⟨hc, hi, hn, hl, hm⟩ := hs
  simp only [cells] at hc hi hn hl hm
  exact each_modify_pure l g n.toNat i w hi hc (by omega)

/-- `collate` with an order is the lexicographic order. -/
theorem C75_collate_pure (w : World V X) (s1 s2 : Slice V) (h1 : Valid w s1) (h2 : Valid w s2)
    (cmp : V → V → Ordering) :
    collate (fun x y => pure (cmp x y)) s1 s2 w = .ok (lex cmp (elems w s1) (elems w s2)) w := by
  rw [C75_collate w s1 s2 h1 h2 (fun x y => pure (cmp x y)) (fun _ _ => steady_pure _)]
  obtain ⟨hc1, hi1, hn1, hl1, hm1⟩ := h1
  obtain ⟨hc2, hi2, hn2, hl2, hm2⟩ := h2
  have := firstly_lex s1.c s2.c s1.i s2.i cmp w hi1 hi2 s1.n.toNat s2.n.toNat 0 le_rfl
    (by omega) (by omega)
  simp only [add_zero] at this
  have e : (if s1.n < s2.n then Ordering.lt else if s1.n > s2.n then .gt else .eq) =
      (if s1.n.toNat < s2.n.toNat then Ordering.lt
        else if s1.n.toNat > s2.n.toNat then .gt else .eq) := by
    by_cases a : s1.n < s2.n
    · rw [if_pos a, if_pos (by omega)]
    · by_cases b : s1.n > s2.n
      · rw [if_neg a, if_pos b, if_neg (by omega), if_pos (by omega)]
      · rw [if_neg a, if_neg b, if_neg (by omega), if_neg (by omega)]
  rw [e]
  exact this

/-- A predicate without effect: `exists`, `all`, `find` decide over the elements. -/
theorem C75_search_pure (w : World V X) (s : Slice V) (hs : Valid w s) (p : V → Bool) :
    «exists» (fun x => pure (p x)) s w = .ok ((elems w s).any p) w ∧
    all (fun x => pure (p x)) s w = .ok ((elems w s).all p) w ∧
    find (fun x => pure (p x)) s w = .ok ((elems w s).find? p) w := by
  obtain ⟨q, _⟩ := C75_search w s hs
  obtain ⟨q1, q2, q3⟩ := q (fun x => pure (p x)) (fun _ => steady_pure _)
  obtain ⟨hc, hi, hn, hl, hm⟩ := hs
  have hlen : (indices s).length = (elems w s).length := by
    simp only [elems, indices]
    rw [seg_length _ hi _ (by omega)]
    simp [idx]
  have fs : ∀ {β : Type} (g : V → Option β) (js : List Int) (xs : List V),
      js.length = xs.length → (js.zip xs).findSome? (fun q => g q.2) = xs.findSome? g := by
    intro β g js
    induction js with
    | nil => intro xs h; cases xs with
      | nil => rfl
      | cons x xs => simp at h
    | cons j js ih =>
      intro xs h
      cases xs with
      | nil => simp at h
      | cons x xs =>
        simp only [List.zip_cons_cons, List.findSome?_cons]
        rw [ih xs (by simpa using h)]
  refine ⟨?_, ?_, ?_⟩
  · rw [q1]
    have h := firstly_pure s.c (fun _ x => if p x then some () else none) w s.n.toNat s.i hi
      (by omega)
    rw [fs (fun x => if p x then some () else none) _ _ (show (idx s.i s.n.toNat).length = (seg (cells w s.c) s.i s.n.toNat).length from hlen)] at h
    simp only [bind_apply, pure_apply] at h ⊢
    simp only [indices]
    erw [h]
    simp only
    congr 1
    show (List.findSome? (fun x => if p x = true then some () else none) (elems w s)).isSome = _
    induction elems w s with
    | nil => rfl
    | cons x xs ih =>
      simp only [List.findSome?_cons, List.any_cons]
      cases p x <;> simp [ih]
  · rw [q2]
    have h := firstly_pure s.c (fun _ x => if p x then none else some ()) w s.n.toNat s.i hi
      (by omega)
    rw [fs (fun x => if p x then none else some ()) _ _ (show (idx s.i s.n.toNat).length = (seg (cells w s.c) s.i s.n.toNat).length from hlen)] at h
    simp only [bind_apply, pure_apply] at h ⊢
    simp only [indices]
    erw [h]
    simp only
    congr 1
    show (List.findSome? (fun x => if p x = true then none else some ()) (elems w s)).isNone = _
    induction elems w s with
    | nil => rfl
    | cons x xs ih =>
      simp only [List.findSome?_cons, List.all_cons]
      cases p x <;> simp [ih]
  · rw [q3]
    have hb : ∀ j ∈ indices s, (fun w => (do
          let x ← item s.c j
          let b ← (pure (p x) : Prog (World V X) Bool)
          if b then do
            let y ← item s.c j
            pure (some (j, y))
          else pure none : Prog (World V X) (Option (Int × V))) w) w =
        (do let x ← item s.c j; pure (if p x then some (j, x) else none)) w := by
      intro j hj
      have := mem_idx.mp hj
      simp only [bind_apply]
      rw [item_ok _ _ (by omega) (by omega)]
      simp only [pure_apply]
      cases p ((cells w s.c)[j.toNat]'(by omega)) with
      | false => rfl
      | true =>
        simp only [if_true, bind_apply]
        rw [item_ok _ _ (by omega) (by omega)]
        rfl
    have hst : ∀ (b1 b2 : Int → Prog (World V X) (Option (Int × V))) (js : List Int),
        (∀ j ∈ js, b1 j w = b2 j w) → (∀ j ∈ js, ∃ r, b2 j w = .ok r w) →
        firstly b1 js w = firstly b2 js w := by
      intro b1 b2 js
      induction js with
      | nil => intro _ _; rfl
      | cons j js ih =>
        intro h1 h2
        simp only [firstly, bind_apply]
        rw [h1 j (by simp)]
        obtain ⟨r, hr⟩ := h2 j (by simp)
        rw [hr]
        cases r with
        | some b => rfl
        | none =>
          exact ih (fun m hm => h1 m (by simp [hm])) (fun m hm => h2 m (by simp [hm]))
    rw [bind_apply, hst _ (fun j => do let x ← item s.c j; pure (if p x then some (j, x) else none))
      (indices s) hb ?_]
    · have h := firstly_pure s.c (fun j x => if p x then some (j, x) else none) w s.n.toNat s.i hi
        (by omega)
      simp only [indices]
      rw [h]
      simp only [pure_apply]
      congr 1
      have : ∀ (js : List Int) (xs : List V), js.length = xs.length →
          ((js.zip xs).findSome? (fun q => if p q.2 then some (q.1, q.2) else none)).map Prod.snd =
          xs.find? p := by
        intro js
        induction js with
        | nil => intro xs h; cases xs with
          | nil => rfl
          | cons x xs => simp at h
        | cons j js ih =>
          intro xs h
          cases xs with
          | nil => simp at h
          | cons x xs =>
            simp only [List.zip_cons_cons, List.findSome?_cons, List.find?_cons]
            cases p x with
            | true => rfl
            | false => exact ih xs (by simpa using h)
      exact this _ _ hlen
    · intro j hj
      have := mem_idx.mp hj
      simp only [bind_apply]
      rw [item_ok w s.c (j := j) (by omega) (by omega)]
      exact ⟨_, rfl⟩

example : find (fun x => pure (decide (x > 11))) s0 w0 = .ok (some 12) w0 := by rfl

/-- A predicate that says yes to 11 and overwrites it with 0. -/
def eraser (x : Nat) : Prog (World Nat Nat) Bool := fun w =>
  if x = 11 then .ok true ⟨w.heap.set 0 ((w.heap.getD 0 []).set 1 0), w.ext⟩ else .ok false w

/-- The documentation of `find` (Array.sig, ArraySlice.sig) says that `SOME x` is returned for
the first `x` for which `p x` evaluates to true.  The code reads the array a second
time, so that a predicate with an effect can get an element returned to which it
was never applied. -/
theorem C75_find_violation : find eraser s0 w0 = .ok (some 0) ⟨[[10, 0, 12, 13, 14], [7, 8]], 0⟩ ∧
    ¬ (0 ∈ elems w0 s0) := by
  constructor
  · rfl
  · decide +kernel

/-! ## Nothing goes wrong -/

/-- No function of these units accesses memory outside the arrays, or leaves an element of
a new vector undefined, whatever the functions do that it is passed: it ends with its
result or an exception, and all arrays have the length they had. -/
theorem C75_safe (w : World V X) (s : Slice V) (hs : Valid w s) :
    (∀ f : Int → V → Prog (World V X) Unit, (∀ j x, Steady (f j x)) → (∀ j x, Safe (f j x)) →
      Fine w (appi f s w)) ∧
    (∀ (β : Type) (e : β) (f : Int → V → β → Prog (World V X) β), (∀ j x b, Steady (f j x b)) →
      (∀ j x b, Safe (f j x b)) → Fine w (foldli f e s w) ∧ Fine w (foldri f e s w)) ∧
    (∀ p : V → Prog (World V X) Bool, (∀ x, Steady (p x)) → (∀ x, Safe (p x)) →
      Fine w («exists» p s w) ∧ Fine w (all p s w) ∧ Fine w (find p s w)) ∧
    (∀ p : Int → V → Prog (World V X) Bool, (∀ j x, Steady (p j x)) → (∀ j x, Safe (p j x)) →
      Fine w (findi p s w)) ∧
    (∀ l, s.c = .arr l → ∀ f : Int → V → Prog (World V X) V, (∀ j x, Steady (f j x)) →
      (∀ j x, Safe (f j x)) → Fine w (modifyi f l s.i s.n w)) ∧
    (∀ (U : Type) (f : Int → V → Prog (World V X) U), (∀ j x, Steady (f j x)) →
      (∀ j x, Safe (f j x)) → Fine w (mapi f s w)) ∧
    (∀ (s2 : Slice V), Valid w s2 → ∀ cmp : V → V → Prog (World V X) Ordering,
      (∀ x y, Steady (cmp x y)) → (∀ x y, Safe (cmp x y)) → Fine w (collate cmp s s2 w)) := by
  have hit : ∀ {c : Cont V} {i n : Int}, Valid w ⟨c, i, n⟩ → ∀ {j : Int}, i ≤ j → j < i + n →
      ∀ {w'}, Keeps w w' → Fine w' (item c j w') := by
    intro c i n hv j h1 h2 w' hk
    obtain ⟨hc, hi, hn, hl, hm⟩ := hv
    simp only at hc hi hn hl hm
    have := keeps_len hk hc
    exact fine_item w' c (by omega) (by omega)
  have hn := hs.2.2.1
  have hmem : ∀ {j : Int}, j ∈ indices s → s.i ≤ j ∧ j < s.i + s.n := by
    intro j hj
    have := mem_idx.mp hj
    omega
  refine ⟨fun f h1 h2 => ?_, fun β e f h1 h2 => ⟨?_, ?_⟩, fun p h1 h2 => ⟨?_, ?_, ?_⟩,
    fun p h1 h2 => ?_, fun l hl f h1 h2 => ?_, fun U f h1 h2 => ?_, fun s2 hs2 cmp h1 h2 => ?_⟩
  · rw [(C75_app w s hs).1 f h1]
    refine each_fine _ _ _ (fun j hj w' hk => ?_)
    exact fine_bind (hit hs (hmem hj).1 (hmem hj).2 hk)
      (fun x w'' _ => fine_of (h2 j x) (h1 j x) w'')
  · rw [((C75_fold w s hs e).1 f h1).1]
    refine thread_fine _ _ _ _ (fun j hj b w' hk => ?_)
    exact fine_bind (hit hs (hmem hj).1 (hmem hj).2 hk)
      (fun x w'' _ => fine_of (h2 j x b) (h1 j x b) w'')
  · rw [((C75_fold w s hs e).1 f h1).2]
    refine thread_fine _ _ _ _ (fun j hj b w' hk => ?_)
    have hj' := List.mem_reverse.mp hj
    exact fine_bind (hit hs (hmem hj').1 (hmem hj').2 hk)
      (fun x w'' _ => fine_of (h2 j x b) (h1 j x b) w'')
  · rw [((C75_search w s hs).1 p h1).1]
    refine fine_bind (firstly_fine _ _ _ (fun j hj w' hk => ?_)) (fun _ w' _ => fine_pure w' _)
    exact fine_bind (hit hs (hmem hj).1 (hmem hj).2 hk)
      (fun x w'' _ => fine_bind (fine_of (h2 x) (h1 x) w'') (fun _ w3 _ => fine_pure w3 _))
  · rw [((C75_search w s hs).1 p h1).2.1]
    refine fine_bind (firstly_fine _ _ _ (fun j hj w' hk => ?_)) (fun _ w' _ => fine_pure w' _)
    exact fine_bind (hit hs (hmem hj).1 (hmem hj).2 hk)
      (fun x w'' _ => fine_bind (fine_of (h2 x) (h1 x) w'') (fun _ w3 _ => fine_pure w3 _))
  · rw [((C75_search w s hs).1 p h1).2.2]
    refine fine_bind (firstly_fine _ _ _ (fun j hj w' hk => ?_)) (fun _ w' _ => fine_pure w' _)
    refine fine_bind (hit hs (hmem hj).1 (hmem hj).2 hk)
      (fun x w'' hk2 => fine_bind (fine_of (h2 x) (h1 x) w'') (fun b w3 hk3 => ?_))
    cases b with
    | false => exact fine_pure w3 _
    | true =>
      exact fine_bind (hit hs (hmem hj).1 (hmem hj).2 (keeps_trans hk (keeps_trans hk2 hk3)))
        (fun _ w4 _ => fine_pure w4 _)
  · rw [(C75_search w s hs).2 p h1]
    refine firstly_fine _ _ _ (fun j hj w' hk => ?_)
    refine fine_bind (hit hs (hmem hj).1 (hmem hj).2 hk)
      (fun x w'' hk2 => fine_bind (fine_of (h2 j x) (h1 j x) w'') (fun b w3 hk3 => ?_))
    cases b with
    | false => exact fine_pure w3 _
    | true =>
      exact fine_bind (hit hs (hmem hj).1 (hmem hj).2 (keeps_trans hk (keeps_trans hk2 hk3)))
        (fun _ w4 _ => fine_pure w4 _)
  · have hs' : Valid w ⟨.arr l, s.i, s.n⟩ := by rw [← hl]; exact hs
    rw [(C75_modify w l s.i s.n hs').1 f h1]
    refine each_fine _ _ _ (fun j hj w' hk => ?_)
    have hj' : j ∈ indices s := hj
    exact fine_bind (hit hs' (hmem hj').1 (hmem hj').2 hk)
      (fun x w'' _ => fine_bind (fine_of (h2 j x) (h1 j x) w'')
        (fun y w3 _ => fine_become w3 l j y))
  · rw [(C75_map w s hs).1 f h1]
    refine collect_fine _ _ _ (fun j hj w' hk => ?_)
    exact fine_bind (hit hs (hmem hj).1 (hmem hj).2 hk)
      (fun x w'' _ => fine_of (h2 j x) (h1 j x) w'')
  · rw [C75_collate w s s2 hs hs2 cmp h1]
    have hn2 := hs2.2.2.1
    refine fine_bind (firstly_fine _ _ _ (fun j hj w' hk => ?_)) (fun _ w' _ => fine_pure w' _)
    have hj' := mem_idx.mp hj
    have : ((min s.n.toNat s2.n.toNat : Nat) : Int) ≤ s.n := by omega
    have : ((min s.n.toNat s2.n.toNat : Nat) : Int) ≤ s2.n := by omega
    refine fine_bind (hit hs (by omega) (by omega) hk) (fun x w2 hk2 => ?_)
    refine fine_bind (hit hs2 (by omega) (by omega) (keeps_trans hk hk2)) (fun y w3 hk3 => ?_)
    exact fine_bind (fine_of (h2 x y) (h1 x y) w3) (fun _ w4 _ => fine_pure w4 _)

example : Fine w0 (appi bump s0 w0) := (C75_safe w0 s0 valid_s0).1 bump steady_bump safe_bump

/-! ## Copying -/

/-- `copy` of a slice into an array, also the one the slice is of, with any overlap: the
destination gets the elements that the slice had, nothing else is different; or Subscript
is raised and nothing has happened.  The documentation promises Subscript also when
`di+n` is not an `int`; see `C75_copy_violation`. -/
theorem C75_copy_partial (w : World V X) (l1 : Nat) (i1 n : Int) (l2 : Nat) (i2 : Int)
    (hs : Valid w ⟨.arr l1, i1, n⟩) (h2 : l2 < w.heap.length)
    (hm2 : ((w.heap.getD l2 []).length : Int) ≤ maxLen) (hi : i2 + n ≤ maxInt) :
    copy l1 i1 n l2 i2 w =
      (if 0 ≤ i2 ∧ i2 + n ≤ (w.heap.getD l2 []).length then
        .ok () (withArr w l2 (splice (w.heap.getD l2 []) i2 (elems w ⟨.arr l1, i1, n⟩)))
      else .raise .subscript w) := by
  obtain ⟨hc, hi1, hn, hl, hm⟩ := hs
  simp only [cells] at hc hi1 hn hl hm
  have hmi : minInt = -4611686018427387904 := rfl
  have hma : maxInt = 4611686018427387903 := rfl
  have hml : maxLen = 18014398509481983 := rfl
  have hsl : (elems w ⟨.arr l1, i1, n⟩).length = n.toNat := by
    simp only [elems]
    exact seg_length _ hi1 _ (by simp only [cells]; omega)
  have hS : ∀ t : Nat, t < n.toNat → (cells w (.arr l1))[(i1 + t).toNat]? =
      (elems w ⟨.arr l1, i1, n⟩)[t]? := by
    intro t ht
    simp only [elems, seg]
    rw [List.getElem?_take_of_lt ht, List.getElem?_drop]
    congr 1
    omega
  simp only [copy, bind_apply, len, cells]
  by_cases h0 : i2 < 0
  · rw [if_pos h0, if_neg (by omega)]
    rfl
  · rw [if_neg h0, chk_ok (by omega) (by omega)]
    by_cases h1 : i2 + n > (w.heap.getD l2 []).length
    · rw [if_pos h1, if_neg (by omega)]
      rfl
    · rw [if_neg h1, if_pos (c := 0 ≤ i2 ∧ i2 + n ≤ (w.heap.getD l2 []).length) (by omega)]
      by_cases hlt : i1 < i2
      · rw [if_pos hlt, chk_ok (by omega) (by omega)]
        have := hi2lo_eq (.arr l1) l2 i1 i2 (elems w ⟨.arr l1, i1, n⟩) hi1 (by omega)
          (fun _ => by omega) n.toNat (rounds n) w (by simp [rounds]) (by omega) h2 (by omega)
          (by omega) hm2 hS
        rw [Int.toNat_of_nonneg hn, ← hsl, List.take_length] at this
        exact this
      · rw [if_neg hlt]
        have := lo2hi_eq (.arr l1) l2 i1 i2 n (elems w ⟨.arr l1, i1, n⟩) hi1 (by omega)
          (fun _ => by omega) (by omega) (by omega) n.toNat (rounds n) 0 w (by simp [rounds])
          (by omega) le_rfl h2 (by omega) hm2 (fun t _ ht => hS t (by omega))
        simp only [add_zero, Int.toNat_zero, List.drop_zero] at this
        exact this

example : copy 0 1 3 0 2 w0 = .ok () ⟨[[10, 11, 11, 12, 13], [7, 8]], 0⟩ ∧
    copy 0 1 3 0 0 w0 = .ok () ⟨[[11, 12, 13, 13, 14], [7, 8]], 0⟩ ∧
    copy 0 1 3 1 0 w0 = .raise .subscript w0 := ⟨rfl, rfl, rfl⟩

/-- `copy` of a whole array, and `copyVec` of a slice of a vector. -/
theorem C75_copy_whole_partial (w : World V X) (l2 : Nat) (i2 : Int) (h2 : l2 < w.heap.length)
    (hm2 : ((w.heap.getD l2 []).length : Int) ≤ maxLen) :
    (∀ l1, l1 < w.heap.length → ((w.heap.getD l1 []).length : Int) ≤ maxLen →
      i2 + (w.heap.getD l1 []).length ≤ maxInt →
      copyArray l1 l2 i2 w =
        (if 0 ≤ i2 ∧ i2 + (w.heap.getD l1 []).length ≤ (w.heap.getD l2 []).length then
          .ok () (withArr w l2 (splice (w.heap.getD l2 []) i2 (w.heap.getD l1 [])))
        else .raise .subscript w)) ∧
    (∀ xs i1 n, Valid w ⟨.vec xs, i1, n⟩ → i2 + n ≤ maxInt →
      copyVec xs i1 n l2 i2 w =
        (if 0 ≤ i2 ∧ i2 + n ≤ (w.heap.getD l2 []).length then
          .ok () (withArr w l2 (splice (w.heap.getD l2 []) i2 (seg xs i1 n.toNat)))
        else .raise .subscript w)) := by
  have hmi : minInt = -4611686018427387904 := rfl
  have hma : maxInt = 4611686018427387903 := rfl
  have hml : maxLen = 18014398509481983 := rfl
  constructor
  · intro l1 h1 hm1 hb
    simp only [copyArray, bind_apply, len, cells]
    by_cases h0 : i2 < 0
    · rw [if_pos h0, if_neg (by omega)]
      rfl
    · rw [if_neg h0, chk_ok (by omega) (by omega)]
      by_cases h3 : i2 + (w.heap.getD l1 []).length > (w.heap.getD l2 []).length
      · rw [if_pos h3, if_neg (by omega)]
        rfl
      · rw [if_neg h3, if_pos (by omega), chk_ok (by omega) (by omega)]
        have := hi2lo_eq (.arr l1) l2 0 i2 (w.heap.getD l1 []) le_rfl (by omega)
          (fun _ => by omega) (w.heap.getD l1 []).length (rounds (w.heap.getD l1 []).length) w
          (by simp [rounds]) le_rfl h2 (by omega) (by omega) hm2
          (fun t ht => by simp only [zero_add, Int.toNat_natCast, cells])
        rw [List.take_length] at this
        exact this
  · intro xs i1 n hs hb
    obtain ⟨hc, hi1, hn, hl, hm⟩ := hs
    simp only [cells] at hc hi1 hn hl hm
    have hsl : (seg xs i1 n.toNat).length = n.toNat := seg_length _ hi1 _ (by omega)
    simp only [copyVec, bind_apply, len, cells]
    by_cases h0 : i2 < 0
    · rw [if_pos h0, if_neg (by omega)]
      rfl
    · rw [if_neg h0, chk_ok (by omega) (by omega)]
      by_cases h3 : i2 + n > (w.heap.getD l2 []).length
      · rw [if_pos h3, if_neg (by omega)]
        rfl
      · rw [if_neg h3, if_pos (by omega)]
        have := lo2hi_eq (.vec xs) l2 i1 i2 n (seg xs i1 n.toNat) hi1 (by omega)
          (fun h => by cases h) (by omega) (by omega) n.toNat (rounds n) 0 w (by simp [rounds])
          (by omega) le_rfl h2 (by omega) hm2
          (fun t _ ht => by
            simp only [cells, seg]
            rw [List.getElem?_take_of_lt (by omega), List.getElem?_drop]
            congr 1
            omega)
        simp only [add_zero, Int.toNat_zero, List.drop_zero] at this
        exact this

example : copyArray 1 0 3 w0 = .ok () ⟨[[10, 11, 12, 7, 8], [7, 8]], 0⟩ ∧
    copyVec [1, 2, 3] 1 2 1 0 w0 = .ok () ⟨[[10, 11, 12, 13, 14], [2, 3]], 0⟩ := ⟨rfl, rfl⟩

/-- "Raises Subscript if di<0, or if di + length src > length dst" (Array.sig:71, likewise ArraySlice.sig): with `di`
near the largest integer, `copy` raises Overflow. -/
theorem C75_copy_violation : copy 0 1 3 1 maxInt w0 = .raise .overflow w0 ∧
    copyArray 1 0 maxInt w0 = .raise .overflow w0 ∧
    maxInt + 3 > (w0.heap.getD 1 []).length := by
  refine ⟨?_, ?_, ?_⟩ <;> first | rfl | decide +kernel

/-! ## Making arrays and vectors -/

/-- `vector` is the vector of the elements, as they are now. -/
theorem C75_vector (w : World V X) (s : Slice V) (hs : Valid w s) :
    vector s w = .ok (elems w s) w := by
  obtain ⟨hc, hi, hn, hl, hm⟩ := hs
  have h := lrVector_eq s.c s.i s.n w hi hl hm s.n.toNat (rounds s.n) 0 [] (by simp [rounds])
    (by omega) (by simp)
  simp only [List.map_nil, List.nil_append, add_zero] at h
  simp only [vector, bind_apply, blank]
  rw [h]
  simp only [handOut_some, elems]

example : vector s0 w0 = .ok [11, 12, 13] w0 := by rfl

/-- `concat` is the vector of all elements in order, or raises Size if that is too long. -/
theorem C75_concat (w : World V X) (ss : List (Slice V)) (hs : ∀ s ∈ ss, Valid w s)
    (hb : ((ss.flatMap (elems w)).length : Int) ≤ maxInt) :
    concat ss w = (if ((ss.flatMap (elems w)).length : Int) ≤ maxLen
      then .ok (ss.flatMap (elems w)) w else .raise .size w) := by
  have ht : ∀ ss : List (Slice V), (∀ s ∈ ss, Valid w s) →
      ((ss.flatMap (elems w)).length : Int) = total ss := by
    intro ss
    induction ss with
    | nil => intro _; rfl
    | cons s ss ih =>
      intro h
      obtain ⟨hc, hi, hn, hl, hm⟩ := h s (by simp)
      have hlen : (elems w s).length = s.n.toNat := seg_length _ hi _ (by omega)
      have := ih (fun t ht => h t (by simp [ht]))
      simp only [List.flatMap_cons, List.length_append, total, hlen]
      push_cast
      omega
  rw [ht ss hs] at hb ⊢
  simp only [concat, bind_apply]
  rw [sumLen_eq ss 0 le_rfl hs (by omega)]
  simp only [zero_add]
  by_cases h : total ss ≤ maxLen
  · rw [if_neg (by omega), if_pos h]
    have := copyall_eq ss 0 [] (by simp) hs (by omega)
    simp only [List.map_nil, List.nil_append] at this
    simp only [bind_apply, blank]
    rw [this]
    simp only [handOut_some]
  · rw [if_pos (by omega), if_neg h]
    rfl

example : concat [s0, ⟨.vec [1, 2], 0, 2⟩, ⟨.arr 1, 1, 1⟩] w0 = .ok [11, 12, 13, 1, 2, 8] w0 := by
  rfl

/-- `tabulate` applies `f` to 0, 1, ..., n-1 in this order, or raises Size at once. -/
theorem C75_tabulate (w : World V X) (n : Int) (f : Int → Prog (World V X) V) :
    tabulate n f w = (if 0 ≤ n ∧ n ≤ maxLen then collect f (idx 0 n.toNat) w
      else .raise .size w) ∧
    tabulateArray n f w = (if 0 ≤ n ∧ n ≤ maxLen then (do
      let xs ← collect f (idx 0 n.toNat)
      alloc xs) w else .raise .size w) := by
  have h1 : tabulate n f w = (if 0 ≤ n ∧ n ≤ maxLen then collect f (idx 0 n.toNat) w
      else .raise .size w) := by
    simp only [tabulate]
    by_cases h : 0 ≤ n ∧ n ≤ maxLen
    · rw [if_neg (by omega), if_pos h]
      have := lrTab_eq f n h.2 n.toNat (rounds n) 0 [] w (by simp [rounds]) (by omega) (by simp)
      simp only [List.map_nil, List.nil_append] at this
      rw [bind_apply, blank, this]
      simp only [bind_apply]
      cases collect f (idx 0 n.toNat) w with
      | bad => rfl
      | raise e w' => rfl
      | ok zs w' => simp only [pure_apply, handOut_some]
    · rw [if_pos (by omega), if_neg h]
      rfl
  refine ⟨h1, ?_⟩
  simp only [tabulateArray, bind_apply]
  rw [h1]
  by_cases h : 0 ≤ n ∧ n ≤ maxLen
  · rw [if_pos h, if_pos h]
  · rw [if_neg h, if_neg h]

example : tabulate 3 (fun j => pure (j.toNat * 2)) w0 = .ok [0, 2, 4] w0 := by rfl

/-- `fromList`, `array` and `Vector.update`; a new array is at a new location. -/
theorem C75_make (w : World V X) (vs : List V) (n : Int) (v : V) :
    fromList vs w = (if (vs.length : Int) ≤ maxLen then .ok vs w else .raise .size w) ∧
    fromListArray vs w = (if (vs.length : Int) ≤ maxLen
      then .ok w.heap.length { w with heap := w.heap ++ [vs] } else .raise .size w) ∧
    array n v w = (if 0 ≤ n ∧ n ≤ maxLen
      then .ok w.heap.length { w with heap := w.heap ++ [List.replicate n.toNat v] }
      else .raise .size w) ∧
    ((vs.length : Int) ≤ maxLen → vectorUpdate vs n v w = (if 0 ≤ n ∧ n < vs.length
      then .ok (vs.set n.toNat v) w else .raise .subscript w)) := by
  have h1 : fromList vs w = (if (vs.length : Int) ≤ maxLen then .ok vs w else .raise .size w) := by
    simp only [fromList]
    by_cases h : (vs.length : Int) ≤ maxLen
    · rw [if_neg (by omega), if_pos h]
      have := lrInit_eq w vs [] 0 (by simp) (by omega)
      simp only [List.map_nil, List.nil_append] at this
      simp only [bind_apply, blank, Int.toNat_natCast]
      rw [this]
      simp only [handOut_some]
    · rw [if_pos (by omega), if_neg h]
      rfl
  refine ⟨h1, ?_, ?_, ?_⟩
  · simp only [fromListArray, bind_apply]
    rw [h1]
    by_cases h : (vs.length : Int) ≤ maxLen
    · rw [if_pos h, if_pos h]
      rfl
    · rw [if_neg h, if_neg h]
  · simp only [array]
    by_cases h : 0 ≤ n ∧ n ≤ maxLen
    · rw [if_neg (by omega), if_pos h]
      rfl
    · rw [if_pos (by omega), if_neg h]
      rfl
  · intro hv
    simp only [vectorUpdate]
    by_cases h : 0 ≤ n ∧ n < vs.length
    · rw [if_neg (by omega), if_pos h]
      have := lrVector_eq (.vec vs) 0 vs.length w le_rfl (by simp [cells]) hv vs.length
        (rounds vs.length) 0 [] (by simp [rounds]) (by omega) (by simp)
      simp only [List.map_nil, List.nil_append, add_zero, cells] at this
      simp only [bind_apply, blank, Int.toNat_natCast]
      rw [this]
      have hseg : seg vs 0 vs.length = vs := by simp [seg]
      simp only [hseg, put]
      rw [if_pos (by simp; omega)]
      have : ((vs.map some).set n.toNat (some v)) = (vs.set n.toNat v).map some := by
        rw [List.map_set]
      simp only [this, handOut_some]
    · rw [if_pos (by omega), if_neg h]
      rfl

example : fromListArray [1, 2] w0 = .ok 2 ⟨[[10, 11, 12, 13, 14], [7, 8], [1, 2]], 0⟩ ∧
    vectorUpdate [1, 2, 3] 1 9 w0 = .ok [1, 9, 3] w0 := ⟨rfl, rfl⟩

/-- The functions on whole arrays and vectors do what those on the slice of all elements do. -/
theorem C75_whole {α : Type} (w : World V X) (c : Cont V) (hc : Exists w c)
    (hm : ((cells w c).length : Int) ≤ maxLen) (g : Slice V → Prog (World V X) α) :
    ∃ s, full c w = .ok s w ∧ Valid w s ∧ elems w s = cells w c ∧
      indices s = idx 0 (cells w c).length ∧ whole c g w = g s w := by
  refine ⟨⟨c, 0, (cells w c).length⟩, rfl, ⟨hc, le_rfl, by simp, by simp, hm⟩, ?_, ?_, rfl⟩
  · simp [elems, seg]
  · simp [indices]

end Mosml.Arrays
