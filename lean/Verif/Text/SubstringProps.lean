import Verif.Text.StringProps

/-!
# C82: functions on substrings
-/

namespace Mosml.Text

open Mosml.Lists (Prog Exn Out chk minInt maxInt abort Calls Thread)

variable {W α β : Type}

theorem Valid.nat {x : Sus} (h : Valid x) :
    ∃ (s : Str) (i n : Nat), x = ⟨s, i, n⟩ ∧ i + n ≤ s.length ∧ text x = seg s i n := by
  obtain ⟨s, i, n⟩ := x
  obtain ⟨h1, h2, h3⟩ := h
  dsimp only at h1 h2 h3
  obtain ⟨i, rfl⟩ := Int.eq_ofNat_of_zero_le h1
  obtain ⟨n, rfl⟩ := Int.eq_ofNat_of_zero_le h2
  exact ⟨s, i, n, rfl, by omega, rfl⟩

theorem seg_seg (s : Str) (i n a b : Nat) (h : a + b ≤ n) : seg (seg s i n) a b = seg s (i + a) b := by
  rw [seg, seg, seg, List.drop_take, List.drop_drop, List.take_take]
  congr 1
  omega

/-- A part of a valid substring. -/
theorem part (s : Str) (i n a b : Nat) (h : i + n ≤ s.length) (hb : a + b ≤ n) (i' b' : Int)
    (hi' : i' = i + a) (hb' : b' = b) :
    Valid ⟨s, i', b'⟩ ∧ text ⟨s, i', b'⟩ = ((seg s i n).drop a).take b := by
  subst hi' hb'
  refine ⟨⟨by dsimp only; omega, by dsimp only; omega, by dsimp only; omega⟩, ?_⟩
  have := seg_seg s i n a b hb
  rw [seg] at this
  rw [this, text]
  congr 1

theorem blit_one (s : Str) (i n m : Nat) (h : i + n ≤ s.length) (hn : n < 2147483648) :
    (blit_ (raw s) i (List.replicate (n + m) none) 0 n : Prog W Raw) =
      pure (raw (seg s i n) ++ List.replicate m none) := by
  have := blit_append (W := W) s [] i n m h hn 0 rfl
  simp only [raw, List.map_nil, List.nil_append] at this
  exact this

theorem string_eq (s : Str) (i n : Nat) (h : i + n ≤ s.length) (hn : n < 2147483648) :
    (Sus.string ⟨s, i, n⟩ : Prog W Str) = pure (seg s i n) := by
  have hms := ms_eq
  rw [Sus.string]
  dsimp only
  rw [mk_ok n (by omega), pbind]
  beta_reduce
  have := blit_one (W := W) s i n 0 h hn
  rw [Nat.add_zero] at this
  rw [this, pbind]
  exact done_raw' _

namespace Sus

/-- The least natural number with a property, if there is one up to a bound. -/
def Least (P : Nat → Prop) (k : Nat) : Prop := P k ∧ ∀ j, P j → k ≤ j

/-- `Substring.extract`, `substring` and `full`: the documented substrings, which are valid,
and Subscript when there are none such. -/
theorem C82_make (s : Str) (i n : Int) (w : W) :
    (0 ≤ i ∧ i ≤ s.length → extract s i none w = .ok ⟨s, i, s.length - i⟩ w ∧
      Valid ⟨s, i, s.length - i⟩ ∧ text ⟨s, i, s.length - i⟩ = s.drop i.toNat) ∧
    (i < 0 ∨ s.length < i → extract s i none w = .raise .subscript w) ∧
    (0 ≤ i ∧ 0 ≤ n ∧ i + n ≤ s.length →
      extract s i (some n) w = .ok ⟨s, i, n⟩ w ∧ substring s i n w = .ok ⟨s, i, n⟩ w ∧
      Valid ⟨s, i, n⟩ ∧ text ⟨s, i, n⟩ = (s.drop i.toNat).take n.toNat) ∧
    (i < 0 ∨ n < 0 ∨ s.length < i + n → extract s i (some n) w = .raise .subscript w ∧
      substring s i n w = .raise .subscript w) ∧
    (full s = ⟨s, 0, s.length⟩ ∧ Valid (full s) ∧ text (full s) = s) := by
  refine ⟨?_, ?_, ?_, ?_, rfl, ?_, ?_⟩
  · intro ⟨h1, h2⟩
    refine ⟨by rw [extract, if_pos (by simp only [Text.size]; omega)]; rfl,
      ⟨h1, by dsimp only; omega, by dsimp only; omega⟩, ?_⟩
    show seg _ _ _ = _
    rw [seg, List.take_of_length_le (by simp; omega)]
  · intro h
    rw [extract, if_neg (by simp only [Text.size]; omega)]; rfl
  · intro ⟨h1, h2, h3⟩
    have : extract s i (some n) w = .ok ⟨s, i, n⟩ w := by
      rw [extract, if_pos (by simp only [Text.size]; omega)]; rfl
    exact ⟨this, this, ⟨h1, h2, h3⟩, rfl⟩
  · intro h
    have : extract s i (some n) w = .raise .subscript w := by
      rw [extract, if_neg (by simp only [Text.size]; omega)]; rfl
    exact ⟨this, this⟩
  · exact ⟨by simp [full], by simp [full, Text.size], by simp [full, Text.size]⟩
  · simp [text, full, Text.size, seg]

example : (0 : Int) ≤ 1 ∧ (0 : Int) ≤ 2 ∧ (1 : Int) + 2 ≤ ([7, 8, 9, 10] : Str).length := by decide

/-- Access to valid substrings: `size`, `isEmpty`, `sub`, `getc`, `first`, `explode` and
`string`. -/
theorem C82_access (x : Sus) (hx : Valid x) (w : W) :
    x.size = (text x).length ∧
    (x.isEmpty = true ↔ text x = []) ∧
    (∀ (k : Nat) (h : k < (text x).length), sub x k w = .ok (text x)[k] w) ∧
    (∀ k : Int, k < 0 ∨ (text x).length ≤ k → sub x k w = .raise .subscript w) ∧
    (text x = [] → getc x w = .ok none w ∧ first x w = .ok none w) ∧
    (∀ c cs, text x = c :: cs → first x w = .ok (some c) w ∧
      ∃ r, getc x w = .ok (some (c, r)) w ∧ Valid r ∧ text r = cs) ∧
    explode x w = .ok (text x) w ∧
    ((text x).length < 2147483648 → string x w = .ok (text x) w) := by
  obtain ⟨s, i, n, rfl, hl, ht⟩ := hx.nat
  rw [ht]
  have hlen := seg_length s i n hl
  have hnil : seg s i n = [] ↔ n = 0 := by
    rw [← List.length_eq_zero_iff, hlen]
  refine ⟨by rw [hlen]; rfl, ?_, ?_, ?_, ?_, ?_, ?_, ?_⟩
  · rw [hnil, isEmpty, decide_eq_true_iff]; dsimp only; omega
  · intro k h
    rw [hlen] at h
    rw [sub, if_neg (by dsimp only; omega)]
    dsimp only
    rw [show (i : Int) + k = ((i + k : Nat) : Int) by push_cast; rfl, sub_ok s (i + k) (by omega)]
    simp [seg, Lists.pure_apply]
  · intro k h
    rw [hlen] at h
    rw [sub, if_pos (by dsimp only; omega)]; rfl
  · intro h
    rw [hnil] at h
    subst h
    exact ⟨rfl, rfl⟩
  · intro c cs h
    cases n with
    | zero => rw [seg_zero] at h; cases h
    | succ n =>
      rw [seg_succ s i n (by omega), List.cons.injEq] at h
      obtain ⟨h1, h2⟩ := h
      refine ⟨?_, ⟨s, i + 1, n⟩, ?_, ?_, ?_⟩
      · rw [first, if_neg (by dsimp only; omega)]
        dsimp only
        rw [sub_ok s i (by omega), pbind, h1]; rfl
      · rw [getc, if_neg (by dsimp only; omega)]
        dsimp only
        rw [sub_ok s i (by omega), pbind, h1]
        beta_reduce
        rw [show ((n + 1 : Nat) : Int) - 1 = n by omega]; rfl
      · exact ⟨by dsimp only; omega, by dsimp only; omega, by dsimp only; omega⟩
      · rw [← h2]; rfl
  · rw [explode]
    dsimp only
    rw [explodeH_eq s i n (s.length + 1) [] _ rfl hl (by omega)]
    simp [Lists.pure_apply]
  · intro h
    rw [hlen] at h
    rw [string_eq s i n hl h]; rfl

example : Valid ⟨[7, 8, 9, 10], 1, 2⟩ := by unfold Valid; decide

/-- Parts of valid substrings: `slice`, `triml`, `trimr`, `splitAt`, `span` return valid
substrings that represent the documented parts, and Subscript or Span is raised when documented;
`slice (sus, i', SOME n')` as long as `i'+n'` is an integer. -/
theorem C82_parts_partial (x : Sus) (hx : Valid x) (hm : x.n ≤ maxInt) (w : W) :
    (∀ k : Int, (k < 0 → triml k w = .raise .subscript w ∧ trimr k w = .raise .subscript w) ∧
      (0 ≤ k → ∃ f g, triml k w = .ok f w ∧ trimr k w = .ok g w ∧ Valid (f x) ∧ Valid (g x) ∧
        text (f x) = (text x).drop k.toNat ∧
        text (g x) = (text x).take ((text x).length - k.toNat) ∧
        (f x).s = x.s ∧ (g x).s = x.s ∧ (f x).i = x.i + min k x.n ∧ (g x).i = x.i)) ∧
    (∀ i : Int, (i < 0 ∨ (text x).length < i → slice x i none w = .raise .subscript w) ∧
      (0 ≤ i ∧ i ≤ (text x).length → ∃ y, slice x i none w = .ok y w ∧ Valid y ∧
        y = ⟨x.s, x.i + i, x.n - i⟩ ∧ text y = (text x).drop i.toNat)) ∧
    (∀ i n : Int, i + n ≤ maxInt →
      (i < 0 ∨ n < 0 ∨ (text x).length < i + n → slice x i (some n) w = .raise .subscript w) ∧
      (0 ≤ i ∧ 0 ≤ n ∧ i + n ≤ (text x).length → ∃ y, slice x i (some n) w = .ok y w ∧ Valid y ∧
        y = ⟨x.s, x.i + i, n⟩ ∧ text y = ((text x).drop i.toNat).take n.toNat)) ∧
    (∀ k : Int, (k < 0 ∨ (text x).length < k → splitAt x k w = .raise .subscript w) ∧
      (0 ≤ k ∧ k ≤ (text x).length → ∃ y z, splitAt x k w = .ok (y, z) w ∧ Valid y ∧ Valid z ∧
        text y = (text x).take k.toNat ∧ text z = (text x).drop k.toNat ∧
        y.s = x.s ∧ z.s = x.s ∧ y.i = x.i ∧ z.i = x.i + k)) ∧
    (∀ y, Valid y → (y.s ≠ x.s ∨ y.i + y.n < x.i → span x y w = .raise .span w) ∧
      (y.s = x.s ∧ x.i ≤ y.i + y.n → ∃ z, span x y w = .ok z w ∧ Valid z ∧ z.s = x.s ∧ z.i = x.i ∧
        z.i + z.n = y.i + y.n)) := by
  obtain ⟨s, i, n, rfl, hl, ht⟩ := hx.nat
  rw [ht]
  have hlen := seg_length s i n hl
  have hmi := min_eq
  rw [hlen]
  dsimp only at hm
  refine ⟨?_, ?_, ?_, ?_, ?_⟩
  · intro k
    constructor
    · intro h
      exact ⟨by rw [triml, if_pos h]; rfl, by rw [trimr, if_pos h]; rfl⟩
    · intro h
      obtain ⟨k, rfl⟩ := Int.eq_ofNat_of_zero_le h
      refine ⟨_, _, by rw [triml, if_neg (by omega)]; rfl, by rw [trimr, if_neg (by omega)]; rfl, ?_⟩
      dsimp only
      rw [Int.toNat_natCast]
      by_cases hk : (k : Int) > n
      · rw [if_pos hk, if_pos hk]
        obtain ⟨a, b⟩ := part s i n n 0 hl (by omega) (i + n) 0 rfl rfl
        obtain ⟨c, d⟩ := part s i n 0 0 hl (by omega) i 0 (by simp) rfl
        refine ⟨a, c, ?_, ?_, rfl, rfl, ?_, rfl⟩
        · rw [b, List.drop_of_length_le (by rw [hlen]; omega : (seg s i n).length ≤ k)]; simp
        · rw [d, show n - k = 0 by omega]; simp
        · dsimp only; omega
      · rw [if_neg hk, if_neg hk]
        obtain ⟨a, b⟩ := part s i n k (n - k) hl (by omega) (i + k) (n - k) rfl (by omega)
        obtain ⟨c, d⟩ := part s i n 0 (n - k) hl (by omega) i (n - k) (by simp) (by omega)
        refine ⟨a, c, ?_, ?_, rfl, rfl, ?_, rfl⟩
        · rw [b, List.take_of_length_le (by rw [List.length_drop, hlen])]
        · rw [d, List.drop_zero]
        · dsimp only; omega
  · intro k
    constructor
    · intro h
      rw [slice, if_neg (by dsimp only; omega)]; rfl
    · intro ⟨h1, h2⟩
      obtain ⟨k, rfl⟩ := Int.eq_ofNat_of_zero_le h1
      obtain ⟨a, b⟩ := part s i n k (n - k) hl (by omega) (i + k) (n - k) rfl (by omega)
      refine ⟨_, by rw [slice, if_pos (by dsimp only; omega)]; rfl, a, rfl, ?_⟩
      rw [b, List.take_of_length_le (by rw [List.length_drop, hlen])]; rfl
  · intro k m hmax
    constructor
    · intro h
      rw [slice]
      split
      · rw [chk_ok (by omega) hmax, if_neg (by dsimp only; omega)]; rfl
      · rfl
    · intro ⟨h1, h2, h3⟩
      obtain ⟨k, rfl⟩ := Int.eq_ofNat_of_zero_le h1
      obtain ⟨m, rfl⟩ := Int.eq_ofNat_of_zero_le h2
      obtain ⟨a, b⟩ := part s i n k m hl (by omega) (i + k) m rfl rfl
      exact ⟨_, by rw [slice, if_pos ⟨h1, h2⟩, chk_ok (by omega) hmax, if_pos (by dsimp only; omega)]; rfl,
        a, rfl, b⟩
  · intro k
    constructor
    · intro h
      rw [splitAt, if_pos (by dsimp only; omega)]; rfl
    · intro ⟨h1, h2⟩
      obtain ⟨k, rfl⟩ := Int.eq_ofNat_of_zero_le h1
      obtain ⟨a, b⟩ := part s i n 0 k hl (by omega) i k (by simp) rfl
      obtain ⟨c, d⟩ := part s i n k (n - k) hl (by omega) (i + k) (n - k) rfl (by omega)
      refine ⟨_, _, by rw [splitAt, if_neg (by dsimp only; omega)]; rfl, a, c, ?_, ?_, rfl, rfl, rfl, rfl⟩
      · rw [b]; rfl
      · rw [d, List.take_of_length_le (by rw [List.length_drop, hlen])]; rfl
  · intro y hy
    obtain ⟨t, a, b, rfl, hl', -⟩ := hy.nat
    dsimp only
    constructor
    · intro h
      rw [span, if_pos]; · rfl
      dsimp only
      rcases h with h | h
      · exact .inr (fun e => h e.symm)
      · exact .inl (by omega)
    · rintro ⟨rfl, h⟩
      refine ⟨_, by rw [span, if_neg (by simp; omega)]; rfl, ⟨?_, ?_, ?_⟩, rfl, rfl, ?_⟩ <;>
        dsimp only <;> omega

example : Valid ⟨[7, 8, 9, 10], 1, 2⟩ ∧ (2 : Int) ≤ maxInt := by unfold Valid; decide

/-- FINDING: `Substring.slice (sus, i', SOME n')` is to raise Subscript if `i'+n' > n`.  It raises
Overflow if `i'+n'` is not an integer, as `substring` does not. -/
theorem C82_slice_violation (x : Sus) (i n : Int) (hi : 0 ≤ i) (hn : 0 ≤ n) (h : maxInt < i + n)
    (w : W) : slice x i (some n) w = .raise .overflow w := by
  rw [slice, if_pos ⟨hi, hn⟩, chk, if_neg (by omega)]; rfl

example : (0 : Int) ≤ 1 ∧ 0 ≤ maxInt ∧ maxInt < 1 + maxInt := by decide

theorem concatAcc_text (xs : List Sus) (hx : ∀ x ∈ xs, Valid x) :
    ∀ len : Int, (concatAcc xs len : Prog W Int) = Strng.concatAcc (xs.map text) len := by
  induction xs with
  | nil => intro len; rfl
  | cons x xs ih =>
    intro len
    obtain ⟨s, i, n, rfl, hl, ht⟩ := (hx x (by simp)).nat
    rw [concatAcc, List.map_cons, Strng.concatAcc, ih (fun y h => hx y (by simp [h])), ht, Text.size,
      seg_length s i n hl]

theorem concatWithAcc_text (l : Int) (xs : List Sus) (hx : ∀ x ∈ xs, Valid x) :
    ∀ len : Int, (concatWithAcc l xs len : Prog W Int) =
      Strng.concatWithAcc l (xs.map text) len := by
  induction xs with
  | nil => intro len; rfl
  | cons x xs ih =>
    intro len
    obtain ⟨s, i, n, rfl, hl, ht⟩ := (hx x (by simp)).nat
    rw [concatWithAcc, List.map_cons, Strng.concatWithAcc, ih (fun y h => hx y (by simp [h])), ht,
      Text.size, seg_length s i n hl]

theorem blit_text (s : Str) (i n : Nat) (hl : i + n ≤ s.length) (r : Raw) (q : Int) :
    (blit_ (raw s) i r q n : Prog W Raw) = blit_ (raw (seg s i n)) 0 r q (Text.size (seg s i n)) := by
  have h1 := seg_length s i n hl
  have h2 := raw_seg s i n
  have h3 := raw_seg (seg s i n) 0 n
  have h4 : seg (seg s i n) 0 n = seg s i n := by rw [seg_seg s i n 0 n (by omega)]; rfl
  rw [h4] at h3
  simp only [blit_, Text.size, h1, raw_length, Int.toNat_natCast, h2]
  simp only [Int.toNat_zero, h3]
  by_cases h : 0 ≤ q ∧ q + n ≤ r.length ∧ n < 2147483648
  · rw [if_pos (by omega), if_pos (by omega)]
  · rw [if_neg (by omega), if_neg (by omega)]

theorem copyall_text (xs : List Sus) (hx : ∀ x ∈ xs, Valid x) :
    ∀ (r : Raw) (q : Int), (copyall r q xs : Prog W Raw) = Strng.copyall r q (xs.map text) := by
  induction xs with
  | nil => intro r q; rfl
  | cons x xs ih =>
    intro r q
    obtain ⟨s, i, n, rfl, hl, ht⟩ := (hx x (by simp)).nat
    rw [copyall, List.map_cons, Strng.copyall, ht]
    dsimp only
    rw [blit_text s i n hl]
    apply bcongr; intro r
    rw [ih (fun y h => hx y (by simp [h])), Text.size, seg_length s i n hl]

theorem copyallWith_text (sep : Str) (xs : List Sus) (hx : ∀ x ∈ xs, Valid x) :
    ∀ (r : Raw) (q : Int), (copyallWith sep r q xs : Prog W Raw) =
      Strng.copyallWith sep r q (xs.map text) := by
  induction xs with
  | nil => intro r q; rfl
  | cons x xs ih =>
    intro r q
    obtain ⟨s, i, n, rfl, hl, ht⟩ := (hx x (by simp)).nat
    rw [copyallWith, List.map_cons, Strng.copyallWith, ht]
    apply bcongr; intro r
    dsimp only
    rw [blit_text s i n hl]
    apply bcongr; intro r
    rw [ih (fun y h => hx y (by simp [h]))]
    simp only [Text.size, seg_length s i n hl]

/-- `Substring.concat` and `concatWith` are `String.concat` and `String.concatWith` of the
strings; so are `foldl`, `foldr`, `app` and `collate` the functions on the list of the
characters, for functions that may have effects and raise exceptions. -/
theorem C82_traversals (x y : Sus) (hx : Valid x) (hy : Valid y) (sep : Str) (xs : List Sus)
    (hxs : ∀ x ∈ xs, Valid x) :
    (concat xs : Prog W Str) = Strng.concat (xs.map text) ∧
    (concatWith sep xs : Prog W Str) = Strng.concatWith sep (xs.map text) ∧
    (∀ (f : Nat → β → Prog W β) (e : β), foldl f e x = Lists.foldl f e (text x) ∧
      foldr f e x = Lists.foldr f e (text x)) ∧
    (∀ f : Nat → Prog W Unit, app f x = Lists.app f (text x)) ∧
    (∀ cmp : Nat → Nat → Prog W Ordering, collate cmp x y = Lists.collate cmp (text x) (text y)) ∧
    (∀ f : Nat → Prog W Str, translate f x = Strng.translate f (text x)) := by
  refine ⟨?_, ?_, ?_⟩
  · rw [concat, Strng.concat, concatAcc_text xs hxs]
    apply bcongr; intro len
    show (if len > maxSize then Prog.throw Exn.size >>= _ else mkstring_ len >>= _) =
      (if len > maxSize then Prog.throw Exn.size >>= _ else mkstring_ len >>= _)
    split
    · rfl
    · apply bcongr; intro r
      beta_reduce
      rw [copyall_text xs hxs]
  · cases xs with
    | nil => rfl
    | cons z zs =>
      obtain ⟨s, i, n, rfl, hl, ht⟩ := (hxs z (by simp)).nat
      have hzs : ∀ x ∈ zs, Valid x := fun y h => hxs y (by simp [h])
      rw [concatWith, List.map_cons, Strng.concatWith, concatWithAcc_text _ zs hzs, ht]
      have hsz : Text.size (seg s i n) = n := by rw [Text.size, seg_length s i n hl]
      rw [hsz]
      apply bcongr; intro len
      show (if len > maxSize then Prog.throw Exn.size >>= _ else mkstring_ len >>= _) =
        (if len > maxSize then Prog.throw Exn.size >>= _ else mkstring_ len >>= _)
      split
      · rw [tbind, tbind]
      · apply bcongr; intro r
        beta_reduce
        dsimp only
        rw [blit_text s i n hl, hsz]
        apply bcongr; intro r
        rw [copyallWith_text sep zs hzs]
  · obtain ⟨s, i, n, rfl, hl, ht⟩ := hx.nat
    obtain ⟨t, i', n', rfl, hl', ht'⟩ := hy.nat
    rw [ht, ht']
    refine ⟨?_, ?_, ?_, ?_⟩
    · intro f e
      exact ⟨foldlH_eq f s n (s.length + 1) i e _ rfl hl (by omega),
        foldrH_eq f s i n (s.length + 1) e _ rfl hl (by omega)⟩
    · intro f
      exact appH_eq f s n (s.length + 1) i _ rfl hl (by omega)
    · intro cmp
      have := collateH_eq cmp s t i i' (s.length + 1) 0 n n' n n'
        (if (n : Int) < n' then n else n') (by simp) (by simp) (by omega) (by omega) (by omega) (by omega)
      exact this
    · intro f
      have hlen := seg_length s i n hl
      rw [translate, Strng.translate, Text.translate, Text.translate]
      dsimp only
      have h1 := translateH_eq f s n (s.length + 1) i [] (i + n) rfl hl (by omega)
      have h2 := translateH_eq f (seg s i n) n ((seg s i n).length + 1) 0 [] (0 + Text.size (seg s i n))
        (by simp [Text.size, hlen]) (by omega) (by omega)
      have h3 : seg (seg s i n) 0 n = seg s i n := by rw [seg_seg s i n 0 n (by omega)]; rfl
      rw [h3] at h2
      rw [show ((0 : Nat) : Int) = 0 from rfl] at h2
      rw [h1, h2]

example : Valid ⟨[7, 8, 9, 10], 1, 2⟩ ∧ (∀ x ∈ [(⟨[7, 8], 2, 0⟩ : Sus)], Valid x) := by
  unfold Valid; decide

theorem compareH_eq (x y : Sus) (stop : Int) : ∀ (k : Nat) (j : Int),
    (compareH x y stop k j : Prog W Ordering) =
      collateH (fun a b => pure (Ord.compare a b)) x.s x.i x.n y.s y.i y.n stop k j := by
  intro k
  induction k with
  | zero => intro j; rfl
  | succ k ih =>
    intro j
    rw [compareH, collateH]
    split
    · rfl
    · apply bcongr; intro c1
      apply bcongr; intro c2
      rw [pbind]
      rcases Nat.lt_trichotomy c1 c2 with h | h | h
      · rw [if_pos h, Nat.compare_eq_lt.2 h]
      · rw [if_neg (by omega), if_neg (by omega), Nat.compare_eq_eq.2 h]; exact ih _
      · rw [if_neg (by omega), if_pos h, Nat.compare_eq_gt.2 h]

theorem collate_lex (xs ys : List Nat) (w : W) :
    ∃ r, Lists.collate (fun a b => (pure (Ord.compare a b) : Prog W Ordering)) xs ys w = .ok r w ∧
      (r = .eq ↔ xs = ys) ∧ (r = .lt ↔ xs < ys) ∧ (r = .gt ↔ ys < xs) := by
  induction xs generalizing ys with
  | nil =>
    cases ys with
    | nil => exact ⟨.eq, rfl, by simp, by simp, by simp⟩
    | cons y ys => exact ⟨.lt, rfl, by simp, by simp, by simp⟩
  | cons x xs ih =>
    cases ys with
    | nil => exact ⟨.gt, rfl, by simp, by simp, by simp⟩
    | cons y ys =>
      rw [Lists.collate, pbind]
      simp only [List.cons_lt_cons_iff, List.cons.injEq]
      rcases Nat.lt_trichotomy x y with h | h | h
      · rw [Nat.compare_eq_lt.2 h]
        exact ⟨.lt, rfl, by simp; omega, by simp [h], by simp; omega⟩
      · rw [Nat.compare_eq_eq.2 h]
        obtain ⟨r, h1, h2, h3, h4⟩ := ih ys
        subst h
        exact ⟨r, h1, by simpa using h2, by simpa using h3, by simpa using h4⟩
      · rw [Nat.compare_eq_gt.2 h]
        exact ⟨.gt, rfl, by simp; omega, by simp; omega, by simp [h]⟩

/-- `Substring.compare` is the lexicographic order of the strings represented. -/
theorem C82_compare (x y : Sus) (hx : Valid x) (hy : Valid y) (w : W) :
    ∃ r, compare x y w = .ok r w ∧ (r = .eq ↔ text x = text y) ∧
      (r = .lt ↔ text x < text y) ∧ (r = .gt ↔ text y < text x) := by
  have := (C82_traversals (W := W) (β := Unit) x y hx hy [] [] (by simp)).2.2.2.2.1
    (fun a b => pure (Ord.compare a b))
  obtain ⟨r, h1, h2⟩ := collate_lex (text x) (text y) w
  refine ⟨r, ?_, h2⟩
  rw [compare, compareH_eq, ← h1]
  exact congrFun this w

example : compare ⟨[7, 8, 9], 1, 2⟩ ⟨[8, 9, 9], 0, 3⟩ () = .ok .lt () := by decide +kernel

/-- `Substring.isPrefix`, `isSuffix` and `isSubstring` decide what they say. -/
theorem C82_prefix (s : Str) (x : Sus) (hx : Valid x) (w : W) :
    (∃ b, isPrefix s x w = .ok b w ∧ (b = true ↔ ∃ u, s ++ u = text x)) ∧
    (∃ b, isSuffix s x w = .ok b w ∧ (b = true ↔ ∃ t, t ++ s = text x)) ∧
    (∃ b, isSubstring s x w = .ok b w ∧ (b = true ↔ ∃ t u, t ++ s ++ u = text x)) := by
  obtain ⟨t, i, n, rfl, hl, ht⟩ := hx.nat
  rw [ht]
  have hlen := seg_length t i n hl
  refine ⟨?_, ?_, ?_⟩
  · by_cases h : s.length ≤ n
    · have := eqH_eq (W := W) s t i s.length (s.length + 1) 0
        (if Text.size s < (n : Int) then Text.size s else n) (by simp only [Text.size]; omega)
        (by omega) (by omega) (by omega)
      rw [seg_all, Nat.zero_add] at this
      refine ⟨_, by rw [isPrefix, if_pos (by simp only [Text.size]; omega)]; exact congrFun this w, ?_⟩
      rw [decide_eq_true_iff]
      constructor
      · intro e
        refine ⟨(seg t i n).drop s.length, ?_⟩
        have e' : s = (seg t i n).take s.length := by
          rw [seg, List.take_take, Nat.min_eq_left h]; exact e
        conv_lhs => rw [show s ++ (seg t i n).drop s.length =
          (seg t i n).take s.length ++ (seg t i n).drop s.length by rw [← e']]
        simp
      · rintro ⟨u, e⟩
        have : (seg t i n).take s.length = s := by rw [← e]; simp
        rw [seg, List.take_take, Nat.min_eq_left h] at this
        exact this.symm
    · refine ⟨false, by rw [isPrefix, if_neg (by simp only [Text.size]; omega)]; rfl, ?_⟩
      simp only [Bool.false_eq_true, false_iff]
      rintro ⟨u, e⟩
      have := congrArg List.length e
      rw [hlen, List.length_append] at this; omega
  · by_cases h : s.length ≤ n
    · have := eqH_eq (W := W) s t (i + n - s.length) s.length (s.length + 1) 0 (Text.size s)
        (by simp [Text.size]) (by omega) (by omega) (by omega)
      rw [seg_all, Nat.zero_add] at this
      refine ⟨_, by
        rw [isSuffix, if_pos (by simp only [Text.size]; omega)]
        dsimp only
        rw [show (i : Int) + n - Text.size s = ((i + n - s.length : Nat) : Int) by
          simp only [Text.size]; omega]
        exact congrFun this w, ?_⟩
      have e0 : seg t (i + n - s.length) s.length = (seg t i n).drop (n - s.length) := by
        have := seg_seg t i n (n - s.length) s.length (by omega)
        rw [show i + n - s.length = i + (n - s.length) by omega, ← this, seg,
          List.take_of_length_le (by rw [List.length_drop, hlen]; omega)]
      rw [decide_eq_true_iff, e0]
      constructor
      · intro e
        refine ⟨(seg t i n).take (n - s.length), ?_⟩
        conv_lhs => rw [show (seg t i n).take (n - s.length) ++ s =
          (seg t i n).take (n - s.length) ++ (seg t i n).drop (n - s.length) by rw [← e]]
        simp
      · rintro ⟨u, e⟩
        have hl' := congrArg List.length e
        rw [hlen, List.length_append] at hl'
        rw [← e, show n - s.length = u.length by omega]; simp
    · refine ⟨false, by rw [isSuffix, if_neg (by simp only [Text.size]; omega)]; rfl, ?_⟩
      simp only [Bool.false_eq_true, false_iff]
      rintro ⟨u, e⟩
      have := congrArg List.length e
      rw [hlen, List.length_append] at this; omega
  · cases s with
    | nil => exact ⟨true, rfl, by simp only [true_iff]; exact ⟨[], seg t i n, by simp⟩⟩
    | cons c s =>
      have hi := infix_iff (c :: s) t i n hl
      have := issub_eq (W := W) (c :: s) t s.length (by simp) (Text.size (c :: s) - 1)
        ((i : Int) + n - Text.size (c :: s)) (by simp [Text.size])
        (by simp only [Text.size, List.length_cons]; omega)
        (n + 1 - (c :: s).length) (t.length + 2) i
        (by simp [Text.size]; omega) (by simp [Text.size]; omega) (by omega)
      obtain ⟨b, h1, h2⟩ := this
      exact ⟨b, by show issub _ _ _ _ _ _ w = _; exact congrFun h1 w, h2.trans hi⟩

example : isSuffix [9, 10] ⟨[7, 8, 9, 10, 11], 1, 3⟩ () = .ok true () ∧
    isSubstring [10, 11] ⟨[7, 8, 9, 10, 11], 1, 3⟩ () = .ok false () := by decide +kernel

theorem posCmp_eq (s : Str) (t : Str) (i n l : Nat) (h1 : s.length = l + 1)
    (hl : i + n ≤ t.length) (stop : Int) (hs : stop = (i : Int) + n - s.length) :
    ∀ (d m k : Nat), (d = 0 → stop < k) → (0 < d → (k : Int) + d = stop + 1) → d < m → i ≤ k →
    (∀ q : Nat, i ≤ q → q < k → (q : Int) ≤ stop → seg t q s.length ≠ s) →
    (∃ q : Nat, Least (fun q => i ≤ q ∧ q + s.length ≤ i + n ∧ seg t q s.length = s) q ∧
      (posCmp s ⟨t, i, n⟩ l stop m k : Prog W (Sus × Sus)) =
        pure (⟨t, i, (q - i : Nat)⟩, ⟨t, q, (n - (q - i) : Nat)⟩)) ∨
    ((∀ q : Nat, i ≤ q → q + s.length ≤ i + n → seg t q s.length ≠ s) ∧
      (posCmp s ⟨t, i, n⟩ l stop m k : Prog W (Sus × Sus)) =
        pure (⟨t, i, n⟩, ⟨t, (i + n : Nat), 0⟩)) := by
  intro d
  induction d with
  | zero =>
    intro m k h3 h4 hm hik hno
    obtain ⟨m, rfl⟩ : ∃ l, m = l + 1 := ⟨m - 1, by omega⟩
    have := h3 rfl
    refine .inr ⟨fun q a b => hno q a (by omega) (by omega), ?_⟩
    rw [posCmp, if_pos (by omega)]; rfl
  | succ d ih =>
    intro m k h3 h4 hm hik hno
    obtain ⟨m, rfl⟩ : ∃ l, m = l + 1 := ⟨m - 1, by omega⟩
    have h4' := h4 (by omega)
    push_cast at h4'
    have hmi := match_iff s t l k h1 (by omega)
    have key : (posCmp s ⟨t, i, n⟩ l stop (m + 1) k : Prog W (Sus × Sus)) =
        if seg t k s.length = s then
          pure (⟨t, i, (k : Int) - i⟩, ⟨t, k, (n : Int) - ((k : Int) - i)⟩)
        else posCmp s ⟨t, i, n⟩ l stop m ((k + 1 : Nat) : Int) := by
      rw [posCmp, if_neg (by omega), sub_ok s l (by omega), pbind]
      dsimp only
      rw [show ((k : Int) + l) = ((k + l : Nat) : Int) by push_cast; omega,
        sub_ok t (k + l) (by omega), pbind]
      have hc := posEq_eq (W := W) s t k l (s.length + 1) 0 (l : Int) (by simp) (by omega) (by omega) (by omega)
      rw [show ((0 : Nat) : Int) = 0 from rfl, Nat.zero_add] at hc
      by_cases ha : s[l]'(by omega) = t[k + l]'(by omega)
      · rw [if_pos ha, hc, pbind]
        beta_reduce
        by_cases hb : seg s 0 l = seg t k l
        · rw [if_pos (hmi.1 ⟨ha, hb⟩), if_pos (by simpa using hb)]
        · rw [if_neg (fun h => hb (hmi.2 h).2), if_neg (by simpa using hb)]; rfl
      · rw [if_neg ha, pbind]
        beta_reduce
        rw [if_neg (fun h => ha (hmi.2 h).1), if_neg (by simp)]; rfl
    rw [key]
    by_cases hq : seg t k s.length = s
    · refine .inl ⟨k, ⟨⟨hik, by omega, hq⟩, ?_⟩, ?_⟩
      · rintro j ⟨a, b, c⟩
        by_contra hlt
        exact hno j a (by omega) (by omega) c
      · rw [if_pos hq]
        have e1 : (k : Int) - i = (k - i : Nat) := by omega
        have e2 : (n : Int) - ((k : Int) - i) = (n - (k - i) : Nat) := by omega
        rw [e2, e1]
    · rw [if_neg hq]
      exact ih m (k + 1) (by intro hd; push_cast; omega) (by intro hd; push_cast; omega)
        (by omega) (by omega) (by
          intro q a b c
          rcases Nat.eq_or_lt_of_le (Nat.le_of_lt_succ b) with h | h
          · subst h; exact hq
          · exact hno q a h c)

/-- `Substring.position s (s', i, n)` splits at the least index `k` in `i..i+n-size s` for which
`s = s'[k..k+size s-1]`; if there is none, the second part is the empty substring at the end. -/
theorem C82_position (s : Str) (x : Sus) (hx : Valid x) (w : W) :
    ∃ y z, position s x w = .ok (y, z) w ∧ Valid y ∧ Valid z ∧ text y ++ text z = text x ∧
      y.s = x.s ∧ z.s = x.s ∧ y.i = x.i ∧ z.i = x.i + y.n ∧
      ((∃ t u, t ++ s ++ u = text x) → (∃ u, s ++ u = text z) ∧
        ∀ t u, t ++ s ++ u = text x → (text y).length ≤ t.length) ∧
      ((¬ ∃ t u, t ++ s ++ u = text x) → y = x ∧ z.n = 0) := by
  obtain ⟨t, i, n, rfl, hl, ht⟩ := hx.nat
  rw [ht]
  cases hs : s with
  | nil =>
    obtain ⟨a, b⟩ := part t i n 0 0 hl (by omega) i 0 (by simp) rfl
    refine ⟨⟨t, i, 0⟩, ⟨t, i, n⟩, rfl, a, hx, ?_, rfl, rfl, rfl, by simp, ?_, ?_⟩
    · rw [b, ht]; simp
    · intro _
      exact ⟨⟨seg t i n, by rw [ht]; simp⟩, by rw [b]; simp⟩
    · intro h; exact absurd ⟨[], seg t i n, by simp⟩ h
  | cons c s' =>
    rw [← hs]
    have h1 : s.length = s'.length + 1 := by rw [hs]; rfl
    have hlen := seg_length t i n hl
    have hpos : (position s ⟨t, i, n⟩ : Prog W (Sus × Sus)) = posCmp s ⟨t, i, n⟩ s'.length
        ((i : Int) + n - s.length) (t.length + 2) i := by
      rw [hs, position]
      · rw [show Text.size (c :: s') - 1 = (s'.length : Int) by simp [Text.size],
          show ((i : Int) + n - (s'.length : Int) - 1) = ((i : Int) + n - ((c :: s').length : Nat)) by
            simp; omega]
      · intro h; cases h
    have := posCmp_eq (W := W) s t i n s'.length h1 hl _ rfl (n + 1 - s.length) (t.length + 2) i
      (by omega) (by omega) (by omega) (Nat.le_refl _) (by intro q a b; omega)
    rw [← hpos] at this
    have hinf : ∀ a u : Str, a ++ s ++ u = seg t i n →
        i + a.length + s.length ≤ i + n ∧ seg t (i + a.length) s.length = s := by
      intro a u e
      have hl' := congrArg List.length e
      rw [hlen, List.length_append, List.length_append] at hl'
      refine ⟨by omega, ?_⟩
      rw [← seg_seg t i n a.length s.length (by omega), ← e]
      simp [seg]
    rcases this with ⟨q, ⟨⟨q1, q2, q3⟩, q4⟩, he⟩ | ⟨hno, he⟩
    · obtain ⟨a, b⟩ := part t i n 0 (q - i) hl (by omega) i (q - i : Nat) (by simp) rfl
      obtain ⟨c1, d⟩ := part t i n (q - i) (n - (q - i)) hl (by omega) q (n - (q - i) : Nat) (by omega) rfl
      refine ⟨_, _, congrFun he w, a, c1, ?_, rfl, rfl, rfl, by dsimp only; omega, ?_, ?_⟩
      · rw [b, d, List.take_of_length_le (by rw [List.length_drop, hlen] : _ ≤ n - (q - i))]; simp
      · intro _
        constructor
        · refine ⟨seg t (q + s.length) (n - (q - i) - s.length), ?_⟩
          have e0 : text ⟨t, q, (n - (q - i) : Nat)⟩ = seg t q (n - (q - i)) := by
            show seg _ _ _ = _
            rfl
          rw [e0]
          conv_lhs => rw [← q3]
          rw [seg_length t q s.length (by omega)]
          have hsplit : n - (q - i) = s.length + (n - (q - i) - s.length) := by omega
          conv_rhs => rw [hsplit, seg, List.take_add, List.drop_drop]
          rfl
        · intro a u e
          obtain ⟨g1, g2⟩ := hinf a u e
          have := q4 (i + a.length) ⟨by omega, g1, g2⟩
          rw [b, List.length_take, List.length_drop, hlen]
          omega
      · intro h
        exact absurd (((infix_iff s t i n hl).1 ⟨q, q1, by omega, q3⟩)) h
    · obtain ⟨c1, d⟩ := part t i n n 0 hl (by omega) (i + n : Nat) 0 (by simp) rfl
      refine ⟨_, _, congrFun he w, hx, c1, ?_, rfl, rfl, rfl, by dsimp only; omega, ?_, ?_⟩
      · rw [ht, d]; simp
      · rintro ⟨a, u, e⟩
        obtain ⟨g1, g2⟩ := hinf a u e
        exact absurd g2 (hno _ (by omega) g1)
      · intro _; exact ⟨rfl, rfl⟩

example : position [9, 9] ⟨[9, 9, 8, 9, 9, 9], 1, 5⟩ () =
    .ok (⟨[9, 9, 8, 9, 9, 9], 1, 2⟩, ⟨[9, 9, 8, 9, 9, 9], 3, 3⟩) () := by decide +kernel

end Sus

end Mosml.Text
