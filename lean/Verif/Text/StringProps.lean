import Verif.Text.Lemmas

/-!
# C81: functions on strings
-/

namespace Mosml.Text.Strng

open Mosml.Lists (Prog Exn Out chk minInt maxInt abort Calls)

variable {W α β : Type}

/-- `String.sub`, `substring` and `extract`: the characters in question, and Subscript when
there are none such, for every integer; `extract (s, i, NONE)` as long as `size s - i` is an
integer. -/
theorem C81_sub_partial (s : Str) (hs : s.length < 2147483648) (i n : Int)
    (hi : minInt ≤ i ∧ i ≤ maxInt) (hn : minInt ≤ n ∧ n ≤ maxInt) (w : W) :
    (∀ (_ : 0 ≤ i) (_ : i < s.length), sub s i w = .ok (s[i.toNat]'(by omega)) w) ∧
    (i < 0 ∨ s.length ≤ i → sub s i w = .raise .subscript w) ∧
    (0 ≤ i ∧ 0 ≤ n ∧ i + n ≤ s.length →
      substring s i n w = .ok ((s.drop i.toNat).take n.toNat) w ∧
      extract s i (some n) w = .ok ((s.drop i.toNat).take n.toNat) w) ∧
    (¬ (0 ≤ i ∧ 0 ≤ n ∧ i + n ≤ s.length) →
      substring s i n w = .raise .subscript w ∧ extract s i (some n) w = .raise .subscript w) ∧
    (0 ≤ i ∧ i ≤ s.length → extract s i none w = .ok (s.drop i.toNat) w) ∧
    (s.length < i ∨ (i < 0 ∧ s.length - i ≤ maxInt) →
      extract s i none w = .raise .subscript w) := by
  have hmi := min_eq
  have hma := max_eq
  have hms := ms_eq
  have key : 0 ≤ i ∧ 0 ≤ n ∧ i + n ≤ s.length →
      extract s i (some n) w = .ok ((s.drop i.toNat).take n.toNat) w := by
    intro ⟨h1, h2, h3⟩
    obtain ⟨i, rfl⟩ := Int.eq_ofNat_of_zero_le h1
    obtain ⟨n, rfl⟩ := Int.eq_ofNat_of_zero_le h2
    have hb := blit_append (W := W) s [] i n 0 (by omega) (by omega) 0 rfl
    simp only [raw, List.map_nil, List.nil_append, Nat.add_zero] at hb
    rw [extract, pbind]
    beta_reduce
    rw [if_neg (by simp only [size]; omega), mk_ok n (by omega), pbind]
    show (blit_ (raw s) i (List.replicate n none) 0 n >>= fun r => done r) w = _
    rw [raw, hb, pbind]
    have := done_raw' (W := W) (seg s i n)
    simp only [raw] at this
    beta_reduce
    rw [this]; rfl
  have keyN : ¬ (0 ≤ i ∧ 0 ≤ n ∧ i + n ≤ s.length) →
      extract s i (some n) w = .raise .subscript w := by
    intro h
    rw [extract, pbind]
    beta_reduce
    rw [if_pos (by simp only [size]; omega)]; rfl
  refine ⟨?_, ?_, fun h => ⟨key h, key h⟩, fun h => ⟨keyN h, keyN h⟩, ?_, ?_⟩
  · intro h1 h2
    obtain ⟨i, rfl⟩ := Int.eq_ofNat_of_zero_le h1
    rw [sub, if_neg (by simp [size]; omega), sub_ok s i (by omega)]; rfl
  · intro h
    rw [sub, if_pos (by simpa [size] using h)]; rfl
  · intro ⟨h1, h2⟩
    obtain ⟨i, rfl⟩ := Int.eq_ofNat_of_zero_le h1
    have hsz : size s - (i : Int) = ((s.length - i : Nat) : Int) := by simp only [size]; omega
    have hb := blit_append (W := W) s [] i (s.length - i) 0 (by omega) (by omega) 0 rfl
    simp only [raw, List.map_nil, List.nil_append, Nat.add_zero] at hb
    show (chk (size s - i) (pure (size s - i)) >>= _) w = _
    rw [chk_ok (by simp only [size]; omega) (by simp only [size]; omega), pbind]
    beta_reduce
    rw [if_neg (by simp only [size]; omega), hsz, mk_ok _ (by omega), pbind]
    show (blit_ (raw s) i (List.replicate (s.length - i) none) 0 (s.length - i : Nat) >>=
      fun r => done r) w = _
    rw [raw, hb, pbind]
    have := done_raw' (W := W) (seg s i (s.length - i))
    simp only [raw] at this
    beta_reduce
    rw [this]
    simp [seg, Lists.pure_apply, List.take_of_length_le]
  · intro h
    show (chk (size s - i) (pure (size s - i)) >>= _) w = _
    rw [chk_ok (by simp only [size]; omega) (by simp only [size]; omega), pbind]
    beta_reduce
    rw [if_pos (by simp only [size]; omega)]; rfl

example : ([104, 101, 106] : Str).length < 2147483648 ∧ minInt ≤ (1 : Int) ∧ (1 : Int) ≤ maxInt := by
  decide

example : substring [104, 101, 106] 1 2 () = .ok [101, 106] () := by decide +kernel

/-- FINDING: `String.extract (s, i, NONE)` is to raise Subscript if `i<0`.  It raises Overflow
for `valOf Int.minInt`, with any string (`n = size s - i` is computed before the test). -/
theorem C81_extract_violation (s : Str) (w : W) :
    extract s minInt none w = .raise .overflow w := by
  show (chk (size s - minInt) (pure (size s - minInt)) >>= _) w = _
  rw [chk, if_neg (by simp only [size, min_eq, max_eq]; omega)]; rfl

/-- `String.concat`, `concatWith`, `implode`, `explode` and `str`: the documented strings, and
Size if the result would be longer than `maxSize`. -/
theorem C81_concat_partial (sep : Str) (ss : List Str) (hs : ∀ s ∈ sep :: ss, s.length < 2147483648)
    (w : W) :
    ((total ss : Int) ≤ maxInt →
      concat ss w = if (total ss : Int) ≤ maxSize then .ok ss.flatten w else .raise .size w) ∧
    (((List.intercalate sep ss).length : Int) ≤ maxInt →
      concatWith sep ss w = if ((List.intercalate sep ss).length : Int) ≤ maxSize
        then .ok (List.intercalate sep ss) w else .raise .size w) ∧
    (∀ cs : List Nat, (cs.length : Int) ≤ maxInt →
      implode cs w = if (cs.length : Int) ≤ maxSize then .ok cs w else .raise .size w) ∧
    (∀ s : Str, explode s w = .ok s w) ∧
    (∀ c, str c w = .ok [c] w) := by
  have hmi := min_eq
  have hma := max_eq
  have hms := ms_eq
  refine ⟨?_, ?_, ?_, ?_, ?_⟩
  · intro h
    rw [concat_eq ss (fun s h => hs s (by simp [h])) h]
    split <;> rfl
  · intro h
    cases ss with
    | nil =>
      have : List.intercalate sep [] = [] := by simp [List.intercalate]
      rw [this]
      rw [if_pos (by rw [hms]; decide)]; rfl
    | cons s1 sr =>
      have hint : ∀ (s1 : Str) (sr : List Str), List.intercalate sep (s1 :: sr) =
          s1 ++ (sr.map (fun v => sep ++ v)).flatten := by
        intro s1 sr
        induction sr generalizing s1 with
        | nil => simp [List.intercalate]
        | cons v sr ih =>
          have := ih v
          simp only [List.intercalate, List.intersperse_cons_cons, List.flatten_cons] at this ⊢
          rw [this]; simp
      rw [hint] at h ⊢
      have hacc : ∀ (sr : List Str) (len : Nat),
          ((len + (sr.map (fun v => sep ++ v)).flatten.length : Nat) : Int) ≤ maxInt →
          (concatWithAcc (size sep) sr len : Prog W Int) =
            pure ((len + (sr.map (fun v => sep ++ v)).flatten.length : Nat) : Int) := by
        intro sr
        induction sr with
        | nil => intro len _; simp [concatWithAcc]
        | cons v sr ih =>
          intro len hl
          simp only [List.map_cons, List.flatten_cons, List.length_append] at hl ⊢
          rw [concatWithAcc, chk_ok (by simp only [size]; omega) (by simp only [size]; omega),
            show size v + size sep + (len : Int) = ((v.length + sep.length + len : Nat) : Int) by
              simp [size], ih _ (by omega)]
          congr 2
          omega
      have hcopy : ∀ (sr : List Str), (∀ s ∈ sr, s.length < 2147483648) → ∀ (pre : Str) (q : Int),
          q = pre.length → (copyallWith sep (raw pre ++ List.replicate
            ((sr.map (fun v => sep ++ v)).flatten.length) none) q sr : Prog W Raw) =
            pure (raw (pre ++ (sr.map (fun v => sep ++ v)).flatten)) := by
        intro sr
        induction sr with
        | nil => intro _ pre q _; simp [copyallWith]
        | cons v sr ih =>
          intro hsr pre q hq
          simp only [List.map_cons, List.flatten_cons, List.length_append]
          have h1 := blit_append (W := W) sep pre 0 sep.length
            (v.length + (sr.map (fun v => sep ++ v)).flatten.length) (by omega)
            (hs sep (by simp)) q hq
          have h2 := blit_append (W := W) v (pre ++ sep) 0 v.length
            ((sr.map (fun v => sep ++ v)).flatten.length) (by omega)
            (hsr v (by simp)) (q + size sep) (by simp [size, hq])
          rw [show ((0 : Nat) : Int) = 0 from rfl, seg_all] at h1 h2
          rw [copyallWith, Nat.add_assoc, size, h1, pbind]
          beta_reduce
          rw [size] at h2 ⊢
          rw [h2, pbind]
          beta_reduce
          rw [ih (fun s h => hsr s (by simp [h])) _ _ (by simp [hq]; omega)]
          simp
      have h0 := hacc sr s1.length (by simpa using h)
      rw [concatWith, show size s1 = ((s1.length : Nat) : Int) from rfl, h0, pbind]
      beta_reduce
      rw [← List.length_append]
      by_cases hl : (((s1 ++ (sr.map (fun v => sep ++ v)).flatten).length : Nat) : Int) ≤ maxSize
      · rw [if_neg (by omega), if_pos hl, mk_ok _ hl, pbind]
        beta_reduce
        have hb := blit_append (W := W) s1 [] 0 s1.length
          ((sr.map (fun v => sep ++ v)).flatten.length) (by omega) (hs s1 (by simp)) 0 rfl
        rw [show ((0 : Nat) : Int) = 0 from rfl, seg_all, List.nil_append] at hb
        simp only [raw, List.map_nil, List.nil_append] at hb
        rw [List.length_append, raw, hb, pbind]
        beta_reduce
        have hc := hcopy sr (fun s h => hs s (by simp [h])) s1 _ rfl
        rw [raw] at hc
        rw [hc, pbind]
        beta_reduce
        rw [done_raw]; rfl
      · rw [if_pos (by omega), if_neg hl, tbind]; rfl
  · intro cs h
    have hlen := (Lists.C80_build cs [] [] w).1 h
    rw [implode, Lists.bind_ok hlen]
    by_cases hl : (cs.length : Int) ≤ maxSize
    · rw [if_neg (by omega), if_pos hl, mk_ok _ hl, pbind]
      have hinit : ∀ (cs : List Nat) (pre : Str) (q : Int), q = pre.length →
          (implodeInit (raw pre ++ List.replicate cs.length none) cs q : Prog W Raw) =
            pure (raw (pre ++ cs)) := by
        intro cs
        induction cs with
        | nil => intro pre q _; simp [implodeInit]
        | cons c cs ih =>
          intro pre q hq
          rw [implodeInit, List.length_cons, update_append pre cs.length c q hq, pbind]
          beta_reduce
          rw [ih (pre ++ [c]) _ (by simp [hq])]
          simp
      have := hinit cs [] 0 rfl
      simp only [raw, List.map_nil, List.nil_append] at this
      beta_reduce
      rw [this, pbind]
      beta_reduce
      have hd := done_raw (W := W) cs
      rw [raw] at hd
      rw [hd]; rfl
    · rw [if_pos (by omega), if_neg hl, tbind]; rfl
  · intro s
    rw [explode, explodeH_eq' s s.length _ [] _ (by simp [size]) (by omega) (by omega), seg_all]
    simp [Lists.pure_apply]
  · intro c; rfl

example : (∀ s ∈ ([44] :: [[1], [2, 3]] : List Str), s.length < 2147483648) ∧
    concatWith [44] [[1], [2, 3]] () = .ok [1, 44, 2, 3] () := by decide +kernel

/-- `String.map`, `foldl`, `foldr` and `collate` have the same result and effect as the
functions on the list of the characters: the functions given may have effects and raise
exceptions. -/
theorem C81_traversals (s t : Str) (h : (s.length : Int) ≤ maxSize) :
    (∀ f : Nat → Prog W Nat, map f s = Lists.map f s) ∧
    (∀ (f : Nat → β → Prog W β) (e : β), foldl f e s = Lists.foldl f e s ∧
      foldr f e s = Lists.foldr f e s) ∧
    (∀ cmp : Nat → Nat → Prog W Ordering, collate cmp s t = Lists.collate cmp s t) := by
  refine ⟨?_, ?_, ?_⟩
  · intro f
    rw [map, size, mk_ok _ h, pbind]
    have := mapLr_eq f s s.length (s.length + 1) [] s.length (by simp) (by simp) (by omega)
    simp only [raw, List.map_nil, List.nil_append, List.length_nil, seg_all] at this
    beta_reduce
    rw [show ((0 : Nat) : Int) = 0 from rfl] at this
    rw [this, bassoc]
    conv_rhs => rw [← bpure (Lists.map f s)]
    apply bcongr; intro ts
    rw [pbind]
    exact done_raw ts
  · intro f e
    constructor
    · have := foldlH_eq f s s.length (s.length + 1) 0 e (size s) (by simp [size]) (by omega) (by omega)
      rw [seg_all] at this; exact this
    · have := foldrH_eq f s 0 s.length (s.length + 1) e (size s - 1) (by simp [size]) (by omega) (by omega)
      rw [seg_all] at this; exact this
  · intro cmp
    have := collateH_eq cmp s t 0 0 (s.length + 1) 0 s.length t.length (size s) (size t)
      (if size s < size t then size s else size t) (by simp [size]) (by simp [size])
      (by simp only [size]; omega) (by omega) (by omega) (by omega)
    rw [Nat.zero_add, seg_all, seg_all] at this
    exact this

example : (([3, 1] : Str).length : Int) ≤ maxSize := by decide

/-- `String.find p` calls the predicate from left to right until it says true, and returns the
position; `String.translate f` calls `f` for all characters, left to right, and concatenates. -/
theorem C81_find_translate_partial (p : Nat → Prog W Bool) (f : Nat → Prog W Str) (s : Str) (w : W) :
    (∀ n w', Calls p w s (List.replicate n false) w' → find p s w = .ok none w') ∧
    (∀ pre x post n w1, s = pre ++ x :: post → Calls p w pre (List.replicate n false) w1 →
      (∀ w2, p x w1 = .ok true w2 → find p s w = .ok (some (pre.length : Int)) w2) ∧
      (∀ o, abort (p x w1) = some o → find p s w = o)) ∧
    (∀ ts w', Calls f w s ts w' → (∀ t ∈ ts, t.length < 2147483648) →
      (total ts : Int) ≤ maxInt →
      translate f s w = if (total ts : Int) ≤ maxSize then .ok ts.flatten w' else .raise .size w') ∧
    (∀ pre x post ts w1 o, s = pre ++ x :: post → Calls f w pre ts w1 →
      abort (f x w1) = some o → translate f s w = o) := by
  have hfind : ∀ (m k j : Nat) (w : W), j + m = s.length → m < k →
      findH p s (size s) k j w = (do
        let r ← Lists.find (fun q : Int × Nat => p q.2)
          ((List.range' j m).map (fun q : Nat => ((q : Int), s.getD q 0)))
        pure (r.map (·.1)) : Prog W (Option Int)) w := by
    intro m
    induction m with
    | zero =>
      intro k j w hj hk
      obtain ⟨k, rfl⟩ : ∃ l, k = l + 1 := ⟨k - 1, by omega⟩
      rw [findH, if_pos (by simp only [size]; omega)]; rfl
    | succ m ih =>
      intro k j w hj hk
      obtain ⟨k, rfl⟩ : ∃ l, k = l + 1 := ⟨k - 1, by omega⟩
      rw [findH, if_neg (by simp only [size]; omega), sub_ok s j (by omega), pbind,
        List.range'_succ, List.map_cons, Lists.find, bassoc]
      have hg : s.getD j 0 = s[j]'(by omega) := by
        rw [List.getD_eq_getElem?_getD, List.getElem?_eq_getElem (by omega)]; rfl
      simp only [hg]
      show Prog.andThen _ _ w = Prog.andThen _ _ w
      simp only [Lists.Prog.andThen]
      cases hp : p (s[j]'(by omega)) w with
      | raise e w1 => rfl
      | hang => rfl
      | ok b w1 =>
        cases b with
        | true => rfl
        | false => exact ih k (j + 1) w1 (by omega) (by omega)
  have hlist : (List.range' 0 s.length).map (fun q : Nat => ((q : Int), s.getD q 0)) =
      ((List.range' 0 s.length).map (fun q : Nat => (q : Int))).zip s := by
    apply List.ext_getElem
    · simp
    · intro i h1 h2
      simp only [List.length_map, List.length_range'] at h1
      simp [List.getD_eq_getElem?_getD, List.getElem?_eq_getElem h1]
  have hcalls : ∀ (xs : List Nat) (is : List Int) (bs : List Bool) (w w' : W),
      xs.length ≤ is.length → Calls p w xs bs w' →
      Calls (fun q : Int × Nat => p q.2) w (is.zip xs) bs w' := by
    intro xs is bs w w' hl h
    induction h generalizing is with
    | nil w => simpa using Calls.nil w
    | cons hf _ ih =>
      cases is with
      | nil => simp at hl
      | cons i is =>
        rw [List.zip_cons_cons]
        exact Calls.cons hf (ih is (by simpa using hl))
  have hf0 := hfind s.length (s.length + 1) 0 w (by omega) (by omega)
  have hfind0 : find p s w = _ := hf0
  rw [hlist] at hfind0
  refine ⟨?_, ?_, ?_, ?_⟩
  · intro n w' h
    rw [hfind0]
    have := ((Lists.C80_search (fun q : Int × Nat => p q.2) w).1 _ n w'
      (hcalls s ((List.range' 0 s.length).map (fun q : Nat => (q : Int))) _ w w' (by simp) h)).1
    rw [Lists.bind_ok this]; rfl
  · intro pre x post n w1 hs h
    have hz : ((List.range' 0 s.length).map (fun q : Nat => (q : Int))).zip s =
        (((List.range' 0 pre.length).map (fun q : Nat => (q : Int))).zip pre) ++
          ((pre.length : Int), x) ::
          (((List.range' (pre.length + 1) post.length).map (fun q : Nat => (q : Int))).zip post) := by
      rw [hs, List.length_append, List.length_cons, ← List.range'_append_1, List.map_append,
        List.zip_append (by simp), Nat.zero_add, List.range'_succ, List.map_cons,
        List.zip_cons_cons]
    have hc := hcalls pre ((List.range' 0 pre.length).map (fun q : Nat => (q : Int))) _ w w1
      (by simp) h
    rw [hfind0, hz]
    have hS := Lists.C80_search (fun q : Int × Nat => p q.2) w
    constructor
    · intro w2 hx
      have := (hS.2.2.1 _ ((pre.length : Int), x)
        (((List.range' (pre.length + 1) post.length).map (fun q : Nat => (q : Int))).zip post)
        n w1 w2 hc hx).1
      rw [Lists.bind_ok this]; rfl
    · intro o ha
      cases hq : p x w1 with
      | ok => rw [hq] at ha; simp [abort] at ha
      | raise e v =>
        have := (hS.2.2.2.2.1 _ ((pre.length : Int), x)
          (((List.range' (pre.length + 1) post.length).map (fun q : Nat => (q : Int))).zip post)
          n w1 hc).1 (.raise e v) (by simp only [hq]; rfl)
        rw [hq] at ha
        simp only [abort, Option.some.injEq] at ha
        subst ha
        exact Lists.bind_abort (by rw [this]; rfl)
      | hang =>
        have := (hS.2.2.2.2.1 _ ((pre.length : Int), x)
          (((List.range' (pre.length + 1) post.length).map (fun q : Nat => (q : Int))).zip post)
          n w1 hc).1 .hang (by simp only [hq]; rfl)
        rw [hq] at ha
        simp only [abort, Option.some.injEq] at ha
        subst ha
        exact Lists.bind_abort (by rw [this]; rfl)
  all_goals
    have ht := translateH_eq f s s.length (s.length + 1) 0 [] (0 + size s) (by simp [size]) (by omega) (by omega)
    rw [seg_all, show ((0 : Nat) : Int) = 0 from rfl] at ht
    have hm := Lists.C80_map f (fun _ => pure ()) w
  · intro ts w' h hts hl
    rw [translate, Text.translate, ht, bassoc, Lists.bind_ok (hm.1 _ _ _ h), pbind]
    beta_reduce
    have htot : total ts.reverse = total ts := by simp [total]
    rw [List.append_nil, revconcat_eq ts.reverse (by simpa using hts) (by rw [htot]; exact hl), htot,
      List.reverse_reverse]
    split <;> rfl
  · intro pre x post ts w1 o hs h ha
    rw [translate, Text.translate, ht, bassoc]
    obtain ⟨q, hq⟩ := Lists.abort_any ha (List Str)
    have := hm.2.1 pre x post ts w1 q h hq
    rw [← hs] at this
    exact Lists.bind_of_abort ⟨q, hq, this⟩ ha

example : find Lists.evenL [3, 5, 6, 13] [] = .ok (some 2) [3, 5, 6] := by decide +kernel

/-- `String.isPrefix`, `isSuffix` and `isSubstring` decide what they say, without an access
outside the strings. -/
theorem C81_prefix (s t : Str) (w : W) :
    (∃ b, isPrefix s t w = .ok b w ∧ (b = true ↔ ∃ u, s ++ u = t)) ∧
    (∃ b, isSuffix s t w = .ok b w ∧ (b = true ↔ ∃ u, u ++ s = t)) ∧
    (∃ b, isSubstring s t w = .ok b w ∧ (b = true ↔ ∃ u v, u ++ s ++ v = t)) := by
  refine ⟨?_, ?_, ?_⟩
  · by_cases h : s.length ≤ t.length
    · have := eqH_eq (W := W) s t 0 s.length (s.length + 1) 0
        (if size s < size t then size s else size t) (by simp only [size]; omega)
        (by omega) (by omega) (by omega)
      rw [seg_all] at this
      refine ⟨_, by rw [isPrefix, if_pos (by simpa [size] using h)]; exact congrFun this w, ?_⟩
      rw [decide_eq_true_iff]
      constructor
      · intro e
        refine ⟨t.drop s.length, ?_⟩
        have e' : s = t.take s.length := by simpa [seg] using e
        conv_lhs => rw [show s ++ t.drop s.length = t.take s.length ++ t.drop s.length by
          rw [← e']]
        simp
      · rintro ⟨u, rfl⟩; simp [seg]
    · refine ⟨false, by rw [isPrefix, if_neg (by simpa [size] using h)]; rfl, ?_⟩
      simp only [Bool.false_eq_true, false_iff]
      rintro ⟨u, rfl⟩; simp at h
  · by_cases h : s.length ≤ t.length
    · have := eqH_eq (W := W) s t (t.length - s.length) s.length (s.length + 1) 0 (size s)
        (by simp [size]) (by omega) (by omega) (by omega)
      rw [seg_all, Nat.zero_add] at this
      refine ⟨_, by
        rw [isSuffix, if_pos (by simpa [size] using h),
          show size t - size s = ((t.length - s.length : Nat) : Int) by simp only [size]; omega]
        exact congrFun this w, ?_⟩
      rw [decide_eq_true_iff]
      constructor
      · intro e
        refine ⟨t.take (t.length - s.length), ?_⟩
        have e' : s = t.drop (t.length - s.length) := by
          rw [seg, List.take_of_length_le (by simp; omega)] at e; exact e
        conv_lhs => rw [show t.take (t.length - s.length) ++ s =
          t.take (t.length - s.length) ++ t.drop (t.length - s.length) by rw [← e']]
        simp
      · rintro ⟨u, rfl⟩; simp [seg]
    · refine ⟨false, by rw [isSuffix, if_neg (by simpa [size] using h)]; rfl, ?_⟩
      simp only [Bool.false_eq_true, false_iff]
      rintro ⟨u, rfl⟩; simp at h
  · cases s with
    | nil => exact ⟨true, rfl, by simp only [true_iff]; exact ⟨[], t, by simp⟩⟩
    | cons c s =>
      have hi := infix_iff (c :: s) t 0 t.length (by omega)
      rw [seg_all] at hi
      have := issub_eq (W := W) (c :: s) t s.length (by simp) (size (c :: s) - 1)
        (size t - size (c :: s)) (by simp [size]) (by simp only [size, List.length_cons]; omega)
        (t.length + 1 - (c :: s).length) (t.length + 2) 0
        (by simp [size]; omega) (by simp [size]; omega) (by omega)
      obtain ⟨b, h1, h2⟩ := this
      refine ⟨b, by show issub _ _ _ _ _ _ w = _; exact congrFun h1 w, h2.trans ?_⟩
      rw [← hi]
      constructor
      · rintro ⟨q, a, b, e⟩; exact ⟨q, a, by simp only [size] at b; omega, e⟩
      · rintro ⟨q, a, b, e⟩; exact ⟨q, a, by simp only [size]; omega, e⟩

example : isSubstring [2, 3] [1, 2, 3, 4] () = .ok true () ∧
    isSubstring [2, 4] [1, 2, 3, 4] () = .ok false () := by decide +kernel

end Mosml.Text.Strng
