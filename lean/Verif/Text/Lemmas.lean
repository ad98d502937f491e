import Verif.Text.Spec
import Verif.Lists.Props

/-! # Lemmas on strings: construction and loops -/

namespace Mosml.Text

open Mosml.Lists (Prog Exn Out chk minInt maxInt)

variable {W α β : Type}

theorem bassoc {γ : Type} (p : Prog W α) (k : α → Prog W β) (l : β → Prog W γ) :
    ((p >>= k) >>= l) = (p >>= fun a => k a >>= l) := Lists.bind_assoc p k l

theorem pbind (a : α) (k : α → Prog W β) : ((pure a : Prog W α) >>= k) = k a := rfl

theorem bpure (p : Prog W α) : (p >>= fun a => (pure a : Prog W α)) = p := Lists.bind_pure p

theorem tbind (e : Exn) (k : α → Prog W β) :
    ((Prog.throw e : Prog W α) >>= k) = Prog.throw e := rfl

theorem bcongr {p : Prog W α} {k l : α → Prog W β} (h : ∀ a, k a = l a) :
    (p >>= k) = (p >>= l) := Lists.bind_congr h

theorem seg_zero (s : Str) (i : Nat) : seg s i 0 = [] := by simp [seg]

theorem seg_succ (s : Str) (j m : Nat) (h : j < s.length) :
    seg s j (m + 1) = s[j] :: seg s (j + 1) m := by
  rw [seg, List.drop_eq_getElem_cons h, List.take_succ_cons]; rfl

theorem seg_succ_last (s : Str) (i m : Nat) (h : i + m < s.length) :
    seg s i (m + 1) = seg s i m ++ [s[i + m]] := by
  rw [seg, seg, List.take_succ_eq_append_getElem (by simp; omega)]
  simp

theorem seg_length (s : Str) (i n : Nat) (h : i + n ≤ s.length) : (seg s i n).length = n := by
  simp [seg]; omega

theorem seg_all (s : Str) : seg s 0 s.length = s := by simp [seg]

theorem sub_ok (s : Str) (j : Nat) (h : j < s.length) :
    (sub_ s (j : Int) : Prog W Nat) = pure s[j] := by
  rw [sub_, if_pos (by omega), Int.toNat_natCast, List.getElem?_eq_getElem h]

theorem mk_ok (n : Nat) (h : (n : Int) ≤ maxSize) :
    (mkstring_ (n : Int) : Prog W Raw) = pure (List.replicate n none) := by
  rw [mkstring_, if_pos ⟨by omega, h⟩, Int.toNat_natCast]

theorem raw_append (s t : Str) : raw (s ++ t) = raw s ++ raw t := by simp [raw]

theorem raw_length (s : Str) : (raw s).length = s.length := by simp [raw]

theorem raw_seg (s : Str) (i n : Nat) : ((raw s).drop i).take n = raw (seg s i n) := by
  simp [raw, seg, List.map_take, List.map_drop]

theorem done_raw (s : Str) : (done (raw s) : Prog W Str) = pure s := by
  induction s with
  | nil => rfl
  | cons c s ih =>
    show (done (raw s) >>= fun t => pure (c :: t)) = _
    rw [ih]; rfl

theorem done_raw' (s : Str) : (done (raw s ++ List.replicate 0 none) : Prog W Str) = pure s := by
  simpa using done_raw s

theorem blit_append (v pre : Str) (i n m : Nat) (hi : i + n ≤ v.length) (hn : n < 2147483648)
    (q : Int) (hq : q = pre.length) :
    (blit_ (raw v) i (raw pre ++ List.replicate (n + m) none) q n : Prog W Raw) =
      pure (raw (pre ++ seg v i n) ++ List.replicate m none) := by
  subst hq
  rw [blit_, if_pos (by simp [raw_length]; omega)]
  congr 1
  have h1 : ((pre.length : Int)).toNat = pre.length := by simp
  have h2 : ((pre.length : Int) + (n : Int)).toNat = pre.length + n := by omega
  rw [h1, h2, Int.toNat_natCast, Int.toNat_natCast, raw_seg, raw_append]
  have e1 : (raw pre ++ List.replicate (n + m) (none : Option Nat)).take pre.length = raw pre := by
    rw [List.take_append_of_le_length (by simp [raw_length]), List.take_of_length_le (by simp [raw_length])]
  have e2 : (raw pre ++ List.replicate (n + m) (none : Option Nat)).drop (pre.length + n) =
      List.replicate m none := by
    rw [List.drop_append, List.drop_of_length_le (by simp [raw_length])]
    simp [raw_length]
  rw [e1, e2]

theorem fill_append (pre : Str) (n m c : Nat) (q : Int) (hq : q = pre.length) (n' : Int)
    (hn' : n' = n) :
    (fill_ (raw pre ++ List.replicate (n + m) none) q n' c : Prog W Raw) =
      pure (raw (pre ++ List.replicate n c) ++ List.replicate m none) := by
  subst hq hn'
  rw [fill_, if_pos (by simp [raw_length])]
  congr 1
  have h1 : ((pre.length : Int)).toNat = pre.length := by simp
  have h2 : ((pre.length : Int) + (n : Int)).toNat = pre.length + n := by omega
  rw [h1, h2, Int.toNat_natCast, raw_append]
  have e1 : (raw pre ++ List.replicate (n + m) (none : Option Nat)).take pre.length = raw pre := by
    rw [List.take_append_of_le_length (by simp [raw_length]), List.take_of_length_le (by simp [raw_length])]
  have e2 : (raw pre ++ List.replicate (n + m) (none : Option Nat)).drop (pre.length + n) =
      List.replicate m none := by
    rw [List.drop_append, List.drop_of_length_le (by simp [raw_length])]
    simp [raw_length]
  rw [e1, e2]
  simp [raw]

theorem update_append (pre : Str) (m c : Nat) (q : Int) (hq : q = pre.length) :
    (update_ (raw pre ++ List.replicate (m + 1) none) q c : Prog W Raw) =
      pure (raw (pre ++ [c]) ++ List.replicate m none) := by
  subst hq
  rw [update_, if_pos (by simp [raw_length]), Int.toNat_natCast]
  congr 1
  rw [List.set_append_right _ _ (by simp [raw_length]), raw_length, Nat.sub_self,
    List.replicate_succ, List.set_cons_zero, raw_append]
  simp [raw]

theorem blit_prepend (v post : Str) (m : Nat) (hn : v.length < 2147483648) (q : Int) (hq : q = m) :
    (blit_ (raw v) 0 (List.replicate (m + v.length) none ++ raw post) q (size v) : Prog W Raw) =
      pure (List.replicate m none ++ raw (v ++ post)) := by
  subst hq
  rw [blit_, if_pos (by simp [raw_length, size]; omega)]
  congr 1
  have h2 : ((m : Int) + size v).toNat = m + v.length := by simp [size]; omega
  have h3 : (size v).toNat = v.length := by simp [size]
  rw [h2, h3, Int.toNat_natCast]
  have e1 : (List.replicate (m + v.length) (none : Option Nat) ++ raw post).take m =
      List.replicate m none := by
    rw [List.take_append_of_le_length (by simp)]
    simp
  have e2 : (List.replicate (m + v.length) (none : Option Nat) ++ raw post).drop (m + v.length) =
      raw post := by
    rw [List.drop_append, List.drop_of_length_le (by simp)]
    simp
  have e3 : ((raw v).drop (0 : Int).toNat).take v.length = raw v := by
    show ((raw v).drop 0).take v.length = raw v
    rw [List.drop_zero, List.take_of_length_le (by simp [raw_length])]
  rw [e1, e2, e3, raw_append, List.append_assoc]

theorem chk_ok {n : Int} (h1 : minInt ≤ n) (h2 : n ≤ maxInt) (p : Prog W α) : chk n p = p := by
  rw [chk, if_pos ⟨h1, h2⟩]

theorem min_eq : minInt = -4611686018427387904 := rfl
theorem max_eq : maxInt = 4611686018427387903 := rfl
theorem ms_eq : maxSize = 144115188075855863 := rfl

/-! ## Concatenation -/

theorem total_cons (v : Str) (vr : List Str) : total (v :: vr) = v.length + total vr := by
  simp [total]

theorem concatAcc_eq (ss : List Str) (len : Nat) (h : (len + total ss : Int) ≤ maxInt) :
    (Strng.concatAcc ss len : Prog W Int) = pure ((len + total ss : Nat) : Int) := by
  induction ss generalizing len with
  | nil => simp [Strng.concatAcc, total]
  | cons v vr ih =>
    rw [total_cons] at h ⊢
    have hm := min_eq
    rw [Strng.concatAcc, chk_ok (by simp [size]; omega) (by simp [size]; omega)]
    rw [show size v + (len : Int) = ((v.length + len : Nat) : Int) by simp [size]]
    rw [ih _ (by push_cast at h ⊢; omega)]
    congr 2
    omega

theorem copyall_eq (ss : List Str) (hs : ∀ s ∈ ss, s.length < 2147483648) (pre : Str) (m : Nat)
    (q : Int) (hq : q = pre.length) :
    (Strng.copyall (raw pre ++ List.replicate (total ss + m) none) q ss : Prog W Raw) =
      pure (raw (pre ++ ss.flatten) ++ List.replicate m none) := by
  induction ss generalizing pre q with
  | nil => simp [Strng.copyall, total]
  | cons v vr ih =>
    have := blit_append (W := W) v pre 0 v.length (total vr + m) (by omega) (hs v (by simp)) q hq
    rw [Strng.copyall, total_cons, Nat.add_assoc, size]
    rw [show ((0 : Nat) : Int) = 0 from rfl] at this
    rw [this, pbind, seg_all, ih (fun s h => hs s (by simp [h])) (pre ++ v) _ (by simp [hq])]
    simp

theorem revcopy_eq (ss : List Str) (hs : ∀ s ∈ ss, s.length < 2147483648) (post : Str)
    (q : Int) (hq : q = total ss) :
    (revcopy (List.replicate (total ss) none ++ raw post) q ss : Prog W Raw) =
      pure (raw (ss.reverse.flatten ++ post)) := by
  induction ss generalizing post q with
  | nil => simp [revcopy, total]
  | cons v vr ih =>
    rw [total_cons] at hq
    have := blit_prepend (W := W) v post (total vr) (hs v (by simp)) (q - size v) (by simp [size, hq])
    rw [revcopy, total_cons, Nat.add_comm, this, pbind,
      ih (fun s h => hs s (by simp [h])) (v ++ post) _ (by simp [size, hq])]
    simp

theorem concat_eq (ss : List Str) (hs : ∀ s ∈ ss, s.length < 2147483648)
    (ht : (total ss : Int) ≤ maxInt) :
    (Strng.concat ss : Prog W Str) =
      if (total ss : Int) ≤ maxSize then pure ss.flatten else Prog.throw .size := by
  have h0 := concatAcc_eq (W := W) ss 0 (by simpa using ht)
  rw [Strng.concat, show (0 : Int) = ((0 : Nat) : Int) from rfl, h0, pbind, Nat.zero_add]
  by_cases h : (total ss : Int) ≤ maxSize
  · rw [if_neg (by omega), if_pos h, mk_ok _ h, pbind]
    beta_reduce
    have := copyall_eq (W := W) ss hs [] 0 0 rfl
    simp only [raw, List.map_nil, List.nil_append, Nat.add_zero] at this
    rw [show ((0 : Nat) : Int) = 0 from rfl, this, pbind]
    simpa [raw] using done_raw (W := W) ss.flatten
  · rw [if_pos (by omega), if_neg h, tbind]

theorem revconcat_eq (ss : List Str) (hs : ∀ s ∈ ss, s.length < 2147483648)
    (ht : (total ss : Int) ≤ maxInt) :
    (revconcat ss : Prog W Str) =
      if (total ss : Int) ≤ maxSize then pure ss.reverse.flatten else Prog.throw .size := by
  have h0 := concatAcc_eq (W := W) ss 0 (by simpa using ht)
  rw [revconcat, show (0 : Int) = ((0 : Nat) : Int) from rfl, h0, pbind, Nat.zero_add]
  by_cases h : (total ss : Int) ≤ maxSize
  · rw [if_neg (by omega), if_pos h, mk_ok _ h, pbind]
    beta_reduce
    have := revcopy_eq (W := W) ss hs [] _ rfl
    simp only [raw, List.map_nil, List.append_nil] at this
    rw [this, pbind]
    simpa [raw] using done_raw (W := W) ss.reverse.flatten
  · rw [if_pos (by omega), if_neg h, tbind]

/-! ## Loops -/

theorem foldlH_eq (f : Nat → β → Prog W β) (s : Str) : ∀ (m k j : Nat) (res : β) (stop : Int),
    stop = j + m → j + m ≤ s.length → m < k →
    foldlH f s stop k j res = Lists.foldl f res (seg s j m) := by
  intro m
  induction m with
  | zero =>
    intro k j res stop hs hl hk
    obtain ⟨k, rfl⟩ : ∃ l, k = l + 1 := ⟨k - 1, by omega⟩
    rw [foldlH, if_pos (by omega), seg_zero]; rfl
  | succ m ih =>
    intro k j res stop hs hl hk
    obtain ⟨k, rfl⟩ : ∃ l, k = l + 1 := ⟨k - 1, by omega⟩
    rw [foldlH, if_neg (by omega), sub_ok s j (by omega), pbind, seg_succ s j m (by omega),
      Lists.foldl]
    apply bcongr; intro r
    exact ih k (j + 1) r stop (by push_cast; omega) (by omega) (by omega)

theorem foldr_snoc (f : Nat → β → Prog W β) (e : β) (xs : List Nat) (x : Nat) :
    Lists.foldr f e (xs ++ [x]) = (f x e >>= fun r => Lists.foldr f r xs) := by
  induction xs with
  | nil =>
    show ((pure e : Prog W β) >>= fun r => f x r) = _
    rw [pbind]; exact (bpure _).symm
  | cons y xs ih =>
    rw [List.cons_append, Lists.foldr, ih, bassoc]
    apply bcongr; intro r; rfl

theorem foldrH_eq (f : Nat → β → Prog W β) (s : Str) (i : Nat) : ∀ (m k : Nat) (res : β) (j : Int),
    j = i + m - 1 → i + m ≤ s.length → m < k →
    foldrH f s i k j res = Lists.foldr f res (seg s i m) := by
  intro m
  induction m with
  | zero =>
    intro k res j hj hl hk
    obtain ⟨k, rfl⟩ : ∃ l, k = l + 1 := ⟨k - 1, by omega⟩
    rw [foldrH, if_pos (by omega), seg_zero]; rfl
  | succ m ih =>
    intro k res j hj hl hk
    obtain ⟨k, rfl⟩ : ∃ l, k = l + 1 := ⟨k - 1, by omega⟩
    obtain rfl : j = ((i + m : Nat) : Int) := by push_cast at hj ⊢; omega
    rw [foldrH, if_neg (by omega), sub_ok s (i + m) (by omega), pbind,
      seg_succ_last s i m (by omega), foldr_snoc]
    apply bcongr; intro r
    exact ih k r _ (by push_cast; omega) (by omega) (by omega)

theorem explodeH_eq (s : Str) (i : Nat) : ∀ (m k : Nat) (res : List Nat) (j : Int),
    j = i + m - 1 → i + m ≤ s.length → m < k →
    (Sus.explodeH s i k j res : Prog W (List Nat)) = pure (seg s i m ++ res) := by
  intro m
  induction m with
  | zero =>
    intro k res j hj hl hk
    obtain ⟨k, rfl⟩ : ∃ l, k = l + 1 := ⟨k - 1, by omega⟩
    rw [Sus.explodeH, if_pos (by omega), seg_zero]; rfl
  | succ m ih =>
    intro k res j hj hl hk
    obtain ⟨k, rfl⟩ : ∃ l, k = l + 1 := ⟨k - 1, by omega⟩
    obtain rfl : j = ((i + m : Nat) : Int) := by push_cast at hj ⊢; omega
    rw [Sus.explodeH, if_neg (by omega), sub_ok s (i + m) (by omega), pbind,
      seg_succ_last s i m (by omega), ih k _ _ (by push_cast; omega) (by omega) (by omega)]
    simp

theorem explodeH_eq' (s : Str) : ∀ (m k : Nat) (res : List Nat) (j : Int),
    j = (m : Int) - 1 → m ≤ s.length → m < k →
    (Strng.explodeH s k j res : Prog W (List Nat)) = pure (seg s 0 m ++ res) := by
  intro m
  induction m with
  | zero =>
    intro k res j hj hl hk
    obtain ⟨k, rfl⟩ : ∃ l, k = l + 1 := ⟨k - 1, by omega⟩
    rw [Strng.explodeH, if_pos (by omega), seg_zero]; rfl
  | succ m ih =>
    intro k res j hj hl hk
    obtain ⟨k, rfl⟩ : ∃ l, k = l + 1 := ⟨k - 1, by omega⟩
    obtain rfl : j = ((m : Nat) : Int) := by push_cast at hj ⊢; omega
    rw [Strng.explodeH, if_neg (by omega), sub_ok s m (by omega), pbind,
      seg_succ_last s 0 m (by omega), ih k _ _ rfl (by omega) (by omega)]
    simp

theorem appH_eq (f : Nat → Prog W Unit) (s : Str) : ∀ (m k j : Nat) (stop : Int),
    stop = j + m → j + m ≤ s.length → m < k →
    Sus.appH f s stop k j = Lists.app f (seg s j m) := by
  intro m
  induction m with
  | zero =>
    intro k j stop hs hl hk
    obtain ⟨k, rfl⟩ : ∃ l, k = l + 1 := ⟨k - 1, by omega⟩
    rw [Sus.appH, if_pos (by omega), seg_zero]; rfl
  | succ m ih =>
    intro k j stop hs hl hk
    obtain ⟨k, rfl⟩ : ∃ l, k = l + 1 := ⟨k - 1, by omega⟩
    rw [Sus.appH, if_neg (by omega), sub_ok s j (by omega), pbind, seg_succ s j m (by omega),
      Lists.app]
    apply bcongr; intro r
    exact ih k (j + 1) stop (by push_cast; omega) (by omega) (by omega)

theorem translateH_eq (f : Nat → Prog W Str) (s : Str) : ∀ (m k j : Nat) (res : List Str) (stop : Int),
    stop = j + m → j + m ≤ s.length → m < k →
    translateH f s stop k j res = (do
      let ts ← Lists.map f (seg s j m)
      pure (ts.reverse ++ res)) := by
  intro m
  induction m with
  | zero =>
    intro k j res stop hs hl hk
    obtain ⟨k, rfl⟩ : ∃ l, k = l + 1 := ⟨k - 1, by omega⟩
    rw [translateH, if_pos (by omega), seg_zero]; rfl
  | succ m ih =>
    intro k j res stop hs hl hk
    obtain ⟨k, rfl⟩ : ∃ l, k = l + 1 := ⟨k - 1, by omega⟩
    rw [translateH, if_neg (by omega), sub_ok s j (by omega), pbind, seg_succ s j m (by omega),
      Lists.map, bassoc]
    apply bcongr; intro t
    have := ih k (j + 1) (t :: res) stop (by push_cast; omega) (by omega) (by omega)
    rw [show ((j : Int) + 1) = ((j + 1 : Nat) : Int) by simp, this, bassoc]
    apply bcongr; intro ts
    rw [pbind]; simp

theorem mapLr_eq (f : Nat → Prog W Nat) (s : Str) : ∀ (m k : Nat) (pre : Str) (stop : Int),
    stop = pre.length + m → pre.length + m ≤ s.length → m < k →
    (Strng.mapLr f s stop k (raw pre ++ List.replicate m none) pre.length) = (do
      let ts ← Lists.map f (seg s pre.length m)
      pure (raw (pre ++ ts))) := by
  intro m
  induction m with
  | zero =>
    intro k pre stop hs hl hk
    obtain ⟨k, rfl⟩ : ∃ l, k = l + 1 := ⟨k - 1, by omega⟩
    rw [Strng.mapLr, if_neg (by omega), seg_zero, Lists.map, pbind]; simp
  | succ m ih =>
    intro k pre stop hs hl hk
    obtain ⟨k, rfl⟩ : ∃ l, k = l + 1 := ⟨k - 1, by omega⟩
    rw [Strng.mapLr, if_pos (by omega), sub_ok s _ (by omega), pbind,
      seg_succ s _ m (by omega), Lists.map, bassoc]
    apply bcongr; intro t
    have := ih k (pre ++ [t]) stop (by simp; omega) (by simp; omega) (by omega)
    rw [update_append pre m t _ rfl, pbind,
      show ((pre.length : Int) + 1) = ((pre ++ [t]).length : Int) by simp, this, bassoc]
    rw [show (pre ++ [t]).length = pre.length + 1 by simp]
    apply bcongr; intro ts
    rw [pbind]; simp

theorem collateH_eq (cmp : Nat → Nat → Prog W Ordering) (s1 s2 : Str) (i1 i2 : Nat) :
    ∀ (k j a b : Nat) (n1 n2 stop : Int), n1 = j + a → n2 = j + b →
    stop = j + min a b → i1 + j + a ≤ s1.length → i2 + j + b ≤ s2.length → min a b < k →
    collateH cmp s1 i1 n1 s2 i2 n2 stop k j =
      Lists.collate cmp (seg s1 (i1 + j) a) (seg s2 (i2 + j) b) := by
  intro k
  induction k with
  | zero => intro j a b n1 n2 stop h1 h2 h3 h4 h5 h6; omega
  | succ k ih =>
    intro j a b n1 n2 stop h1 h2 h3 h4 h5 h6
    rw [collateH]
    rcases a with _ | a
    · rw [if_pos (by simp at h3; omega), seg_zero]
      rcases b with _ | b
      · rw [if_neg (by omega), if_neg (by omega), seg_zero]; rfl
      · rw [if_pos (by push_cast at *; omega), seg_succ _ _ _ (by omega)]; rfl
    · rcases b with _ | b
      · rw [if_pos (by simp at h3; omega), if_neg (by push_cast at *; omega),
          if_pos (by push_cast at *; omega), seg_zero, seg_succ _ _ _ (by omega)]; rfl
      · have hst : ((j : Int)) ≠ stop := by
          rw [h3]; push_cast
          rcases Nat.le_total a b with h | h
          · rw [min_eq_left (by omega)]; omega
          · rw [min_eq_right (by omega)]; omega
        rw [if_neg hst, show ((i1 : Int) + j) = ((i1 + j : Nat) : Int) by simp,
          show ((i2 : Int) + j) = ((i2 + j : Nat) : Int) by simp, sub_ok _ _ (by omega), pbind,
          sub_ok _ _ (by omega), pbind, seg_succ _ _ a (by omega), seg_succ _ _ b (by omega),
          Lists.collate]
        apply bcongr; intro r
        cases r with
        | lt => rfl
        | gt => rfl
        | eq =>
          exact ih (j + 1) a b n1 n2 stop (by push_cast at *; omega) (by push_cast at *; omega)
            (by push_cast at *; omega) (by omega) (by omega) (by omega)

theorem eqH_eq (s1 s2 : Str) (off : Nat) : ∀ (m k j : Nat) (stop : Int), stop = j + m →
    j + m ≤ s1.length → j + off + m ≤ s2.length → m < k →
    (eqH s1 s2 off stop k j : Prog W Bool) =
      pure (decide (seg s1 j m = seg s2 (j + off) m)) := by
  intro m
  induction m with
  | zero =>
    intro k j stop hs h1 h2 hk
    obtain ⟨k, rfl⟩ : ∃ l, k = l + 1 := ⟨k - 1, by omega⟩
    rw [eqH, if_pos (by omega), seg_zero, seg_zero]; simp
  | succ m ih =>
    intro k j stop hs h1 h2 hk
    obtain ⟨k, rfl⟩ : ∃ l, k = l + 1 := ⟨k - 1, by omega⟩
    rw [eqH, if_neg (by push_cast at hs; omega), sub_ok _ _ (by omega), pbind,
      show ((j : Int) + off) = ((j + off : Nat) : Int) by simp, sub_ok _ _ (by omega), pbind,
      seg_succ _ _ m (by omega), seg_succ _ _ m (by omega)]
    have := ih k (j + 1) stop (by push_cast at *; omega) (by omega) (by omega) (by omega)
    rw [show ((j : Int) + 1) = ((j + 1 : Nat) : Int) by simp, this]
    by_cases h : s1[j] = s2[j + off]
    · rw [if_pos h, show j + 1 + off = j + off + 1 by omega]
      simp [h]
    · rw [if_neg h]; simp [h]

theorem cmpH_eq (s1 s2 : Str) (off : Nat) : ∀ (m k j : Nat) (stop : Int), stop = j + m →
    j + m ≤ s1.length → j + off + m ≤ s2.length → m < k →
    (cmpH s1 s2 stop off k j : Prog W Bool) =
      pure (decide (seg s1 j m = seg s2 (j + off) m)) := by
  intro m
  induction m with
  | zero =>
    intro k j stop hs h1 h2 hk
    obtain ⟨k, rfl⟩ : ∃ l, k = l + 1 := ⟨k - 1, by omega⟩
    rw [cmpH, if_pos (by omega), seg_zero, seg_zero]; simp
  | succ m ih =>
    intro k j stop hs h1 h2 hk
    obtain ⟨k, rfl⟩ : ∃ l, k = l + 1 := ⟨k - 1, by omega⟩
    rw [cmpH, if_neg (by push_cast at hs; omega), sub_ok _ _ (by omega), pbind,
      show ((j : Int) + off) = ((j + off : Nat) : Int) by simp, sub_ok _ _ (by omega), pbind,
      seg_succ _ _ m (by omega), seg_succ _ _ m (by omega)]
    have := ih k (j + 1) stop (by push_cast at *; omega) (by omega) (by omega) (by omega)
    rw [show ((j : Int) + 1) = ((j + 1 : Nat) : Int) by simp, this]
    by_cases h : s1[j] = s2[j + off]
    · rw [if_pos h, show j + 1 + off = j + off + 1 by omega]
      simp [h]
    · rw [if_neg h]; simp [h]

theorem posEq_eq (s1 s2 : Str) (off : Nat) : ∀ (m k j : Nat) (stop : Int), stop = j + m →
    j + m ≤ s1.length → j + off + m ≤ s2.length → m < k →
    (Sus.posEq s1 s2 stop k j ((j + off : Nat) : Int) : Prog W Bool) =
      pure (decide (seg s1 j m = seg s2 (j + off) m)) := by
  intro m
  induction m with
  | zero =>
    intro k j stop hs h1 h2 hk
    obtain ⟨k, rfl⟩ : ∃ l, k = l + 1 := ⟨k - 1, by omega⟩
    rw [Sus.posEq, if_pos (by omega), seg_zero, seg_zero]; simp
  | succ m ih =>
    intro k j stop hs h1 h2 hk
    obtain ⟨k, rfl⟩ : ∃ l, k = l + 1 := ⟨k - 1, by omega⟩
    rw [Sus.posEq, if_neg (by push_cast at hs; omega), sub_ok _ _ (by omega), pbind,
      sub_ok _ _ (by omega), pbind,
      seg_succ _ _ m (by omega), seg_succ _ _ m (by omega)]
    have := ih k (j + 1) stop (by push_cast at *; omega) (by omega) (by omega) (by omega)
    rw [show ((j : Int) + 1) = ((j + 1 : Nat) : Int) by simp,
      show (((j + off : Nat) : Int) + 1) = ((j + 1 + off : Nat) : Int) by push_cast; omega, this]
    by_cases h : s1[j] = s2[j + off]
    · rw [if_pos h, show j + 1 + off = j + off + 1 by omega]
      simp [h]
    · rw [if_neg h]; simp [h]

/-- The comparison of the last character and that of the others. -/
theorem match_iff (s1 s2 : Str) (l o : Nat) (h1 : s1.length = l + 1) (h2 : o + l + 1 ≤ s2.length) :
    (s1[l]'(by omega) = s2[o + l]'(by omega) ∧ seg s1 0 l = seg s2 o l) ↔ seg s2 o s1.length = s1 := by
  have e1 : seg s1 0 (l + 1) = s1 := by rw [← h1, seg_all]
  have e2 : seg s1 0 (l + 1) = seg s1 0 l ++ [s1[l]'(by omega)] := by
    have := seg_succ_last s1 0 l (by omega)
    simpa using this
  have e3 := seg_succ_last s2 o l (by omega)
  have hl : (seg s1 0 l).length = (seg s2 o l).length := by
    rw [seg_length _ _ _ (by omega), seg_length _ _ _ (by omega)]
  have hg : seg s2 o s1.length = seg s2 o l ++ [s2[o + l]'(by omega)] := by
    rw [← e3]; simp only [h1]
  rw [hg]
  constructor
  · rintro ⟨ha, hb⟩
    rw [← hb, ← ha, ← e2, e1]
  · intro h
    have : seg s2 o l ++ [s2[o + l]'(by omega)] = seg s1 0 l ++ [s1[l]'(by omega)] := by
      rw [h, ← e2, e1]
    have := List.append_inj this hl.symm
    exact ⟨by simpa using this.2.symm, this.1.symm⟩

theorem issub_eq (s1 s2 : Str) (l : Nat) (h1 : s1.length = l + 1) (stop1 stop2 : Int)
    (e1 : stop1 = l) (h2 : stop2 + l + 1 ≤ s2.length) :
    ∀ (d k o : Nat), (d = 0 → stop2 < o) → (0 < d → (o : Int) + d = stop2 + 1) → d < k →
    ∃ b, (issub s1 s2 stop1 stop2 k o : Prog W Bool) = pure b ∧
      (b = true ↔ ∃ q : Nat, o ≤ q ∧ (q : Int) ≤ stop2 ∧ seg s2 q s1.length = s1) := by
  intro d
  induction d with
  | zero =>
    intro k o h3 h4 hk
    obtain ⟨k, rfl⟩ : ∃ l, k = l + 1 := ⟨k - 1, by omega⟩
    have := h3 rfl
    refine ⟨false, by rw [issub, if_neg (by omega)], ?_⟩
    constructor
    · intro h; cases h
    · rintro ⟨q, a, b, _⟩; omega
  | succ d ih =>
    intro k o h3 h4 hk
    obtain ⟨k, rfl⟩ : ∃ l, k = l + 1 := ⟨k - 1, by omega⟩
    have h4' := h4 (by omega)
    push_cast at h4'
    have hm := match_iff s1 s2 l o h1 (by omega)
    have key : (issub s1 s2 stop1 stop2 (k + 1) o : Prog W Bool) =
        if seg s2 o s1.length = s1 then pure true else issub s1 s2 stop1 stop2 k ((o + 1 : Nat) : Int) := by
      rw [issub, if_pos (by omega), e1, sub_ok s1 l (by omega), pbind,
        show ((l : Int) + o) = ((o + l : Nat) : Int) by push_cast; omega,
        sub_ok s2 (o + l) (by omega), pbind]
      have hc := cmpH_eq (W := W) s1 s2 o l (s1.length + 1) 0 (l : Int) (by simp) (by omega) (by omega) (by omega)
      rw [show ((0 : Nat) : Int) = 0 from rfl, Nat.zero_add] at hc
      by_cases ha : s1[l]'(by omega) = s2[o + l]'(by omega)
      · rw [if_pos ha, hc, pbind]
        beta_reduce
        by_cases hb : seg s1 0 l = seg s2 o l
        · rw [if_pos (hm.1 ⟨ha, hb⟩), if_pos (by simpa using hb)]
        · rw [if_neg (fun h => hb (hm.2 h).2), if_neg (by simpa using hb)]; rfl
      · rw [if_neg ha, pbind]
        beta_reduce
        rw [if_neg (fun h => ha (hm.2 h).1), if_neg (by simp)]; rfl
    rw [key]
    by_cases hs : seg s2 o s1.length = s1
    · refine ⟨true, by rw [if_pos hs], ?_⟩
      simp only [true_iff]
      exact ⟨o, Nat.le_refl _, by omega, hs⟩
    · rw [if_neg hs]
      obtain ⟨b, hb, hq⟩ := ih k (o + 1) (by intro hd; push_cast; omega) (by intro hd; push_cast; omega)
        (by omega)
      refine ⟨b, hb, hq.trans ?_⟩
      constructor
      · rintro ⟨q, a, c, e⟩; exact ⟨q, by omega, c, e⟩
      · rintro ⟨q, a, c, e⟩
        rcases Nat.eq_or_lt_of_le a with h | h
        · subst h; exact absurd e hs
        · exact ⟨q, h, c, e⟩

theorem infix_iff (s1 s2 : Str) (i n : Nat) (h : i + n ≤ s2.length) :
    (∃ q : Nat, i ≤ q ∧ (q : Int) ≤ ((i : Int) + n) - (s1.length : Int) ∧ seg s2 q s1.length = s1) ↔
      ∃ t u, t ++ s1 ++ u = seg s2 i n := by
  constructor
  · rintro ⟨q, h1, h2, h3⟩
    refine ⟨seg s2 i (q - i), seg s2 (q + s1.length) (i + n - (q + s1.length)), ?_⟩
    conv_lhs => rw [← h3]
    rw [seg_length s2 q s1.length (by omega)]
    simp only [seg]
    have hq : s2.drop q = (s2.drop i).drop (q - i) := by rw [List.drop_drop]; congr 1; omega
    have hq' : s2.drop (q + s1.length) = ((s2.drop i).drop (q - i)).drop s1.length := by
      rw [List.drop_drop, List.drop_drop]; congr 1; omega
    rw [hq, hq']
    generalize s2.drop i = r
    conv_rhs => rw [show n = (q - i) + (s1.length + (i + n - (q + s1.length))) by omega]
    rw [List.take_add, List.take_add, List.append_assoc]
  · rintro ⟨t, u, e⟩
    have hl := congrArg List.length e
    rw [seg_length _ _ _ h] at hl
    simp only [List.length_append] at hl
    refine ⟨i + t.length, by omega, by push_cast; omega, ?_⟩
    have : (seg s2 i n).drop t.length = s1 ++ u := by rw [← e]; simp
    have h4 : ((seg s2 i n).drop t.length).take s1.length = s1 := by rw [this]; simp
    rw [← h4]
    conv_rhs => rw [seg, List.drop_take, List.drop_drop, List.take_take]
    rw [h4, seg]
    congr 1
    omega

end Mosml.Text
