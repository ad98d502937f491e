import Verif.Text.StringProps

/-!
# C83: functions on character sources and on characters; padding
-/

namespace Mosml.Text

open Mosml.Lists (Prog Exn Out chk minInt maxInt abort pureFn)

variable {W α β : Type}

namespace Cvt

/-- A buffer of `splitl p getc`, before or between its applications. -/
def Good (b : Buf) : Prop := 0 < b.max ∧ b.max = b.tmp.length

/-- A result, with a buffer added to the world. -/
def withBuf (b : Buf) : Out W α → Out (Buf × W) α
  | .ok a w => .ok a (b, w)
  | .raise e w => .raise e (b, w)
  | .hang => .hang

theorem outside_bind {γ : Type} (p : Prog W α) (k : α → Prog (Buf × W) γ) (b : Buf) (w : W) :
    ((outside p : Prog (Buf × W) α) >>= k) (b, w) =
      match p w with
      | .ok a w' => k a (b, w')
      | .raise e w' => .raise e (b, w')
      | .hang => .hang := by
  show Lists.Prog.andThen (outside p) k (b, w) = _
  simp only [Lists.Prog.andThen, outside]
  cases p w <;> rfl

/-- The buffer holds `pre` at its beginning. -/
def Holds (b : Buf) (pre : Str) : Prop :=
  Good b ∧ ∃ rest, b.tmp = raw pre ++ rest

theorem subTmp_eq (b : Buf) (pre : Str) (h : Holds b pre) (hl : pre.length < 2147483648) (w : W) :
    (subTmp (pre.length : Int) : Prog (Buf × W) Str) (b, w) = .ok pre (b, w) := by
  obtain ⟨⟨h1, h2⟩, rest, h3⟩ := h
  have hms := ms_eq
  have hbl : (blit_ b.tmp 0 (List.replicate pre.length none) 0 (pre.length : Int) :
      Prog (Buf × W) Raw) = pure (raw pre) := by
    rw [blit_, if_pos (by rw [h3]; simp [raw_length]; omega)]
    congr 1
    rw [h3]
    simp [raw_length, raw]
  rw [subTmp]
  dsimp only
  rw [mk_ok _ (by omega), pbind, hbl, pbind, done_raw]; rfl

theorem grow_set (b : Buf) (pre : Str) (c : Nat) (h : Holds b pre) (hl : pre.length < 1073741824)
    (k : Prog (Buf × W) α) (w : W) :
    ∃ b', Holds b' (pre ++ [c]) ∧
      ((do grow (pre.length : Int); setTmp (pre.length : Int) c; k) : Prog (Buf × W) α) (b, w) =
        k (b', w) := by
  have hms := ms_eq
  have hset : ∀ (b : Buf), Good b → ∀ rest, b.tmp = raw pre ++ rest → pre.length < b.tmp.length →
      ∃ b', Holds b' (pre ++ [c]) ∧
        (setTmp (pre.length : Int) c >>= fun _ => k) (b, w) = k (b', w) := by
    intro b hg rest h3 hlt
    cases rest with
    | nil => rw [h3] at hlt; simp [raw_length] at hlt
    | cons r rest =>
      have he : b.tmp.set pre.length (some c) = raw (pre ++ [c]) ++ rest := by
        rw [h3, List.set_append_right _ _ (by simp [raw_length]), raw_length, Nat.sub_self,
          List.set_cons_zero, raw_append]
        simp [raw]
      refine ⟨{ b with tmp := b.tmp.set pre.length (some c) }, ⟨⟨hg.1, ?_⟩, rest, he⟩, ?_⟩
      · dsimp only; rw [List.length_set]; exact hg.2
      · have hu : (update_ b.tmp (pre.length : Int) c : Prog (Buf × W) Raw) =
            pure (b.tmp.set pre.length (some c)) := by
          rw [update_, if_pos (by omega)]; rfl
        show Lists.Prog.andThen (setTmp (pre.length : Int) c) (fun _ => k) (b, w) = _
        simp only [Lists.Prog.andThen, setTmp]
        rw [hu]
        rfl
  obtain ⟨⟨h1, h2⟩, rest, h3⟩ := h
  have hle : pre.length ≤ b.tmp.length := by rw [h3]; simp [raw_length]
  by_cases hm : (pre.length : Int) ≥ b.max
  · have hmax : b.max = (pre.length : Nat) := by omega
    have hrest : rest = [] := by
      have := congrArg List.length h3
      rw [List.length_append, raw_length] at this
      exact List.length_eq_zero_iff.1 (by omega)
    have hbl := blit_append (W := Buf × W) pre [] 0 pre.length pre.length (by omega) (by omega) 0 rfl
    rw [show ((0 : Nat) : Int) = 0 from rfl, seg_all, List.nil_append] at hbl
    simp only [raw, List.map_nil, List.nil_append] at hbl
    obtain ⟨b', hb', he⟩ := hset ⟨2 * b.max, raw pre ++ List.replicate pre.length none⟩
      ⟨by dsimp only; omega, by dsimp only; rw [hmax]; simp [raw_length]; omega⟩ _ rfl
      (by simp [raw_length]; omega)
    refine ⟨b', hb', ?_⟩
    show Lists.Prog.andThen (grow (pre.length : Int)) _ (b, w) = _
    simp only [Lists.Prog.andThen, grow]
    rw [if_pos hm, realloc]
    dsimp only
    rw [hmax, show 2 * ((pre.length : Nat) : Int) = ((pre.length + pre.length : Nat) : Int) by
      push_cast; omega, mk_ok _ (by omega), pbind, h3, hrest, List.append_nil, raw, hbl]
    exact he
  · obtain ⟨b', hb', he⟩ := hset b ⟨h1, h2⟩ rest h3 (by omega)
    refine ⟨b', hb', ?_⟩
    show Lists.Prog.andThen (grow (pre.length : Int)) _ (b, w) = _
    simp only [Lists.Prog.andThen, grow]
    rw [if_neg hm]
    exact he

theorem splitlH_reads (p : Nat → Prog W Bool) (getc : β → Prog W (Option (Nat × β)))
    {w w1 : W} {src src' : β} {cs : Str} (h : Reads p getc w src cs src' w1) :
    ∀ (b : Buf) (pre : Str) (k : Nat), Holds b pre → pre.length + cs.length < 1073741824 →
    ∃ b', Holds b' (pre ++ cs) ∧
      splitlH (fun c => outside (p c)) (fun s => outside (getc s)) (cs.length + k) (pre.length : Int) src
        (b, w) =
      splitlH (fun c => outside (p c)) (fun s => outside (getc s)) k ((pre ++ cs).length : Int) src'
        (b', w1) := by
  induction h with
  | nil w src =>
    intro b pre k hb hl
    exact ⟨b, by simpa using hb, by simp⟩
  | @cons w w1 w2 w3 src rest src' c cs hg hp _ ih =>
    intro b pre k hb hl
    simp only [List.length_cons] at hl
    obtain ⟨b1, hb1, he⟩ := grow_set b pre c hb (by omega)
      (splitlH (fun c => outside (p c)) (fun s => outside (getc s)) (cs.length + k)
        ((pre.length : Int) + 1) rest) w2
    obtain ⟨b2, hb2, he2⟩ := ih b1 (pre ++ [c]) k hb1 (by simp; omega)
    refine ⟨b2, by simpa using hb2, ?_⟩
    rw [List.length_cons, show cs.length + 1 + k = (cs.length + k) + 1 by omega, splitlH,
      outside_bind, hg]
    dsimp only
    rw [outside_bind, hp]
    dsimp only
    rw [if_pos rfl, he]
    rw [show (((pre ++ [c]).length : Nat) : Int) = (pre.length : Int) + 1 by simp] at he2
    rw [he2, List.append_assoc]
    rfl

/-- `StringCvt.splitl p getc src` (and `takel`): the longest prefix of the source that satisfies
the predicate, and the rest, for any state of the buffer that earlier applications have left;
the source is read and the predicate called as far as needed, and an exception of either is
passed on.  The reader and the predicate must not apply the same `splitl p getc`, and the prefix
must be shorter than 2^30 characters. -/
theorem C83_splitl_partial (p : Nat → Prog W Bool) (getc : β → Prog W (Option (Nat × β)))
    {w w1 : W} {src src' : β} {cs : Str} (h : Reads p getc w src cs src' w1)
    (hl : cs.length < 1073741824) (b : Buf) (hb : Good b) (k : Nat) (hk : cs.length < k) :
    (∀ w2, Stops p getc w1 src' w2 → ∃ b', Good b' ∧
      splitl (fun c => outside (p c)) (fun s => outside (getc s)) k src (b, w) =
        .ok (cs, src') (b', w2) ∧
      takel (fun c => outside (p c)) (fun s => outside (getc s)) k src (b, w) =
        .ok cs (b', w2)) ∧
    (∀ o, abort (getc src' w1) = some o → ∃ b', Good b' ∧
      splitl (fun c => outside (p c)) (fun s => outside (getc s)) k src (b, w) = withBuf b' o) ∧
    (∀ c rest w2 o, getc src' w1 = .ok (some (c, rest)) w2 → abort (p c w2) = some o →
      ∃ b', Good b' ∧
      splitl (fun c => outside (p c)) (fun s => outside (getc s)) k src (b, w) = withBuf b' o) := by
  obtain ⟨b', hb', he⟩ := splitlH_reads p getc h b [] (k - cs.length) ⟨hb, b.tmp, rfl⟩ (by simpa using hl)
  rw [show cs.length + (k - cs.length) = k by omega] at he
  obtain ⟨m, hm⟩ : ∃ m, k - cs.length = m + 1 := ⟨k - cs.length - 1, by omega⟩
  rw [hm, List.nil_append] at he
  rw [List.nil_append] at hb'
  have hs : splitl (fun c => outside (p c)) (fun s => outside (getc s)) k src (b, w) = _ := he
  rw [splitlH, outside_bind] at hs
  refine ⟨?_, ?_, ?_⟩
  · intro w2 hst
    have key : splitl (fun c => outside (p c)) (fun s => outside (getc s)) k src (b, w) =
        .ok (cs, src') (b', w2) := by
      rw [hs]
      rcases hst with hg | ⟨c, rest, w1', hg, hp⟩
      · rw [hg]
        dsimp only
        rw [Lists.bind_ok (subTmp_eq b' cs hb' (by omega) w2)]; rfl
      · rw [hg]
        dsimp only
        rw [outside_bind, hp]
        dsimp only
        rw [if_neg (by simp), Lists.bind_ok (subTmp_eq b' cs hb' (by omega) w2)]; rfl
    exact ⟨b', hb'.1, key, by rw [takel, Lists.bind_ok key]; rfl⟩
  · intro o ho
    refine ⟨b', hb'.1, ?_⟩
    rw [hs]
    cases hg : getc src' w1 with
    | ok a v => rw [hg] at ho; simp [abort] at ho
    | raise e v =>
      rw [hg] at ho; simp only [abort, Option.some.injEq] at ho; subst ho; rfl
    | hang => rw [hg] at ho; simp only [abort, Option.some.injEq] at ho; subst ho; rfl
  · intro c rest w2 o hg ho
    refine ⟨b', hb'.1, ?_⟩
    rw [hs, hg]
    dsimp only
    rw [outside_bind]
    cases hp : p c w2 with
    | ok a v => rw [hp] at ho; simp [abort] at ho
    | raise e v =>
      rw [hp] at ho; simp only [abort, Option.some.injEq] at ho; subst ho; rfl
    | hang => rw [hp] at ho; simp only [abort, Option.some.injEq] at ho; subst ho; rfl

/-- A list as a character source. -/
def listGetc : Str → Prog W (Option (Nat × Str))
  | [] => pure none
  | c :: cs => pure (some (c, cs))

example : Good newBuf ∧ Reads (W := Unit) (fun c => pure (c < 100)) listGetc () [97, 98, 200] [97, 98]
    [200] () ∧ Stops (W := Unit) (fun c => pure (c < 100)) listGetc () [200] () :=
  ⟨⟨by decide, by decide⟩, .cons rfl rfl (.cons rfl rfl (.nil _ _)), .inr ⟨_, _, _, rfl, rfl⟩⟩

/-- A predicate that is true of every character, and on `b` applies the same `splitl p getc` to
the string `zz`. -/
def reentrant : Nat → Nat → Prog (Buf × W) Bool
  | 0, _ => spent
  | k + 1, c =>
      if c = 98 then do
        let _ ← splitl (reentrant k) listGetc 10 [122, 122]
        pure true
      else pure true

/-- FINDING: all applications of one `splitl p getc` share a buffer.  If the predicate (or the
reader) itself applies it, the prefix read so far is overwritten: the string `ab` has `ab` as the
longest prefix all of whose characters satisfy the predicate, but `zb` is returned. -/
theorem C83_splitl_violation :
    ∃ p : Nat → Prog (Buf × Unit) Bool, (∀ c w w', p c w ≠ .ok false w') ∧
      ∃ b', splitl p listGetc 10 [97, 98] (newBuf, ()) = .ok ([122, 98], []) b' := by
  refine ⟨reentrant 2, ?_, ({ max := 15, tmp := [some 122, some 98] ++ List.replicate 13 none }, ()),
    by decide +kernel⟩
  intro c w w' h
  rw [reentrant] at h
  split at h
  · change Lists.Prog.andThen _ _ w = _ at h
    simp only [Lists.Prog.andThen] at h
    split at h
    · cases h
    · cases h
    · cases h
  · cases h

/-- `StringCvt.dropl p getc src` drops the longest prefix that satisfies the predicate; `skipWS`
is `dropl` of the white space characters. -/
theorem C83_dropl (p : Nat → Prog W Bool) (getc : β → Prog W (Option (Nat × β))) :
    (∀ {w w1 : W} {src src' : β} {cs : Str} (k : Nat), Reads p getc w src cs src' w1 → cs.length < k →
      (∀ w2, Stops p getc w1 src' w2 → dropl p getc k src w = .ok src' w2) ∧
      (∀ o, abort (getc src' w1) = some o → dropl p getc k src w = o) ∧
      (∀ c rest w2 o, getc src' w1 = .ok (some (c, rest)) w2 → abort (p c w2) = some o →
        dropl p getc k src w = o)) ∧
    (∀ k src, skipWS getc k src = dropl (fun c => pure (Chr.isSpace c)) getc k src) := by
  constructor
  · intro w w1 src src' cs k h hk
    have key : ∀ m, dropl p getc (cs.length + m) src w = dropl p getc m src' w1 := by
      clear hk
      induction h with
      | nil w src => intro m; simp
      | @cons w w1 w2 w3 src rest src' c cs hg hp _ ih =>
        intro m
        rw [List.length_cons, show cs.length + 1 + m = (cs.length + m) + 1 by omega, dropl,
          Lists.bind_ok hg]
        dsimp only
        rw [Lists.bind_ok hp, if_pos rfl]
        exact ih m
    have := key (k - cs.length)
    rw [show cs.length + (k - cs.length) = k by omega] at this
    obtain ⟨m, hm⟩ : ∃ m, k - cs.length = m + 1 := ⟨k - cs.length - 1, by omega⟩
    rw [hm, dropl] at this
    rw [this]
    refine ⟨?_, ?_, ?_⟩
    · intro w2 hst
      rcases hst with hg | ⟨c, rest, w1', hg, hp⟩
      · rw [Lists.bind_ok hg]; rfl
      · rw [Lists.bind_ok hg]
        dsimp only
        rw [Lists.bind_ok hp]; rfl
    · intro o ho
      obtain ⟨q, hq⟩ := Lists.abort_any ho (Option (Nat × β))
      cases hg : getc src' w1 with
      | ok a v => rw [hg] at ho; simp [abort] at ho
      | raise e v =>
        rw [hg] at ho; simp only [abort, Option.some.injEq] at ho; subst ho
        exact Lists.bind_abort (by rw [hg]; rfl)
      | hang =>
        rw [hg] at ho; simp only [abort, Option.some.injEq] at ho; subst ho
        exact Lists.bind_abort (by rw [hg]; rfl)
    · intro c rest w2 o hg ho
      rw [Lists.bind_ok hg]
      dsimp only
      exact Lists.bind_abort ho
  · intro k
    induction k with
    | zero => intro src; rfl
    | succ k ih =>
      intro src
      rw [skipWS, dropl]
      apply bcongr; intro r
      rcases r with _ | ⟨c, rest⟩
      · rfl
      · dsimp only
        rw [pbind]
        by_cases hc : c = 32 ∨ (9 ≤ c ∧ c ≤ 13)
        · rw [if_pos hc, if_pos (by simpa [Chr.isSpace] using hc)]; exact ih rest
        · rw [if_neg hc, if_neg (by simpa [Chr.isSpace] using hc)]

/-- `StringCvt.scanString scan s` applies the scanner to a source that consists of the characters
of `s`, and returns what it returns, without the rest of the source. -/
theorem C83_scanString (s : Str) (w : W) :
    (∀ i : Nat, stringGetc s i w = .ok ((s[i]?).map fun c => (c, (i : Int) + 1)) w) ∧
    (∀ (scan : (Int → Prog W (Option (Nat × Int))) → Int → Prog W (Option (α × Int))),
      (∀ a i w', scan (stringGetc s) 0 w = .ok (some (a, i)) w' → scanString scan s w = .ok (some a) w') ∧
      (∀ w', scan (stringGetc s) 0 w = .ok none w' → scanString scan s w = .ok none w') ∧
      (∀ o, abort (scan (stringGetc s) 0 w) = some o → scanString scan s w = o)) := by
  constructor
  · intro i
    rw [stringGetc]
    by_cases h : i < s.length
    · rw [if_neg (by simp only [size]; omega), sub_ok s i h, pbind, List.getElem?_eq_getElem h]; rfl
    · rw [if_pos (by simp only [size]; omega), List.getElem?_eq_none (by omega)]; rfl
  · intro scan
    refine ⟨?_, ?_, ?_⟩
    · intro a i w' h; rw [scanString, Lists.bind_ok h]; rfl
    · intro w' h; rw [scanString, Lists.bind_ok h]; rfl
    · intro o h; exact Lists.bind_abort h

example : scanString (fun getc i => do
    let j ← dropl (fun c => pure (c < 100)) getc 10 i
    pure (some (j, j))) [97, 98, 200, 97] () = .ok (some 2) () := by decide +kernel

/-- `StringCvt.padLeft` and `padRight`: the documented strings, if not longer than
`String.maxSize`. -/
theorem C83_pad_partial (c : Nat) (n : Int) (s : Str) (hs : s.length < 2147483648)
    (hn : n ≤ maxSize) (w : W) :
    padLeft c n s w = .ok (List.replicate (n - s.length).toNat c ++ s) w ∧
    padRight c n s w = .ok (s ++ List.replicate (n - s.length).toNat c) w := by
  by_cases h : n ≤ s.length
  · rw [padLeft, padRight, if_pos (by simpa [size] using h), if_pos (by simpa [size] using h),
      show (n - (s.length : Int)).toNat = 0 by omega]
    simp [Lists.pure_apply]
  · obtain ⟨d, rfl⟩ : ∃ d : Nat, n = (s.length + d : Nat) := ⟨(n - s.length).toNat, by omega⟩
    have e : (((s.length + d : Nat) : Int) - size s) = d := by simp only [size]; omega
    have e' : (((s.length + d : Nat) : Int) - (s.length : Int)).toNat = d := by omega
    rw [padLeft, padRight, if_neg (by simpa [size] using h), if_neg (by simpa [size] using h), e,
      e', mk_ok _ hn, pbind, pbind]
    constructor
    · have hf := fill_append (W := W) [] d s.length c 0 rfl d rfl
      have hb := blit_append (W := W) s (List.replicate d c) 0 s.length 0 (by omega) hs d (by simp)
      rw [show ((0 : Nat) : Int) = 0 from rfl, seg_all, Nat.add_zero] at hb
      rw [show raw [] = [] from rfl, List.nil_append, List.nil_append] at hf
      rw [Nat.add_comm s.length d]
      beta_reduce
      rw [hf, pbind]
      beta_reduce
      rw [size, hb, pbind, done_raw']; rfl
    · have hf := fill_append (W := W) s d 0 c (size s) (by simp [size]) d rfl
      have hb := blit_append (W := W) s [] 0 s.length d (by omega) hs 0 rfl
      rw [show ((0 : Nat) : Int) = 0 from rfl, seg_all] at hb
      rw [show raw [] = [] from rfl, List.nil_append, List.nil_append] at hb
      beta_reduce
      rw [show size s = ((s.length : Nat) : Int) from rfl, hb, pbind]
      beta_reduce
      rw [Nat.add_zero] at hf
      rw [show ((s.length : Nat) : Int) = size s from rfl, hf, pbind, done_raw']; rfl

example : padLeft 42 5 [97, 98] () = .ok [42, 42, 42, 97, 98] () := by decide +kernel

end Cvt

namespace Chr

/-- `Char.chr`, `succ` and `pred`. -/
theorem C83_chr (i : Int) (c : Nat) (hc : c ≤ 255) (w : W) :
    (0 ≤ i ∧ i ≤ 255 → ∃ d : Nat, (d : Int) = i ∧ chr i w = .ok d w) ∧
    (i < 0 ∨ 255 < i → chr i w = .raise .chr w) ∧
    (c ≠ 255 → succ c w = .ok (c + 1) w) ∧ (c = 255 → succ c w = .raise .chr w) ∧
    (c ≠ 0 → ∃ d, d + 1 = c ∧ pred c w = .ok d w) ∧ (c = 0 → pred c w = .raise .chr w) := by
  refine ⟨?_, ?_, ?_, ?_, ?_, ?_⟩
  · intro h
    exact ⟨i.toNat, by omega, by rw [chr, if_neg (by omega)]; rfl⟩
  · intro h; rw [chr, if_pos (by omega)]; rfl
  · intro h; rw [succ, if_pos (by omega)]; rfl
  · intro h; rw [succ, if_neg (by omega)]; rfl
  · intro h; exact ⟨c - 1, by omega, by rw [pred, if_pos (by omega)]; rfl⟩
  · intro h; rw [pred, if_neg (by omega)]; rfl

example : (65 : Nat) ≤ 255 := by decide

theorem table_set (f : Nat → Nat) (n c v : Nat) :
    ((List.range n).map f).set c v = (List.range n).map (fun j => if j = c then v else f j) := by
  apply List.ext_getElem
  · simp
  · intro j h1 h2
    simp only [List.length_set, List.length_map, List.length_range] at h1
    rw [List.getElem_set]
    simp only [List.getElem_map, List.getElem_range]
    by_cases h : c = j
    · rw [if_pos h, if_pos h.symm]
    · rw [if_neg h, if_neg (fun e => h e.symm)]

theorem mktable_eq (s : Str) (hs : ∀ c ∈ s, c ≤ 255) :
    (mktable s : Prog W Str) = pure ((List.range 256).map (fun j => if j ∈ s then 1 else 0)) := by
  have hinit : ∀ (m k i : Nat) (f : Nat → Nat), i + m = s.length → m < k →
      (∀ j, f j = if j ∈ s.take i then 1 else 0) →
      (mktableInit s k (raw ((List.range 256).map f)) i : Prog W Raw) =
        pure (raw ((List.range 256).map (fun j => if j ∈ s then 1 else 0))) := by
    intro m
    induction m with
    | zero =>
      intro k i f h hk hf
      obtain ⟨k, rfl⟩ : ∃ l, k = l + 1 := ⟨k - 1, by omega⟩
      rw [mktableInit, if_neg (by simp only [size]; omega)]
      have : f = fun j => if j ∈ s then 1 else 0 := by
        funext j; rw [hf, List.take_of_length_le (by omega)]
      rw [this]
    | succ m ih =>
      intro k i f h hk hf
      obtain ⟨k, rfl⟩ : ∃ l, k = l + 1 := ⟨k - 1, by omega⟩
      have hi : i < s.length := by omega
      have hc : s[i] ≤ 255 := hs _ (List.getElem_mem hi)
      have hu : (update_ (raw ((List.range 256).map f)) (s[i] : Int) 1 : Prog W Raw) =
          pure (raw ((List.range 256).map (fun j => if j = s[i] then 1 else f j))) := by
        rw [update_, if_pos (by simp [raw_length]; omega), Int.toNat_natCast, ← table_set]
        simp [raw, List.map_set]
      rw [mktableInit, if_pos (by simp only [size]; omega), sub_ok s i hi, pbind]
      beta_reduce
      rw [hu, pbind]
      apply ih k (i + 1) _ (by omega) (by omega)
      intro j
      rw [hf, List.take_succ_eq_append_getElem hi]
      by_cases hj : j = s[i]
      · rw [if_pos hj, if_pos (List.mem_append_right _ (by rw [hj]; exact List.mem_singleton.2 rfl))]
      · rw [if_neg hj]
        simp only [List.mem_append, List.mem_singleton, hj, or_false]
  have hms := ms_eq
  have hf := fill_append (W := W) [] 256 0 0 0 rfl 256 rfl
  rw [show raw [] = [] from rfl, List.nil_append, List.nil_append] at hf
  have h0 : (List.replicate 256 0 : List Nat) = (List.range 256).map (fun _ => 0) := by
    rw [List.map_const', List.length_range]
  have := hinit s.length (s.length + 1) 0 (fun _ => 0) (by omega) (by omega) (by simp)
  rw [mktable, show (256 : Int) = ((256 : Nat) : Int) from rfl, mk_ok 256 (by omega), pbind]
  beta_reduce
  rw [show ((256 : Nat) : Int) = 256 from rfl]
  rw [Nat.add_zero] at hf
  rw [hf, pbind, h0]
  beta_reduce
  rw [List.replicate_zero, List.append_nil, show (0 : Int) = ((0 : Nat) : Int) from rfl, this, pbind,
    done_raw]

/-- `Char.contains s c` and `Char.notContains s c`, whose table has an entry for every
character. -/
theorem C83_contains (s : Str) (hs : ∀ c ∈ s, c ≤ 255) (c : Nat) (hc : c ≤ 255) (w : W) :
    contains s c w = .ok (decide (c ∈ s)) w ∧ notContains s c w = .ok (!decide (c ∈ s)) w := by
  have hsub : (sub_ ((List.range 256).map (fun j => if j ∈ s then 1 else 0)) (c : Int) : Prog W Nat) =
      pure (if c ∈ s then 1 else 0) := by
    rw [sub_ok _ c (by rw [List.length_map, List.length_range]; omega), List.getElem_map,
      List.getElem_range]
  rw [contains, notContains, mktable_eq s hs, pbind, pbind, hsub, pbind, pbind]
  by_cases h : c ∈ s <;> simp [h, Lists.pure_apply]

example : (∀ c ∈ ([0, 255, 32] : Str), c ≤ 255) ∧ (255 : Nat) ≤ 255 := by decide

/-- The classes of characters: those of the documentation, with the letters, digits and white
space written out; `toLower` and `toUpper`; `compare`. -/
theorem C83_classes (c d : Nat) (hc : c ≤ 255) :
    (isLower c = true ↔ Char.ofNat c ∈ "abcdefghijklmnopqrstuvwxyz".toList) ∧
    (isUpper c = true ↔ Char.ofNat c ∈ "ABCDEFGHIJKLMNOPQRSTUVWXYZ".toList) ∧
    (isDigit c = true ↔ Char.ofNat c ∈ "0123456789".toList) ∧
    (isHexDigit c = true ↔ Char.ofNat c ∈ "0123456789abcdefABCDEF".toList) ∧
    (isSpace c = true ↔ c ∈ [32, 10, 9, 11, 12, 13]) ∧
    (isPrint c = true ↔ 32 ≤ c ∧ c ≤ 126) ∧
    (isAlpha c = true ↔ isLower c = true ∨ isUpper c = true) ∧
    (isAlphaNum c = true ↔ isAlpha c = true ∨ isDigit c = true) ∧
    (isGraph c = true ↔ isPrint c = true ∧ isSpace c = false) ∧
    (isPunct c = true ↔ isGraph c = true ∧ isAlphaNum c = false) ∧
    (isCntrl c = true ↔ isPrint c = false) ∧
    (isAscii c = true ↔ c ≤ 127) ∧
    Char.ofNat (toLower c) = (Char.ofNat c).toLower ∧
    Char.ofNat (toUpper c) = (Char.ofNat c).toUpper ∧
    (compare c d = .lt ↔ c < d) ∧ (compare c d = .eq ↔ c = d) ∧ (compare c d = .gt ↔ d < c) := by
  have ha : ∀ c, c < 256 →
      (isLower c = true ↔ Char.ofNat c ∈ "abcdefghijklmnopqrstuvwxyz".toList) ∧
      (isUpper c = true ↔ Char.ofNat c ∈ "ABCDEFGHIJKLMNOPQRSTUVWXYZ".toList) ∧
      (isDigit c = true ↔ Char.ofNat c ∈ "0123456789".toList) ∧
      (isHexDigit c = true ↔ Char.ofNat c ∈ "0123456789abcdefABCDEF".toList) := by
    decide +kernel
  have hb : ∀ c, c < 256 → (isSpace c = true ↔ c ∈ [32, 10, 9, 11, 12, 13]) ∧
      Char.ofNat (toLower c) = (Char.ofNat c).toLower ∧
      Char.ofNat (toUpper c) = (Char.ofNat c).toUpper := by
    decide +kernel
  obtain ⟨h1, h2, h3, h4⟩ := ha c (by omega)
  obtain ⟨h5, h6, h7⟩ := hb c (by omega)
  refine ⟨h1, h2, h3, h4, h5, ?_, ?_, ?_, ?_, ?_, ?_, ?_, h6, h7, ?_⟩
  · simp [isPrint]; omega
  · simp [isAlpha]
  · simp [isAlphaNum]
  · simp [isGraph]
  · simp [isPunct]
  · simp [isPrint, isCntrl]; omega
  · simp [isAscii]
  rw [compare]
  split
  · simp; omega
  · split
    · simp; omega
    · simp; omega

example : (200 : Nat) ≤ 255 := by decide

end Chr

end Mosml.Text
