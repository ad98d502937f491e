import Verif.Old.Model
import Verif.Util

/-! # C95: the old top-level environments and Bool -/
namespace Mosml.Old
open Mosml.Num (chars)

/-! ## lists -/

theorem nthLoop_spec {α : Type} (xs : List α) (n : Nat) :
    nthLoop xs n = match xs[n]? with | some x => .ok x | none => .error .subscript := by
  induction xs generalizing n with
  | nil => rfl
  | cons x xs ih =>
    rw [nthLoop]
    cases n with
    | zero => simp
    | succ n =>
      rw [if_neg (by omega), show ((n + 1 : Nat) : Int) - 1 = n by omega, ih]
      simp

theorem dropLoop_spec {α : Type} (xs : List α) (n : Nat) :
    dropLoop xs n = if n ≤ xs.length then .ok (xs.drop n) else .error .subscript := by
  induction xs generalizing n with
  | nil =>
    rw [dropLoop]
    cases n with
    | zero => simp
    | succ n => rw [if_neg (by omega), if_neg (by simp)]
  | cons x xs ih =>
    rw [dropLoop]
    cases n with
    | zero => simp
    | succ n =>
      rw [if_neg (by omega), show ((n + 1 : Nat) : Int) - 1 = n by omega, ih]
      simp

/-- `hd`, `tl`, `nth` and `nthtail` return the part of the list that their names say, and otherwise raise
their own exception and no other. -/
theorem C95_lists {α : Type} (xs : List α) (n : Int) :
    hd xs = (match xs with | x :: _ => .ok x | [] => .error .hd) ∧
    tl xs = (match xs with | _ :: t => .ok t | [] => .error .tl) ∧
    (∀ k : Nat, (n : Int) = k → ∀ h : k < xs.length, nth xs n = .ok xs[k]) ∧
    (n < 0 ∨ xs.length ≤ n → nth xs n = .error .nth) ∧
    (∀ k : Nat, n = k → k ≤ xs.length → nthtail xs n = .ok (xs.drop k)) ∧
    (n < 0 ∨ xs.length < n → nthtail xs n = .error .nthTail) := by
  refine ⟨by cases xs <;> rfl, by cases xs <;> rfl, ?_, ?_, ?_, ?_⟩
  · rintro k rfl h
    rw [nth, listNth, if_neg (by omega), nthLoop_spec, List.getElem?_eq_getElem h]
    rfl
  · rintro (h | h)
    · rw [nth, listNth, if_pos h]; rfl
    · obtain ⟨k, rfl⟩ := Int.eq_ofNat_of_zero_le (show 0 ≤ n by omega)
      rw [nth, listNth, if_neg (by omega), nthLoop_spec, List.getElem?_eq_none (by omega)]
      rfl
  · rintro k rfl h
    rw [nthtail, listDrop, if_neg (by omega), dropLoop_spec, if_pos h]
    rfl
  · rintro (h | h)
    · rw [nthtail, listDrop, if_pos h]; rfl
    · obtain ⟨k, rfl⟩ := Int.eq_ofNat_of_zero_le (show 0 ≤ n by omega)
      rw [nthtail, listDrop, if_neg (by omega), dropLoop_spec, if_neg (by omega)]
      rfl

example : nth [5, 6, 7] 2 = .ok 7 ∧ nth [5, 6, 7] 3 = .error .nth ∧ nthtail [5, 6, 7] 3 = .ok [] := by decide

theorem app_append {α σ : Type} (f : α → σ → σ × Option Exn) (xs ys : List α) (s : σ) :
    app f (xs ++ ys) s = match app f xs s with
      | (s', none) => app f ys s'
      | (s', some e) => (s', some e) := by
  induction xs generalizing s with
  | nil => rfl
  | cons x xs ih =>
    rw [List.cons_append, app, app]
    rcases f x s with ⟨s', _ | e⟩
    · exact ih s'
    · rfl

/-- `app` applies the function to the elements from the first to the last, until it raises an exception;
`revapp` from the last to the first; `fold` and `revfold` combine the elements from the right and from the
left. -/
theorem C95_order {α σ β : Type} (f : α → σ → σ × Option Exn) (g : α → β → β) (x : α) (xs : List α) (s : σ) (e : β) :
    app f [] s = (s, none) ∧
    (∀ s', f x s = (s', none) → app f (x :: xs) s = app f xs s') ∧
    (∀ s' y, f x s = (s', some y) → app f (x :: xs) s = (s', some y)) ∧
    revapp f xs s = app f xs.reverse s ∧
    fold g [] e = e ∧ fold g (x :: xs) e = g x (fold g xs e) ∧
    revfold g xs e = fold g xs.reverse e := by
  refine ⟨rfl, ?_, ?_, ?_, rfl, rfl, ?_⟩
  · intro s' h; rw [app, h]
  · intro s' y h; rw [app, h]
  · clear e
    induction xs generalizing s with
    | nil => rfl
    | cons x xs ih =>
      rw [revapp, ih, List.reverse_cons, app_append]
      rcases app f xs.reverse s with ⟨s', _ | y⟩
      · simp only [app]
        rcases f x s' with ⟨s'', _ | z⟩ <;> rfl
      · rfl
  · have h2 : ∀ (ys : List α) (x : α) (e : β), fold g (ys ++ [x]) e = fold g ys (g x e) := by
      intro ys
      induction ys with
      | nil => intro x e; rfl
      | cons y ys ih => intro x e; show g y (fold g (ys ++ [x]) e) = _; rw [ih]; rfl
    induction xs generalizing e with
    | nil => rfl
    | cons x xs ih =>
      rw [List.reverse_cons, h2, ← ih]
      rfl

example : revapp (fun (x : Nat) (s : List Nat) => (s ++ [x], if x = 1 then some .size else none)) [0, 1, 2] [] =
    ([2, 1], some .size) ∧ revfold (fun (x y : Int) => x - y) [1, 2, 3] 0 = 2 := by decide

/-- `max` and `min`; `inc` and `dec` change the contents by one or raise `Overflow`. -/
theorem C95_ints (x y lim : Int) (hx : -lim ≤ x ∧ x < lim) :
    (max x y = x ∨ max x y = y) ∧ x ≤ max x y ∧ y ≤ max x y ∧
    (min x y = x ∨ min x y = y) ∧ min x y ≤ x ∧ min x y ≤ y ∧
    inc lim x = (if x = lim - 1 then .error .overflow else .ok (x + 1)) ∧
    dec lim x = (if x = -lim then .error .overflow else .ok (x - 1)) := by
  obtain ⟨h1, h2⟩ := hx
  refine ⟨?_, ?_, ?_, ?_, ?_, ?_, ?_, ?_⟩
  · unfold max; split <;> simp
  · unfold max; split <;> omega
  · unfold max; split <;> omega
  · unfold min; split <;> simp
  · unfold min; split <;> omega
  · unfold min; split <;> omega
  · unfold inc add
    by_cases h : x = lim - 1
    · rw [if_pos h, if_neg (by omega)]
    · rw [if_neg h, if_pos (by omega)]
  · unfold dec add
    by_cases h : x = -lim
    · rw [if_pos h, if_neg (by omega)]
    · rw [if_neg h, if_pos (by omega)]; rfl

example : inc 4611686018427387904 4611686018427387903 = .error .overflow ∧
    dec 4611686018427387904 0 = .ok (-1) := by decide

/-! ## strings -/

theorem create_length (junk : Nat → Nat) (n : Nat) : (create junk n).length = n := by simp [create]

theorem explodeLoop_spec (junk : Nat → Nat) (s : Str) (n : Nat) (h : n ≤ s.length) (acc : List Str) :
    explodeLoop junk s n acc = (s.take n).map (fun c => [c]) ++ acc := by
  induction n generalizing acc with
  | zero => rfl
  | succ n ih =>
    have hlt : n < s.length := by omega
    rw [explodeLoop, ih (by omega), List.take_succ_eq_append_getElem hlt]
    simp only [create, nthChar, List.map_append, List.map_cons, List.map_nil, List.append_assoc, List.singleton_append]
    simp [List.getElem?_eq_getElem hlt]

theorem resultSize_spec (ss : List Str) (acc : Nat) : resultSize ss acc = acc + ss.flatten.length := by
  induction ss generalizing acc with
  | nil => rfl
  | cons s ss ih => rw [resultSize, ih, List.flatten_cons, List.length_append]; omega

theorem implodeLoop_spec (ss : List Str) (p r : Str) (h : r.length = ss.flatten.length) :
    implodeLoop ss p.length (p ++ r) = p ++ ss.flatten := by
  induction ss generalizing p r with
  | nil =>
    have : r = [] := List.length_eq_zero_iff.mp h
    simp [implodeLoop, this]
  | cons s ss ih =>
    rw [List.flatten_cons, List.length_append] at h
    have e : blit s 0 (p ++ r) p.length s.length = (p ++ s) ++ r.drop s.length := by
      simp [blit, List.drop_append]
    rw [implodeLoop, e, ← List.length_append, ih (p ++ s) _ (by rw [List.length_drop]; omega)]
    simp

theorem implode_spec (junk : Nat → Nat) (ss : List Str) : implode junk ss = ss.flatten := by
  have := implodeLoop_spec ss [] (create junk (resultSize ss 0))
    (by rw [create_length, resultSize_spec]; omega)
  simpa [implode] using this

/-- `explode` gives the characters of the string as strings of one character, `implode` joins strings, and
the one undoes the other, whatever the memory contained. -/
theorem C95_explode (junk : Nat → Nat) (s : Str) (ss : List Str) :
    explode junk s = s.map (fun c => [c]) ∧ implode junk ss = ss.flatten ∧ implode junk (explode junk s) = s := by
  have h : explode junk s = s.map (fun c => [c]) := by
    rw [explode, explodeLoop_spec junk s s.length le_rfl]
    simp
  refine ⟨h, implode_spec junk ss, ?_⟩
  rw [h, implode_spec]
  clear h
  induction s with
  | nil => rfl
  | cons c s ih => simpa using ih

example : explode (fun _ => 7) (chars "abc") = [chars "a", chars "b", chars "c"] ∧
    implode (fun _ => 7) [chars "ab", [], chars "c"] = chars "abc" := by decide

/-- `chr`, `ord`, `ordof` and `substring`. -/
theorem C95_strings (junk : Nat → Nat) (s : Str) (i n : Int) :
    (∀ c : Nat, c ≤ 255 → chr c = .ok [c]) ∧ (i < 0 ∨ 255 < i → chr i = .error .chr) ∧
    (∀ c : Nat, ord (c :: s) = .ok c) ∧ ord [] = .error .ord ∧
    (∀ k : Nat, i = k → ∀ h : k < s.length, ordof s i = .ok s[k]) ∧
    (i < 0 ∨ s.length ≤ i → ordof s i = .error .ord) ∧
    (∀ p m t, s = p ++ m ++ t → i = (p.length : Nat) → n = (m.length : Nat) → substring junk s i n = .ok m) ∧
    (i < 0 ∨ n < 0 ∨ s.length < i + n → substring junk s i n = .error .substring) := by
  refine ⟨?_, ?_, ?_, rfl, ?_, ?_, ?_, ?_⟩
  · intro c hc
    rw [chr, if_neg (by omega)]
    rfl
  · intro h
    rw [chr, if_pos (by omega)]
  · intro c
    rw [ord, if_neg (by simp)]
    rfl
  · rintro k rfl h
    rw [ordof, if_neg (by omega), nthChar]
    simp [List.getElem?_eq_getElem h]
  · intro h
    rw [ordof, if_pos (by omega)]
  · rintro p m t rfl rfl rfl
    rw [substring, strSubstring, if_neg (by simp only [List.length_append]; omega)]
    simp [handle, blit, create]
  · intro h
    rw [substring, strSubstring, if_pos (by omega)]
    rfl

example : substring (fun _ => 7) (chars "hello") 1 3 = .ok (chars "ell") ∧
    substring (fun _ => 7) (chars "hello") 3 3 = .error .substring := by decide

/-- Finding: `implode` of NJ93 and SML90 does not check the size of its result: whatever `String.maxSize` is,
it makes strings longer than that from strings that are not, where `String.concat` raises `Size`. -/
theorem C95_implode_violation (maxSize : Nat) (hm : 0 < maxSize) (junk : Nat → Nat) :
    ∃ ss : List Str, (∀ s ∈ ss, s.length ≤ maxSize) ∧ maxSize < (implode junk ss).length ∧
      strConcat maxSize junk ss = .error .size := by
  refine ⟨[List.replicate maxSize 0, [0]], ?_, ?_, ?_⟩
  · intro s hs
    rcases List.mem_cons.mp hs with rfl | hs
    · simp
    · rw [List.mem_singleton] at hs
      subst hs
      exact hm
  · rw [implode_spec]
    simp
  · rw [strConcat, if_pos]
    rw [resultSize_spec]
    simp

example : implode (fun _ => 0) [[1, 2], [3]] = [1, 2, 3] ∧
    strConcat 2 (fun _ => 0) [[1, 2], [3]] = .error .size := by decide

/-! ## Bool -/

theorem getstring_iff (str src rest : Str) :
    getstring str src = some rest ↔ ∃ w, src = w ++ rest ∧ w.map toLower = str := by
  induction str generalizing src with
  | nil =>
    rw [getstring]
    constructor
    · intro h; cases h; exact ⟨[], rfl, rfl⟩
    · rintro ⟨w, rfl, h⟩
      rw [List.map_eq_nil_iff] at h
      subst h; rfl
  | cons d str ih =>
    cases src with
    | nil =>
      rw [getstring]
      constructor
      · intro h; cases h
      · rintro ⟨w, h, hw⟩
        rw [List.nil_eq_append_iff] at h
        rw [h.1] at hw; cases hw
    | cons c src =>
      rw [getstring]
      by_cases hc : toLower c = d
      · rw [if_pos hc, ih]
        constructor
        · rintro ⟨w, rfl, rfl⟩; exact ⟨c :: w, rfl, by rw [List.map_cons, hc]⟩
        · rintro ⟨w, h, hw⟩
          cases w with
          | nil => cases hw
          | cons a w =>
            rw [List.cons_append] at h
            injection h with h1 h2
            rw [List.map_cons] at hw
            injection hw with h3 h4
            exact ⟨w, h2, h4⟩
      · rw [if_neg hc]
        constructor
        · intro h; cases h
        · rintro ⟨w, h, hw⟩
          cases w with
          | nil => cases hw
          | cons a w =>
            rw [List.cons_append] at h
            injection h with h1 h2
            rw [List.map_cons] at hw
            injection hw with h3 h4
            exact absurd (h1 ▸ h3) hc

theorem dropl_append (ws src : Str) (h : ∀ c ∈ ws, isSpace c = true) : dropl isSpace (ws ++ src) = dropl isSpace src := by
  induction ws with
  | nil => rfl
  | cons c ws ih =>
    rw [List.cons_append, dropl, if_pos (h c (by simp)), ih (fun d hd => h d (by simp [hd]))]

theorem dropl_split (src : Str) : ∃ ws, src = ws ++ dropl isSpace src ∧ ∀ c ∈ ws, isSpace c = true := by
  induction src with
  | nil => exact ⟨[], rfl, by simp⟩
  | cons c src ih =>
    rw [dropl]
    by_cases hc : isSpace c = true
    · obtain ⟨ws, h1, h2⟩ := ih
      rw [if_pos hc]
      refine ⟨c :: ws, by rw [List.cons_append, ← h1], ?_⟩
      intro d hd
      rcases List.mem_cons.mp hd with rfl | hd
      · exact hc
      · exact h2 d hd
    · rw [if_neg hc]
      exact ⟨[], rfl, by simp⟩

theorem isSpace_iff (c : Nat) : isSpace c = true ↔ c = 32 ∨ (9 ≤ c ∧ c ≤ 13) := by
  simp [isSpace]

theorem toLower_eq (c : Nat) : toLower c = if 65 ≤ c ∧ c ≤ 90 then c + 32 else c := rfl

theorem dropl_word {w : Str} (b : Bool) (hw : w.map toLower = toString b) (rest : Str) :
    dropl isSpace (w ++ rest) = w ++ rest := by
  cases w with
  | nil => cases b <;> cases hw
  | cons c w =>
    rw [List.cons_append, dropl, if_neg]
    rw [isSpace_iff]
    have : toLower c = 116 ∨ toLower c = 102 := by
      cases b
      · right
        have e : toString false = 102 :: chars "alse" := by decide
        rw [e, List.map_cons] at hw
        injection hw
      · left
        have e : toString true = 116 :: chars "rue" := by decide
        rw [e, List.map_cons] at hw
        injection hw
    rw [toLower_eq] at this
    split at this <;> omega

/-- `scan` accepts exactly white space followed by a spelling of `true` or `false` in upper and lower case
letters, and returns what follows; it reads back what `toString` writes. -/
theorem C95_bool_partial (s rest : Str) (b : Bool) :
    (scan s = some (b, rest) ↔
      ∃ ws w, s = ws ++ (w ++ rest) ∧ (∀ c ∈ ws, c = 32 ∨ (9 ≤ c ∧ c ≤ 13)) ∧
        w.map (fun c => if 65 ≤ c ∧ c ≤ 90 then c + 32 else c) = if b then chars "true" else chars "false") ∧
    fromString (toString b) = some b ∧ (fromString s = none ↔ scan s = none) := by
  have hl : (fun c : Nat => if 65 ≤ c ∧ c ≤ 90 then c + 32 else c) = toLower := rfl
  have hb : ∀ b : Bool, (if b then chars "true" else chars "false") = toString b := by intro b; cases b <;> rfl
  refine ⟨?_, by cases b <;> decide, ?_⟩
  · rw [hl, hb]
    have hdis : ∀ src r1 r2, getstring (chars "true") src = some r1 → getstring (chars "false") src ≠ some r2 := by
      intro src r1 r2 h1 h2
      have e1 : chars "true" = 116 :: chars "rue" := by decide
      have e2 : chars "false" = 102 :: chars "alse" := by decide
      cases src with
      | nil => rw [e1, getstring] at h1; cases h1
      | cons c src =>
        rw [e1, getstring] at h1
        rw [e2, getstring] at h2
        by_cases hc : toLower c = 116
        · rw [if_neg (by rw [hc]; decide)] at h2; cases h2
        · rw [if_neg hc] at h1; cases h1
    have hscan : ∀ b, scan s = some (b, rest) ↔ getstring (toString b) (dropl isSpace s) = some rest := by
      intro b
      have hd := fun r => hdis (dropl isSpace s) r rest
      simp only [scan]
      cases b with
      | true =>
        change _ ↔ getstring (chars "true") (dropl isSpace s) = _
        generalize getstring (chars "true") (dropl isSpace s) = x at *
        generalize getstring (chars "false") (dropl isSpace s) = y at *
        cases x <;> cases y <;> simp
      | false =>
        change _ ↔ getstring (chars "false") (dropl isSpace s) = _
        generalize getstring (chars "true") (dropl isSpace s) = x at *
        generalize getstring (chars "false") (dropl isSpace s) = y at *
        cases x with
        | none => cases y <;> simp
        | some r => simpa using hd r rfl
    rw [hscan, getstring_iff]
    constructor
    · rintro ⟨w, h1, h2⟩
      obtain ⟨ws, h3, h4⟩ := dropl_split s
      exact ⟨ws, w, by rw [← h1]; exact h3, fun c hc => (isSpace_iff c).mp (h4 c hc), h2⟩
    · rintro ⟨ws, w, h1, h2, h3⟩
      refine ⟨w, ?_, h3⟩
      rw [h1, dropl_append ws _ (fun c hc => (isSpace_iff c).mpr (h2 c hc)), dropl_word b h3]
  · simp [fromString]

example : scan (chars " \ttRue!") = some (true, chars "!") ∧ scan (chars "fals") = none := by decide

/-- Finding: Bool.sig promises `NONE` unless "true" or "false" follows; upper case letters are accepted. -/
theorem C95_bool_violation : fromString (chars "TRUE") = some true ∧ fromString (chars "FaLSe") = some false := by
  decide

end Mosml.Old
