import Verif.Cgi.Spec

namespace Mosml.Cgi

open Mosml.Num (Str chars isSpace intFmt)
open Mosml.Maps

/-! ## The order of strings -/

theorem strCmp_swap : ∀ s t : Str, strCmp t s = (strCmp s t).swap
  | [], [] => rfl
  | [], _ :: _ => rfl
  | _ :: _, [] => rfl
  | a :: s, b :: t => by
      simp only [strCmp]
      rcases Nat.lt_trichotomy a b with h | h | h
      · rw [if_neg (by omega), if_pos h, if_pos h]; rfl
      · rw [if_neg (by omega), if_neg (by omega), if_neg (by omega), if_neg (by omega)]
        exact strCmp_swap s t
      · rw [if_pos h, if_neg (by omega), if_pos h]; rfl

theorem strCmp_eq : ∀ {s t : Str}, strCmp s t = .eq ↔ s = t
  | [], [] => by simp [strCmp]
  | [], _ :: _ => by simp [strCmp]
  | _ :: _, [] => by simp [strCmp]
  | a :: s, b :: t => by
      simp only [strCmp]
      rcases Nat.lt_trichotomy a b with h | h | h
      · rw [if_pos h]; simp; omega
      · subst h
        simp [strCmp_eq (s := s) (t := t)]
      · rw [if_neg (by omega), if_pos h]; simp; omega

theorem strCmp_trans : ∀ s t u : Str, strCmp s t ≠ .gt → strCmp t u ≠ .gt → strCmp s u ≠ .gt
  | [], _, [], _, _ => by simp [strCmp]
  | [], _, _ :: _, _, _ => by simp [strCmp]
  | _ :: _, [], _, h, _ => by simp [strCmp] at h
  | _ :: _, _ :: _, [], _, h => by simp [strCmp] at h
  | a :: s, b :: t, c :: u, h1, h2 => by
      have ih := strCmp_trans s t u
      simp only [strCmp] at h1 h2 ⊢
      rcases Nat.lt_trichotomy a b with h | h | h
      · rcases Nat.lt_trichotomy b c with h' | h' | h'
        · rw [if_pos (by omega)]; simp
        · rw [if_pos (by omega)]; simp
        · rw [if_neg (by omega), if_pos h'] at h2; simp at h2
      · subst h
        rw [if_neg (by omega), if_neg (by omega)] at h1
        rcases Nat.lt_trichotomy a c with h' | h' | h'
        · rw [if_pos h']; simp
        · subst h'
          rw [if_neg (by omega), if_neg (by omega)] at h2 ⊢
          exact ih h1 h2
        · rw [if_neg (by omega), if_pos h'] at h2; simp at h2
      · rw [if_neg (by omega), if_pos h] at h1; simp at h1

theorem lawful : Lawful strCmp := ⟨strCmp_swap, strCmp_trans⟩

/-! ## Dictionaries of lists -/

variable {V : Type}

/-- The dictionary holds the bindings. -/
def Holds (d : Dct V) (kvs : List (Str × V)) : Prop :=
  ∃ m : FMap Str (List V), Splaymap.Ok strCmp d m ∧
    ∀ x, m.value x = if valuesOf kvs x = [] then none else some (valuesOf kvs x)

theorem holds_empty : Holds (Splaymap.mkDict : Dct V) [] :=
  ⟨FMap.empty, ⟨Lists.empty, rfl⟩, fun _ => rfl⟩

theorem holds_find {d : Dct V} {kvs : List (Str × V)} (h : Holds d kvs) (x : Str) :
    (Splaymap.find strCmp d x).1 = (if valuesOf kvs x = [] then none else some (valuesOf kvs x)) ∧
    Holds (Splaymap.find strCmp d x).2 kvs := by
  obtain ⟨m, h1, h2⟩ := h
  obtain ⟨k1, k2⟩ := Splaymap.find_ok lawful d m h1 x
  exact ⟨by rw [k1, h2], m, k2, h2⟩

theorem holds_add {d : Dct V} {kvs : List (Str × V)} (h : Holds d kvs) (kv : Str × V) :
    Holds (addItem kv d) (kv :: kvs) := by
  obtain ⟨h1, m, h2, h3⟩ := holds_find h kv.1
  refine ⟨_, Splaymap.insert_ok lawful _ m h2 kv.1 _, ?_⟩
  intro x
  simp only [FMap.value, FMap.insert] at h3 ⊢
  rw [h1]
  by_cases e : kv.1 = x
  · subst e
    rw [if_pos (strCmp_eq.2 rfl)]
    simp only [Option.map_some, valuesOf, List.filter_cons, decide_true, if_true, List.map_cons]
    by_cases e' : List.map Prod.snd (List.filter (fun kv' => decide (kv'.1 = kv.1)) kvs) = []
    · simp [e']
    · simp [e']
  · rw [if_neg (fun hh => e (strCmp_eq.1 hh)), h3 x]
    have : valuesOf (kv :: kvs) x = valuesOf kvs x := by
      simp [valuesOf, List.filter_cons, e]
    rw [this]

theorem holds_foldr (kvs : List (Str × V)) :
    Holds (kvs.foldr addItem Splaymap.mkDict : Dct V) kvs := by
  induction kvs with
  | nil => exact holds_empty
  | cons kv kvs ih => exact holds_add ih kv

theorem holds_fields {d : Dct V} {kvs : List (Str × V)} (h : Holds d kvs) (x : Str) :
    (partFields d x).1 = valuesOf kvs x ∧ (partField d x).1 = (valuesOf kvs x).head? ∧
    Holds (partFields d x).2 kvs ∧ Holds (partField d x).2 kvs := by
  obtain ⟨h1, h2⟩ := holds_find h x
  simp only [partFields, partField, h1]
  refine ⟨?_, ?_, h2, h2⟩
  · by_cases e : valuesOf kvs x = [] <;> simp [e]
  · cases valuesOf kvs x <;> simp

theorem keys_eq (d : Dct V) : keys d = (Splaymap.flat d.root).map Prod.fst := by
  rw [keys, Splaymap.listItems_eq]
  induction Splaymap.flat d.root with
  | nil => rfl
  | cons p l ih => rw [List.foldr_cons, ih]; rfl

theorem holds_keys {d : Dct V} {kvs : List (Str × V)} (h : Holds d kvs) :
    (keys d).Pairwise (fun s t => strCmp s t = .lt) ∧ ∀ x, x ∈ keys d ↔ valuesOf kvs x ≠ [] := by
  obtain ⟨m, ⟨⟨h1, h2⟩, _⟩, h3⟩ := h
  rw [keys_eq]
  refine ⟨List.pairwise_map.2 h1, ?_⟩
  intro x
  have h3 := h3 x
  rw [List.mem_map]
  constructor
  · rintro ⟨p, hp, rfl⟩ e
    rw [if_pos e] at h3
    have := (h2 p.1 p).2 ⟨hp, strCmp_eq.2 rfl⟩
    rw [FMap.value, this] at h3
    simp at h3
  · intro e
    rw [if_neg e] at h3
    simp only [FMap.value] at h3
    cases hm : m x with
    | none => rw [hm] at h3; simp at h3
    | some p =>
      obtain ⟨k1, k2⟩ := (h2 x p).1 hm
      exact ⟨p, k1, strCmp_eq.1 k2⟩

/-! ## Fields -/

theorem fields_none (d : Nat → Bool) : ∀ s : Str, (∀ c ∈ s, d c = false) → fields d s = [s]
  | [], _ => rfl
  | c :: s, h => by
      simp only [fields]
      rw [fields_none d s (fun x hx => h x (List.mem_cons_of_mem _ hx)),
        h c (List.mem_cons_self ..)]
      simp

theorem fields_cons (d : Nat → Bool) (x : Nat) (hx : d x = true) (r : Str) :
    ∀ s : Str, (∀ c ∈ s, d c = false) → fields d (s ++ x :: r) = s :: fields d r
  | [], _ => by simp [fields, hx]
  | c :: s, h => by
      simp only [List.cons_append, fields]
      rw [fields_cons d x hx r s (fun x hx => h x (List.mem_cons_of_mem _ hx)),
        h c (List.mem_cons_self ..)]
      simp

theorem fields_intercalate (d : Nat → Bool) (x : Nat) (hx : d x = true) :
    ∀ (ss : List Str), ss ≠ [] → (∀ s ∈ ss, ∀ c ∈ s, d c = false) →
      fields d (List.intercalate [x] ss) = ss
  | [], h, _ => absurd rfl h
  | [s], _, h => by
      simp only [List.intercalate, List.intersperse]
      simp
      exact fields_none d s (h s (by simp))
  | s :: t :: ss, _, h => by
      have ih := fields_intercalate d x hx (t :: ss) (by simp)
        (fun s hs => h s (List.mem_cons_of_mem _ hs))
      have e : List.intercalate [x] (s :: t :: ss) = s ++ x :: List.intercalate [x] (t :: ss) := by
        simp [List.intercalate, List.intersperse]
      rw [e, fields_cons d x hx _ s (h s (by simp)), ih]

/-! ## URL encoding -/

/-- The encodings of the 256 characters. -/
theorem urlChar_table : ∀ c < 256, (∀ x ∈ urlChar c, isAlphaNum x || x == 45 || x == 95 || x == 46 ||
    x == 43 || x == 37) ∧ (dec (urlChar c) = some [c]) ∧
    ((urlChar c).length = 1 ∧ (urlChar c).head? ≠ some 37 ∨
      ∃ a b, urlChar c = [37, a, b]) := by
  intro c hc
  have h : ∀ c < 256, ((urlChar c).all (fun x => isAlphaNum x || x == 45 || x == 95 || x == 46 ||
    x == 43 || x == 37) && (dec (urlChar c) == some [c]) &&
    ((urlChar c).length == 1 && (urlChar c).head? != some 37 ||
      (urlChar c).length == 3 && (urlChar c).head? == some 37)) = true := by decide +kernel
  have := h c hc
  simp only [Bool.and_eq_true, List.all_eq_true, Bool.or_eq_true, beq_iff_eq, bne_iff_ne] at this
  obtain ⟨⟨h1, h2⟩, h3⟩ := this
  refine ⟨by simpa using h1, h2, ?_⟩
  rcases h3 with ⟨h3, h4⟩ | ⟨h3, h4⟩
  · exact Or.inl ⟨h3, h4⟩
  · right
    match hu : urlChar c with
    | [x, a, b] =>
      rw [hu] at h4
      simp at h4
      exact ⟨a, b, by rw [h4]⟩
    | [] => rw [hu] at h3; simp at h3
    | [_] => rw [hu] at h3; simp at h3
    | [_, _] => rw [hu] at h3; simp at h3
    | _ :: _ :: _ :: _ :: _ => rw [hu] at h3; simp at h3

theorem dec_plus (r : Str) : dec (43 :: r) = (dec r).map (fun t => 32 :: t) := by
  rw [dec.eq_def]
  simp only
  rw [if_pos trivial]

theorem dec_plain {c : Nat} (h1 : c ≠ 43) (h2 : c ≠ 37) (r : Str) :
    dec (c :: r) = (dec r).map (fun t => c :: t) := by
  rw [dec.eq_def]
  simp only
  rw [if_neg h1, if_neg h2]

theorem dec_hex (a b : Nat) (r : Str) :
    dec (37 :: a :: b :: r) = (do
      let x ← dehex a
      let y ← dehex b
      let t ← dec r
      some ((16 * x + y) :: t)) := by
  rw [dec.eq_def]
  simp only
  rw [if_neg (by decide), if_pos trivial]

theorem dec_urlChar {c : Nat} (hc : c < 256) (r : Str) :
    dec (urlChar c ++ r) = (dec r).map (fun t => c :: t) := by
  obtain ⟨_, h2, h3⟩ := urlChar_table c hc
  rcases h3 with ⟨h3, h4⟩ | ⟨a, b, h3⟩
  · match hu : urlChar c with
    | [x] =>
      rw [hu] at h2 h4
      have h4 : x ≠ 37 := by simpa using h4
      simp only [List.cons_append, List.nil_append]
      by_cases e : x = 43
      · subst e
        rw [dec_plus] at h2 ⊢
        have : 32 = c := by simpa [dec] using h2
        rw [this]
      · rw [dec_plain e h4] at h2 ⊢
        have : x = c := by simpa [dec] using h2
        rw [this]
    | [] => rw [hu] at h3; simp at h3
    | _ :: _ :: _ => rw [hu] at h3; simp at h3
  · rw [h3] at h2 ⊢
    simp only [List.cons_append, List.nil_append]
    rw [dec_hex] at h2 ⊢
    cases ha : dehex a with
    | none => rw [ha] at h2; simp at h2
    | some x =>
      cases hb : dehex b with
      | none => rw [ha, hb] at h2; simp at h2
      | some y =>
        rw [ha, hb] at h2
        have h2 : 16 * x + y = c := by simpa [dec] using h2
        cases dec r <;> simp [h2]

theorem dec_urlencode : ∀ s : Str, Bytes s → dec (urlencode s) = some s
  | [], _ => rfl
  | c :: s, h => by
      have : urlencode (c :: s) = urlChar c ++ urlencode s := rfl
      rw [this, dec_urlChar (h c (by simp)),
        dec_urlencode s (fun x hx => h x (List.mem_cons_of_mem _ hx))]
      rfl

theorem urlencode_safe {s : Str} (h : Bytes s) {x : Nat} (hx : x ∈ urlencode s) : UrlSafe x := by
  rw [urlencode, List.mem_flatMap] at hx
  obtain ⟨c, hc, hx⟩ := hx
  have := (urlChar_table c (h c hc)).1 x hx
  simp only [isAlphaNum, Bool.or_eq_true, Bool.and_eq_true, decide_eq_true_eq, beq_iff_eq] at this
  unfold UrlSafe
  omega

/-! ## position -/

theorem position_append (s : Str) : ∀ r : Str, (position s r).1 ++ (position s r).2 = r
  | [] => rfl
  | c :: r => by
      simp only [position]
      split
      · rfl
      · simp [position_append s r]

/-- The first occurrence. -/
theorem position_at (s : Str) (hs : s ≠ []) (b : Str) : ∀ a : Str,
    (∀ a1 a2, a = a1 ++ a2 → a2 ≠ [] → ¬ s <+: a2 ++ (s ++ b)) →
    position s (a ++ (s ++ b)) = (a, s ++ b)
  | [], _ => by
      match s, hs with
      | c :: s', _ =>
        simp only [List.nil_append, List.cons_append, position]
        rw [if_pos (by rw [← List.cons_append]; exact List.prefix_append _ _)]
  | c :: a, h => by
      simp only [List.cons_append, position]
      rw [if_neg (by have := h [] (c :: a) rfl (by simp); simpa using this),
        position_at s hs b a (fun a1 a2 e hne => h (c :: a1) a2 (by rw [e]; rfl) hne)]

/-- No occurrence. -/
theorem position_none (s : Str) : ∀ a : Str, ¬ s <:+: a → position s a = (a, [])
  | [], _ => rfl
  | c :: a, h => by
      simp only [position]
      rw [if_neg (fun hp => h hp.isInfix),
        position_none s a (fun hi => h (hi.trans (List.suffix_cons c a).isInfix))]

end Mosml.Cgi
