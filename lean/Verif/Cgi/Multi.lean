import Verif.Cgi.Lemmas

/-!
# Multipart messages
-/

namespace Mosml.Cgi

open Mosml.Num (Str chars isSpace)
open Mosml.Maps

/-! ## More about position -/

theorem position_head (c0 : Nat) (s b a : Str) (h : c0 ∉ a) :
    position (c0 :: s) (a ++ (c0 :: s ++ b)) = (a, c0 :: s ++ b) := by
  refine position_at _ (by simp) b a ?_
  intro a1 a2 e hne hp
  match a2, hne with
  | x :: a2', _ =>
    have : c0 = x := (List.cons_prefix_cons.1 hp).1
    subst this
    exact h (by rw [e]; simp)

/-- Text that ends with a character that is not in `s` is skipped if `s` is not in it. -/
theorem position_before (s : Str) (hs : s ≠ []) (e : Nat) (he : e ∉ s) (c r : Str)
    (h : ¬ s <:+: c ++ [e]) : position s (c ++ [e] ++ (s ++ r)) = (c ++ [e], s ++ r) := by
  refine position_at s hs r _ ?_
  intro a1 a2 ea hne hp
  by_cases hl : s.length ≤ a2.length
  · have : s <+: a2 := List.prefix_of_prefix_length_le hp (List.prefix_append _ _) hl
    exact h (by rw [ea]; exact this.isInfix.trans (List.suffix_append _ _).isInfix)
  · have h2 : a2 <+: s := List.prefix_of_prefix_length_le (List.prefix_append _ _) hp (by omega)
    have hm : e ∈ a2 := by
      rcases List.eq_nil_or_concat a2 with rfl | ⟨a3, x, rfl⟩
      · exact absurd rfl hne
      · rw [List.concat_eq_append, ← List.append_assoc] at ea
        have := List.append_inj_right' ea (by simp)
        simp at this
        simp [this]
    exact he (h2.subset hm)

theorem infix_split {s x z : Str} {y : Nat} (hy : y ∉ s) (h : s <:+: x ++ y :: z) :
    s <:+: x ∨ s <:+: z := by
  obtain ⟨p, q, e⟩ := h
  rw [List.append_assoc, List.append_eq_append_iff] at e
  rcases e with ⟨c, h1, h2⟩ | ⟨c, h1, h2⟩
  · rw [List.append_eq_append_iff] at h2
    rcases h2 with ⟨c', k1, k2⟩ | ⟨c', k1, k2⟩
    · left
      exact ⟨p, c', by rw [h1, k1]; simp⟩
    · match c' with
      | [] =>
        simp at k1
        left
        exact ⟨p, [], by rw [h1, k1]; simp⟩
      | w :: c'' =>
        have : y = w := by simpa using (List.cons.inj k2).1
        subst this
        exact absurd (by rw [k1]; simp) hy
  · match c with
    | [] =>
      simp at h2
      match s with
      | [] => exact Or.inl (List.nil_infix)
      | w :: s' =>
        have := (List.cons.inj h2).1
        subst this
        exact absurd (by simp) hy
    | w :: c' =>
      right
      have := (List.cons.inj h2).2
      exact ⟨c', q, by rw [this]; simp⟩

/-! ## Literals -/

theorem c_crlf2 : chars "\r\n\r\n" = [13, 10, 13, 10] := by decide +kernel
theorem c_crlf : chars "\r\n" = [13, 10] := by decide +kernel
theorem c_dd : chars "--" = [45, 45] := by decide +kernel
theorem c_end : chars "--\r\n" = [45, 45, 13, 10] := by decide +kernel
theorem c_q : chars "\"" = [34] := by decide +kernel

/-- `ontent-Disposition: form-data;` -/
def cdTail : Str := [111, 110, 116, 101, 110, 116, 45, 68, 105, 115, 112, 111, 115, 105, 116, 105, 111, 110, 58, 32, 102, 111,
  114, 109, 45, 100, 97, 116, 97, 59]

theorem c_cd : chars "Content-Disposition: form-data;" = 67 :: cdTail := by decide +kernel

/-- `name="` -/
def nmq : Str := [110, 97, 109, 101, 61, 34]

theorem c_cdn : chars "Content-Disposition: form-data; name=\"" = 67 :: (cdTail ++ 32 :: nmq) := by
  decide +kernel

/-- `filename="` -/
def fnq : Str := [102, 105, 108, 101, 110, 97, 109, 101, 61, 34]

theorem c_fn : chars "; filename=\"" = 59 :: 32 :: fnq := by decide +kernel

/-- `Content-Type: ` -/
def ct : Str := [67, 111, 110, 116, 101, 110, 116, 45, 84, 121, 112, 101, 58, 32]

theorem c_ct : chars "Content-Type: " = ct := by decide +kernel
theorem c_crct : chars "\r\nContent-Type: " = 13 :: 10 :: ct := by decide +kernel
theorem c_name : chars "name" = [110, 97, 109, 101] := by decide +kernel
theorem c_filename : chars "filename" = [102, 105, 108, 101, 110, 97, 109, 101] := by decide +kernel

/-! ## The parts -/

theorem dropWhile_mem (s r : Str) (h : 10 ∉ s) :
    (s ++ 10 :: r).dropWhile (isnt 10) = 10 :: r := by
  induction s with
  | nil => simp [isnt]
  | cons c s ih =>
    have : c ≠ 10 := by rintro rfl; exact h (by simp)
    rw [List.cons_append, List.dropWhile_cons, if_pos (by simp [isnt]; omega)]
    exact ih (fun hh => h (List.mem_cons_of_mem _ hh))

theorem partsLoop_eq (b : Str) (hb : 10 ∉ b) : ∀ (us : List Upload) (fuel : Nat),
    us.length < fuel → (∀ u ∈ us, ¬ (chars "--" ++ b) <:+: u.chunk) →
    partsLoop (chars "--" ++ b) fuel ((encodeMulti b us).dropWhile (isnt 10)) =
      us.map Upload.chunk
  | [], fuel + 1, _, _ => by
      have e : (encodeMulti b []).dropWhile (isnt 10) = [10] := by
        have : encodeMulti b [] = ([45, 45] ++ b ++ [45, 45, 13]) ++ 10 :: [] := by
          simp [encodeMulti, c_dd, c_end]
        rw [this]
        exact dropWhile_mem _ _ (by simp [hb])
      rw [e, partsLoop, position_none]
      · simp
      · intro h
        have := h.subset (a := 45) (by simp [c_dd])
        simp at this
  | u :: us, fuel + 1, hf, h => by
      have e : (encodeMulti b (u :: us)).dropWhile (isnt 10) = u.chunk ++ encodeMulti b us := by
        have : encodeMulti b (u :: us) = ([45, 45] ++ b ++ [13]) ++ 10 ::
            ((u.header ++ chars "\r\n\r\n" ++ u.data ++ chars "\r\n") ++ encodeMulti b us) := by
          simp [encodeMulti, c_dd, Upload.chunk]
        rw [this, dropWhile_mem _ _ (by simp [hb])]
        rfl
      have e2 : ∃ r, encodeMulti b us = (chars "--" ++ b) ++ r := by
        cases us with
        | nil => exact ⟨chars "--\r\n", rfl⟩
        | cons v vs => exact ⟨[13] ++ v.chunk ++ encodeMulti b vs, by simp [encodeMulti]⟩
      obtain ⟨r, hr⟩ := e2
      have e3 : u.chunk = (10 :: (u.header ++ chars "\r\n\r\n" ++ u.data ++ [13])) ++ [10] := by
        simp [Upload.chunk, c_crlf]
      have e4 : position (chars "--" ++ b) (u.chunk ++ encodeMulti b us) =
          (u.chunk, encodeMulti b us) := by
        have := h u (by simp)
        rw [e3] at this
        rw [hr, e3]
        exact position_before _ (by simp [c_dd]) 10 (by simp [c_dd, hb]) _ r this
      have ih := partsLoop_eq b hb us fuel (by simp at hf; omega)
        (fun v hv => h v (List.mem_cons_of_mem _ hv))
      rw [e, partsLoop, e4]
      have n1 : (u.chunk.isEmpty || (encodeMulti b us).isEmpty) = false := by
        rw [hr]
        simp [Upload.chunk, c_dd]
      rw [n1]
      simp only [Bool.false_eq_true, if_false, List.map_cons]
      rw [ih]

theorem encodeMulti_length (b : Str) (us : List Upload) : us.length ≤ (encodeMulti b us).length := by
  induction us with
  | nil => simp
  | cons u us ih =>
    have : encodeMulti b (u :: us) = chars "--" ++ b ++ [13] ++ u.chunk ++ encodeMulti b us := rfl
    rw [this]
    simp [Upload.chunk]
    omega

theorem multiparts_eq (e : Env) (b : Str) (us : List Upload) (hb : 10 ∉ b)
    (ht : multipartBoundary e = some b) (hq : queryString e = encodeMulti b us)
    (hu : ∀ u ∈ us, ¬ (chars "--" ++ b) <:+: u.chunk) :
    multiparts e = us.map Upload.chunk := by
  simp only [multiparts, ht]
  have e2 : ∃ r, encodeMulti b us = (chars "--" ++ b) ++ r := by
    cases us with
    | nil => exact ⟨chars "--\r\n", rfl⟩
    | cons v vs => exact ⟨[13] ++ v.chunk ++ encodeMulti b vs, by simp [encodeMulti]⟩
  obtain ⟨r, hr⟩ := e2
  have e3 : (position (chars "--" ++ b) (queryString e)).2 = encodeMulti b us := by
    rw [hq, hr]
    have := position_at (chars "--" ++ b) (by simp [c_dd]) r [] (by
      intro a1 a2 h1 h2
      have := List.append_eq_nil_iff.1 h1.symm
      exact absurd this.2 h2)
    rw [List.nil_append] at this
    rw [this]
  rw [e3, hq]
  exact partsLoop_eq b hb us _ (by have := encodeMulti_length b us; omega) hu

/-! ## One part -/

/-- The equations of the header. -/
def Upload.eqns (u : Upload) : Str :=
  32 :: (nmq ++ (u.name ++ [34])) ++ (match u.filename with
    | none => []
    | some f => 59 :: 32 :: (fnq ++ (f ++ [34])))

def Upload.tail (u : Upload) : Str :=
  match u.type with
  | none => []
  | some t => 13 :: 10 :: (ct ++ t)

theorem header_eq (u : Upload) : u.header = 67 :: (cdTail ++ (u.eqns ++ u.tail)) := by
  simp only [Upload.header, Upload.eqns, Upload.tail, c_cdn, c_q, c_fn, c_crct]
  cases u.filename <;> cases u.type <;> simp

theorem eqns_line {b : Str} {u : Upload} (h : u.Plain b) : ∀ c ∈ u.eqns, c ≠ 13 ∧ c ≠ 10 := by
  intro c hc
  have hn : ∀ c ∈ nmq, c ≠ 13 ∧ c ≠ 10 := by decide
  have hf : ∀ c ∈ fnq, c ≠ 13 ∧ c ≠ 10 := by decide
  simp only [Upload.eqns, List.cons_append, List.mem_cons, List.mem_append, List.append_assoc] at hc
  rcases hc with rfl | hc | hc | hc | hc | hc
  · omega
  · exact hn c hc
  · have := h.name c hc
    exact ⟨this.1, this.2.1⟩
  · omega
  · simp at hc
  · cases hfn : u.filename with
    | none => rw [hfn] at hc; simp at hc
    | some f =>
      rw [hfn] at hc
      simp only [List.mem_cons, List.mem_append] at hc
      rcases hc with rfl | rfl | hc | hc | hc
      · omega
      · omega
      · exact hf c hc
      · have := h.file f hfn c hc
        exact ⟨this.1, this.2.1⟩
      · simp at hc; omega

theorem suffix_cr {h0 z a1 a2 : Str} (h1 : 13 ∉ h0) (h2 : 13 ∉ z)
    (e : h0 ++ 13 :: z = a1 ++ 13 :: a2) : a2 = z := by
  rw [List.append_eq_append_iff] at e
  rcases e with ⟨c, k1, k2⟩ | ⟨c, k1, k2⟩
  · match c with
    | [] => simpa using k2.symm
    | x :: c' =>
      have := (List.cons.inj k2).2
      exact absurd (by rw [this]; simp) h2
  · match c with
    | [] => simpa using k2
    | x :: c' =>
      have := (List.cons.inj k2).1
      subst this
      exact absurd (by rw [k1]; simp) h1

theorem split_header {b : Str} {u : Upload} (h : u.Plain b) :
    position (chars "\r\n\r\n") u.chunk =
      (10 :: u.header, chars "\r\n\r\n" ++ (u.data ++ chars "\r\n")) := by
  have e : u.chunk = (10 :: u.header) ++ (chars "\r\n\r\n" ++ (u.data ++ chars "\r\n")) := by
    simp [Upload.chunk]
  rw [e]
  refine position_at _ (by simp [c_crlf2]) _ _ ?_
  intro a1 a2 ea hne hp
  have hc : 13 ∉ 10 :: 67 :: (cdTail ++ u.eqns) := by
    intro hm
    simp only [List.mem_cons, List.mem_append] at hm
    rcases hm with hm | hm | hm | hm
    · omega
    · omega
    · revert hm; decide
    · exact (eqns_line h 13 hm).1 rfl
  rw [c_crlf2] at hp
  match a2, hne with
  | x :: a3, _ =>
    have hx := (List.cons_prefix_cons.1 hp).1
    have hp2 := (List.cons_prefix_cons.1 hp).2
    clear hp
    subst hx
    rw [header_eq] at ea
    cases ht : u.type with
    | none =>
      rw [Upload.tail, ht] at ea
      have : 13 ∈ a1 ++ 13 :: a3 := by simp
      rw [← ea] at this
      simp only [List.append_nil] at this
      exact hc this
    | some t =>
      rw [Upload.tail, ht] at ea
      have : (10 :: 67 :: (cdTail ++ u.eqns)) ++ 13 :: (10 :: (ct ++ t)) = a1 ++ 13 :: a3 := by
        rw [← ea]; simp
      have h13 : 13 ∉ 10 :: (ct ++ t) := by
        intro hm
        simp only [List.mem_cons, List.mem_append] at hm
        rcases hm with hm | hm | hm
        · omega
        · revert hm; decide
        · exact ((h.type t ht).2 13 hm).1 rfl
      have := suffix_cr hc h13 this
      rw [this] at hp2
      have hp3 := (List.cons_prefix_cons.1 hp2).2
      simp only [ct, List.cons_append] at hp3
      exact absurd (List.cons_prefix_cons.1 hp3).1 (by decide)

theorem takeWhile_line (s r : Str) (hs : ∀ c ∈ s, c ≠ 13 ∧ c ≠ 10)
    (hr : r = [] ∨ ∃ r', r = 13 :: r') :
    (s ++ r).takeWhile (fun c => c != 13 && c != 10) = s := by
  induction s with
  | nil =>
    rcases hr with rfl | ⟨r', rfl⟩
    · rfl
    · rw [List.nil_append, List.takeWhile_cons, if_neg (by simp)]
  | cons c s ih =>
    have hc := hs c (by simp)
    rw [List.cons_append, List.takeWhile_cons, if_pos (by simp [hc.1, hc.2]),
      ih (fun x hx => hs x (List.mem_cons_of_mem _ hx))]

theorem line_eqns {b : Str} {u : Upload} (h : u.Plain b) :
    line (chars "Content-Disposition: form-data;") (10 :: u.header) = u.eqns := by
  have e : 10 :: u.header = [10] ++ (67 :: cdTail ++ (u.eqns ++ u.tail)) := by
    rw [header_eq]; simp
  have hp := position_head 67 cdTail (u.eqns ++ u.tail) [10] (by simp)
  rw [line, c_cd, e, hp]
  simp only [triml]
  rw [List.drop_left' rfl]
  refine takeWhile_line _ _ (eqns_line h) ?_
  rw [Upload.tail]
  cases u.type with
  | none => exact Or.inl rfl
  | some t => exact Or.inr ⟨_, rfl⟩

theorem line_type {b : Str} {u : Upload} (h : u.Plain b) :
    line (chars "Content-Type: ") (10 :: u.header) = u.type.getD [] := by
  have hm := h.mark
  rw [c_ct, header_eq] at hm
  have hm : ¬ ct <:+: 67 :: (cdTail ++ u.eqns) := by
    have e : ({ u with type := none } : Upload).eqns = u.eqns := rfl
    rw [e] at hm
    simpa [Upload.tail] using hm
  have h10 : (10 : Nat) ∉ ct := by decide
  have h13 : (13 : Nat) ∉ ct := by decide
  rw [line, c_ct, header_eq]
  cases ht : u.type with
  | none =>
    have : ¬ ct <:+: 10 :: 67 :: (cdTail ++ (u.eqns ++ u.tail)) := by
      intro hi
      rw [Upload.tail, ht, List.append_nil] at hi
      rcases infix_split (x := []) h10 hi with hi | hi
      · have := hi.subset (a := 67) (by decide)
        simp at this
      · exact hm hi
    rw [position_none _ _ this]
    simp [triml]
  | some t =>
    have e : 10 :: 67 :: (cdTail ++ (u.eqns ++ u.tail)) =
        (10 :: 67 :: (cdTail ++ u.eqns) ++ [13]) ++ [10] ++ (ct ++ t) := by
      rw [Upload.tail, ht]; simp
    rw [e, position_before ct (by decide) 10 h10 _ t (by
      intro hi
      rcases infix_split (z := []) h10 hi with hi | hi
      · rcases infix_split (z := []) h13 hi with hi | hi
        · rcases infix_split (x := []) h10 hi with hi | hi
          · have := hi.subset (a := 67) (by decide)
            simp at this
          · exact hm hi
        · have := hi.subset (a := 67) (by decide)
          simp at this
      · have := hi.subset (a := 67) (by decide)
        simp at this)]
    simp only [triml]
    rw [List.drop_left' rfl]
    have := takeWhile_line t [] (h.type t ht).2 (Or.inl rfl)
    rw [List.append_nil] at this
    rw [this]
    rfl

/-- The bindings of a header. -/
def Upload.binds (u : Upload) : List (Str × Str) :=
  (chars "name", u.name) :: (match u.filename with
    | none => []
    | some f => [(chars "filename", f)])

theorem trimmed (k v : Str) (hk : ∀ c, k.head? = some c → isSpace c = false) (hne : k ≠ []) :
    (dropr isSpace (32 :: (k ++ (v ++ [34])))).dropWhile isSpace = k ++ (v ++ [34]) := by
  have : dropr isSpace (32 :: (k ++ (v ++ [34]))) = 32 :: (k ++ (v ++ [34])) := by
    simp only [dropr]
    have e : (32 :: (k ++ (v ++ [34]))).reverse = 34 :: (32 :: (k ++ v)).reverse := by simp
    rw [e, List.dropWhile_cons, if_neg (by decide), ← e, List.reverse_reverse]
  rw [this]
  match k, hne with
  | c :: k', _ =>
    rw [List.dropWhile_cons, if_pos (by decide), List.cons_append, List.dropWhile_cons,
      if_neg (by rw [hk c rfl]; simp)]

theorem addEqn_name (v : Str) (d : Dct Str) :
    addEqn (nmq ++ (v ++ [34])) d = addItem (chars "name", v) d := by
  have h1 : (nmq ++ (v ++ [34])).takeWhile (isnt 61) = chars "name" := by
    rw [c_name]
    simp [nmq, isnt, List.takeWhile_cons]
  have h2 : (nmq ++ (v ++ [34])).dropWhile (isnt 61) = 61 :: 34 :: (v ++ [34]) := by
    simp [nmq, isnt, List.dropWhile_cons]
  simp only [addEqn, h1, h2, triml, trimr]
  congr 2
  have : (61 :: 34 :: (v ++ [34])) = (61 :: 34 :: v) ++ [34] := by simp
  rw [this, List.take_left' (by simp)]
  rfl

theorem addEqn_file (v : Str) (d : Dct Str) :
    addEqn (fnq ++ (v ++ [34])) d = addItem (chars "filename", v) d := by
  have h1 : (fnq ++ (v ++ [34])).takeWhile (isnt 61) = chars "filename" := by
    rw [c_filename]
    simp [fnq, isnt, List.takeWhile_cons]
  have h2 : (fnq ++ (v ++ [34])).dropWhile (isnt 61) = 61 :: 34 :: (v ++ [34]) := by
    simp [fnq, isnt, List.dropWhile_cons]
  simp only [addEqn, h1, h2, triml, trimr]
  congr 2
  have : (61 :: 34 :: (v ++ [34])) = (61 :: 34 :: v) ++ [34] := by simp
  rw [this, List.take_left' (by simp)]
  rfl

theorem is59 {c : Nat} (h : c ≠ 59) : is 59 c = false := by
  simp only [is, beq_eq_false_iff_ne]
  omega

theorem dict_eqns {b : Str} {u : Upload} (h : u.Plain b) :
    ((fields (is 59) u.eqns).map (fun f => (dropr isSpace f).dropWhile isSpace)).foldr addEqn
      Splaymap.mkDict = u.binds.foldr addItem Splaymap.mkDict := by
  have hn : ∀ c ∈ 32 :: (nmq ++ (u.name ++ [34])), is 59 c = false := by
    intro c hc
    have hq : ∀ c ∈ nmq, c ≠ 59 := by decide
    simp only [List.mem_cons, List.mem_append] at hc
    rcases hc with rfl | hc | hc | hc
    · rfl
    · exact is59 (hq c hc)
    · exact is59 (h.name c hc).2.2
    · simp at hc; rw [hc]; rfl
  rw [Upload.eqns, Upload.binds]
  cases hf : u.filename with
  | none =>
    simp only [List.append_nil]
    rw [fields_none _ _ hn]
    simp only [List.map_cons, List.map_nil, List.foldr_cons, List.foldr_nil]
    rw [trimmed nmq u.name (by decide) (by decide), addEqn_name]
  | some f =>
    have hn2 : ∀ c ∈ 32 :: (fnq ++ (f ++ [34])), is 59 c = false := by
      intro c hc
      have hq : ∀ c ∈ fnq, c ≠ 59 := by decide
      simp only [List.mem_cons, List.mem_append] at hc
      rcases hc with rfl | hc | hc | hc
      · rfl
      · exact is59 (hq c hc)
      · exact is59 (h.file f hf c hc).2.2
      · simp at hc; rw [hc]; rfl
    simp only
    rw [fields_cons _ 59 rfl _ _ hn, fields_none _ _ hn2]
    simp only [List.map_cons, List.map_nil, List.foldr_cons, List.foldr_nil]
    rw [trimmed nmq u.name (by decide) (by decide), trimmed fnq f (by decide) (by decide),
      addEqn_file, addEqn_name]

theorem values_name (u : Upload) : (valuesOf u.binds (chars "name")).head? = some u.name := by
  simp [valuesOf, Upload.binds]

theorem decodepart_eq {b : Str} {u : Upload} (h : u.Plain b) :
    ∃ p, decodepart u.chunk = (u.name, p) ∧ p.data = u.data ∧ p.tyOpt = u.type ∧
      p.fieldnames = keys p.dict ∧ Holds p.dict u.binds := by
  have hd := holds_foldr u.binds
  obtain ⟨_, k2, _, k4⟩ := holds_fields hd (chars "name")
  rw [values_name] at k2
  simp only [decodepart]
  rw [split_header h]
  simp only
  rw [line_eqns h, line_type h, dict_eqns h, k2]
  refine ⟨_, rfl, ?_, ?_, rfl, k4⟩
  · simp only [triml, c_crlf2, c_crlf, trimr]
    simp
  · simp only
    cases ht : u.type with
    | none => rfl
    | some t =>
      simp only [Option.getD_some]
      rw [if_neg (by simpa using (h.type t ht).1)]

end Mosml.Cgi
