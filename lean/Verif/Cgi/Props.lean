import Verif.Cgi.Multi

/-!
# C77: CGI programs
-/

namespace Mosml.Cgi

open Mosml.Num (Str chars intScan)
open Mosml.Maps

/-! ## Encodings -/

/-- Every string can be transmitted: what is encoded for a URL is decoded again, and the
encoding consists of the characters documented, none of which separates fields. -/
theorem C77_urlencode (s : Str) (h : Bytes s) :
    decode (urlencode s) = s ∧ (∀ c ∈ urlencode s, UrlSafe c ∧ c ≠ 38 ∧ c ≠ 61 ∧ c ≠ 32) := by
  refine ⟨by rw [decode, dec_urlencode s h]; rfl, ?_⟩
  intro c hc
  have := urlencode_safe h hc
  refine ⟨this, ?_⟩
  unfold UrlSafe at this
  omega

example : urlencode (chars "a&b = 1/2") = chars "a%26b+%3D+1%2F2" ∧ Bytes (chars "a&b = 1/2") := by
  constructor
  · decide +kernel
  · unfold Bytes; decide +kernel

/-- The text that htmlencode makes contains no tag, and is displayed as the text given. -/
theorem C77_htmlencode (s : Str) :
    display (htmlencode s) = s ∧ 60 ∉ htmlencode s ∧ 62 ∉ htmlencode s := by
  have h1 : chars "&lt;" = [38, 108, 116, 59] := by decide +kernel
  have h2 : chars "&gt;" = [38, 103, 116, 59] := by decide +kernel
  have h3 : chars "&amp;" = [38, 97, 109, 112, 59] := by decide +kernel
  induction s with
  | nil => refine ⟨rfl, ?_, ?_⟩ <;> simp [htmlencode]
  | cons c s ih =>
    obtain ⟨i1, i2, i3⟩ := ih
    have e : htmlencode (c :: s) = htmlChar c ++ htmlencode s := rfl
    rw [e, htmlChar]
    by_cases c1 : c = 60
    · subst c1
      rw [if_pos rfl, h1]
      refine ⟨by simp [display, i1], ?_, ?_⟩ <;> simp [i2, i3]
    · rw [if_neg c1]
      by_cases c2 : c = 62
      · subst c2
        rw [if_pos rfl, h2]
        refine ⟨by simp [display, i1], ?_, ?_⟩ <;> simp [i2, i3]
      · rw [if_neg c2]
        by_cases c3 : c = 38
        · subst c3
          rw [if_pos rfl, h3]
          refine ⟨by simp [display, i1], ?_, ?_⟩ <;> simp [i2, i3]
        · rw [if_neg c3]
          refine ⟨?_, ?_, ?_⟩
          · rw [List.singleton_append, display]
            · rw [i1]
            all_goals intros; omega
          · simp; exact ⟨fun h => c1 h.symm, i2⟩
          · simp; exact ⟨fun h => c2 h.symm, i3⟩

example : htmlencode (chars "a<b & c") = chars "a&lt;b &amp; c" := by decide +kernel

/-! ## Fields of forms -/

/-- The lookups that a program has made. -/
def looked {V : Type} (d : Dct V) (names : List Str) : Dct V :=
  names.foldl (fun d n => (partField d n).2) d

theorem holds_looked {V : Type} {kvs : List (Str × V)} : ∀ (names : List Str) (d : Dct V),
    Holds d kvs → Holds (looked d names) kvs
  | [], _, h => h
  | n :: names, d, h => holds_looked names _ (holds_fields h n).2.2.2

/-- For every query string: the values of a field are those of the tokens between ampersands
that have one equality sign, in order, decoded, whatever was looked up before. -/
theorem C77_fields (e : Env) (hm : multipartBoundary e = none) :
    let kvs := (tokens (is 38) (queryString e)).filterMap (fun t => match fields (is 61) t with
      | [k, v] => some (decode k, decode v)
      | _ => none)
    (∀ names fnm, (cgiFieldStrings (looked (cgiDict e) names) fnm).1 = valuesOf kvs fnm ∧
      (cgiFieldString (looked (cgiDict e) names) fnm).1 = (valuesOf kvs fnm).head?) ∧
    (cgiFieldnames e).Pairwise (fun s t => strCmp s t = .lt) ∧
    ∀ fnm, fnm ∈ cgiFieldnames e ↔ (cgiFieldString (cgiDict e) fnm).1 ≠ none := by
  intro kvs
  have hk : Holds (cgiDict e) kvs := by
    have : cgiDict e = kvs.foldr addItem Splaymap.mkDict := by
      simp only [cgiDict, dictWithCodes, hm, kvs]
      generalize tokens (is 38) (queryString e) = ts
      induction ts with
      | nil => rfl
      | cons t ts ih =>
        rw [List.map_cons, List.foldr_cons, ih, List.filterMap_cons]
        generalize fields (is 61) t = f
        match f with
        | [] => rfl
        | [_] => rfl
        | [_, _] => rfl
        | _ :: _ :: _ :: _ => rfl
    rw [this]
    exact holds_foldr kvs
  refine ⟨?_, (holds_keys hk).1, ?_⟩
  · intro names fnm
    have := holds_fields (holds_looked names _ hk) fnm
    exact ⟨this.1, this.2.1⟩
  · intro fnm
    rw [cgiFieldnames, (holds_keys hk).2, cgiFieldString, (holds_fields hk fnm).2.1]
    cases valuesOf kvs fnm <;> simp

/-- A form that is sent as the standard prescribes is received: for every name, all its values
in order. -/
theorem C77_form (e : Env) (hm : multipartBoundary e = none) (ps : List (Str × Str))
    (hp : ∀ p ∈ ps, Bytes p.1 ∧ Bytes p.2) (hq : queryString e = encodeForm ps) :
    (∀ names fnm, (cgiFieldStrings (looked (cgiDict e) names) fnm).1 = valuesOf ps fnm ∧
      (cgiFieldString (looked (cgiDict e) names) fnm).1 = (valuesOf ps fnm).head?) ∧
    ∀ fnm, fnm ∈ cgiFieldnames e ↔ ∃ p ∈ ps, p.1 = fnm := by
  have key : (tokens (is 38) (queryString e)).filterMap (fun t => match fields (is 61) t with
      | [k, v] => some (decode k, decode v)
      | _ => none) = ps := by
    rw [hq, encodeForm]
    cases ps with
    | nil => rfl
    | cons p ps =>
      have h1 : ∀ s ∈ (p :: ps).map (fun p => urlencode p.1 ++ 61 :: urlencode p.2),
          ∀ c ∈ s, is 38 c = false := by
        intro s hs c hc
        rw [List.mem_map] at hs
        obtain ⟨q, hq', rfl⟩ := hs
        have hb := hp q hq'
        rw [List.mem_append, List.mem_cons] at hc
        simp only [is, beq_eq_false_iff_ne]
        rcases hc with hc | rfl | hc
        · have := ((C77_urlencode q.1 hb.1).2 c hc).2.1; omega
        · decide
        · have := ((C77_urlencode q.2 hb.2).2 c hc).2.1; omega
      rw [tokens, fields_intercalate (is 38) 38 rfl _ (by simp) h1, List.filter_eq_self.2]
      · generalize p :: ps = qs at hp
        clear h1 hq
        induction qs with
        | nil => rfl
        | cons q qs ih =>
          have hb := hp q (by simp)
          have h2 : ∀ c ∈ urlencode q.1, is 61 c = false := by
            intro c hc
            have := ((C77_urlencode q.1 hb.1).2 c hc).2.2.1
            simp only [is, beq_eq_false_iff_ne]; omega
          have h3 : ∀ c ∈ urlencode q.2, is 61 c = false := by
            intro c hc
            have := ((C77_urlencode q.2 hb.2).2 c hc).2.2.1
            simp only [is, beq_eq_false_iff_ne]; omega
          rw [List.map_cons, List.filterMap_cons, fields_cons _ 61 rfl _ _ h2, fields_none _ _ h3]
          simp only
          rw [ih (fun p hp' => hp p (List.mem_cons_of_mem _ hp')), (C77_urlencode q.1 hb.1).1,
            (C77_urlencode q.2 hb.2).1]
      · intro t ht
        rw [List.mem_map] at ht
        obtain ⟨q, _, rfl⟩ := ht
        simp
  have := C77_fields e hm
  simp only [key] at this
  refine ⟨this.1, ?_⟩
  intro fnm
  have h0 : (cgiFieldString (cgiDict e) fnm).1 = _ := (this.1 [] fnm).2
  rw [this.2.2 fnm, h0]
  simp only [valuesOf]
  constructor
  · intro h
    cases hf : ps.filter (fun kv => decide (kv.1 = fnm)) with
    | nil => rw [hf] at h; simp at h
    | cons p l =>
      have : p ∈ ps.filter (fun kv => decide (kv.1 = fnm)) := by rw [hf]; simp
      simp only [List.mem_filter, decide_eq_true_eq] at this
      exact ⟨p, this.1, this.2⟩
  · rintro ⟨p, h1, h2⟩ h3
    have : p ∈ ps.filter (fun kv => decide (kv.1 = fnm)) := by
      simp only [List.mem_filter, decide_eq_true_eq]
      exact ⟨h1, h2⟩
    cases hf : ps.filter (fun kv => decide (kv.1 = fnm)) with
    | nil => rw [hf] at this; simp at this
    | cons p l => rw [hf] at h3; simp at h3

/-- A request with a field twice. -/
def e1 : Env := ⟨some (chars "GET"), some (chars "x=a+b&y=%2B&x=c"), none, none, []⟩

example : multipartBoundary e1 = none ∧ queryString e1 = encodeForm
    [(chars "x", chars "a b"), (chars "y", chars "+"), (chars "x", chars "c")] ∧
    (cgiFieldStrings (cgiDict e1) (chars "x")).1 = [chars "a b", chars "c"] := by
  refine ⟨rfl, ?_, ?_⟩ <;> decide +kernel

/-- `cgi_field_integer`: the integer if all of the field is an integer.  (Documented is: if a
prefix is; `C77_integer_violation`.) -/
theorem C77_integer_partial (d : Dct Str) (fnm : Str) (dflt : Int) :
    ((cgiFieldString d fnm).1 = none → cgiFieldInteger d fnm dflt = some dflt) ∧
    ∀ s, (cgiFieldString d fnm).1 = some s →
      (intScan .dec s = .none → cgiFieldInteger d fnm dflt = some dflt) ∧
      ∀ i, intScan .dec s = .some i [] → cgiFieldInteger d fnm dflt = some i := by
  refine ⟨fun h => by simp only [cgiFieldInteger, h, getint], fun s h => ⟨fun h2 => ?_, fun i h2 => ?_⟩⟩
  · simp only [cgiFieldInteger, h, getint, h2]
  · simp only [cgiFieldInteger, h, getint, h2]
    rfl

/-- Mosmlcgi.sig: `cgi_field_integer (fnm, deflt)` returns i if an integer i can be parsed from
a prefix of the field.  It does so only if the prefix is all of it. -/
theorem C77_integer_violation :
    let e : Env := ⟨some (chars "GET"), some (chars "n=12abc"), none, none, []⟩
    (cgiFieldString (cgiDict e) (chars "n")).1 = some (chars "12abc") ∧
    intScan .dec (chars "12abc") = .some 12 (chars "abc") ∧
    cgiFieldInteger (cgiDict e) (chars "n") 7 = some 7 := by
  refine ⟨?_, ?_, ?_⟩ <;> decide +kernel

/-- A sequence that is not an encoding spoils the whole field, and also its name: a value that
was sent is received as the empty string, or under the empty name; a field with a second
equality sign is not received at all. -/
theorem C77_malformed_violation :
    let e : Env := ⟨some (chars "GET"), some (chars "a=100%&%=b&c=x=y"), none, none, []⟩
    cgiFieldnames e = [[], chars "a"] ∧
    (cgiFieldString (cgiDict e) (chars "a")).1 = some [] ∧
    (cgiFieldString (cgiDict e) []).1 = some (chars "b") ∧
    (cgiFieldString (cgiDict e) (chars "c")).1 = none := by
  refine ⟨?_, ?_, ?_, ?_⟩ <;> decide +kernel

/-! ## Multipart messages -/

theorem forall2_length {A B : Type} {R : A → B → Prop} {l : List A} {m : List B}
    (h : List.Forall₂ R l m) : l.length = m.length := by
  induction h with
  | nil => rfl
  | cons _ _ ih => simp [ih]

theorem boundary_eq (e : Env) (b : Str)
    (h : e.contentType = some (chars "multipart/form-data; boundary=" ++ b)) :
    multipartBoundary e = some b := by
  have h1 : chars "multipart/form-data; boundary=" =
      chars "multipart/form-data; " ++ 98 :: chars "oundary=" := by decide +kernel
  have h2 : chars "boundary=" = 98 :: chars "oundary=" := by decide +kernel
  have h3 : chars "oundary=" = [111, 117, 110, 100, 97, 114, 121, 61] := by decide +kernel
  have h4 : chars "multipart/form-data; " = chars "multipart/form-data;" ++ [32] := by
    decide +kernel
  simp only [multipartBoundary, h]
  rw [if_pos]
  · simp only [getboundary]
    rw [h1, h2, List.append_assoc, position_head 98 _ b _ (by decide +kernel)]
    simp only [h3]
    simp [isnt, List.dropWhile_cons, triml]
  · rw [h1, h4, List.append_assoc, List.append_assoc]
    exact List.prefix_append _ _

/-- A multipart message whose boundary does not occur in the parts is received: for every name, the parts of that
name in order, each with its data, unchanged, its type, and its fields. -/
theorem C77_multipart_partial (e : Env) (b : Str) (us : List Upload) (hb : 10 ∉ b)
    (ht : e.contentType = some (chars "multipart/form-data; boundary=" ++ b))
    (hq : queryString e = encodeMulti b us) (hp : ∀ u ∈ us, u.Plain b) :
    (∀ names pnm, List.Forall₂ (fun u p => p.data = u.data ∧ p.tyOpt = u.type ∧
          partFieldString p (chars "name") = some u.name ∧
          partFieldString p (chars "filename") = u.filename)
        (us.filter (fun u => u.name = pnm)) (cgiParts (looked (partDict e) names) pnm).1 ∧
      (cgiPart (looked (partDict e) names) pnm).1 =
        (cgiParts (looked (partDict e) names) pnm).1.head?) ∧
    ∀ pnm, pnm ∈ keys (partDict e) ↔ ∃ u ∈ us, u.name = pnm := by
  have hm := boundary_eq e b ht
  have h1 := multiparts_eq e b us hb hm hq (fun u hu => (hp u hu).boundary)
  have hk : Holds (partDict e) ((us.map Upload.chunk).map decodepart) := by
    rw [partDict, h1]
    exact holds_foldr _
  have hv : ∀ pnm, List.Forall₂ (fun u p => p.data = u.data ∧ p.tyOpt = u.type ∧
          partFieldString p (chars "name") = some u.name ∧
          partFieldString p (chars "filename") = u.filename)
      (us.filter (fun u => u.name = pnm))
      (valuesOf ((us.map Upload.chunk).map decodepart) pnm) := by
    intro pnm
    simp only [valuesOf]
    clear h1 hk hq
    induction us with
    | nil => exact .nil
    | cons u us ih =>
      have ih := ih (fun v hv => hp v (List.mem_cons_of_mem _ hv))
      obtain ⟨p, k1, k2, k3, _, k5⟩ := decodepart_eq (hp u (by simp))
      simp only [List.map_cons, List.filter_cons, k1]
      by_cases e1 : u.name = pnm
      · simp only [e1, decide_true, if_true, List.map_cons]
        refine .cons ⟨k2, k3, ?_, ?_⟩ ih
        · rw [partFieldString, (holds_fields k5 _).2.1, values_name, e1]
        · rw [partFieldString, (holds_fields k5 _).2.1]
          have hn : chars "name" ≠ chars "filename" := by decide +kernel
          cases hf : u.filename <;> simp [valuesOf, Upload.binds, hf, hn]
      · simp only [e1, decide_false, Bool.false_eq_true, if_false]
        exact ih
  refine ⟨?_, ?_⟩
  · intro names pnm
    have := holds_fields (holds_looked names _ hk) pnm
    refine ⟨?_, ?_⟩
    · rw [cgiParts, this.1]
      exact hv pnm
    · rw [cgiPart, cgiParts, this.1, this.2.1]
  · intro pnm
    rw [(holds_keys hk).2]
    have hl := forall2_length (hv pnm)
    constructor
    · intro hne
      have : us.filter (fun u => decide (u.name = pnm)) ≠ [] := by
        intro h0
        rw [h0] at hl
        exact hne (List.length_eq_zero_iff.1 hl.symm)
      obtain ⟨u, hu⟩ := List.exists_mem_of_ne_nil _ this
      simp only [List.mem_filter, decide_eq_true_eq] at hu
      exact ⟨u, hu⟩
    · rintro ⟨u, h1, h2⟩ h0
      rw [h0] at hl
      have := List.length_eq_zero_iff.1 hl
      have hu : u ∈ us.filter (fun u => decide (u.name = pnm)) := by
        simp only [List.mem_filter, decide_eq_true_eq]
        exact ⟨h1, h2⟩
      rw [this] at hu
      simp at hu

/-- A file and a field. -/
def us1 : List Upload :=
  [⟨chars "f", some (chars "a.txt"), some (chars "text/plain"), chars "one\r\n--two\r\n"⟩,
   ⟨chars "g", none, none, chars "x\r\n\r\ny"⟩]

example : ∀ u ∈ us1, u.Plain (chars "XyZ") := by
  intro u hu
  simp only [us1, List.mem_cons, List.not_mem_nil, or_false] at hu
  rcases hu with rfl | rfl
  · refine ⟨by decide +kernel, by decide +kernel, ?_, ?_, by decide +kernel⟩
    · intro f hf; rw [← Option.some.inj hf]; decide +kernel
    · intro f hf; rw [← Option.some.inj hf]; decide +kernel
  · refine ⟨by decide +kernel, by decide +kernel, ?_, ?_, by decide +kernel⟩
    · intro f hf; simp at hf
    · intro f hf; simp at hf

/-- A file whose name contains a semicolon: the name is received as the empty string, and there
is a field that was not sent.  A part whose name contains `Content-Type: ` has a type that was
not sent.  A boundary in quotation marks, which RFC 2046 allows, is not recognized. -/
theorem C77_multipart_violation :
    let p := (decodepart (Upload.chunk ⟨chars "f", some (chars "a;b"), none, chars "data"⟩)).2
    partFieldString p (chars "filename") = some [] ∧
    p.fieldnames = [chars "b\"", chars "filename", chars "name"] ∧
    (decodepart (Upload.chunk ⟨chars "Content-Type: x", none, none, chars "data"⟩)).2.tyOpt =
      some (chars "x\"") ∧
    multiparts ⟨some (chars "POST"), none, some (chars "1000"),
      some (chars "multipart/form-data; boundary=\"XyZ\""), encodeMulti (chars "XyZ") us1⟩ = [] := by
  refine ⟨?_, ?_, ?_, ?_⟩ <;> decide +kernel

/-! ## Word sequences -/

theorem flattenAcc_text (s : Wseq) : ∀ acc, (flattenAcc s acc).flatten = text s ++ acc.flatten := by
  induction s with
  | empty => intro acc; simp [flattenAcc, text]
  | nl => intro acc; simp [flattenAcc, text]
  | str s => intro acc; simp [flattenAcc, text]
  | strs ss => intro acc; simp [flattenAcc, text]
  | cat s1 s2 h1 h2 => intro acc; simp [flattenAcc, text, h1, h2]

/-- `flatten` is the text, `printseq` prints it, and `prmap` and `prsep` are the texts of
their parts, with the separator between them. -/
theorem C77_wseq {A : Type} (s sep : Wseq) (out : Str) (f : A → Wseq) (xs : List A) :
    flatten s = text s ∧ printseq s out = out ++ flatten s ∧
    flatten (prmap f xs) = (xs.map (fun x => flatten (f x))).flatten ∧
    flatten (prsep sep f xs) = List.intercalate (flatten sep) (xs.map (fun x => flatten (f x))) := by
  have hf : ∀ s, flatten s = text s := by
    intro s
    rw [flatten, flattenAcc_text]; simp
  refine ⟨hf s, ?_, ?_, ?_⟩
  · rw [hf]
    induction s generalizing out with
    | empty => simp [printseq, text]
    | nl => simp [printseq, text]
    | str s => simp [printseq, text]
    | strs ss =>
      simp only [printseq, text]
      induction ss generalizing out with
      | nil => simp
      | cons a ss ih => simp [ih]
    | cat s1 s2 h1 h2 => simp [printseq, text, h1, h2]
  · simp only [hf]
    cases xs with
    | nil => rfl
    | cons x xs =>
      simp only [prmap]
      induction xs generalizing x with
      | nil => simp [prmap.loop]
      | cons y ys ih => simp [prmap.loop, text, ih]
  · simp only [hf]
    cases xs with
    | nil => rfl
    | cons x xs =>
      simp only [prsep]
      induction xs generalizing x with
      | nil => simp [prsep.loop, List.intercalate]
      | cons y ys ih => simp [prsep.loop, text, ih, List.intercalate]

example : flatten (prsep (.str (chars ", ")) Wseq.str [chars "a", chars "b"]) = chars "a, b" := by
  decide +kernel

/-- `mark0`, `mark0a` and `mark1` make the tags documented. -/
theorem C77_marks (attr t : Str) (ws : Wseq) :
    flatten (mark0 t) = chars "<" ++ t ++ chars ">" ∧
    flatten (mark0a attr t) = chars "<" ++ t ++ chars " " ++ attr ++ chars ">" ∧
    flatten (mark1 t ws) =
      chars "<" ++ t ++ chars ">" ++ flatten ws ++ chars "</" ++ t ++ chars ">" := by
  have hf : ∀ s, flatten s = text s := by
    intro s
    rw [flatten, flattenAcc_text]; simp
  refine ⟨?_, ?_, ?_⟩ <;> simp [hf, mark0, mark0a, mark1, text]

/-- Msp.sig: `mark1a attr t ws` generates `<t attr>ws</t>`; its arguments are taken the other
way round.  `area` generates no closing bracket, and no blank after NOHREF. -/
theorem C77_marks_violation :
    flatten (mark1a (chars "ALIGN=left") (chars "P") (.str (chars "x"))) =
      chars "<ALIGN=left P>x</ALIGN=left>" ∧
    flatten (area (chars "rect") none (chars "1,2,3,4") (some (chars "d"))) =
      chars "<AREA SHAPE=\"rect\" COORDS=\"1,2,3,4\" NOHREFALT=\"d\"" := by
  constructor <;> decide +kernel

/-! ## Cookies -/

/-- Cookies whose names and values contain no blank and no semicolon, and names no equality
sign, are received. -/
theorem C77_cookie_partial (ps : List (Str × Str)) (ck : Str)
    (hp : ∀ p ∈ ps, (∀ c ∈ p.1, c ≠ 32 ∧ c ≠ 59 ∧ c ≠ 61) ∧ ∀ c ∈ p.2, c ≠ 32 ∧ c ≠ 59) :
    let header := List.intercalate (chars "; ") (ps.map (fun p => p.1 ++ 61 :: p.2))
    allCookies (some header) = ps.map (fun p => p.1 ++ 61 :: p.2) ∧
    getCookieValue (some header) ck = (valuesOf ps ck).head? ∧
    getCookie (some header) ck = ((valuesOf ps ck).head?).map (fun v => ck ++ 61 :: v) := by
  intro header
  have hs : chars "; " = [59, 32] := by decide +kernel
  have hq : chars "=" = [61] := by decide +kernel
  have hblank : ∀ s : Str, (∀ c ∈ s, c ≠ 32) → (fields (is 32) s).flatten = s := by
    intro s h
    rw [fields_none]
    · simp
    · intro c hc
      have := h c hc
      simp only [is, beq_eq_false_iff_ne]; omega
  have hall : ∀ (b : Str) (ps : List (Str × Str)), b = [] ∨ b = [32] →
      (∀ p ∈ ps, (∀ c ∈ p.1, c ≠ 32 ∧ c ≠ 59 ∧ c ≠ 61) ∧ ∀ c ∈ p.2, c ≠ 32 ∧ c ≠ 59) → ps ≠ [] →
      allCookies (some (b ++ List.intercalate (chars "; ") (ps.map (fun p => p.1 ++ 61 :: p.2)))) =
        ps.map (fun p => p.1 ++ 61 :: p.2) := by
    intro b ps
    induction ps generalizing b with
    | nil => intro _ _ h; exact absurd rfl h
    | cons p ps ih =>
      intro hb hp _
      have h1 := hp p (by simp)
      have hc : ∀ c ∈ p.1 ++ 61 :: p.2, c ≠ 32 ∧ c ≠ 59 := by
        intro c hc
        rw [List.mem_append, List.mem_cons] at hc
        rcases hc with hc | rfl | hc
        · have := h1.1 c hc; omega
        · omega
        · exact h1.2 c hc
      have hd : ∀ c ∈ b ++ (p.1 ++ 61 :: p.2), is 59 c = false := by
        intro c hc'
        rw [List.mem_append] at hc'
        rcases hc' with hc' | hc'
        · rcases hb with rfl | rfl
          · simp at hc'
          · simp at hc'; rw [hc']; rfl
        · exact is59 (hc c hc').2
      have hfl : (fields (is 32) (b ++ (p.1 ++ 61 :: p.2))).flatten = p.1 ++ 61 :: p.2 := by
        rcases hb with rfl | rfl
        · exact hblank _ (fun c hc' => (hc c hc').1)
        · have := fields_cons (is 32) 32 rfl (p.1 ++ 61 :: p.2) [] (by simp)
          rw [List.nil_append] at this
          rw [List.singleton_append, this, List.flatten_cons, List.nil_append]
          exact hblank _ (fun c hc' => (hc c hc').1)
      have hne : (b ++ (p.1 ++ 61 :: p.2)).isEmpty = false := by simp
      cases ps with
      | nil =>
        have e : b ++ List.intercalate (chars "; ") ([p].map (fun p => p.1 ++ 61 :: p.2)) =
            b ++ (p.1 ++ 61 :: p.2) := by simp [List.intercalate]
        rw [e, allCookies]
        simp only [Option.getD_some, tokens]
        rw [fields_none _ _ hd, List.filter_cons, hne]
        simp only [Bool.not_false, if_true, List.filter_nil, List.map_cons, List.map_nil]
        rw [hfl]
      | cons q ps =>
        have e : b ++ List.intercalate (chars "; ") ((p :: q :: ps).map (fun p => p.1 ++ 61 :: p.2)) =
            (b ++ (p.1 ++ 61 :: p.2)) ++ 59 :: ([32] ++
              List.intercalate (chars "; ") ((q :: ps).map (fun p => p.1 ++ 61 :: p.2))) := by
          simp [List.intercalate, hs]
        have ih := ih [32] (Or.inr rfl) (fun p hp' => hp p (List.mem_cons_of_mem _ hp')) (by simp)
        rw [e, allCookies]
        simp only [Option.getD_some, tokens]
        rw [fields_cons _ 59 rfl _ _ hd, List.filter_cons, hne]
        simp only [Bool.not_false, if_true]
        rw [List.map_cons, hfl]
        rw [allCookies] at ih
        simp only [Option.getD_some, tokens] at ih
        rw [ih]
        rfl
  have h1 : allCookies (some header) = ps.map (fun p => p.1 ++ 61 :: p.2) := by
    cases ps with
    | nil => rfl
    | cons p ps =>
      have := hall [] (p :: ps) (Or.inl rfl) hp (by simp)
      rw [List.nil_append] at this
      exact this
  have h2 : matchCookie ck (ps.map (fun p => p.1 ++ 61 :: p.2)) =
      ((valuesOf ps ck).head?).map (fun v => (ck ++ 61 :: v, 61 :: v)) := by
    clear h1 hall header
    induction ps with
    | nil => rfl
    | cons p ps ih =>
      have hpos := position_head 61 [] p.2 p.1 (fun hh => ((hp p (by simp)).1 61 hh).2.2 rfl)
      have hpos : position (chars "=") (p.1 ++ 61 :: p.2) = (p.1, 61 :: p.2) := by
        rw [hq]; exact hpos
      simp only [List.map_cons, matchCookie, hpos]
      by_cases e : p.1 = ck
      · simp [e, valuesOf, List.filter_cons]
      · rw [if_neg e, ih (fun p hp' => hp p (List.mem_cons_of_mem _ hp'))]
        simp [e, valuesOf, List.filter_cons]
  refine ⟨h1, ?_, ?_⟩
  · rw [getCookieValue, h1, h2]
    cases (valuesOf ps ck).head? <;> rfl
  · rw [getCookie, h1, h2]
    cases (valuesOf ps ck).head? <;> rfl

example : getCookieValue (some (chars "a=1; b=x=y; a=2")) (chars "b") = some (chars "x=y") := by
  decide +kernel

/-- `setCookie` sends name and value and the attributes that are given; an empty name or value
raises CookieError. -/
theorem C77_setCookie (c : Cookie) :
    (setCookie c = none ↔ c.name = [] ∨ c.value = []) ∧
    ∀ l, setCookie c = some l →
      l = chars "Set-cookie: " ++ List.intercalate (chars "; ")
        ([c.name ++ chars "=" ++ c.value] ++
          c.expiry.toList.map (fun x => chars "expires=" ++ x) ++
          c.domain.toList.map (fun x => chars "domain=" ++ x) ++
          c.path.toList.map (fun x => chars "path=" ++ x) ++
          [chars (if c.secure then "secure=true" else "secure=false")]) ++ chars "\n" := by
  have h1 : chars "; expires=" = chars "; " ++ chars "expires=" := by decide +kernel
  have h2 : chars "; domain=" = chars "; " ++ chars "domain=" := by decide +kernel
  have h3 : chars "; path=" = chars "; " ++ chars "path=" := by decide +kernel
  have h4 : chars "; secure=" = chars "; " ++ chars "secure=" := by decide +kernel
  have h5 : chars "secure=true" = chars "secure=" ++ chars "true" := by decide +kernel
  have h6 : chars "secure=false" = chars "secure=" ++ chars "false" := by decide +kernel
  refine ⟨?_, ?_⟩
  · rw [setCookie]
    split <;> simp_all
  · intro l hl
    rw [setCookie] at hl
    split at hl
    · simp at hl
    · rw [← Option.some.inj hl, h1, h2, h3, h4]
      cases c.expiry <;> cases c.domain <;> cases c.path <;> cases c.secure <;>
        simp [concatOpt, List.intercalate, h5, h6]

example : setCookie ⟨chars "a", chars "b", none, none, some (chars "/x"), true⟩ =
    some (chars "Set-cookie: a=b; path=/x; secure=true\n") := by decide +kernel

/-- Mosmlcookie.sig: the value associated with the cookie; blanks in it are dropped.
`setCookie` with `secure = false` sets a cookie that browsers treat as secure, since the
attribute counts whatever its value. -/
theorem C77_cookie_violation :
    getCookieValue (some (chars "a=x y")) (chars "a") = some (chars "xy") ∧
    setCookie ⟨chars "a", chars "b", none, none, none, false⟩ =
      some (chars "Set-cookie: a=b; secure=false\n") ∧
    browserSecure (chars "Set-cookie: a=b; secure=false\n") = true ∧
    browserSecure (chars "Set-cookie: a=b; path=/\n") = false := by
  refine ⟨?_, ?_, ?_, ?_⟩ <;> decide +kernel

end Mosml.Cgi
