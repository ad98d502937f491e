import Verif.Marshal.Spec
import Mathlib.Data.List.Nodup
import Mathlib.Data.List.Perm.Subperm

/-! What the writer leaves in extern_block. -/
namespace Mosml.Marshal

theorem fields_eq (W : Nat) (m : Mem) (v : Nat) : ∀ n, fields W m v n = (List.range n).map fun i => m (v + W * i)
  | 0 => rfl
  | n + 1 => by rw [fields, fields_eq W m v n, List.range_succ, List.map_append]; rfl

theorem length_fields (W : Nat) (m : Mem) (v n : Nat) : (fields W m v n).length = n := by
  rw [fields_eq]; simp

theorem mem_fields {W : Nat} {m : Mem} {v n x : Nat} : x ∈ fields W m v n ↔ ∃ i, i < n ∧ m (v + W * i) = x := by
  rw [fields_eq]; simp

theorem tag_mk (size tag color : Nat) (ht : tag < 256) (hc : color % 256 = 0) :
    tagHd (mkHeader size tag color) = tag := by
  unfold tagHd mkHeader; omega

theorem size_mk (size tag color : Nat) (ht : tag < 256) (hc : color < 1024) (hc' : color % 256 = 0) :
    wosizeHd (mkHeader size tag color) = size := by
  unfold wosizeHd mkHeader; omega

theorem tag_lt (W : Nat) (m : Mem) (v : Nat) : tag W m v < 256 := Nat.mod_lt _ (by decide)

/-- the encoding of a field -/
def enc (W : Nat) (m : Mem) (T : List (Nat × Nat)) (w : Nat) : Nat :=
  if w % 2 = 1 then w else if size W m w = 0 then tag W m w * 4 + 2 else (lookupTab T w).getD 0

def Known (W : Nat) (m : Mem) (T : List (Nat × Nat)) (w : Nat) : Prop :=
  w % 2 = 1 ∨ size W m w = 0 ∨ lookupTab T w ≠ none

/-- header and fields, as first copied -/
def raw (W : Nat) (m : Mem) (x : Nat × Nat) : List Nat :=
  mkHeader (size W m x.1) (tag W m x.1) black :: fields W m x.1 (size W m x.1)

def body (W : Nat) (m : Mem) (T : List (Nat × Nat)) (a : Nat) : List Nat :=
  if tag W m a = stringTag ∨ tag W m a = doubleTag then fields W m a (size W m a)
  else (fields W m a (size W m a)).map (enc W m T)

/-- header and fields, once scanned -/
def chunk (W : Nat) (m : Mem) (T : List (Nat × Nat)) (x : Nat × Nat) : List Nat :=
  mkHeader (size W m x.1) (tag W m x.1) black :: body W m T x.1

/-- offsets recorded in the table -/
def Placed (W : Nat) (m : Mem) : Nat → List (Nat × Nat) → Prop
  | _, [] => True
  | s, (a, o) :: t => o = (s + 1) * W ∧ a % 2 = 0 ∧ size W m a ≠ 0 ∧ Placed W m (s + 1 + size W m a) t

def span (W : Nat) (m : Mem) : List (Nat × Nat) → Nat
  | [] => 0
  | (a, _) :: t => 1 + size W m a + span W m t

theorem span_append (W : Nat) (m : Mem) : ∀ T U, span W m (T ++ U) = span W m T + span W m U
  | [], U => by simp [span]
  | (a, o) :: t, U => by simp only [List.cons_append, span, span_append W m t U]; omega

theorem Placed_append (W : Nat) (m : Mem) : ∀ T U s, Placed W m s (T ++ U) ↔ Placed W m s T ∧ Placed W m (s + span W m T) U
  | [], U, s => by simp [Placed, span]
  | (a, o) :: t, U, s => by
    simp only [List.cons_append, Placed, span, Placed_append W m t U]
    rw [show s + 1 + size W m a + span W m t = s + (1 + size W m a + span W m t) by omega]
    tauto

theorem length_raw (W : Nat) (m : Mem) (x : Nat × Nat) : (raw W m x).length = 1 + size W m x.1 := by
  simp [raw, length_fields]; omega

theorem length_chunk (W : Nat) (m : Mem) (T : List (Nat × Nat)) (x : Nat × Nat) :
    (chunk W m T x).length = 1 + size W m x.1 := by
  unfold chunk body; split_ifs <;> simp [length_fields] <;> omega

theorem length_flat_raw (W : Nat) (m : Mem) : ∀ T : List (Nat × Nat), (T.flatMap (raw W m)).length = span W m T
  | [] => rfl
  | (a, o) :: t => by rw [List.flatMap_cons, List.length_append, length_raw, length_flat_raw W m t]; rfl

theorem length_flat_chunk (W : Nat) (m : Mem) (U : List (Nat × Nat)) :
    ∀ T : List (Nat × Nat), (T.flatMap (chunk W m U)).length = span W m T
  | [] => rfl
  | (a, o) :: t => by rw [List.flatMap_cons, List.length_append, length_chunk, length_flat_chunk W m U t]; rfl

theorem lookup_append_some {T U : List (Nat × Nat)} {v x : Nat} (h : lookupTab T v = some x) :
    lookupTab (T ++ U) v = some x := by
  induction T with
  | nil => cases h
  | cons y t ih =>
    obtain ⟨a, o⟩ := y
    rw [List.cons_append, lookupTab]
    rw [lookupTab] at h
    split_ifs at h ⊢ with h1
    · exact h
    · exact ih h

theorem lookup_append_none {T U : List (Nat × Nat)} {v : Nat} (h : lookupTab T v = none) :
    lookupTab (T ++ U) v = lookupTab U v := by
  induction T with
  | nil => rfl
  | cons y t ih =>
    obtain ⟨a, o⟩ := y
    rw [List.cons_append, lookupTab]
    rw [lookupTab] at h
    split_ifs at h ⊢ with h1
    exact ih h

theorem lookup_none_iff {T : List (Nat × Nat)} {v : Nat} : lookupTab T v = none ↔ v ∉ T.map Prod.fst := by
  induction T with
  | nil => simp [lookupTab]
  | cons y t ih =>
    obtain ⟨a, o⟩ := y
    rw [lookupTab]
    split_ifs with h1
    · simp [h1]
    · rw [ih]; simp [Ne.symm h1]

theorem lookup_mem {T : List (Nat × Nat)} {v x : Nat} (h : lookupTab T v = some x) : (v, x) ∈ T := by
  induction T with
  | nil => cases h
  | cons y t ih =>
    obtain ⟨a, o⟩ := y
    rw [lookupTab] at h
    split_ifs at h with h1
    · subst h1; cases h; exact List.mem_cons_self
    · exact List.mem_cons_of_mem _ (ih h)

theorem enc_append {W : Nat} {m : Mem} {T : List (Nat × Nat)} (U : List (Nat × Nat)) {w : Nat} (h : Known W m T w) :
    enc W m (T ++ U) w = enc W m T w := by
  unfold enc
  split_ifs with h1 h2
  · rfl
  · rfl
  · rcases h with h | h | h
    · exact absurd h h1
    · exact absurd h h2
    · cases hl : lookupTab T w with
      | none => exact absurd hl h
      | some x => rw [lookup_append_some hl]

theorem Known.append {W : Nat} {m : Mem} {T : List (Nat × Nat)} (U : List (Nat × Nat)) {w : Nat} (h : Known W m T w) :
    Known W m (T ++ U) w := by
  rcases h with h | h | h
  · exact .inl h
  · exact .inr (.inl h)
  · cases hl : lookupTab T w with
    | none => exact absurd hl h
    | some x => exact .inr (.inr (by rw [lookup_append_some hl]; simp))

def KnownObj (W : Nat) (m : Mem) (T : List (Nat × Nat)) (a : Nat) : Prop :=
  tag W m a ≠ stringTag → tag W m a ≠ doubleTag → ∀ x ∈ fields W m a (size W m a), Known W m T x

theorem body_append {W : Nat} {m : Mem} {T : List (Nat × Nat)} (U : List (Nat × Nat)) {a : Nat} (h : KnownObj W m T a) :
    body W m (T ++ U) a = body W m T a := by
  unfold body
  split_ifs with h1
  · rfl
  · apply List.map_congr_left
    intro x hx
    rw [not_or] at h1
    exact enc_append U (h h1.1 h1.2 x hx)

theorem flat_append {W : Nat} {m : Mem} {T : List (Nat × Nat)} (U : List (Nat × Nat)) {D : List (Nat × Nat)}
    (h : ∀ x ∈ D, KnownObj W m T x.1) : D.flatMap (chunk W m (T ++ U)) = D.flatMap (chunk W m T) := by
  apply List.flatMap_congr
  intro x hx
  unfold chunk
  rw [body_append U (h x hx)]

/-- The state is a consistent table: blocks of `S`, each once, at increasing offsets. -/
structure TabOk (W : Nat) (m : Mem) (S : List Nat) (T : List (Nat × Nat)) : Prop where
  nodup : (T.map Prod.fst).Nodup
  sub : ∀ x ∈ T, x.1 ∈ S
  placed : Placed W m 0 T

theorem emit_spec {W : Nat} {m : Mem} {S : List Nat} {T : List (Nat × Nat)} {B : List Nat} {v : Nat}
    (hT : TabOk W m S T) (hB : B.length = span W m T) (hv : v % 2 = 1 ∨ size W m v = 0 ∨ v ∈ S) :
    ∃ U, emit W m v ⟨B, T⟩ = (enc W m (T ++ U) v, ⟨B ++ U.flatMap (raw W m), T ++ U⟩) ∧
      TabOk W m S (T ++ U) ∧ Known W m (T ++ U) v := by
  unfold emit
  by_cases h1 : v % 2 = 1
  · refine ⟨[], ?_, by simpa using hT, .inl h1⟩
    simp [h1, enc]
  · rw [if_neg h1]
    dsimp only
    by_cases h2 : size W m v = 0
    · refine ⟨[], ?_, by simpa using hT, .inr (.inl h2)⟩
      have h2' : wosizeHd (m (v - W)) = 0 := h2
      simp [h1, h2, h2', enc, tag]
    · have h2' : ¬ wosizeHd (m (v - W)) = 0 := h2
      rw [if_neg h2']
      cases hl : lookupTab T v with
      | some x =>
        refine ⟨[], ?_, by simpa using hT, .inr (.inr (by simp [hl]))⟩
        simp [h1, h2, enc, hl]
      | none =>
        have hmem : v ∈ S := by tauto
        have hlk : lookupTab (T ++ [(v, (B.length + 1) * W)]) v = some ((B.length + 1) * W) := by
          rw [lookup_append_none hl]; simp [lookupTab]
        refine ⟨[(v, (B.length + 1) * W)], ?_, ⟨?_, ?_, ?_⟩, .inr (.inr (by rw [hlk]; simp))⟩
        · unfold enc
          rw [if_neg h1, if_neg h2, hlk]
          simp [raw, size, tag]
        · rw [List.map_append, List.nodup_append]
          refine ⟨hT.nodup, by simp, ?_⟩
          rw [lookup_none_iff] at hl
          intro a ha b hb
          simp only [List.map_cons, List.map_nil, List.mem_singleton] at hb
          subst hb
          intro h; subst h; exact hl ha
        · intro x hx
          rw [List.mem_append, List.mem_singleton] at hx
          rcases hx with hx | rfl
          · exact hT.sub x hx
          · exact hmem
        · rw [Placed_append]
          refine ⟨hT.placed, ?_⟩
          simp only [Placed, and_true]
          exact ⟨by rw [hB]; ring, by omega, h2⟩

theorem scanFields_spec {W : Nat} {m : Mem} {S : List Nat} : ∀ (R A C : List Nat) (T : List (Nat × Nat)),
    TabOk W m S T → (A ++ R ++ C).length = span W m T → (∀ v ∈ R, v % 2 = 1 ∨ size W m v = 0 ∨ v ∈ S) →
    ∃ U, scanFields W m R.length A.length ⟨A ++ R ++ C, T⟩ =
        ⟨A ++ R.map (enc W m (T ++ U)) ++ C ++ U.flatMap (raw W m), T ++ U⟩ ∧
      TabOk W m S (T ++ U) ∧ ∀ v ∈ R, Known W m (T ++ U) v
  | [], A, C, T, hT, hB, hR => ⟨[], by simp [scanFields], by simpa using hT, by simp⟩
  | v :: R, A, C, T, hT, hB, hR => by
    have hget : (A ++ (v :: R) ++ C).getD A.length 0 = v := by simp
    obtain ⟨U, he, hT', hk⟩ := emit_spec hT hB (hR v List.mem_cons_self)
    have hset : (A ++ (v :: R) ++ C ++ U.flatMap (raw W m)).set A.length (enc W m (T ++ U) v) =
        (A ++ [enc W m (T ++ U) v]) ++ R ++ (C ++ U.flatMap (raw W m)) := by
      simp
    obtain ⟨U2, he2, hT2, hk2⟩ := scanFields_spec R (A ++ [enc W m (T ++ U) v]) (C ++ U.flatMap (raw W m)) (T ++ U) hT'
      (by
        rw [← hset, List.length_set, List.length_append, hB, length_flat_raw, span_append])
      (fun w hw => hR w (List.mem_cons_of_mem _ hw))
    refine ⟨U ++ U2, ?_, by rw [← List.append_assoc]; exact hT2, ?_⟩
    · rw [List.length_cons, scanFields]
      dsimp only
      rw [hget, he]
      dsimp only
      rw [hset]
      rw [show A.length + 1 = (A ++ [enc W m (T ++ U) v]).length by simp, he2]
      rw [← List.append_assoc, ← enc_append U2 hk]
      simp
    · intro w hw
      rw [← List.append_assoc]
      rcases List.mem_cons.1 hw with rfl | hw
      · exact hk.append U2
      · exact hk2 w hw

/-- the tags extern.c can write -/
def Writable (t : Nat) : Prop := t ≠ abstractTag ∧ t ≠ finalTag ∧ t ≠ closureTag

theorem scanLoop_spec {W : Nat} {m : Mem} {S : List Nat} (hS : S.Nodup)
    (hw : ∀ a ∈ S, Writable (tag W m a))
    (hc : ∀ a ∈ S, tag W m a ≠ stringTag → tag W m a ≠ doubleTag → ∀ i, i < size W m a →
      m (a + W * i) % 2 = 1 ∨ size W m (m (a + W * i)) = 0 ∨ m (a + W * i) ∈ S) :
    ∀ (fuel : Nat) (D R : List (Nat × Nat)),
    TabOk W m S (D ++ R) → (∀ x ∈ D, KnownObj W m (D ++ R) x.1) → S.length < fuel + D.length →
    ∃ T, scanLoop W m fuel (span W m D) ⟨D.flatMap (chunk W m (D ++ R)) ++ R.flatMap (raw W m), D ++ R⟩ =
        .ok ⟨T.flatMap (chunk W m T), T⟩ ∧
      TabOk W m S T ∧ (∀ x ∈ T, KnownObj W m T x.1) ∧ ∃ U, T = D ++ R ++ U
  | 0, D, R, hT, hk, hf => by
    exfalso
    have h1 : ((D ++ R).map Prod.fst).length ≤ S.length := by
      apply List.Subperm.length_le
      apply List.subperm_of_subset hT.nodup
      intro a ha
      obtain ⟨x, hx, rfl⟩ := List.mem_map.1 ha
      exact hT.sub x hx
    simp at h1 hf
    omega
  | fuel + 1, D, [], hT, hk, hf => by
    refine ⟨D ++ [], ?_, hT, by simpa using hk, [], by simp⟩
    have hlen : ¬ span W m D < (D.flatMap (chunk W m (D ++ [])) ++ List.flatMap (raw W m) []).length := by
      rw [List.length_append, length_flat_chunk]; simp
    rw [scanLoop, if_neg hlen]
    simp
  | fuel + 1, D, (a, o) :: R, hT, hk, hf => by
    have hsplit : D ++ (a, o) :: R = (D ++ [(a, o)]) ++ R := by simp
    have ha : a ∈ S := hT.sub (a, o) (by simp)
    obtain ⟨T0, hT0⟩ : ∃ T0, T0 = D ++ (a, o) :: R := ⟨_, rfl⟩
    have hB : D.flatMap (chunk W m T0) ++ ((a, o) :: R).flatMap (raw W m) =
        (D.flatMap (chunk W m T0) ++ [mkHeader (size W m a) (tag W m a) black]) ++ fields W m a (size W m a) ++
          R.flatMap (raw W m) := by
      simp [raw]
    have hlenD : (D.flatMap (chunk W m T0)).length = span W m D := length_flat_chunk W m T0 D
    have hlen : span W m D < (D.flatMap (chunk W m T0) ++ ((a, o) :: R).flatMap (raw W m)).length := by
      rw [hB]; simp only [List.length_append, hlenD, List.length_cons]; omega
    have hget : (D.flatMap (chunk W m T0) ++ ((a, o) :: R).flatMap (raw W m)).getD (span W m D) 0 =
        mkHeader (size W m a) (tag W m a) black := by
      rw [hB, ← hlenD]; simp
    have htg : tagHd (mkHeader (size W m a) (tag W m a) black) = tag W m a := tag_mk _ _ _ (tag_lt W m a) (by decide)
    have hsz : wosizeHd (mkHeader (size W m a) (tag W m a) black) = size W m a :=
      size_mk _ _ _ (tag_lt W m a) (by decide) (by decide)
    have hspan : span W m D + 1 + size W m a = span W m (D ++ [(a, o)]) := by
      rw [span_append]; simp [span]; omega
    rw [← hT0] at hT hk ⊢
    rw [scanLoop, if_pos hlen]
    dsimp only
    rw [hget, htg, hsz]
    obtain ⟨hw1, hw2, hw3⟩ := hw a ha
    by_cases hns : tag W m a = stringTag ∨ tag W m a = doubleTag
    · rw [if_pos hns]
      have hkn : KnownObj W m T0 a := fun h1 h2 => by tauto
      obtain ⟨T, h1, h2, h3, U, h4⟩ := scanLoop_spec hS hw hc fuel (D ++ [(a, o)]) R (by rw [← hsplit, ← hT0]; exact hT)
        (by
          intro x hx
          rw [← hsplit, ← hT0]
          rw [List.mem_append, List.mem_singleton] at hx
          rcases hx with hx | rfl
          · exact hk x hx
          · exact hkn)
        (by simp; omega)
      refine ⟨T, ?_, h2, h3, U, by rw [h4, hT0, hsplit]⟩
      rw [← h1, hspan, ← hsplit, ← hT0]
      congr 2
      rw [hB]
      simp [chunk, body, hns]
    · rw [if_neg hns, if_neg (by tauto), if_neg hw3]
      rw [not_or] at hns
      obtain ⟨U, h1, h2, h3⟩ := scanFields_spec (S := S) (fields W m a (size W m a))
        (D.flatMap (chunk W m T0) ++ [mkHeader (size W m a) (tag W m a) black]) (R.flatMap (raw W m)) T0 hT
        (by
          rw [← hB, List.length_append, hlenD, length_flat_raw, hT0, span_append])
        (by
          intro v hv
          obtain ⟨i, hi, rfl⟩ := mem_fields.1 hv
          exact hc a ha hns.1 hns.2 i hi)
      rw [length_fields, ← hB, List.length_append, hlenD, List.length_singleton] at h1
      rw [h1, hspan]
      have hkn : KnownObj W m (T0 ++ U) a := fun _ _ => h3
      have hsp2 : T0 ++ U = (D ++ [(a, o)]) ++ (R ++ U) := by rw [hT0]; simp
      have hkD : ∀ x ∈ D ++ [(a, o)], KnownObj W m (T0 ++ U) x.1 := by
        intro x hx
        rw [List.mem_append, List.mem_singleton] at hx
        rcases hx with hx | rfl
        · intro q1 q2 y hy
          exact (hk x hx q1 q2 y hy).append U
        · exact hkn
      obtain ⟨T, k1, k2, k3, V, k4⟩ := scanLoop_spec hS hw hc fuel (D ++ [(a, o)]) (R ++ U) (by rw [← hsp2]; exact h2)
        (by rw [← hsp2]; exact hkD) (by simp; omega)
      refine ⟨T, ?_, k2, k3, U ++ V, by rw [k4, ← hsp2, List.append_assoc]⟩
      rw [← k1, ← hsp2]
      congr 2
      have hD : D.flatMap (chunk W m (T0 ++ U)) = D.flatMap (chunk W m T0) := flat_append U (fun x hx => hk x hx)
      rw [List.flatMap_append, hD, List.flatMap_append]
      simp [chunk, body, hns]

/-- What `emit_all` produces on a marshallable graph. -/
theorem emitAll_spec {W : Nat} {m : Mem} {S : List Nat} {v : Nat} (hS : S.Nodup)
    (hw : ∀ a ∈ S, Writable (tag W m a))
    (hc : ∀ a ∈ S, tag W m a ≠ stringTag → tag W m a ≠ doubleTag → ∀ i, i < size W m a →
      m (a + W * i) % 2 = 1 ∨ size W m (m (a + W * i)) = 0 ∨ m (a + W * i) ∈ S)
    (hv : v % 2 = 1 ∨ size W m v = 0 ∨ v ∈ S) {fuel : Nat} (hf : S.length < fuel) :
    ∃ T, emitAll W m fuel v = .ok (enc W m T v, T.flatMap (chunk W m T)) ∧
      TabOk W m S T ∧ (∀ x ∈ T, KnownObj W m T x.1) ∧ Known W m T v ∧
      (v % 2 = 0 → size W m v ≠ 0 → ∃ T', T = (v, W) :: T') ∧
      (¬ (v % 2 = 0 ∧ size W m v ≠ 0) → T = []) := by
  have h0 : TabOk W m S [] := ⟨by simp, by simp, trivial⟩
  obtain ⟨U, he, hT, hk⟩ := emit_spec (B := []) h0 rfl hv
  simp only [List.nil_append] at he hT hk
  obtain ⟨T, h1, h2, h3, V, h4⟩ := scanLoop_spec hS hw hc fuel [] U (by simpa using hT) (by simp) (by simpa using hf)
  simp only [List.nil_append, List.flatMap_nil, span] at h1 h4
  have hU : emit W m v ⟨[], []⟩ = if v % 2 = 1 then (v, ⟨[], []⟩) else if size W m v = 0 then
      (tag W m v * 4 + 2, ⟨[], []⟩) else (W, ⟨raw W m (v, W), [(v, W)]⟩) := by
    unfold emit
    by_cases q2 : wosizeHd (m (v - W)) = 0 <;> simp [lookupTab, raw, size, tag, q2]
  refine ⟨T, ?_, h2, h3, by rw [h4]; exact hk.append V, ?_, ?_⟩
  · unfold emitAll
    rw [he]
    dsimp only
    rw [h1, h4, enc_append V hk]
  · intro q1 q2
    rw [if_neg (by omega), if_neg q2, he] at hU
    have : U = [(v, W)] := by
      have := congrArg (fun p => p.2.table) hU
      exact this
    rw [h4, this]
    exact ⟨V, rfl⟩
  · intro hn
    have hU' : U = [] := by
      rw [he] at hU
      split_ifs at hU with q1 q2
      · have := congrArg (fun p => p.2.table) hU; exact this
      · have := congrArg (fun p => p.2.table) hU; exact this
      · exact absurd ⟨by omega, q2⟩ hn
    subst hU'
    cases fuel with
    | zero => simp at hf
    | succ f =>
      have h1' : Out.ok (⟨[], []⟩ : Ext) = Out.ok ⟨T.flatMap (chunk W m T), T⟩ := by
        rw [← h1, scanLoop]; simp
      injection h1' with h1'
      injection h1' with _ h1'
      exact h1'.symm

end Mosml.Marshal
