import Verif.Expand.Loop

/-!
# Code made of pieces

The decoder is relative to the position it reads at, so the code of several phrases one
after the other, as the linker writes it (src/compiler/Link.sml:159-172), decodes to
their instructions one after the other.
-/

namespace Mosml.Expand

open Mosml.Emit

/-- Targets moved by `d`. -/
abbrev up (d : Nat) (l : Int) : Int := (d : Int) + l

theorem getU16_append {bs r : List Nat} {n : Nat} (suf : List Nat) (h : getU16 bs = some (n, r)) :
    getU16 (bs ++ suf) = some (n, r ++ suf) := by
  match bs, h with
  | b0 :: b1 :: r', h => simp [getU16] at h ⊢; simp [h.1, h.2]

theorem getU32_append {bs r : List Nat} {n : Nat} (suf : List Nat) (h : getU32 bs = some (n, r)) :
    getU32 (bs ++ suf) = some (n, r ++ suf) := by
  match bs, h with
  | b0 :: b1 :: b2 :: b3 :: r', h => simp [getU32] at h ⊢; simp [h.1, h.2]

theorem getS32_append {bs r : List Nat} {v : Int} (suf : List Nat) (h : getS32 bs = some (v, r)) :
    getS32 (bs ++ suf) = some (v, r ++ suf) := by
  unfold getS32 at h ⊢
  rw [Option.map_eq_some_iff] at h
  obtain ⟨⟨n, r'⟩, h1, h2⟩ := h
  simp only [Prod.mk.injEq] at h2
  rw [getU32_append suf h1, Option.map_some]
  simp only [h2.1, h2.2]

theorem readTable_append {orig d : Nat} (suf : List Nat) : ∀ {n : Nat} {bs : List Nat}
    {vs : List Int} {r : List Nat}, readTable orig n bs = some (vs, r) →
    readTable (d + orig) n (bs ++ suf) = some (vs.map (up d), r ++ suf)
  | 0, bs, vs, r, h => by
      simp only [readTable, Option.some.injEq, Prod.mk.injEq] at h
      obtain ⟨rfl, rfl⟩ := h
      rfl
  | n + 1, bs, vs, r, h => by
      simp only [readTable, Option.bind_eq_some_iff, Option.map_eq_some_iff, Prod.mk.injEq] at h
      obtain ⟨⟨v, r1⟩, h1, ⟨vs', r2⟩, h2, h3, h4⟩ := h
      simp only at h2 h3 h4
      subst h3 h4
      simp only [readTable, getS32_append suf h1, Option.bind_some, readTable_append suf h2,
        Option.map_some, List.map_cons, up]
      rw [Nat.cast_add, Int.add_assoc]

theorem read_append {p d : Nat} (suf : List Nat) {bs : List Nat} {a : Arg} {x : Args} {k : Nat}
    {r : List Nat} (h : a.read p bs = some (x, k, r)) :
    a.read (d + p) (bs ++ suf) = some (Args.move (up d) x, k, r ++ suf) := by
  cases a with
  | u8 =>
      match bs, h with
      | b :: r', h =>
        simp only [Arg.read, Option.some.injEq, Prod.mk.injEq] at h
        obtain ⟨rfl, rfl, rfl⟩ := h
        rfl
  | s16 | u16 | slot16 =>
      simp only [Arg.read, Option.map_eq_some_iff, Prod.mk.injEq] at h ⊢
      obtain ⟨⟨n, r'⟩, h1, rfl, rfl, rfl⟩ := h
      exact ⟨_, getU16_append suf h1, rfl, rfl, rfl⟩
  | s32 =>
      simp only [Arg.read, Option.map_eq_some_iff, Prod.mk.injEq] at h ⊢
      obtain ⟨⟨n, r'⟩, h1, rfl, rfl, rfl⟩ := h
      exact ⟨_, getS32_append suf h1, rfl, rfl, rfl⟩
  | slot32 | header =>
      simp only [Arg.read, Option.map_eq_some_iff, Prod.mk.injEq] at h ⊢
      obtain ⟨⟨n, r'⟩, h1, rfl, rfl, rfl⟩ := h
      exact ⟨_, getU32_append suf h1, rfl, rfl, rfl⟩
  | label =>
      simp only [Arg.read, Option.map_eq_some_iff, Prod.mk.injEq] at h ⊢
      obtain ⟨⟨n, r'⟩, h1, rfl, rfl, rfl⟩ := h
      refine ⟨_, getS32_append suf h1, ?_, rfl, rfl⟩
      simp only [Args.move, List.map_cons, List.map_nil, up, Nat.cast_add, Int.add_assoc]
  | table =>
      match bs, h with
      | n :: bs', h =>
        simp only [Arg.read, Option.map_eq_some_iff, Prod.mk.injEq] at h
        obtain ⟨⟨vs, r'⟩, h1, rfl, rfl, rfl⟩ := h
        have := readTable_append (d := d) suf h1
        rw [← Nat.add_assoc] at this
        simp only [List.cons_append, Arg.read, this, Option.map_some, Args.move]

theorem readArgs_append {d : Nat} (suf : List Nat) : ∀ {as : List Arg} {p : Nat} {bs : List Nat}
    {x : Args} {k : Nat} {r : List Nat}, readArgs p bs as = some (x, k, r) →
    readArgs (d + p) (bs ++ suf) as = some (Args.move (up d) x, k, r ++ suf)
  | [], p, bs, x, k, r, h => by
      simp only [readArgs, Option.some.injEq, Prod.mk.injEq] at h
      obtain ⟨rfl, rfl, rfl⟩ := h
      rfl
  | a :: as, p, bs, x, k, r, h => by
      simp only [readArgs, Option.bind_eq_some_iff, Option.map_eq_some_iff, Prod.mk.injEq] at h
      obtain ⟨⟨x1, k1, r1⟩, h1, ⟨x2, k2, r2⟩, h2, rfl, rfl, rfl⟩ := h
      simp only at h1 h2
      have h3 := readArgs_append (d := d) suf h2
      rw [← Nat.add_assoc] at h3
      simp only [readArgs, read_append (d := d) suf h1, Option.bind_some, h3, Option.map_some,
        Args.move, List.map_append]

theorem decode1_append {p d : Nat} (suf : List Nat) {bs : List Nat} {ops : List Raw} {p' : Nat}
    {r : List Nat} (h : decode1 p bs = some (ops, p', r)) :
    decode1 (d + p) (bs ++ suf) = some (ops.map (Op.move (up d)), d + p', r ++ suf) := by
  match bs, h with
  | b :: bs', h =>
    simp only [decode1, Option.bind_eq_some_iff, Option.map_eq_some_iff, Prod.mk.injEq] at h
    obtain ⟨e, he, ⟨x, k, r'⟩, hr, rfl, rfl, rfl⟩ := h
    have h3 := readArgs_append (d := d) suf hr
    rw [← Nat.add_assoc] at h3
    simp only [List.cons_append, decode1, he, Option.bind_some, h3, Option.map_some, Args.move]
    rw [ops_move (up d) e (List.mem_of_getElem? he)]
    simp only [Nat.add_assoc]

theorem decodes_append {p q d : Nat} (suf : List Nat) {bs cs : List Nat} {raws : List Raw}
    (h : Decodes p bs raws q cs) :
    Decodes (d + p) (bs ++ suf) (raws.map (Op.move (up d))) (d + q) (cs ++ suf) := by
  induction h with
  | nil p bs => exact .nil _ _
  | step hd _ ih =>
      rw [List.map_append]
      exact .step (decode1_append suf hd) ih

theorem isGrab_move {P Q : Type} (f : P → Q) (ops : List (Op P Nat)) :
    isGrab (ops.map (Op.move f)) = isGrab ops := by
  simp only [isGrab, List.any_map]
  rfl

/-- As `Whole`, but branches may lead to the end of the code. -/
structure Open (code : List Nat) : Prop where
  read : ∃ raws, Decodes 0 code raws code.length [] ∧
    ∀ a ∈ raws, ∀ l ∈ a.labels, ∃ n : Nat, l = n ∧ Starts code n

theorem Starts.le {code : List Nat} {p : Nat} (h : Starts code p) : p ≤ code.length := by
  induction h with
  | zero => exact Nat.zero_le _
  | next _ hd _ =>
      obtain ⟨_, op, os, k, w, s⟩ := step_info hd
      exact s.le

theorem decodes_starts {code : List Nat} {p q : Nat} {bs cs : List Nat} {raws : List Raw}
    (h : Decodes p bs raws q cs) : bs = code.drop p → Starts code p → Starts code q := by
  induction h with
  | nil p bs => intro _ hp; exact hp
  | @step p p' e bs bs' cs xs ys hd _ ih =>
      intro hb hp
      subst hb
      exact ih (step_info hd).1 (.next hp hd)

theorem decodes_lt {code : List Nat} {p q : Nat} {bs cs : List Nat} {raws : List Raw}
    (h : Decodes p bs raws q cs) : bs = code.drop p → p ≤ q ∧ (raws ≠ [] → p < q) := by
  induction h with
  | nil p bs => intro _; exact ⟨Nat.le_refl _, fun h => absurd rfl h⟩
  | @step p p' e bs bs' cs xs ys hd _ ih =>
      intro hb
      subst hb
      obtain ⟨hb', _, _, _, _, s⟩ := step_info hd
      have := s.next
      have := (ih hb').1
      exact ⟨by omega, fun _ => by omega⟩

theorem Starts.reach {code : List Nat} {p : Nat} (h : Starts code p) : ∃ q, Reach code 0 0 p q := by
  induction h with
  | zero => exact ⟨0, .refl _ _⟩
  | next _ hd ih =>
      obtain ⟨q, hq⟩ := ih
      obtain ⟨_, op, os, k, w, s⟩ := step_info hd
      exact ⟨_, hq.trans (.step hd s.size1 (.refl _ _))⟩

theorem decodes_start {code : List Nat} {p e : Nat} {bs cs : List Nat} {raws : List Raw}
    (h : Decodes p bs raws e cs) : bs = code.drop p → e = code.length → cs = [] →
    ∀ q i j, Reach code p q i j → i < code.length →
    ∃ ops i' r, decode1 i (code.drop i) = some (ops, i', r) := by
  induction h with
  | nil p bs =>
      intro hb he hc q i j hr hi
      subst he
      cases hr with
      | refl => omega
      | step hd _ _ => rw [List.drop_length] at hd; simp [decode1] at hd
  | @step p p' e bs bs' cs xs ys hd _ ih =>
      intro hb he hc q i j hr hi
      subst hb
      obtain ⟨hb', op, os, k, w, s⟩ := step_info hd
      rcases reach_cases hr hd s.size1 with ⟨rfl, rfl⟩ | hr'
      · exact ⟨_, _, _, hd⟩
      · exact ih hb' he hc _ i j hr' hi

theorem Open.decode {code : List Nat} (h : Open code) {p : Nat} (hp : Starts code p)
    (hlt : p < code.length) : ∃ ops p' r, decode1 p (code.drop p) = some (ops, p', r) := by
  obtain ⟨raws, hd, _⟩ := h.read
  obtain ⟨q, hq⟩ := hp.reach
  exact decodes_start hd (by simp) rfl rfl 0 p q hq hlt

theorem up_zero : (up 0) = id := by funext l; simp [up]

theorem Starts.left {A B : List Nat} {p : Nat} (h : Starts A p) : Starts (A ++ B) p := by
  induction h with
  | zero => exact .zero
  | @next p p' ops r hp hd ih =>
      have hle := hp.le
      refine .next (ops := ops.map (Op.move (up 0))) (r := r ++ B) ih ?_
      have := decode1_append (d := 0) B hd
      rw [Nat.zero_add, Nat.zero_add] at this
      rw [List.drop_append_of_le_length hle]
      exact this

theorem Starts.right {A B : List Nat} (hA : Starts A A.length) {p : Nat} (h : Starts B p) :
    Starts (A ++ B) (A.length + p) := by
  induction h with
  | zero => exact hA.left
  | @next p p' ops r hp hd ih =>
      refine .next (ops := ops.map (Op.move (up A.length))) (r := r ++ []) ih ?_
      have := decode1_append (d := A.length) [] hd
      rw [List.drop_append, List.drop_eq_nil_of_le (by omega), List.nil_append,
        Nat.add_sub_cancel_left]
      rw [List.append_nil] at this
      exact this

theorem Open.last {A : List Nat} (h : Open A) : Starts A A.length := by
  obtain ⟨raws, hd, _⟩ := h.read
  exact decodes_starts hd (by simp) .zero

theorem starts_append {A B : List Nat} (hA : Open A) (hB : Open B) {p : Nat} (h : Starts (A ++ B) p) :
    (Starts A p ∧ p < A.length) ∨ ∃ n, p = A.length + n ∧ Starts B n := by
  induction h with
  | zero =>
      rcases Nat.eq_zero_or_pos A.length with h0 | h0
      · exact .inr ⟨0, by omega, .zero⟩
      · exact .inl ⟨.zero, h0⟩
  | @next p p' ops r hp hd ih =>
      rcases ih with ⟨h1, h2⟩ | ⟨n, rfl, h1⟩
      · obtain ⟨ops', q, r', hd'⟩ := hA.decode h1 h2
        have h3 := decode1_append (d := 0) B hd'
        rw [Nat.zero_add, Nat.zero_add, ← List.drop_append_of_le_length (Nat.le_of_lt h2)] at h3
        rw [hd] at h3
        simp only [Option.some.injEq, Prod.mk.injEq] at h3
        obtain ⟨_, rfl, _⟩ := h3
        have hs := Starts.next h1 hd'
        rcases Nat.lt_or_ge p' A.length with h4 | h4
        · exact .inl ⟨hs, h4⟩
        · exact .inr ⟨0, by have := hs.le; omega, .zero⟩
      · rw [List.drop_append, List.drop_eq_nil_of_le (by omega), List.nil_append,
          Nat.add_sub_cancel_left] at hd
        rcases Nat.lt_or_ge n B.length with h2 | h2
        · obtain ⟨ops', q, r', hd'⟩ := hB.decode h1 h2
          have h3 := decode1_append (d := A.length) [] hd'
          rw [List.append_nil, hd] at h3
          simp only [Option.some.injEq, Prod.mk.injEq] at h3
          exact .inr ⟨q, h3.2.1, .next h1 hd'⟩
        · rw [List.drop_eq_nil_of_le h2] at hd
          simp [decode1] at hd

theorem Open.append {A B : List Nat} (hA : Open A) (hB : Open B) : Open (A ++ B) := by
  obtain ⟨ra, da, la⟩ := hA.read
  obtain ⟨rb, db, lb⟩ := hB.read
  have h1 := decodes_append (d := 0) B da
  have h2 := decodes_append (d := A.length) [] db
  rw [Nat.zero_add, Nat.zero_add, List.nil_append] at h1
  rw [List.append_nil, List.append_nil, Nat.add_zero] at h2
  refine ⟨_, by rw [List.length_append]; exact h1.trans h2, ?_⟩
  intro a ha l hl
  rcases List.mem_append.1 ha with ha | ha
  · obtain ⟨a', ha', rfl⟩ := List.mem_map.1 ha
    simp only [Op.move, up_zero, List.map_id] at hl
    obtain ⟨n, h3, h4⟩ := la a' ha' l hl
    exact ⟨n, h3, h4.left⟩
  · obtain ⟨a', ha', rfl⟩ := List.mem_map.1 ha
    simp only [Op.move, List.mem_map] at hl
    obtain ⟨l', hl', rfl⟩ := hl
    obtain ⟨n, rfl, h4⟩ := lb a' ha' l' hl'
    exact ⟨A.length + n, by simp [up], Starts.right hA.last h4⟩

theorem Grabs.append {A B : List Nat} (hA : Open A) (hB : Open B) (gA : Grabs A) (gB : Grabs B) :
    Grabs (A ++ B) := by
  intro p hp ops p' r hd hg
  rcases starts_append hA hB hp with ⟨h1, h2⟩ | ⟨n, rfl, h1⟩
  · obtain ⟨ops', q, r', hd'⟩ := hA.decode h1 h2
    have h3 := decode1_append (d := 0) B hd'
    rw [Nat.zero_add, Nat.zero_add, ← List.drop_append_of_le_length (Nat.le_of_lt h2), hd] at h3
    simp only [Option.some.injEq, Prod.mk.injEq] at h3
    rw [h3.1, isGrab_move] at hg
    obtain ⟨p0, rfl, h4, h5⟩ := gA p h1 ops' q r' hd' hg
    refine ⟨p0, rfl, h4.left, ?_⟩
    rw [List.getElem?_append_left (by omega), h5]
  · rw [List.drop_append, List.drop_eq_nil_of_le (by omega), List.nil_append,
      Nat.add_sub_cancel_left] at hd
    rcases Nat.lt_or_ge n B.length with h2 | h2
    · obtain ⟨ops', q, r', hd'⟩ := hB.decode h1 h2
      have h3 := decode1_append (d := A.length) [] hd'
      rw [List.append_nil, hd] at h3
      simp only [Option.some.injEq, Prod.mk.injEq] at h3
      rw [h3.1, isGrab_move] at hg
      obtain ⟨p0, rfl, h4, h5⟩ := gB n h1 ops' q r' hd' hg
      refine ⟨A.length + p0, by omega, Starts.right hA.last h4, ?_⟩
      rw [List.getElem?_append_right (by omega), Nat.add_sub_cancel_left, h5]
    · rw [List.drop_eq_nil_of_le h2] at hd
      simp [decode1] at hd

theorem open_nil : Open [] := ⟨[], .nil _ _, by simp⟩

theorem grabs_nil : Grabs [] := by
  intro p hp ops p' r hd
  simp [decode1] at hd

theorem stop_decode : decode1 0 [Opc.STOP] = some ([{ kind := .stop }], 1, []) := rfl

theorem open_stop : Open [Opc.STOP] :=
  ⟨_, .step stop_decode (.nil _ _), by simp⟩

theorem grabs_stop : Grabs [Opc.STOP] := by
  intro p hp ops p' r hd hg
  rcases Nat.eq_zero_or_pos p with rfl | h
  · rw [List.drop_zero, stop_decode] at hd
    cases hd
    exact absurd hg (by decide)
  · rw [List.drop_eq_nil_of_le (by simp; omega)] at hd
    simp [decode1] at hd

/-- Code followed by STOP: the branches to its end lead to the STOP. -/
theorem Open.whole {A : List Nat} (h : Open A) : Whole (A ++ [Opc.STOP]) := by
  obtain ⟨ra, da, la⟩ := h.read
  have h1 := decodes_append (d := 0) [Opc.STOP] da
  have h2 := decodes_append (d := A.length) [] (Decodes.step stop_decode (.nil _ _))
  rw [Nat.zero_add, Nat.zero_add, List.nil_append] at h1
  rw [List.append_nil, List.append_nil, Nat.add_zero] at h2
  refine ⟨_, by rw [List.length_append]; exact h1.trans h2, ?_⟩
  intro a ha l hl
  rcases List.mem_append.1 ha with ha | ha
  · obtain ⟨a', ha', rfl⟩ := List.mem_map.1 ha
    simp only [Op.move, up_zero, List.map_id] at hl
    obtain ⟨n, h3, h4⟩ := la a' ha' l hl
    exact ⟨n, h3, h4.left, by have := h4.le; simp; omega⟩
  · obtain ⟨a', ha', rfl⟩ := List.mem_map.1 ha
    simp at ha'
    subst ha'
    simp [Op.move] at hl

end Mosml.Expand
