import Verif.Expand.Image
import Verif.Emit.Props

/-!
# C62: threaded code does what the bytecode does
-/

namespace Mosml.Expand

open Mosml.Emit

theorem Reach.linear {code : List Nat} {a b p q p' q' : Nat} (h : Reach code a b p q)
    (h' : Reach code a b p' q') (hle : p ≤ p') : Reach code p q p' q' := by
  induction h with
  | refl => exact h'
  | step hd hs hr ih =>
      rcases reach_cases h' hd hs with ⟨rfl, rfl⟩ | h2
      · obtain ⟨_, _, _, _, _, s⟩ := step_info hd
        have := s.next
        have := hr.le
        omega
      · exact ih h2 hle

theorem Reach.lt {code : List Nat} {p q p' q' : Nat} (h : Reach code p q p' q') (hlt : p < p') :
    q < q' := by
  cases h with
  | refl => omega
  | step hd hs hr =>
      obtain ⟨_, _, _, _, _, s⟩ := step_info hd
      rw [s.size1] at hs
      cases hs
      have := hr.le
      omega

theorem decodes_mem {code : List Nat} {p e : Nat} {bs cs : List Nat} {raws : List Raw}
    (h : Decodes p bs raws e cs) : bs = code.drop p → e = code.length → cs = [] →
    ∀ q i j, Reach code p q i j → ∀ ops i' r, decode1 i (code.drop i) = some (ops, i', r) →
    ∀ a ∈ ops, a ∈ raws := by
  induction h with
  | nil p bs =>
      intro hb he hc q i j hr ops i' r hd
      subst he
      cases hr with
      | refl => rw [List.drop_length] at hd; simp [decode1] at hd
      | step hd _ _ => rw [List.drop_length] at hd; simp [decode1] at hd
  | @step p p' e bs bs' cs xs ys hd _ ih =>
      intro hb he hc q i j hr ops i' r hd' a ha
      subst hb
      obtain ⟨hb', op, os, k, w, s⟩ := step_info hd
      rcases reach_cases hr hd s.size1 with ⟨rfl, rfl⟩ | hr'
      · rw [hd] at hd'
        cases hd'
        exact List.mem_append_left _ ha
      · exact List.mem_append_right _ (ih hb' he hc _ i j hr' ops i' r hd' a ha)

/-- Bytecode that can be read from beginning to end and whose branches lead to
instructions is expanded (nothing is read or written out of bounds, no opcode is
rejected), and the threaded code has the same instructions. -/
theorem C62_expansion {code : List Nat} (h : Whole code) :
    ∃ prog real, expandcode code = some prog ∧ Expansion code prog real := by
  obtain ⟨raws, hd, ht⟩ := h.read
  obtain ⟨n, m, h1, h2, _, h4, h5⟩ := mapLoop_ok hd (by simp) rfl rfl (code.length + 1) 0
    (List.replicate code.length (-1)) (by omega) (by simp)
  have hin : ∀ a ∈ raws, ∀ l ∈ a.labels, Inside code.length l := by
    intro a ha l hl
    obtain ⟨k, rfl, _, hk⟩ := ht a ha l hl
    exact ⟨by omega, by simpa using hk⟩
  obtain ⟨ws, e1, e2, e3⟩ := expLoop_ok h2 hd (by simp) rfl rfl hin (code.length + 1) []
    (by omega) h4
  simp only [List.nil_append, List.length_nil, Nat.zero_add] at e1 e2 e3
  let real : Nat → Nat := fun p => if p = code.length then n else (m.getD p 0).toNat
  have hreal : ∀ p q, Reach code 0 0 p q → p ≤ code.length → real p = q := by
    intro p q hr hle
    obtain ⟨a, b⟩ := h5 p q hr
    simp only [real]
    split
    next he => exact (b he).symm
    next he =>
      rw [List.getD_eq_getElem?_getD, a (by omega), Option.getD_some, Int.toNat_natCast]
  have hstart : ∀ p, Starts code p → Reach code 0 0 p (real p) := by
    intro p hp
    obtain ⟨q, hq⟩ := hp.reach
    rw [hreal p q hq hp.le]
    exact hq
  refine ⟨ws, real, ?_, ?_, ?_, ?_, ?_⟩
  · simp only [expandcode, buildrealmap, h1, Option.bind_some, e1]
  · exact hreal 0 0 (.refl _ _) (Nat.zero_le _)
  · simp only [real, if_true, e2]
  · intro p hp ops p' r hdec
    obtain ⟨j', a1, a2⟩ := e3 p (real p) (hstart p hp) ops p' r hdec
    have hp' : real p' = j' :=
      hreal p' j' ((hstart p hp).trans a1) (Starts.next hp hdec).le
    rw [a2, hp']
    have hmem : ∀ a ∈ ops, ∀ l ∈ a.labels, tgt m l = (real l.toNat : Int) := by
      intro a ha l hl
      have hm := decodes_mem hd (by simp) rfl rfl 0 p (real p) (hstart p hp) ops p' r hdec a ha
      obtain ⟨k, rfl, hk, hk'⟩ := ht a hm l hl
      have hne : k ≠ code.length := by omega
      have hv := (h5 k (real k) (hstart k hk)).1 hk'
      simp only [tgt, Int.toNat_natCast]
      rw [List.getD_eq_getElem?_getD, hv, Option.getD_some]
    congr 2
    refine List.map_congr_left fun a ha => ?_
    simp only [Op.move, Op.mk.injEq, true_and, and_true]
    exact List.map_congr_left (hmem a ha)
  · intro p p' hp hp' hlt
    exact ((hstart p hp).linear (hstart p' hp') (Nat.le_of_lt hlt)).lt hlt

/-- The expansion of given code is unique, so any result of `expandcode` is as described. -/
theorem C62_result {code : List Nat} {prog : List Word} (h : Whole code)
    (he : expandcode code = some prog) : ∃ real, Expansion code prog real := by
  obtain ⟨prog', real, h1, h2⟩ := C62_expansion h
  rw [he] at h1
  cases h1
  exact ⟨real, h2⟩

/-! ## Execution -/

/-- One fetch, translated. -/
theorem decode_unique_op {code : List Nat} {p : Nat} {ops : List Raw} {p' : Nat} {r : List Nat}
    {b : Nat} {e : Entry} (h : decode1 p (code.drop p) = some (ops, p', r))
    (hb : code[p]? = some b) (he : table[b]? = some e) (ha : e.args = []) : p' = p + 1 := by
  have hp : p < code.length := by
    rw [List.getElem?_eq_some_iff] at hb; exact hb.1
  rw [List.drop_eq_getElem_cons hp] at h
  rw [List.getElem?_eq_getElem hp, Option.some.injEq] at hb
  simp only [decode1, hb, he, Option.bind_some, ha, readArgs, Option.map_some, Option.some.injEq,
    Prod.mk.injEq] at h
  omega

theorem restart_entry : ∃ e, table[Opc.RESTART]? = some e ∧ e.args = [] ∧
    ∀ ns ls gs, e.ops ns ls gs = [{ kind := .restart }] := ⟨_, rfl, rfl, fun _ _ _ => rfl⟩

theorem restart_only : ∀ e ∈ table, e.args = [] ∨
    ∀ ns ls gs, e.ops ns ls gs ≠ [{ kind := .restart }] := by
  unfold table
  repeat' first
    | (refine List.forall_mem_cons.2 ⟨.inl rfl, ?_⟩)
    | (refine List.forall_mem_cons.2 ⟨.inr fun _ _ _ h => by simp at h, ?_⟩)
  intro e he; simp at he

/-- Only GRAB grabs, and it has one byte of operand. -/
theorem grab_entry : ∀ e ∈ table, (∀ ns ls gs, isGrab (e.ops ns ls gs) = false) ∨
    e.args = [.u8] := by
  unfold table
  repeat' first
    | (refine List.forall_mem_cons.2 ⟨.inl fun _ _ _ => rfl, ?_⟩)
    | (refine List.forall_mem_cons.2 ⟨.inr rfl, ?_⟩)
  intro e he; simp at he

theorem grab_size {code : List Nat} {p : Nat} {ops : List Raw} {p' : Nat} {r : List Nat}
    (h : decode1 p (code.drop p) = some (ops, p', r)) (hg : isGrab ops = true) : p' = p + 2 := by
  cases hc : code.drop p with
  | nil => rw [hc] at h; simp [decode1] at h
  | cons b bs =>
      rw [hc] at h
      simp only [decode1, Option.bind_eq_some_iff, Option.map_eq_some_iff, Prod.mk.injEq] at h
      obtain ⟨e, he, ⟨x, k, r'⟩, hr, h1, h2, h3⟩ := h
      rcases grab_entry e (List.mem_of_getElem? he) with hn | hs
      · simp only at h1
        rw [← h1, hn] at hg
        exact absurd hg (by decide)
      · rw [hs] at hr
        match bs, hr with
        | b' :: bs', hr =>
          simp only [readArgs, Arg.read, Option.bind_some, Option.map_some, Option.some.injEq,
            Prod.mk.injEq] at hr
          obtain ⟨_, rfl, _⟩ := hr
          simp only at h2
          omega

/-- The same in threaded code. -/
theorem tgrab_size {q : Nat} {ws : List Word} {ops : List Raw} {q' : Nat} {r : List Word}
    (h : tdecode1 q ws = some (ops, q', r)) (hg : isGrab ops = true) : q' = q + 2 := by
  match ws, h with
  | .instr b :: bs, h =>
      simp only [tdecode1, Option.bind_eq_some_iff, Option.map_eq_some_iff, Prod.mk.injEq] at h
      obtain ⟨e, he, ⟨x, k, r'⟩, hr, h1, h2, h3⟩ := h
      rcases grab_entry e (List.mem_of_getElem? he) with hn | hs
      · simp only at h1
        rw [← h1, hn] at hg
        exact absurd hg (by decide)
      · rw [hs] at hr
        match bs, hr with
        | .num b' :: bs', hr =>
          simp only [treadArgs, tread, Option.bind_some, Option.map_some, Option.some.injEq,
            Prod.mk.injEq] at hr
          obtain ⟨_, rfl, _⟩ := hr
          simp only at h2
          omega

/-- An instruction of the system, with its address operands known to be instructions. -/
def Fetched.map {P Q : Type} (f : P → Q) (x : Fetched P) : Fetched Q where
  ops := x.ops.map (Op.move f)
  next := f x.next
  back := x.back.map f

theorem fetch_same {ι : Type} {code : ι → List Nat} {prog : ι → List Word}
    {real : ι → Nat → Nat} (hw : ∀ i, Whole (code i)) (hg : ∀ i, Grabs (code i))
    (he : ∀ i, Expansion (code i) (prog i) (real i)) (a : Ptr code) :
    ∃ x : Option (Fetched (Ptr code)), fetchB code (ptrB a) = x.map (Fetched.map ptrB) ∧
      fetchT prog (ptrT real a) = x.map (Fetched.map (ptrT real)) := by
  obtain ⟨i, p, hp⟩ := a
  obtain ⟨raws, hd, ht⟩ := (hw i).read
  obtain ⟨q, hq⟩ := hp.reach
  rcases Nat.lt_or_ge p (code i).length with hlt | hge
  · obtain ⟨ops, p', r, h1⟩ := decodes_start hd (by simp) rfl rfl 0 p q hq hlt
    have h2 := (he i).fetch p hp ops p' r h1
    have hlab : ∀ o ∈ ops, ∀ l ∈ o.labels, Starts (code i) l.toNat := by
      intro o ho l hl
      obtain ⟨k, rfl, hk, _⟩ := ht o (decodes_mem hd (by simp) rfl rfl 0 p q hq ops p' r h1 o ho) l hl
      simpa using hk
    classical
    let f : Int → Ptr code := fun l =>
      if h : Starts (code i) l.toNat then ⟨i, l.toNat, h⟩ else ⟨i, 0, .zero⟩
    have hf : ∀ o ∈ ops, ∀ l ∈ o.labels, (f l).block = i ∧ (f l).pos = l.toNat := by
      intro o ho l hl
      have : f l = ⟨i, l.toNat, hlab o ho l hl⟩ := dif_pos (hlab o ho l hl)
      rw [this]
      exact ⟨rfl, rfl⟩
    have hback : ∀ (hgr : isGrab ops = true), Starts (code i) (p' - 3) ∧
        real i p' - 3 = real i (p' - 3) := by
      intro hgr
      obtain ⟨p0, rfl, s0, r0⟩ := hg i p hp ops p' r h1 hgr
      obtain ⟨e, e1, e2, e3⟩ := restart_entry
      have hp0 : p0 < (code i).length := by omega
      have hd0 : decode1 p0 ((code i).drop p0) =
          some ([{ kind := .restart }], p0 + 1, (code i).drop (p0 + 1)) := by
        rw [List.drop_eq_getElem_cons hp0]
        rw [List.getElem?_eq_getElem hp0, Option.some.injEq] at r0
        simp only [decode1, r0, e1, Option.bind_some, e2, readArgs, Option.map_some, e3,
          Nat.add_zero]
      have h3 := (he i).fetch p0 s0 _ _ _ hd0
      have hsz := grab_size h1 hgr
      have hsz' := tgrab_size h2 (by rw [isGrab_move]; exact hgr)
      have hone : real i (p0 + 1) = real i p0 + 1 := by
        match hws : (prog i).drop (real i p0), h3 with
        | .instr b :: bs, h3 =>
          simp only [tdecode1, Option.bind_eq_some_iff, Option.map_eq_some_iff, Prod.mk.injEq] at h3
          obtain ⟨e', he', ⟨x, k, r'⟩, hr, h4, h5, h6⟩ := h3
          simp only at h4 h5 h6
          have hk : k = 0 := by
            have hl : e'.args = [] ∨ ∀ ns ls gs, e'.ops ns ls gs ≠ [{ kind := .restart }] :=
              restart_only e' (List.mem_of_getElem? he')
            rcases hl with hl | hl
            · rw [hl] at hr
              simp only [treadArgs, Option.some.injEq, Prod.mk.injEq] at hr
              exact hr.2.1.symm
            · exact absurd h4 (hl _ _ _)
          omega
      have h0 : p' - 3 = p0 := by omega
      rw [h0]
      exact ⟨s0, by omega⟩
    let x : Fetched (Ptr code) :=
      { ops := ops.map (Op.move f)
        next := ⟨i, p', Starts.next hp h1⟩
        back := if hgr : isGrab ops = true then
            some ⟨i, p' - 3, (hback hgr).1⟩
          else none }
    refine ⟨some x, ?_, ?_⟩
    · simp only [fetchB, ptrB, h1, Option.map_some, Option.some.injEq, mkFetched, Fetched.map, x,
        List.map_map, Fetched.mk.injEq, true_and]
      refine ⟨List.map_congr_left fun o ho => ?_, ?_⟩
      · simp only [Op.move, Function.comp, List.map_map, Op.mk.injEq, true_and, and_true]
        exact List.map_congr_left fun l hl => by
          simp only [Function.comp, ptrB, hf o ho l hl]
      · by_cases hgr : isGrab ops = true
        · rw [if_pos hgr, dif_pos hgr]; rfl
        · rw [if_neg hgr, dif_neg hgr]; rfl
    · simp only [fetchT, ptrT, h2, Option.map_some, Option.some.injEq, mkFetched, Fetched.map, x,
        List.map_map, Fetched.mk.injEq, true_and, isGrab_move]
      refine ⟨List.map_congr_left fun o ho => ?_, ?_⟩
      · simp only [Op.move, Function.comp, List.map_map, Op.mk.injEq, true_and, and_true]
        refine List.map_congr_left fun l hl => ?_
        simp only [Function.comp, ptrT, hf o ho l hl, Int.toNat_natCast]
      · by_cases hgr : isGrab ops = true
        · rw [if_pos hgr, dif_pos hgr]
          simp only [Option.map_some, ptrT, (hback hgr).2]
        · rw [if_neg hgr, dif_neg hgr]; rfl
  · have hpe : p = (code i).length := by have := hp.le; omega
    subst hpe
    refine ⟨none, ?_, ?_⟩
    · simp only [fetchB, ptrB, List.drop_length, decode1, Option.map_none]
    · simp only [fetchT, ptrT, (he i).last, List.drop_length, tdecode1, Option.map_none]

/-- Threaded code does what the bytecode does.  Given blocks of bytecode and their
expansions, any machine that treats code addresses as opaque goes through the same
states on both: after any number of instructions either both have stopped or they are at
corresponding addresses with the same data, every address in the data being translated. -/
theorem C62_same_execution {ι : Type} {code : ι → List Nat} {prog : ι → List Word}
    (hw : ∀ i, Whole (code i)) (hg : ∀ i, Grabs (code i))
    (he : ∀ i, expandcode (code i) = some (prog i)) :
    ∃ real : ι → Nat → Nat, (∀ i, Expansion (code i) (prog i) (real i)) ∧
      SameRuns code prog real := by
  choose real hreal using fun i => C62_result (hw i) (he i)
  refine ⟨real, hreal, ?_⟩
  intro M n
  induction n with
  | zero => intro a d; exact ⟨some (a, d), rfl, rfl⟩
  | succ n ih =>
      intro a d
      obtain ⟨x, h1, h2⟩ := fetch_same hw hg hreal a
      cases x with
      | none =>
          refine ⟨none, ?_, ?_⟩
          · simp only [Machine.run, h1, Option.map_none, Option.bind_none]
          · simp only [Machine.run, h2, Option.map_none, Option.bind_none]
      | some x =>
          have n1 := M.natural ptrB x.ops x.next x.back d
          have n2 := M.natural (ptrT real) x.ops x.next x.back d
          cases hx : M.exec x.ops x.next x.back d with
          | none =>
              rw [hx] at n1 n2
              refine ⟨none, ?_, ?_⟩
              · simp only [Machine.run, h1, Option.map_some, Option.bind_some, Fetched.map, n1,
                  Option.map_none, Option.bind_none]
              · simp only [Machine.run, h2, Option.map_some, Option.bind_some, Fetched.map, n2,
                  Option.map_none, Option.bind_none]
          | some r =>
              rw [hx] at n1 n2
              obtain ⟨res, r1, r2⟩ := ih r.1 r.2
              refine ⟨res, ?_, ?_⟩
              · simp only [Machine.run, h1, Option.map_some, Option.bind_some, Fetched.map, n1]
                exact r1
              · simp only [Machine.run, h2, Option.map_some, Option.bind_some, Fetched.map, n2]
                exact r2

/-! ## From instructions to threaded code -/

theorem Expansion.decodes {code : List Nat} {prog : List Word} {real : Nat → Nat}
    (he : Expansion code prog real) {p q : Nat} {bs cs : List Nat} {raws : List Raw}
    (h : Decodes p bs raws q cs) : bs = code.drop p → Starts code p →
    TDecodes (real p) (prog.drop (real p)) (raws.map (Op.move fun l => (real l.toNat : Int)))
      (real q) (prog.drop (real q)) := by
  induction h with
  | nil p bs => intro _ _; exact .nil _ _
  | @step p p' e bs bs' cs xs ys hd _ ih =>
      intro hb hp
      subst hb
      rw [List.map_append]
      exact .step (he.fetch p hp _ _ _ hd) (ih (step_info hd).1 (.next hp hd))

theorem matches_move {same : SC → SC → Bool} {lk : Lk} {D : Nat → Nat} {real : Nat → Nat}
    {raws : List Raw} {ops : List (Op Nat Glob)} (h : Matches same lk D raws ops) :
    Matches same lk (fun l => real (D l)) (raws.map (Op.move fun l => (real l.toNat : Int))) ops := by
  induction h with
  | nil => exact .nil
  | cons hd _ ih =>
      refine .cons ⟨hd.kind, hd.nums, ?_, hd.globs⟩ ih
      simp only [Op.move]
      rw [List.forall₂_map_left_iff]
      refine hd.labels.imp ?_
      rintro t l rfl
      simp

theorem matches_ne {same : SC → SC → Bool} {lk : Lk} {D : Nat → Nat}
    {raws : List Raw} {ops : List (Op Nat Glob)} (h : Matches same lk D raws ops) (hne : ops ≠ []) :
    raws ≠ [] := by
  rintro rfl
  cases h
  exact hne rfl

theorem forall₂_mem {α β : Type} {R : α → β → Prop} {xs : List α} {ys : List β}
    (h : List.Forall₂ R xs ys) {x : α} (hx : x ∈ xs) : ∃ y ∈ ys, R x y := by
  induction h with
  | nil => simp at hx
  | cons hr _ ih =>
      rcases List.mem_cons.1 hx with rfl | hx
      · exact ⟨_, List.mem_cons_self .., hr⟩
      · obtain ⟨y, h1, h2⟩ := ih hx
        exact ⟨y, List.mem_cons_of_mem _ h1, h2⟩

/-- From a text to its threaded code: if the bytes are the text, every label that is
referred to is in the text and something follows every label, then expansion succeeds
and the words are the text. -/
theorem C62_text_threaded {same : SC → SC → Bool} {T : Text} {code : List Nat} {lk : Lk}
    (h : Assembled same T code lk)
    (hlab : ∀ op ∈ T.flatMap itemOps, ∀ l ∈ op.labels, some (Zam.label l) ∈ T)
    (hend : ∀ pre l post, T = pre ++ some (.label l) :: post → post.flatMap itemOps ≠ []) :
    ∃ prog, expandcode code = some prog ∧ Threaded same T prog lk := by
  obtain ⟨D, ⟨raws, hd, hm⟩, hl⟩ := h
  have hD : ∀ l, some (Zam.label l) ∈ T → Starts code (D l) ∧ D l < code.length := by
    intro l hmem
    obtain ⟨pre, post, hT⟩ := List.append_of_mem hmem
    obtain ⟨r1, r2, h1, h2, _, h4⟩ := hl pre l post hT
    refine ⟨decodes_starts h1 (by simp) .zero, (decodes_lt h2 rfl).2 (matches_ne h4 (hend _ _ _ hT))⟩
  have hw : Whole code := by
    refine ⟨raws, hd, ?_⟩
    intro a ha t ht
    have key : ∀ (rs : List Raw) (os : List (Op Nat Glob)), Matches same lk D rs os → a ∈ rs →
        ∃ o ∈ os, ∃ l ∈ o.labels, t = (D l : Int) := by
      intro rs os hmm
      induction hmm with
      | nil => intro h; simp at h
      | @cons x o rs os hx _ ih =>
          intro h
          rcases List.mem_cons.1 h with rfl | h
          · refine ⟨o, List.mem_cons_self .., ?_⟩
            obtain ⟨l, h1, h2⟩ := forall₂_mem hx.labels ht
            exact ⟨l, h1, h2⟩
          · obtain ⟨o', h1, h2⟩ := ih h
            exact ⟨o', List.mem_cons_of_mem _ h1, h2⟩
    obtain ⟨o, ho, l, hl', e⟩ := key raws _ hm ha
    exact ⟨D l, e, hD l (hlab o ho l hl')⟩
  obtain ⟨prog, real, h1, h2⟩ := C62_expansion hw
  refine ⟨prog, h1, fun l => real (D l), ⟨_, ?_, matches_move hm⟩, ?_⟩
  · have := h2.decodes hd (by simp) .zero
    rw [h2.zero, h2.last, List.drop_length] at this
    simpa using this
  · intro pre l post hT
    obtain ⟨r1, r2, d1, d2, m1, m2⟩ := hl pre l post hT
    have t1 := h2.decodes d1 (by simp) .zero
    have t2 := h2.decodes d2 rfl (hD l (by rw [hT]; simp)).1
    rw [h2.zero] at t1
    rw [h2.last, List.drop_length] at t2
    exact ⟨_, _, by simpa using t1, t2, matches_move m1, matches_move m2⟩

/-- A phrase entered interactively, from instructions to threaded code: emitted,
linked and expanded (Load_phr.sml:36-55, meta.c:19-49), the words are the instructions.
`Assembled` is for `code`, the part of the buffer that is in use. -/
theorem C62_load_threaded_partial {same : SC → SC → Bool} {buf : List Nat} {inits funcs : List Zam}
    {st : St} {lk lk' : Lk} {lits : List (SC × List Nat)} {out : List Nat}
    (hbuf : 0 < buf.length) (hemit : emitLoad same buf inits funcs = some st)
    (hfit : Fit (loadText inits funcs) lk)
    (hend : ∀ pre l post, loadText inits funcs = pre ++ some (.label l) :: post →
      post.flatMap itemOps ≠ [])
    (hlen : st.pos < 2 ^ 31) (hl : lits.Perm st.lits)
    (hlink : patchObject st.buf 0 lits st.relocs.reverse lk = some (out, lk'))
    (hcnt : lk'.cnt ≤ 2 ^ 32) :
    ∃ prog, expandcode (out.take st.pos) = some prog ∧
      Threaded same (loadText inits funcs) prog lk' := by
  obtain ⟨_, code, h1, h2, h3⟩ := C55_load_decodes_partial hbuf hemit hfit hlen hl hlink hcnt
  have : out.take st.pos = code := by rw [h2, ← h1, List.take_left]
  rw [this]
  exact C62_text_threaded h3 hfit.labels hend

/-! ## Linked programs -/

/-- Every GRAB in the text follows a RESTART and the label of its function, as
src/compiler/Back.sml:836-838 arranges. -/
def GrabText (T : Text) : Prop :=
  ∀ pre n post, T = pre ++ some (.grab n) :: post →
    ∃ pre' l, pre = pre' ++ [some .restart, some (.label l)]

/-- Splitting the reading of code at the start of an instruction. -/
theorem decodes_split {code : List Nat} {p e : Nat} {bs cs : List Nat} {raws : List Raw}
    (h : Decodes p bs raws e cs) : bs = code.drop p → e = code.length → cs = [] →
    ∀ q i j, Reach code p q i j → ∀ ops i' r, decode1 i (code.drop i) = some (ops, i', r) →
    ∃ ra rb, raws = ra ++ (ops ++ rb) ∧ Decodes p bs ra i (code.drop i) := by
  induction h with
  | nil p bs =>
      intro hb he hc q i j hr ops i' r hd
      subst he
      cases hr with
      | refl => rw [List.drop_length] at hd; simp [decode1] at hd
      | step hd _ _ => rw [List.drop_length] at hd; simp [decode1] at hd
  | @step p p' e bs bs' cs xs ys hd _ ih =>
      intro hb he hc q i j hr ops i' r hd'
      subst hb
      obtain ⟨hb', op, os, k, w, s⟩ := step_info hd
      rcases reach_cases hr hd s.size1 with ⟨rfl, rfl⟩ | hr'
      · rw [hd] at hd'
        cases hd'
        exact ⟨[], ys, rfl, .nil _ _⟩
      · obtain ⟨ra, rb, h1, h2⟩ := ih hb' he hc _ i j hr' ops i' r hd'
        exact ⟨xs ++ ra, rb, by rw [h1, List.append_assoc], .step hd h2⟩

/-- Every instruction does something. -/
theorem ops_ne : ∀ e ∈ table, ∀ ns ls gs, e.ops ns ls gs ≠ [] := by
  unfold table
  repeat' first
    | (refine List.forall_mem_cons.2 ⟨fun _ _ _ h => by simp at h, ?_⟩)
  intro e he; simp at he

theorem decode1_ne {p : Nat} {bs : List Nat} {ops : List Raw} {p' : Nat} {r : List Nat}
    (h : decode1 p bs = some (ops, p', r)) : ops ≠ [] := by
  match bs, h with
  | b :: bs', h =>
    simp only [decode1, Option.bind_eq_some_iff, Option.map_eq_some_iff, Prod.mk.injEq] at h
    obtain ⟨e, he, ⟨x, k, r'⟩, hr, rfl, rfl, rfl⟩ := h
    exact ops_ne e (List.mem_of_getElem? he) _ _ _

theorem decodes_nil {p q : Nat} {bs cs : List Nat} {raws : List Raw} (h : Decodes p bs raws q cs)
    (hr : raws = []) : p = q := by
  cases h with
  | nil => rfl
  | step hd _ =>
      rw [List.append_eq_nil_iff] at hr
      exact absurd hr.1 (decode1_ne hd)

/-- What an instruction does depends on the opcode only. -/
theorem ops_kinds : ∀ e ∈ table, ∀ ns ls gs, (e.ops ns ls gs).map Op.kind =
    (e.ops [] [] []).map Op.kind := by
  unfold table
  repeat' first
    | (refine List.forall_mem_cons.2 ⟨fun _ _ _ => rfl, ?_⟩)
  intro e he; simp at he

def restartAt (b : Nat) : Bool :=
  match table[b]? with
  | some e => (decide (b = Opc.RESTART) && e.args.isEmpty) ||
      !((e.ops [] [] []).map Op.kind).contains .restart
  | none => true

theorem restart_all : (List.range table.length).all restartAt = true := by decide +kernel

/-- The opcode RESTART is recognised by what it does. -/
theorem restart_is {b : Nat} {e : Entry} (he : table[b]? = some e) {ns : List Int} {ls : List Int}
    {gs : List Nat} {a : Raw} (ha : a ∈ e.ops ns ls gs) (hk : a.kind = .restart) :
    b = Opc.RESTART ∧ e.args = [] := by
  have hb : b < table.length := by
    rw [List.getElem?_eq_some_iff] at he; exact he.1
  have h1 := List.all_eq_true.1 restart_all b (List.mem_range.2 hb)
  simp only [restartAt, he, Bool.or_eq_true, Bool.and_eq_true, decide_eq_true_eq,
    List.isEmpty_iff, Bool.not_eq_true'] at h1
  rcases h1 with h1 | h1
  · exact h1
  · rw [← ops_kinds e (List.mem_of_getElem? he) ns ls gs] at h1
    have : Kind.restart ∈ (e.ops ns ls gs).map Op.kind := List.mem_map.2 ⟨a, ha, hk⟩
    rw [← List.contains_iff_mem] at this
    rw [this] at h1
    exact absurd h1 (by decide)

theorem grab_alone : ∀ e ∈ table, ∀ ns ls gs, (∀ a ∈ e.ops ns ls gs, a.kind ≠ .grab) ∨
    ∃ a, e.ops ns ls gs = [a] := by
  unfold table
  repeat' first
    | (refine List.forall_mem_cons.2 ⟨fun _ _ _ => .inr ⟨_, rfl⟩, ?_⟩)
    | (refine List.forall_mem_cons.2 ⟨fun _ _ _ => .inl (by simp), ?_⟩)
  intro e he; simp at he

/-- The last instruction read. -/
theorem decodes_last {code : List Nat} {p q : Nat} {bs cs : List Nat} {raws : List Raw}
    (h : Decodes p bs raws q cs) : bs = code.drop p → Starts code p →
    ∀ ra a, raws = ra ++ [a] → ∃ p0 xs r, Starts code p0 ∧
      decode1 p0 (code.drop p0) = some (xs, q, r) ∧ a ∈ xs := by
  induction h with
  | nil p bs => intro _ _ ra a h; simp at h
  | @step p p' e bs bs' cs xs ys hd hrest ih =>
      intro hb hp ra a hra
      subst hb
      have hb' := (step_info hd).1
      rcases List.eq_nil_or_concat ys with rfl | ⟨ys', y, rfl⟩
      · rw [List.append_nil] at hra
        have hpe := decodes_nil hrest rfl
        subst hpe
        exact ⟨p, xs, bs', hp, hd, by rw [hra]; simp⟩
      · have : y = a := by
          rw [List.concat_eq_append, ← List.append_assoc] at hra
          exact (List.append_inj_right' hra rfl |> fun h => by simpa using h)
        subst this
        exact ih hb' (.next hp hd) ys' y (by rw [List.concat_eq_append])

theorem item_grab {x : Option Zam} {a : Op Nat Glob} (ha : a ∈ itemOps x) (hk : a.kind = .grab) :
    ∃ n, x = some (.grab n) := by
  have hload : ∀ i, (loadInt i).kind ≠ .grab := by
    intro i; unfold loadInt; split <;> simp
  cases x with
  | none => simp only [itemOps, List.mem_singleton] at ha; rw [ha] at hk; simp at hk
  | some z =>
      cases z with
      | grab n => exact ⟨n, rfl⟩
      | quote c =>
          simp only [itemOps, Zam.ops, List.mem_singleton] at ha
          subst ha
          exfalso
          unfold loadConst at hk
          split at hk <;> first | exact hload _ hk | simp at hk
      | apply n =>
          simp only [itemOps, Zam.ops] at ha
          split at ha <;> simp only [List.mem_singleton] at ha <;> subst ha <;> simp at hk
      | prim p =>
          exfalso
          cases p with
          | test t =>
              cases t <;> simp [itemOps, Zam.ops, Test.kind?] at ha <;> subst ha <;> simp at hk
          | _ => simp [itemOps, Zam.ops] at ha <;> subst ha <;> simp at hk
      | test t l =>
          exfalso
          cases t <;> simp only [itemOps, Zam.ops, Test.branch, neqImm, List.mem_cons,
            List.not_mem_nil, or_false] at ha <;>
            rcases ha with rfl | ha <;> first
              | (simp at hk)
              | (subst ha; simp at hk)
              | (rcases ha with rfl | rfl | rfl | rfl <;> first | exact hload _ hk | simp at hk)
      | branchinterval low high l1 l2 =>
          exfalso
          simp only [itemOps, Zam.ops] at ha
          simp only [List.mem_append, List.mem_cons, List.not_mem_nil, or_false] at ha
          rcases ha with ((rfl | rfl | rfl) | ha) | rfl
          · simp at hk
          · exact hload _ hk
          · simp at hk
          · split at ha
            · simp at ha
            · rw [List.mem_singleton] at ha; subst ha; exact hload _ hk
          · simp at hk
      | _ => simp only [itemOps, Zam.ops, List.mem_cons, List.not_mem_nil, or_false] at ha <;>
          (subst ha; simp at hk)

theorem grab_split {T : Text} : ∀ {oa ob : List (Op Nat Glob)} {o : Op Nat Glob},
    T.flatMap itemOps = oa ++ o :: ob → o.kind = .grab →
    ∃ pre n post, T = pre ++ some (.grab n) :: post ∧ pre.flatMap itemOps = oa := by
  induction T with
  | nil => intro oa ob o h; simp at h
  | cons x T ih =>
      intro oa ob o h hk
      rw [List.flatMap_cons, List.append_eq_append_iff] at h
      rcases h with ⟨oa', rfl, h2⟩ | ⟨c, h1, h2⟩
      · obtain ⟨pre, n, post, rfl, h3⟩ := ih h2 hk
        exact ⟨x :: pre, n, post, rfl, by rw [List.flatMap_cons, h3]⟩
      · cases c with
        | nil =>
            rw [List.append_nil] at h1
            obtain ⟨pre, n, post, rfl, h3⟩ := ih (oa := []) h2.symm hk
            exact ⟨x :: pre, n, post, rfl, by rw [List.flatMap_cons, h3, List.append_nil, h1]⟩
        | cons o' c =>
            rw [List.cons_append, List.cons.injEq] at h2
            obtain ⟨rfl, _⟩ := h2
            obtain ⟨n, rfl⟩ := item_grab (x := x) (a := o) (by rw [h1]; simp) hk
            refine ⟨[], n, T, rfl, ?_⟩
            simp only [itemOps, Zam.ops] at h1
            cases oa with
            | nil => rfl
            | cons y oa => simp at h1

theorem forall₂_left {α β : Type} {R : α → β → Prop} : ∀ {xs xs' : List α} {ys : List β},
    List.Forall₂ R (xs ++ xs') ys → ∃ zs zs', ys = zs ++ zs' ∧ List.Forall₂ R xs zs ∧
      List.Forall₂ R xs' zs'
  | [], xs', ys, h => ⟨[], ys, rfl, .nil, h⟩
  | x :: xs, xs', _, .cons hx h => by
      obtain ⟨zs, zs', rfl, h1, h2⟩ := forall₂_left h
      exact ⟨_ :: zs, zs', rfl, .cons hx h1, h2⟩

theorem forall₂_right {α β : Type} {R : α → β → Prop} {xs : List α} {ys ys' : List β}
    (h : List.Forall₂ R xs (ys ++ ys')) : ∃ zs zs', xs = zs ++ zs' ∧ List.Forall₂ R zs ys ∧
      List.Forall₂ R zs' ys' := by
  obtain ⟨zs, zs', h1, h2, h3⟩ := forall₂_left h.flip
  exact ⟨zs, zs', h1, h2.flip, h3.flip⟩

theorem grabs_of_text {same : SC → SC → Bool} {T : Text} {code : List Nat} {lk : Lk}
    (h : Assembled same T code lk) (hT : GrabText T) : Grabs code := by
  obtain ⟨D, ⟨raws, hd, hm⟩, _⟩ := h
  intro p hp ops p' r hdec hg
  obtain ⟨q, hq⟩ := hp.reach
  obtain ⟨ra, rb, e1, h1⟩ := decodes_split hd (by simp) rfl rfl 0 p q hq ops p' r hdec
  -- the GRAB in the text
  have hone : ∃ a, ops = [a] ∧ a.kind = .grab := by
    simp only [isGrab, List.any_eq_true, decide_eq_true_eq] at hg
    obtain ⟨a, ha, hk⟩ := hg
    cases hc : code.drop p with
    | nil => rw [hc] at hdec; simp [decode1] at hdec
    | cons b bs =>
        rw [hc] at hdec
        simp only [decode1, Option.bind_eq_some_iff, Option.map_eq_some_iff, Prod.mk.injEq] at hdec
        obtain ⟨e, he, ⟨x, k, r'⟩, hr, h2, _, _⟩ := hdec
        simp only at h2
        rcases grab_alone e (List.mem_of_getElem? he) x.nums x.labels x.slots with hn | ⟨a', ha'⟩
        · rw [h2] at hn; exact absurd hk (hn a ha)
        · rw [h2] at ha'
          rw [ha', List.mem_singleton] at ha
          exact ⟨a', ha', by rw [← ha]; exact hk⟩
  obtain ⟨a, rfl, hk⟩ := hone
  rw [e1] at hm
  obtain ⟨oa, oo, hO, m1, m2⟩ := forall₂_left hm
  obtain ⟨o, ob, m3, m4, hO2⟩ : ∃ o ob, Op.Agrees (fun (t : Int) l => t = (D l : Int))
      (lk.Den same) a o ∧ Matches same lk D rb ob ∧ oo = o :: ob := by
    cases m2 with
    | cons x y => exact ⟨_, _, x, y, rfl⟩
  subst hO2
  obtain ⟨pre, n, post, hTe, hpre⟩ := grab_split hO (by rw [← m3.kind]; exact hk)
  obtain ⟨pre', l, rfl⟩ := hT pre n post hTe
  -- the RESTART before it
  rw [← hpre, List.flatMap_append] at m1
  simp only [List.flatMap_cons, List.flatMap_nil, itemOps, Zam.ops, List.append_nil] at m1
  obtain ⟨ra', rr, hra, m5, m6⟩ := forall₂_right m1
  obtain ⟨b, hb, rfl⟩ : ∃ b : Raw, b.kind = .restart ∧ rr = [b] := by
    cases m6 with
    | cons x y => cases y; exact ⟨_, x.kind, rfl⟩
  obtain ⟨p0, xs, r0, s0, d0, hb0⟩ := decodes_last (code := code) h1 (by simp) .zero ra' b hra
  have hp0 : p0 < code.length := by
    by_contra hc
    rw [List.drop_eq_nil_of_le (by omega)] at d0
    simp [decode1] at d0
  rw [List.drop_eq_getElem_cons hp0] at d0
  simp only [decode1, Option.bind_eq_some_iff, Option.map_eq_some_iff, Prod.mk.injEq] at d0
  obtain ⟨e, he, ⟨x, k, r'⟩, hr, h2, h3, _⟩ := d0
  simp only at h2 h3
  rw [← h2] at hb0
  obtain ⟨hres, hargs⟩ := restart_is he hb0 hb
  rw [hargs] at hr
  simp only [readArgs, Option.some.injEq, Prod.mk.injEq] at hr
  refine ⟨p0, by omega, s0, ?_⟩
  rw [List.getElem?_eq_getElem hp0, hres]

/-- Code that is the text, all its labels there. -/
theorem open_of_text {same : SC → SC → Bool} {T : Text} {code : List Nat} {lk : Lk}
    (h : Assembled same T code lk)
    (hlab : ∀ op ∈ T.flatMap itemOps, ∀ l ∈ op.labels, some (Zam.label l) ∈ T) : Open code := by
  obtain ⟨D, ⟨raws, hd, hm⟩, hl⟩ := h
  have hD : ∀ l, some (Zam.label l) ∈ T → Starts code (D l) := by
    intro l hmem
    obtain ⟨pre, post, hT⟩ := List.append_of_mem hmem
    obtain ⟨r1, r2, h1, _, _, _⟩ := hl pre l post hT
    exact decodes_starts h1 (by simp) .zero
  refine ⟨raws, hd, ?_⟩
  intro a ha t ht
  obtain ⟨o, ho, hag⟩ := forall₂_mem hm ha
  obtain ⟨l, hl', e⟩ := forall₂_mem hag.labels ht
  exact ⟨D l, e, hD l (hlab o ho l hl')⟩

/-- What the linker puts into the executable: the code of one phrase. -/
structure Linked (code : List Nat) : Prop where
  text : ∃ same T lk, Assembled same T code lk ∧ GrabText T ∧
    ∀ op ∈ T.flatMap itemOps, ∀ l ∈ op.labels, some (Zam.label l) ∈ T

/-- The executable (Link.sml:245-249): the code of the phrases one after the other, and
STOP.  It can be expanded, and the threaded code executes as the bytecode does. -/
theorem C62_image_executes {codes : List (List Nat)} (h : ∀ c ∈ codes, Linked c) :
    ∃ prog real, expandcode (codes.flatten ++ [Opc.STOP]) = some prog ∧
      Expansion (codes.flatten ++ [Opc.STOP]) prog real ∧
      SameRuns (fun _ : Unit => codes.flatten ++ [Opc.STOP]) (fun _ => prog) (fun _ => real) := by
  have hall : ∀ cs : List (List Nat), (∀ c ∈ cs, Linked c) → Open cs.flatten ∧ Grabs cs.flatten := by
    intro cs
    induction cs with
    | nil => intro _; exact ⟨open_nil, grabs_nil⟩
    | cons c cs ih =>
        intro hc
        obtain ⟨same, T, lk, a1, a2, a3⟩ := (hc c (by simp)).text
        have o1 := open_of_text a1 a3
        have g1 := grabs_of_text a1 a2
        obtain ⟨o2, g2⟩ := ih (fun c' hc' => hc c' (List.mem_cons_of_mem _ hc'))
        rw [List.flatten_cons]
        exact ⟨o1.append o2, g1.append o1 o2 g2⟩
  obtain ⟨ho, hg⟩ := hall codes h
  have hw := ho.whole
  have hgr := hg.append ho open_stop grabs_stop
  obtain ⟨prog, _, h1, _⟩ := C62_expansion hw
  obtain ⟨real, h2, h3⟩ := C62_same_execution (ι := Unit)
    (code := fun _ => codes.flatten ++ [Opc.STOP]) (prog := fun _ => prog)
    (fun _ => hw) (fun _ => hgr) (fun _ => h1)
  exact ⟨prog, real (), h1, h2 (), h3⟩

/-! ## Examples -/

/-- A branch over a RESTART and a GRAB to a SWITCH with two targets, one of them back. -/
def exCode : List Nat :=
  [Opc.BRANCH, 7, 0, 0, 0, Opc.RESTART, Opc.GRAB, 1,
   Opc.SWITCH, 2, 8, 0, 0, 0, 251, 255, 255, 255, Opc.STOP]

theorem exStarts : Starts exCode 5 ∧ Starts exCode 6 ∧ Starts exCode 8 ∧ Starts exCode 18 := by
  have h5 : Starts exCode 5 := .next .zero (by rfl)
  have h6 : Starts exCode 6 := .next h5 (by rfl)
  have h8 : Starts exCode 8 := .next h6 (by rfl)
  exact ⟨h5, h6, h8, .next h8 (by rfl)⟩

theorem exWhole : Whole exCode := by
  refine ⟨⟨_, .step (by rfl) (.step (by rfl) (.step (by rfl) (.step (by rfl) (.step (by rfl)
    (.nil _ _))))), ?_⟩⟩
  obtain ⟨h5, h6, h8, h18⟩ := exStarts
  intro a ha l hl
  simp only [List.cons_append, List.nil_append, List.mem_cons, List.not_mem_nil, or_false] at ha
  rcases ha with rfl | rfl | rfl | rfl | rfl
  · rw [List.mem_singleton] at hl; subst hl; exact ⟨8, rfl, h8, by decide⟩
  · cases hl
  · cases hl
  · simp only [List.mem_cons, List.not_mem_nil, or_false] at hl
    rcases hl with rfl | rfl
    · exact ⟨18, rfl, h18, by decide⟩
    · exact ⟨5, rfl, h5, by decide⟩
  · cases hl

/-- Its expansion: the branch goes to word 5, the switch to word 9 and word 2. -/
example : expandcode exCode = some
    [.instr Opc.BRANCH, .addr 5, .instr Opc.RESTART, .instr Opc.GRAB, .num 1,
     .instr Opc.SWITCH, .num 2, .addr 9, .addr 2, .instr Opc.STOP] := by decide +kernel

/-- `C62_expansion` on it. -/
example : ∃ prog real, expandcode exCode = some prog ∧ Expansion exCode prog real :=
  C62_expansion exWhole

/-- The hypothesis of `C62_expansion` on targets is needed: for a branch to the end of
the code, `realaddress` is read outside its bounds. -/
example : expandcode [Opc.BRANCH, 4, 0, 0, 0] = none := by decide +kernel

theorem starts_ex {p : Nat} (h : Starts exCode p) :
    p = 0 ∨ p = 5 ∨ p = 6 ∨ p = 8 ∨ p = 18 ∨ p = 19 := by
  induction h with
  | zero => exact .inl rfl
  | next _ hd ih =>
      rcases ih with rfl | rfl | rfl | rfl | rfl | rfl
      · have : decode1 0 (exCode.drop 0) = some (_, 5, _) := rfl
        rw [this] at hd; cases hd; simp
      · have : decode1 5 (exCode.drop 5) = some (_, 6, _) := rfl
        rw [this] at hd; cases hd; simp
      · have : decode1 6 (exCode.drop 6) = some (_, 8, _) := rfl
        rw [this] at hd; cases hd; simp
      · have : decode1 8 (exCode.drop 8) = some (_, 18, _) := rfl
        rw [this] at hd; cases hd; simp
      · have : decode1 18 (exCode.drop 18) = some (_, 19, _) := rfl
        rw [this] at hd; cases hd; simp
      · have : decode1 19 (exCode.drop 19) = none := rfl
        rw [this] at hd; cases hd

theorem exGrabs : Grabs exCode := by
  intro p hp ops p' r hd hg
  rcases starts_ex hp with rfl | rfl | rfl | rfl | rfl | rfl
  · have : decode1 0 (exCode.drop 0) = some (_, 5, _) := rfl
    rw [this] at hd; cases hd; cases hg
  · have : decode1 5 (exCode.drop 5) = some (_, 6, _) := rfl
    rw [this] at hd; cases hd; cases hg
  · exact ⟨5, rfl, exStarts.1, rfl⟩
  · have : decode1 8 (exCode.drop 8) = some (_, 18, _) := rfl
    rw [this] at hd; cases hd; cases hg
  · have : decode1 18 (exCode.drop 18) = some (_, 19, _) := rfl
    rw [this] at hd; cases hd; cases hg
  · have : decode1 19 (exCode.drop 19) = none := rfl
    rw [this] at hd; cases hd

/-- A machine: it goes to the last target, or else to the next instruction, and keeps all
addresses it has been given; STOP stops it. -/
def exMachine : Machine where
  Data P := List P
  map := List.map
  exec ops next back d :=
    if ops.any fun a => decide (a.kind = .stop) then none
    else some (((ops.flatMap (·.labels)).getLast?).getD next,
      back.toList ++ next :: ops.flatMap (·.labels) ++ d)
  natural f ops next back d := by
    have h1 : (ops.map (Op.move f)).any (fun a => decide (a.kind = .stop)) =
        ops.any (fun a => decide (a.kind = .stop)) := by
      rw [List.any_map]; rfl
    have h2 : (ops.map (Op.move f)).flatMap (·.labels) =
        (ops.flatMap (·.labels)).map f := by
      simp [List.flatMap_map, List.map_flatMap, Op.move]
    rw [h1, h2]
    split
    · rfl
    · simp only [Option.map_some, List.getLast?_map]
      cases (ops.flatMap (·.labels)).getLast? <;> cases back <;> simp

/-- Four instructions of the example in both forms: BRANCH, SWITCH, RESTART, GRAB. -/
example : exMachine.run (fetchB fun _ : Unit => exCode) 4 (((), 0), ([] : List (Addr Unit))) =
    some (((), 8), [((), 5), ((), 8), ((), 6), ((), 18), ((), 18), ((), 5), ((), 5), ((), 8)]) := by
  rfl

example : exMachine.run (fetchT fun _ : Unit => (expandcode exCode).getD []) 4
    (((), 0), ([] : List (Addr Unit))) =
    some (((), 5), [((), 2), ((), 5), ((), 3), ((), 9), ((), 9), ((), 2), ((), 2), ((), 5)]) := by
  rfl

/-- `C62_same_execution` on the example. -/
example : ∃ prog real, expandcode exCode = some prog ∧
    SameRuns (fun _ : Unit => exCode) (fun _ => prog) real := by
  obtain ⟨prog, _, h, _⟩ := C62_expansion exWhole
  obtain ⟨real, _, h3⟩ := C62_same_execution (fun _ : Unit => exWhole) (fun _ => exGrabs)
    (fun _ => h)
  exact ⟨prog, real, h, h3⟩

/-- A phrase with a function of two arguments, entered interactively, ready for
`C62_load_threaded_partial`. -/
def exInits : List Zam := [.closure 1 0, .setGlobal ([84, 102], 1), .quote (.block 0 1 [])]

def exFuncs : List Zam :=
  [.restart, .label 1, .grab 1, .access 1, .branchif 2, .access 0, .label 2, .ret 2]

def exLoadCalls : List Call :=
  [o Opc.CLOSURE, .out 0, .label 0 1, o Opc.SETGLOBAL, .slotSet ([84, 102], 1), o Opc.ATOM0,
   o Opc.STOP, o Opc.RESTART, .define 1, o Opc.GRAB, .out 1, o (Opc.ACC0 + 1), o Opc.BRANCHIF,
   .label 0 2, o Opc.ACC0, .define 2, .out ((Opc.RETURN1 : Int) + (2 : Nat) - 1)]

theorem exEmits : emit exInits = some [o Opc.CLOSURE, .out 0, .label 0 1, o Opc.SETGLOBAL,
      .slotSet ([84, 102], 1), o Opc.ATOM0] ∧
    emit exFuncs = some [o Opc.RESTART, .define 1, o Opc.GRAB, .out 1, o (Opc.ACC0 + 1),
      o Opc.BRANCHIF, .label 0 2, o Opc.ACC0, .define 2,
      .out ((Opc.RETURN1 : Int) + (2 : Nat) - 1)] := by
  have h1 : emit exInits = some [o Opc.CLOSURE, .out 0, .label 0 1, o Opc.SETGLOBAL,
      .slotSet ([84, 102], 1), o Opc.ATOM0] := by
    simp [emit, emitHead, emitZam, exInits, outQuote]
  have h2 : emit exFuncs = some [o Opc.RESTART, .define 1, o Opc.GRAB, .out 1, o (Opc.ACC0 + 1),
      o Opc.BRANCHIF, .label 0 2, o Opc.ACC0, .define 2,
      .out ((Opc.RETURN1 : Int) + (2 : Nat) - 1)] := by
    simp [emit, emitHead, emitZam, exFuncs, guard8, guard16]
  exact ⟨h1, h2⟩

theorem exLoad_emit : emitLoad exSame [0] exInits exFuncs =
    runCalls exSame exLoadCalls (St.init [0]) := by
  unfold emitLoad
  rw [exEmits.1, exEmits.2]
  rfl

def exSummary : Option (Nat × List Nat × Nat) :=
  (runCalls exSame exLoadCalls (St.init [0])).bind fun st =>
    (patchObject st.buf 0 st.lits st.relocs.reverse exLk).map
      fun x => (st.pos, x.1.take st.pos, x.2.cnt)

def exLoadCode : List Nat :=
  [Opc.CLOSURE, 0, 12, 0, 0, 0, Opc.SETGLOBAL, 7, 0, 0, 0, Opc.ATOM0, Opc.STOP,
   Opc.RESTART, Opc.GRAB, 1, Opc.ACC0 + 1, Opc.BRANCHIF, 5, 0, 0, 0, Opc.ACC0, Opc.RETURN1 + 1]

theorem exSummary_eq : exSummary = some (24, exLoadCode, 8) := by decide +kernel

theorem exLoad_fit : Fit (loadText exInits exFuncs) exLk := by
  refine ⟨?_, ?_, ?_, ?_, ?_⟩
  · simp [loadText, exInits, exFuncs, Zam.Wf, SC.Wf]
  · simp [loadText, exInits, exFuncs, itemOps, Zam.ops, loadConst]
  · simp [loadText, exInits, exFuncs, itemOps, Zam.ops, loadConst, Glob.set?]
  · simp [loadText, exInits, exFuncs, itemOps, Zam.ops, loadConst, Glob.set?, exLk, Lk.lookup]
  · constructor
    · simp [exLk]
    · simp [exLk]

theorem exLoad_end : ∀ pre l post, loadText exInits exFuncs = pre ++ some (.label l) :: post →
    post.flatMap itemOps ≠ [] := by
  intro pre l post h
  have hlast : (some (.label l) :: post).getLast? = some (some (.ret 2)) := by
    have := congrArg List.getLast? h
    rw [List.getLast?_append_of_ne_nil _ (by simp)] at this
    exact this.symm
  cases post with
  | nil => simp at hlast
  | cons x xs =>
      rw [List.getLast?_cons_cons] at hlast
      have hm := List.mem_of_getLast? hlast
      intro hc
      rw [List.flatMap_eq_nil_iff] at hc
      have := hc _ hm
      simp [itemOps, Zam.ops] at this

theorem exLoad_threaded : ∃ lk' prog, expandcode exLoadCode = some prog ∧
    Threaded exSame (loadText exInits exFuncs) prog lk' := by
  have hv := exSummary_eq
  unfold exSummary at hv
  simp only [Option.bind_eq_some_iff, Option.map_eq_some_iff, Prod.mk.injEq] at hv
  obtain ⟨st, h1, ⟨out, lk'⟩, h2, h3, h4, h5⟩ := hv
  simp only at h4 h5
  have := C62_load_threaded_partial (by decide) (exLoad_emit.trans h1) exLoad_fit exLoad_end
    (by omega) (.refl _) h2 (by omega)
  rw [h4] at this
  exact ⟨lk', this⟩

theorem exGrabText : GrabText (phraseText exInits exFuncs) := by
  intro pre n post h
  have e : phraseText exInits exFuncs =
      [some (.closure 1 0), some (.setGlobal ([84, 102], 1)), some (.quote (.block 0 1 [])),
       some (.branch 0), some .restart, some (.label 1), some (.grab 1), some (.access 1),
       some (.branchif 2), some (.access 0), some (.label 2), some (.ret 2),
       some (.label 0)] := rfl
  rw [e] at h
  rcases pre with _ | ⟨a, _ | ⟨b, _ | ⟨c, _ | ⟨d, _ | ⟨e, _ | ⟨f, _ | ⟨g, pre⟩⟩⟩⟩⟩⟩⟩ <;>
    simp at h
  · obtain ⟨rfl, rfl, rfl, rfl, rfl, rfl, _⟩ := h
    exact ⟨[some (.closure 1 0), some (.setGlobal ([84, 102], 1)), some (.quote (.block 0 1 [])),
      some (.branch 0)], 1, rfl⟩
  · have hm : some (Zam.grab n) ∈ pre ++ some (.grab n) :: post := by simp
    rw [← h.2.2.2.2.2.2.2] at hm
    simp at hm

def exPhraseCalls : List Call :=
  [o Opc.CLOSURE, .out 0, .label 0 1, o Opc.SETGLOBAL, .slotSet ([84, 102], 1), o Opc.ATOM0,
   o Opc.BRANCH, .label 0 0, o Opc.RESTART, .define 1, o Opc.GRAB, .out 1, o (Opc.ACC0 + 1),
   o Opc.BRANCHIF, .label 0 2, o Opc.ACC0, .define 2,
   .out ((Opc.RETURN1 : Int) + (2 : Nat) - 1), .define 0]

def exPhraseCode : List Nat :=
  [Opc.CLOSURE, 0, 16, 0, 0, 0, Opc.SETGLOBAL, 7, 0, 0, 0, Opc.ATOM0,
   Opc.BRANCH, 15, 0, 0, 0,
   Opc.RESTART, Opc.GRAB, 1, Opc.ACC0 + 1, Opc.BRANCHIF, 5, 0, 0, 0, Opc.ACC0, Opc.RETURN1 + 1]

theorem exPhrase_summary : summary ([84, 102], 1) exPhraseCalls =
    some (28, 0, exPhraseCode, 8, some 7) := by decide +kernel

/-- The same phrase in an object file, linked: the branch at its end leads to what the
linker puts behind it. -/
theorem exLinked : Linked exPhraseCode := by
  have hv := exPhrase_summary
  unfold summary at hv
  simp only [Option.bind_eq_some_iff, Option.map_eq_some_iff, Prod.mk.injEq] at hv
  obtain ⟨st, h1, ⟨b, lk'⟩, h2, h3, h4, h5, h6, h7⟩ := hv
  simp only at h5 h6
  subst h5
  have hfit : Fit (phraseText exInits exFuncs) exLk := by
    refine ⟨?_, ?_, ?_, ?_, ?_⟩
    · simp [phraseText, phraseCode, exInits, exFuncs, Zam.Wf, SC.Wf]
    · simp [phraseText, phraseCode, exInits, exFuncs, itemOps, Zam.ops, loadConst]
    · simp [phraseText, phraseCode, exInits, exFuncs, itemOps, Zam.ops, loadConst, Glob.set?]
    · simp [phraseText, phraseCode, exInits, exFuncs, itemOps, Zam.ops, loadConst, Glob.set?,
        exLk, Lk.lookup]
    · exact exLoad_fit.bounded
  obtain ⟨_, code, e, _, ha⟩ := C55_object_decodes_partial (pre := []) (suf := []) (by decide)
    ((emitPhrase_eq (cs := exPhraseCalls) rfl exEmits.1 exEmits.2 rfl).trans h1) hfit (by omega)
    (.refl _) h2 (by omega)
  simp only [List.nil_append, List.append_nil] at e
  rw [e]
  exact ⟨⟨_, _, _, ha, exGrabText, hfit.labels⟩⟩

/-- `C62_image_executes`: a program of the phrase, twice. -/
example : ∃ prog real, expandcode ([exPhraseCode, exPhraseCode].flatten ++ [Opc.STOP]) = some prog ∧
    Expansion ([exPhraseCode, exPhraseCode].flatten ++ [Opc.STOP]) prog real ∧
    SameRuns (fun _ : Unit => [exPhraseCode, exPhraseCode].flatten ++ [Opc.STOP])
      (fun _ => prog) (fun _ => real) :=
  C62_image_executes (by
    intro c hc
    simp only [List.mem_cons, List.not_mem_nil, or_false, or_self] at hc
    rw [hc]
    exact exLinked)

end Mosml.Expand
