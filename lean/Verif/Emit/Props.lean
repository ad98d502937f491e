import Verif.Emit.Assemble

/-!
# C55: the bytes in the object code are the instructions that were generated

The emitter chooses short forms, merges neighbouring instructions, patches forward
jumps and leaves holes for slot numbers; the linker fills the holes.  The interpreter's
decoder (`table`, from interp.c) reads the instructions back.
-/

namespace Mosml.Emit

/-- The text that the batch compiler emits for a phrase (Emit_phr.sml:28-33). -/
def phraseText (inits funcs : List Zam) : Text := (phraseCode inits funcs).map some

/-- The text for a phrase entered interactively (Load_phr.sml:44-48). -/
def loadText (inits funcs : List Zam) : Text := inits.map some ++ none :: funcs.map some

/-- What is assumed of a text and of the linker's tables: operands within the limits
that the emitter does not check (`Zam.Wf`); labels that are referred to are there; a
global variable is defined once, and not in an earlier phrase; slots in use are below
the counter. -/
structure Fit (T : Text) (lk : Lk) : Prop where
  wf : ∀ z, some z ∈ T → z.Wf
  labels : ∀ op ∈ T.flatMap itemOps, ∀ l ∈ op.labels, some (Zam.label l) ∈ T
  nodup : (((T.flatMap itemOps).flatMap Op.globs).filterMap Glob.set?).Nodup
  fresh : ∀ u ∈ ((T.flatMap itemOps).flatMap Op.globs).filterMap Glob.set?, lk.lookup u = none
  bounded : lk.Bounded

/-- A phrase compiled to a file and linked (at offset 0 by Link.sml:169, at the offset
of the phrase by Smltop.sml:82): the code decodes to the instructions.  `lits` is the
literal table in the order of the hash table. -/
theorem C55_object_decodes_partial {same : SC → SC → Bool} {buf : List Nat} {inits funcs : List Zam}
    {st : St} {lk lk' : Lk} {lits : List (SC × List Nat)} {pre suf out : List Nat}
    (hbuf : 0 < buf.length) (hemit : emitPhrase same buf inits funcs = some st)
    (hfit : Fit (phraseText inits funcs) lk)
    (hlen : st.pos < 2 ^ 31) (hl : lits.Perm st.lits)
    (hlink : patchObject (pre ++ (st.buf.take st.pos ++ suf)) pre.length lits
      st.relocs.reverse lk = some (out, lk'))
    (hcnt : lk'.cnt ≤ 2 ^ 32) :
    lk.Le lk' ∧ ∃ code, out = pre ++ (code ++ suf) ∧ code.length = st.pos ∧
      Assembled same (phraseText inits funcs) code lk' := by
  have : ∃ cs, Emits (phraseText inits funcs) cs ∧ runCalls same cs (St.init buf) = some st := by
    unfold emitPhrase at hemit
    unfold phraseText phraseCode
    simp only at hemit
    split at hemit
    next hf =>
      rw [Option.bind_eq_some_iff] at hemit
      obtain ⟨cs, h1, h2⟩ := hemit
      rw [if_pos hf]
      refine ⟨cs, ?_, h2⟩
      have := Emits.code h1 .nil
      simpa using this
    next hf =>
      rw [if_neg hf]
      simp only [Option.bind_eq_bind, Option.bind_eq_some_iff] at hemit
      obtain ⟨c1, h1, c2, h2, c3, h3, c4, h4, h5⟩ := hemit
      refine ⟨_, ?_, h5⟩
      have := Emits.code h1 (.code h2 (.code h3 (.code h4 .nil)))
      simpa using this
  obtain ⟨cs, h1, h2⟩ := this
  exact assembled h1 hbuf h2 hfit.wf hfit.labels hlen hfit.bounded hfit.nodup hfit.fresh hl hlink
    hcnt

/-- A phrase entered interactively: the code, patched in the output buffer, decodes to
the instructions. -/
theorem C55_load_decodes_partial {same : SC → SC → Bool} {buf : List Nat} {inits funcs : List Zam}
    {st : St} {lk lk' : Lk} {lits : List (SC × List Nat)} {out : List Nat}
    (hbuf : 0 < buf.length) (hemit : emitLoad same buf inits funcs = some st)
    (hfit : Fit (loadText inits funcs) lk)
    (hlen : st.pos < 2 ^ 31) (hl : lits.Perm st.lits)
    (hlink : patchObject st.buf 0 lits st.relocs.reverse lk = some (out, lk'))
    (hcnt : lk'.cnt ≤ 2 ^ 32) :
    lk.Le lk' ∧ ∃ code, code.length = st.pos ∧ out = code ++ st.buf.drop st.pos ∧
      Assembled same (loadText inits funcs) code lk' := by
  simp only [emitLoad, Option.bind_eq_bind, Option.bind_eq_some_iff] at hemit
  obtain ⟨c1, h1, c2, h2, h3⟩ := hemit
  have hE : Emits (loadText inits funcs) (c1 ++ [o Opc.STOP] ++ c2) := by
    have := Emits.code h1 (.stop (.code h2 .nil))
    simpa [loadText] using this
  have e : st.buf = [] ++ (st.buf.take st.pos ++ st.buf.drop st.pos) := by simp
  rw [e] at hlink
  obtain ⟨h4, code, h5, h6, h7⟩ := assembled (pre := []) hE hbuf h3 hfit.wf hfit.labels hlen
    hfit.bounded hfit.nodup hfit.fresh hl hlink hcnt
  exact ⟨h4, code, h6, by simpa using h5, h7⟩

/-! ## Slots are not shared -/

/-- Slots in use are below the counter; literals have slots of their own; from slot
`base` on, variables have slots of their own (below `base` there may be aliases,
Symtable.sml:82-85). -/
structure Lk.Apart (base : Nat) (lk : Lk) : Prop where
  bounded : lk.Bounded
  lits : (lk.literals.map (·.1)).Nodup
  mixed : ∀ e ∈ lk.literals, ∀ g ∈ lk.globals, e.1 ≠ g.2
  vars : ∀ g ∈ lk.globals, ∀ h ∈ lk.globals, base ≤ g.2 → g.2 = h.2 → g = h

theorem Lk.Apart.slotLit {base : Nat} {lk : Lk} (h : lk.Apart base) (c : SC) :
    (lk.slotLit c).2.Apart base := by
  refine ⟨Lk.slotLit_bounded h.bounded c, ?_, ?_, h.vars⟩
  · simp only [Lk.slotLit, List.map_cons, List.nodup_cons]
    refine ⟨?_, h.lits⟩
    intro hm
    obtain ⟨e, he, h1⟩ := List.mem_map.1 hm
    have := h.bounded.literals e he
    omega
  · intro e he g hg
    simp only [Lk.slotLit, List.mem_cons] at he hg
    rcases he with rfl | he
    · have := h.bounded.globals g hg
      simp only; omega
    · exact h.mixed e he g hg

theorem Lk.Apart.slotSet {base : Nat} {lk : Lk} (h : lk.Apart base) (u : Uid) :
    (lk.slotSet u).2.Apart base := by
  refine ⟨Lk.slotSet_bounded h.bounded u, h.lits, ?_, ?_⟩
  · intro e he g hg
    simp only [Lk.slotSet, List.mem_cons] at he hg
    rcases hg with rfl | hg
    · have := h.bounded.literals e he
      simp only; omega
    · exact h.mixed e he g hg
  · intro g hg g' hg' hb he
    simp only [Lk.slotSet, List.mem_cons] at hg hg'
    rcases hg with rfl | hg <;> rcases hg' with rfl | hg'
    · rfl
    · have := h.bounded.globals g' hg'
      simp only at he; omega
    · have := h.bounded.globals g hg
      simp only at he; omega
    · exact h.vars g hg g' hg' hb he

/-- Linking gives every literal and every variable defined in the phrase a slot of its
own: no literal shares a slot with another literal or with a variable, and no newly
defined variable shares its slot with any variable.  Whatever linked before stays. -/
theorem C55_slots_apart {buf out : List Nat} {off : Nat} {lits : List (SC × List Nat)}
    {others : List (Reloc × Nat)} {lk lk' : Lk} (h : lk.Apart lk.cnt)
    (hl : patchObject buf off lits others lk = some (out, lk')) :
    lk'.Apart lk.cnt ∧ lk.cnt ≤ lk'.cnt ∧ (∀ e ∈ lk.literals, e ∈ lk'.literals) ∧
      ∀ e ∈ lk.globals, e ∈ lk'.globals := by
  have h1 : ∀ (lits : List (SC × List Nat)) (s : List Nat × Lk) (base : Nat), s.2.Apart base →
      (lits.foldl (relLit off) s).2.Apart base ∧ s.2.cnt ≤ (lits.foldl (relLit off) s).2.cnt ∧
      (∀ e ∈ s.2.literals, e ∈ (lits.foldl (relLit off) s).2.literals) ∧
      ∀ e ∈ s.2.globals, e ∈ (lits.foldl (relLit off) s).2.globals := by
    intro lits
    induction lits with
    | nil => intro s base hs; exact ⟨hs, le_refl _, fun _ h => h, fun _ h => h⟩
    | cons e lits ih =>
        intro s base hs
        obtain ⟨i1, i2, i3, i4⟩ := ih (relLit off s e) base (hs.slotLit e.1)
        refine ⟨i1, ?_, fun x hx => i3 x (List.mem_cons_of_mem _ hx), fun x hx => i4 x hx⟩
        have : s.2.cnt ≤ (relLit off s e).2.cnt := Nat.le_succ _
        exact le_trans this i2
  have h2 : ∀ (rs : List (Reloc × Nat)) (s s' : List Nat × Lk) (base : Nat), s.2.Apart base →
      relOthers off rs s = some s' →
      s'.2.Apart base ∧ s.2.cnt ≤ s'.2.cnt ∧ (∀ e ∈ s.2.literals, e ∈ s'.2.literals) ∧
      ∀ e ∈ s.2.globals, e ∈ s'.2.globals := by
    intro rs
    induction rs with
    | nil => intro s s' base hs h; cases h; exact ⟨hs, le_refl _, fun _ h => h, fun _ h => h⟩
    | cons r rs ih =>
        intro s s' base hs h
        simp only [relOthers, Option.bind_eq_some_iff] at h
        obtain ⟨s1, e1, e2⟩ := h
        obtain ⟨r, p⟩ := r
        cases r with
        | getglobal u =>
            simp only [relOther, Option.map_eq_some_iff] at e1
            obtain ⟨v, _, rfl⟩ := e1
            exact ih (patchLong s.1 (p + off) v, s.2) _ base hs e2
        | setglobal u =>
            simp only [relOther, Option.some.injEq] at e1
            subst e1
            obtain ⟨i1, i2, i3, i4⟩ := ih _ _ base (hs.slotSet u) e2
            have : s.2.cnt ≤ (s.2.slotSet u).2.cnt := Nat.le_succ _
            exact ⟨i1, le_trans this i2, i3, fun x hx => i4 x (List.mem_cons_of_mem _ hx)⟩
        | primitive f =>
            simp only [relOther, Option.bind_eq_some_iff, Option.map_eq_some_iff] at e1
            obtain ⟨v, _, b, _, rfl⟩ := e1
            exact ih (b, s.2) _ base hs e2
  obtain ⟨a1, a2, a3, a4⟩ := h1 lits (buf, lk) lk.cnt h
  obtain ⟨b1, b2, b3, b4⟩ := h2 others _ _ lk.cnt a1 hl
  exact ⟨b1, le_trans a2 b2, fun e he => b3 e (a3 e he), fun e he => b4 e (a4 e he)⟩

/-! ## An example -/

/-- `fun f x = x + 5000000000` after compilation: a closure is stored in a global
variable; the function body follows, and refers to a literal. -/
def exInits : List Zam := [.closure 1 0, .setGlobal ([84, 102], 1), .quote (.block 0 1 [])]

def exFuncs : List Zam :=
  [.label 1, .quote (.int 5000000000), .push, .access 1, .prim (.simple .smladdint),
   .branchif 2, .push, .getGlobal ([84, 102], 1), .appterm 1 3, .label 2, .ret 1]

def exSame : SC → SC → Bool := fun _ _ => false

def exLk : Lk := { cnt := 7, globals := [(([71, 105, 116], 0), 3)], literals := [], prims := fun _ => none }

def exCode : List Nat :=
  [Opc.CLOSURE, 0, 15, 0, 0, 0, Opc.SETGLOBAL, 8, 0, 0, 0, Opc.ATOM0,
   Opc.BRANCH, 24, 0, 0, 0,
   Opc.GETGLOBAL, 7, 0, 0, 0, Opc.PUSHACC0 + 1, Opc.SMLADDINT, Opc.BRANCHIF, 11, 0, 0, 0,
   Opc.PUSH_GETGLOBAL_APPTERM1, 3, 0, 8, 0, 0, 0, Opc.RETURN1]

theorem ex_inits : emit exInits = some [o Opc.CLOSURE, .out 0, .label 0 1, o Opc.SETGLOBAL,
    .slotSet ([84, 102], 1), o Opc.ATOM0] := by
  simp [emit, emitHead, emitZam, exInits, outQuote]

theorem ex_funcs : emit exFuncs = some [.define 1, o Opc.GETGLOBAL, .slotLit (.int 5000000000),
    o (Opc.PUSHACC0 + 1), o Opc.SMLADDINT, o Opc.BRANCHIF, .label 0 2,
    .out ((Opc.PUSH_GETGLOBAL_APPTERM1 : Int) + (1 : Nat) - 1), .short 3, .slotGet ([84, 102], 1),
    .define 2, .out ((Opc.RETURN1 : Int) + (1 : Nat) - 1)] := by
  simp [emit, emitHead, emitZam, exFuncs, outQuote, outIntConst, guard16, primCode]

theorem emit_one_branch : emit [.branch 0] = some [o Opc.BRANCH, .label 0 0] := by
  simp [emit, emitHead, emitZam]

theorem emit_one_label : emit [.label 0] = some [.define 0] := by
  simp [emit, emitHead, emitZam]

def exCalls : List Call :=
  [o Opc.CLOSURE, .out 0, .label 0 1, o Opc.SETGLOBAL, .slotSet ([84, 102], 1), o Opc.ATOM0,
    o Opc.BRANCH, .label 0 0,
    .define 1, o Opc.GETGLOBAL, .slotLit (.int 5000000000),
    o (Opc.PUSHACC0 + 1), o Opc.SMLADDINT, o Opc.BRANCHIF, .label 0 2,
    .out ((Opc.PUSH_GETGLOBAL_APPTERM1 : Int) + (1 : Nat) - 1), .short 3, .slotGet ([84, 102], 1),
    .define 2, .out ((Opc.RETURN1 : Int) + (1 : Nat) - 1), .define 0]

/-- What emission and linking give. -/
def summary (u : Uid) (cs : List Call) : Option (Nat × Nat × List Nat × Nat × Option Nat) :=
  (runCalls exSame cs (St.init [0])).bind fun st =>
    (patchObject ([] ++ (st.buf.take st.pos ++ [])) 0 st.lits st.relocs.reverse exLk).map
      fun x => (st.pos, st.lits.length, x.1, x.2.cnt, x.2.lookup u)

/-- Emission of a phrase with functions, piece by piece. -/
theorem emitPhrase_eq {same : SC → SC → Bool} {buf : List Nat} {inits funcs : List Zam}
    {c1 c2 cs : List Call} (hf : funcs.isEmpty = false) (h1 : emit inits = some c1)
    (h2 : emit funcs = some c2)
    (hc : c1 ++ [o Opc.BRANCH, .label 0 0] ++ c2 ++ [.define 0] = cs) :
    emitPhrase same buf inits funcs = runCalls same cs (St.init buf) := by
  subst hc
  unfold emitPhrase
  rw [hf, h1, h2, emit_one_branch, emit_one_label]
  rfl

theorem ex_emit : emitPhrase exSame [0] exInits exFuncs = runCalls exSame exCalls (St.init [0]) :=
  emitPhrase_eq rfl ex_inits ex_funcs rfl

theorem ex_summary : summary ([84, 102], 1) exCalls = some (37, 1, exCode, 9, some 8) := by
  decide +kernel

/-- The hypotheses are met by the example: emission and linking succeed, and the text
satisfies `Fit`. -/
theorem ex_fits : ∃ st lk', emitPhrase exSame [0] exInits exFuncs = some st ∧
    Fit (phraseText exInits exFuncs) exLk ∧ st.pos = 37 ∧ st.lits.length = 1 ∧
    patchObject ([] ++ (st.buf.take st.pos ++ [])) 0 st.lits st.relocs.reverse exLk =
      some (exCode, lk') ∧
    lk'.cnt = 9 ∧ lk'.lookup ([84, 102], 1) = some 8 := by
  have hv := ex_summary
  unfold summary at hv
  rw [ex_emit]
  simp only [Option.bind_eq_some_iff, Option.map_eq_some_iff, Prod.mk.injEq] at hv
  obtain ⟨st, h1, ⟨b, lk'⟩, h2, h3, h4, h5, h6, h7⟩ := hv
  subst h5
  refine ⟨st, lk', h1, ?_, h3, h4, h2, h6, h7⟩
  refine ⟨?_, ?_, ?_, ?_, ?_⟩
  · simp [phraseText, phraseCode, exInits, exFuncs, Zam.Wf, SC.Wf]
  · simp [phraseText, phraseCode, exInits, exFuncs, itemOps, Zam.ops, loadConst, loadInt, fits31]
  · simp [phraseText, phraseCode, exInits, exFuncs, itemOps, Zam.ops, loadConst, loadInt, fits31,
      Glob.set?, List.filterMap_cons]
  · simp [phraseText, phraseCode, exInits, exFuncs, itemOps, Zam.ops, loadConst, loadInt, fits31,
      Glob.set?, exLk, Lk.lookup]
  · constructor
    · simp [exLk]
    · simp [exLk]

example : exLk.Apart exLk.cnt :=
  ⟨⟨by simp [exLk], by simp [exLk]⟩, by simp [exLk], by simp [exLk], by simp [exLk]⟩

/-! ## A limit that is not checked -/

/-- A function with 256 free variables. -/
def bigInits : List Zam := [.closure 1 256]

def bigFuncs : List Zam := [.label 1, .ret 1]

def bigCalls : List Call :=
  [o Opc.CLOSURE, .out 256, .label 0 1, o Opc.BRANCH, .label 0 0, .define 1,
    .out ((Opc.RETURN1 : Int) + (1 : Nat) - 1), .define 0]

def bigCode : List Nat := [Opc.CLOSURE, 0, 9, 0, 0, 0, Opc.BRANCH, 5, 0, 0, 0, Opc.RETURN1]

/-- The size of a closure is written in one byte without a check (Emitcode.sml:142-143):
a closure of 256 variables is emitted without complaint and read back as a closure of
no variables. -/
theorem C55_closure_size_violation :
    ∃ st lk', emitPhrase exSame [0] bigInits bigFuncs = some st ∧
      patchObject ([] ++ (st.buf.take st.pos ++ [])) 0 st.lits st.relocs.reverse exLk =
        some (bigCode, lk') ∧
      ¬ Assembled exSame (phraseText bigInits bigFuncs) bigCode lk' := by
  have h1 : emit bigInits = some [o Opc.CLOSURE, .out 256, .label 0 1] := by
    simp [emit, emitHead, emitZam, bigInits]
  have h2 : emit bigFuncs = some [.define 1, .out ((Opc.RETURN1 : Int) + (1 : Nat) - 1)] := by
    simp [emit, emitHead, emitZam, bigFuncs, guard16]
  have he : emitPhrase exSame [0] bigInits bigFuncs = runCalls exSame bigCalls (St.init [0]) :=
    emitPhrase_eq rfl h1 h2 rfl
  have hv : summary ([84, 102], 1) bigCalls = some (12, 0, bigCode, 7, none) := by decide +kernel
  unfold summary at hv
  rw [he]
  simp only [Option.bind_eq_some_iff, Option.map_eq_some_iff, Prod.mk.injEq] at hv
  obtain ⟨st, h3, ⟨b, lk'⟩, h4, -, -, h5, -, -⟩ := hv
  subst h5
  refine ⟨st, lk', h3, h4, ?_⟩
  rintro ⟨D, ⟨raws, hd, hm⟩, _⟩
  have hfirst : decode1 0 bigCode = some ([{ kind := .closure, nums := [0], labels := [11] }], 6,
    bigCode.drop 6) := rfl
  cases hd with
  | step hs _ =>
      rw [hfirst] at hs
      cases hs
      cases hm with
      | cons ha _ => exact absurd ha.nums (by decide)

end Mosml.Emit
