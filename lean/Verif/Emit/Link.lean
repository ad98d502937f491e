import Verif.Emit.Targets

/-!
# Linking: filling in the slot numbers

Model of src/compiler/Patch.sml and of the parts of src/compiler/Symtable.sml it uses.
-/

namespace Mosml.Emit

/-- The linker's tables, Symtable.sml:10-14, 37-43, 136: the counter and the table of
`global_table`, newest entry first (`Hasht.insert` replaces an older entry, which a
lookup then no longer sees); `literal_table`; `c_prim_table`. -/
structure Lk where
  cnt : Nat
  globals : List (Uid × Nat)
  literals : List (Nat × SC)
  prims : String → Option Nat

/-- `find_in_numtable` on `global_table`, Symtable.sml:21-23. -/
def Lk.lookup (lk : Lk) (u : Uid) : Option Nat := (lk.globals.find? (·.1 = u)).map (·.2)

/-- `get_slot_for_literal`, Symtable.sml:71-76. -/
def Lk.slotLit (lk : Lk) (c : SC) : Nat × Lk :=
  (lk.cnt, { lk with cnt := lk.cnt + 1, literals := (lk.cnt, c) :: lk.literals })

/-- `get_slot_for_defined_variable`, Symtable.sml:25-30, 67-69. -/
def Lk.slotSet (lk : Lk) (u : Uid) : Nat × Lk :=
  (lk.cnt, { lk with cnt := lk.cnt + 1, globals := (u, lk.cnt) :: lk.globals })

/-- `patch_long`, Patch.sml:19-27. -/
def patchLong (buf : List Nat) (p v : Nat) : List Nat :=
  (((buf.set p (byteOf v)).set (p + 1) (byteOf (shiftUns v 8))).set (p + 2)
    (byteOf (shiftUns v 16))).set (p + 3) (byteOf (shiftUns v 24))

/-- `patch_short`, Patch.sml:11-17: `Char.chr` fails on a second byte above 255. -/
def patchShort (buf : List Nat) (p v : Nat) : Option (List Nat) :=
  if v / 256 ≤ 255 then some ((buf.set p (byteOf v)).set (p + 1) (v / 256)) else none

/-- `relliteral`, Patch.sml:34-37. -/
def relLit (off : Nat) (s : List Nat × Lk) (e : SC × List Nat) : List Nat × Lk :=
  let (slot, lk) := s.2.slotLit e.1
  (e.2.foldl (fun b p => patchLong b (p + off) slot) s.1, lk)

/-- `relother`, Patch.sml:38-45.  The failures are `raise Toplevel`
(Symtable.sml:45-65, 155-161). -/
def relOther (off : Nat) (s : List Nat × Lk) : Reloc × Nat → Option (List Nat × Lk)
  | (.getglobal u, p) => (s.2.lookup u).map fun v => (patchLong s.1 (p + off) v, s.2)
  | (.setglobal u, p) =>
      let (v, lk) := s.2.slotSet u
      some (patchLong s.1 (p + off) v, lk)
  | (.primitive f, p) =>
      (s.2.prims f).bind fun v => (patchShort s.1 (p + off) v).map fun b => (b, s.2)

def relOthers (off : Nat) : List (Reloc × Nat) → List Nat × Lk → Option (List Nat × Lk)
  | [], s => some s
  | r :: rs, s => (relOther off s r).bind (relOthers off rs)

/-- `patch_object`, Patch.sml:33-49. -/
def patchObject (buf : List Nat) (off : Nat) (lits : List (SC × List Nat))
    (others : List (Reloc × Nat)) (lk : Lk) : Option (List Nat × Lk) :=
  relOthers off others (lits.foldl (relLit off) (buf, lk))

/-! ## What slot a position holds -/

/-- The slot reference at position `p`. -/
def globAt : Nat → List Call → Nat → Option Glob
  | _, [], _ => none
  | p0, c :: cs, p =>
      match c.glob with
      | [g] => if p = p0 then some g else globAt (p0 + c.size) cs p
      | _ => globAt (p0 + c.size) cs p

theorem globAt_le {p0 : Nat} {cs : List Call} {p : Nat} {g : Glob}
    (h : globAt p0 cs p = some g) : p0 ≤ p := by
  induction cs generalizing p0 with
  | nil => cases h
  | cons c cs ih =>
      simp only [globAt] at h
      split at h
      · split at h
        · omega
        · have := ih h; omega
      · have := ih h; omega

theorem glob_size {c : Call} {g : Glob} (h : c.glob = [g]) : 0 < c.size := by
  cases c <;> simp [Call.glob, Call.size] at *

theorem Call.bytes_update {D : Nat → Option Nat} {S : Nat → Nat} {p q v : Nat} {c : Call}
    (h : p ≠ q ∨ c.glob = []) :
    c.bytes D (Function.update S q v) p = c.bytes D S p := by
  rcases h with h | h
  · have e : Function.update S q v p = S p := Function.update_of_ne h _ _
    cases c <;> simp only [Call.bytes, e]
  · cases c <;> first | rfl | (simp [Call.glob] at h)

theorem render_update {D : Nat → Option Nat} {S : Nat → Nat} {p q v : Nat} {cs : List Call}
    (h : q < p) : render D (Function.update S q v) p cs = render D S p cs := by
  induction cs generalizing p with
  | nil => rfl
  | cons c cs ih =>
      simp only [render, Call.bytes_update (c := c) (Or.inl (by omega : p ≠ q)),
        ih (by omega : q < p + c.size)]

theorem patchLong_eq (buf : List Nat) (p v : Nat) : patchLong buf p v = patch4 buf p v := by
  unfold patchLong patch4
  rw [byteOf_shiftUns _ 8 (by omega), byteOf_shiftUns _ 16 (by omega),
    byteOf_shiftUns _ 24 (by omega)]
  rfl

theorem patchShort_eq {buf b : List Nat} {p v : Nat} (h : patchShort buf p v = some b) :
    v < 65536 ∧ b = patch2 buf p v := by
  unfold patchShort at h
  split at h
  next hv =>
    injection h with h
    refine ⟨by omega, ?_⟩
    rw [← h]
    unfold patch2
    have : byteOf ((v : Int) / 256) = v / 256 := by unfold byteOf; omega
    rw [this]
  next => cases h

/-- Which slots occupy four bytes. -/
def Glob.wide : Glob → Bool
  | .cprim _ => false
  | _ => true

theorem patch_slot {D : Nat → Option Nat} {S : Nat → Nat} {cs : List Call} {p0 p v : Nat}
    {g : Glob} (pre suf : List Nat) (h : globAt p0 cs p = some g) :
    (if g.wide then patch4 (pre ++ (render D S p0 cs ++ suf)) (pre.length + (p - p0)) v
     else patch2 (pre ++ (render D S p0 cs ++ suf)) (pre.length + (p - p0)) v) =
      pre ++ (render D (Function.update S p v) p0 cs ++ suf) := by
  induction cs generalizing p0 pre with
  | nil => cases h
  | cons c cs ih =>
      have hle := globAt_le h
      simp only [globAt] at h
      have tail (hne : p ≠ p0 ∨ c.glob = []) (h : globAt (p0 + c.size) cs p = some g) :
          (if g.wide then patch4 (pre ++ (render D S p0 (c :: cs) ++ suf)) (pre.length + (p - p0)) v
            else patch2 (pre ++ (render D S p0 (c :: cs) ++ suf)) (pre.length + (p - p0)) v) =
            pre ++ (render D (Function.update S p v) p0 (c :: cs) ++ suf) := by
        have hle' := globAt_le h
        have h1 := ih (pre ++ c.bytes D S p0) h
        simp only [render]
        rw [Call.bytes_update (c := c) (by rcases hne with h | h; exact Or.inl (Ne.symm h);
                                           exact Or.inr h)]
        rw [List.length_append, Call.bytes_length] at h1
        have e : pre.length + (p - p0) = pre.length + c.size + (p - (p0 + c.size)) := by omega
        rw [e]
        simp only [List.append_assoc] at h1 ⊢
        exact h1
      split at h
      next g' hg =>
        split at h
        next hp =>
          subst hp
          injection h with h
          subst h
          simp only [render, Nat.sub_self, Nat.add_zero, List.append_assoc]
          have hs := glob_size hg
          rw [render_update (by omega)]
          cases c with
          | slotPrim f =>
              cases hg
              simp only [Glob.wide, Bool.false_eq_true, if_false, Call.bytes]
              rw [patch2_append _ _ _ _ _ rfl rfl, Function.update_self]
          | slotLit f =>
              cases hg
              simp only [Glob.wide, if_true, Call.bytes]
              rw [patch4_append _ _ _ _ _ rfl rfl, Function.update_self]
          | slotGet f =>
              cases hg
              simp only [Glob.wide, if_true, Call.bytes]
              rw [patch4_append _ _ _ _ _ rfl rfl, Function.update_self]
          | slotSet f =>
              cases hg
              simp only [Glob.wide, if_true, Call.bytes]
              rw [patch4_append _ _ _ _ _ rfl rfl, Function.update_self]
          | _ => cases hg
        next hp => exact tail (Or.inl hp) h
      next hg =>
        refine tail (Or.inr ?_) h
        cases c <;> first | rfl | (exact absurd rfl (hg _))

/-! ## The relocation entries are those of the code -/

def Reloc.glob : Reloc → Glob
  | .getglobal u => .get u
  | .setglobal u => .set u
  | .primitive f => .cprim f

theorem globAt_cons_tail {p0 : Nat} {c : Call} {cs : List Call} {p : Nat} {g : Glob}
    (h : globAt (p0 + c.size) cs p = some g) : globAt p0 (c :: cs) p = some g := by
  have hle := globAt_le h
  simp only [globAt]
  split
  next g' hg =>
    have := glob_size hg
    rw [if_neg (by omega)]; exact h
  next => exact h

theorem relocsOf_globAt {p0 : Nat} {cs : List Call} {r : Reloc} {p : Nat}
    (h : (r, p) ∈ relocsOf p0 cs) : globAt p0 cs p = some r.glob := by
  induction cs generalizing p0 with
  | nil => cases h
  | cons c cs ih =>
      simp only [relocsOf, List.mem_append] at h
      rcases h with h | h
      · cases c <;> simp [Call.relocs] at h <;> obtain ⟨rfl, rfl⟩ := h <;>
          simp [globAt, Call.glob, Reloc.glob]
      · exact globAt_cons_tail (ih h)

theorem globAt_relocsOf {p0 : Nat} {cs : List Call} {r : Reloc} {p : Nat}
    (h : globAt p0 cs p = some r.glob) : (r, p) ∈ relocsOf p0 cs := by
  induction cs generalizing p0 with
  | nil => cases h
  | cons c cs ih =>
      simp only [globAt] at h
      simp only [relocsOf, List.mem_append]
      split at h
      next g hg =>
        split at h
        next hp =>
          left
          injection h with h
          subst hp
          cases c <;> cases r <;> simp [Call.glob] at hg <;> subst hg <;>
            simp [Reloc.glob] at h <;> subst h <;> simp [Call.relocs]
        next => exact Or.inr (ih h)
      next => exact Or.inr (ih h)

theorem addLit_mem {same : SC → SC → Bool} {c : SC} {p : Nat} {t : List (SC × List Nat)}
    {k : SC} {ps : List Nat} (h : (k, ps) ∈ addLit same c p t) :
    (k, ps) ∈ t ∨ ∃ ps', ps = p :: ps' ∧ (k = c ∧ ps' = [] ∨ same k c = true ∧ (k, ps') ∈ t) := by
  induction t with
  | nil =>
      simp only [addLit, List.mem_cons, List.not_mem_nil, or_false, Prod.mk.injEq] at h
      obtain ⟨rfl, rfl⟩ := h
      exact Or.inr ⟨[], rfl, Or.inl ⟨rfl, rfl⟩⟩
  | cons e t ih =>
      obtain ⟨k', ps'⟩ := e
      simp only [addLit] at h
      split at h
      next hs =>
        rcases List.mem_cons.1 h with h | h
        · cases h
          exact Or.inr ⟨ps', rfl, Or.inr ⟨hs, by simp⟩⟩
        · exact Or.inl (List.mem_cons_of_mem _ h)
      next hs =>
        rcases List.mem_cons.1 h with h | h
        · cases h; exact Or.inl (by simp)
        · rcases ih h with h | ⟨ps', e, h | ⟨h1, h2⟩⟩
          · exact Or.inl (List.mem_cons_of_mem _ h)
          · exact Or.inr ⟨ps', e, Or.inl h⟩
          · exact Or.inr ⟨ps', e, Or.inr ⟨h1, List.mem_cons_of_mem _ h2⟩⟩

theorem addLit_self (same : SC → SC → Bool) (c : SC) (p : Nat) (t : List (SC × List Nat)) :
    ∃ k ps, (k, ps) ∈ addLit same c p t ∧ p ∈ ps := by
  induction t with
  | nil => exact ⟨c, [p], by simp [addLit], by simp⟩
  | cons e t ih =>
      obtain ⟨k', ps'⟩ := e
      simp only [addLit]
      split
      · exact ⟨k', p :: ps', by simp, by simp⟩
      · obtain ⟨k, ps, h1, h2⟩ := ih
        exact ⟨k, ps, List.mem_cons_of_mem _ h1, h2⟩

theorem addLit_keep {same : SC → SC → Bool} {c : SC} {p : Nat} {t : List (SC × List Nat)}
    {q : Nat} (h : ∃ k ps, (k, ps) ∈ t ∧ q ∈ ps) :
    ∃ k ps, (k, ps) ∈ addLit same c p t ∧ q ∈ ps := by
  induction t with
  | nil => obtain ⟨_, _, h, _⟩ := h; cases h
  | cons e t ih =>
      obtain ⟨k', ps'⟩ := e
      obtain ⟨k, ps, h1, h2⟩ := h
      simp only [addLit]
      rcases List.mem_cons.1 h1 with h1 | h1
      · cases h1
        split
        · exact ⟨k', p :: ps', by simp, by simp [h2]⟩
        · exact ⟨k', ps', by simp, h2⟩
      · split
        · exact ⟨k, ps, List.mem_cons_of_mem _ h1, h2⟩
        · obtain ⟨k, ps, h1, h2⟩ := ih ⟨k, ps, h1, h2⟩
          exact ⟨k, ps, List.mem_cons_of_mem _ h1, h2⟩

theorem litsOf_globAt {same : SC → SC → Bool} {p0 : Nat} {cs : List Call}
    {t : List (SC × List Nat)} {k : SC} {ps : List Nat} {p : Nat}
    (h : (k, ps) ∈ litsOf same p0 cs t) (hp : p ∈ ps) :
    (∃ c, globAt p0 cs p = some (.lit c) ∧ (k = c ∨ same k c = true)) ∨
      ∃ ps', (k, ps') ∈ t ∧ p ∈ ps' := by
  induction cs generalizing p0 t with
  | nil => exact Or.inr ⟨ps, h, hp⟩
  | cons c cs ih =>
      simp only [litsOf] at h
      rcases ih h with ⟨c', h1, h2⟩ | ⟨ps', h1, h2⟩
      · exact Or.inl ⟨c', globAt_cons_tail h1, h2⟩
      · cases c with
        | slotLit c =>
            rcases addLit_mem h1 with h3 | ⟨ps'', rfl, h3⟩
            · exact Or.inr ⟨ps', h3, h2⟩
            · rcases List.mem_cons.1 h2 with rfl | h4
              · refine Or.inl ⟨c, by simp [globAt, Call.glob], ?_⟩
                rcases h3 with h3 | h3
                · exact Or.inl h3.1
                · exact Or.inr h3.1
              · rcases h3 with ⟨_, rfl⟩ | h3
                · exact absurd h4 List.not_mem_nil
                · exact Or.inr ⟨ps'', h3.2, h4⟩
        | _ => exact Or.inr ⟨ps', h1, h2⟩

theorem litsOf_keep {same : SC → SC → Bool} {p0 : Nat} {cs : List Call}
    {t : List (SC × List Nat)} {q : Nat} (h : ∃ k ps, (k, ps) ∈ t ∧ q ∈ ps) :
    ∃ k ps, (k, ps) ∈ litsOf same p0 cs t ∧ q ∈ ps := by
  induction cs generalizing p0 t with
  | nil => exact h
  | cons c cs ih =>
      simp only [litsOf]
      refine ih ?_
      cases c with
      | slotLit c => exact addLit_keep h
      | _ => exact h

theorem globAt_litsOf {same : SC → SC → Bool} {p0 : Nat} {cs : List Call}
    {t : List (SC × List Nat)} {c : SC} {p : Nat} (h : globAt p0 cs p = some (.lit c)) :
    ∃ k ps, (k, ps) ∈ litsOf same p0 cs t ∧ p ∈ ps := by
  induction cs generalizing p0 t with
  | nil => cases h
  | cons d cs ih =>
      simp only [globAt] at h
      simp only [litsOf]
      split at h
      next g hg =>
        split at h
        next hp =>
          injection h with h
          subst hp h
          cases d <;> simp [Call.glob] at hg
          exact litsOf_keep (addLit_self _ _ _ _)
        next => exact ih h
      next => exact ih h

/-! ## Running the linker -/

/-- What a slot number means in the linker's tables. -/
def Lk.Den (same : SC → SC → Bool) (lk : Lk) (slot : Nat) : Glob → Prop
  | .lit c => ∃ k, (slot, k) ∈ lk.literals ∧ (k = c ∨ same k c = true)
  | .get u => lk.lookup u = some slot
  | .set u => lk.lookup u = some slot
  | .cprim f => lk.prims f = some slot

/-- Slots in use are below the counter. -/
structure Lk.Bounded (lk : Lk) : Prop where
  globals : ∀ e ∈ lk.globals, e.2 < lk.cnt
  literals : ∀ e ∈ lk.literals, e.1 < lk.cnt

/-- Later tables keep what earlier ones say. -/
structure Lk.Le (a b : Lk) : Prop where
  lookup : ∀ u s, a.lookup u = some s → b.lookup u = some s
  literals : ∀ e ∈ a.literals, e ∈ b.literals
  prims : a.prims = b.prims

theorem Lk.Le.refl (a : Lk) : a.Le a := ⟨fun _ _ h => h, fun _ h => h, rfl⟩

theorem Lk.Le.trans {a b c : Lk} (h : a.Le b) (h' : b.Le c) : a.Le c :=
  ⟨fun u s e => h'.lookup u s (h.lookup u s e), fun e he => h'.literals e (h.literals e he),
    h.prims.trans h'.prims⟩

theorem Lk.Den.mono {same : SC → SC → Bool} {a b : Lk} (h : a.Le b) {slot : Nat} {g : Glob}
    (hd : a.Den same slot g) : b.Den same slot g := by
  cases g with
  | lit c => obtain ⟨k, h1, h2⟩ := hd; exact ⟨k, h.literals _ h1, h2⟩
  | get u => exact h.lookup _ _ hd
  | set u => exact h.lookup _ _ hd
  | cprim f => simp only [Lk.Den] at *; rw [← h.prims]; exact hd

theorem Lk.lookup_lt {lk : Lk} (h : lk.Bounded) {u : Uid} {s : Nat} (e : lk.lookup u = some s) :
    s < lk.cnt := by
  unfold Lk.lookup at e
  rw [Option.map_eq_some_iff] at e
  obtain ⟨x, h1, rfl⟩ := e
  exact h.globals _ (List.mem_of_find?_eq_some h1)

theorem Lk.slotLit_le (lk : Lk) (c : SC) : lk.Le (lk.slotLit c).2 :=
  ⟨fun _ _ h => h, fun _ h => List.mem_cons_of_mem _ h, rfl⟩

theorem Lk.slotSet_lookup (lk : Lk) (u : Uid) : (lk.slotSet u).2.lookup u = some lk.cnt := by
  simp [Lk.slotSet, Lk.lookup]

theorem Lk.slotSet_other (lk : Lk) {u v : Uid} (h : u ≠ v) :
    (lk.slotSet u).2.lookup v = lk.lookup v := by
  simp [Lk.slotSet, Lk.lookup, h]

theorem Lk.slotSet_le (lk : Lk) {u : Uid} (h : lk.lookup u = none) : lk.Le (lk.slotSet u).2 := by
  refine ⟨?_, fun _ h => h, rfl⟩
  intro v s hv
  have : u ≠ v := by rintro rfl; rw [h] at hv; cases hv
  rw [Lk.slotSet_other lk this]; exact hv

theorem Lk.slotLit_bounded {lk : Lk} (h : lk.Bounded) (c : SC) : (lk.slotLit c).2.Bounded := by
  constructor
  · intro e he; have := h.globals e he; simp only [Lk.slotLit]; omega
  · intro e he
    simp only [Lk.slotLit, List.mem_cons] at he ⊢
    rcases he with rfl | he
    · simp
    · have := h.literals e he; omega

theorem Lk.slotSet_bounded {lk : Lk} (h : lk.Bounded) (u : Uid) : (lk.slotSet u).2.Bounded := by
  constructor
  · intro e he
    simp only [Lk.slotSet, List.mem_cons] at he ⊢
    rcases he with rfl | he
    · simp
    · have := h.globals e he; omega
  · intro e he; have := h.literals e he; simp only [Lk.slotSet]; omega

/-- The state of linking the code `cs`, placed in the buffer between `pre` and `suf`:
some slot numbers have been filled in, those of the positions `P`, and they mean what
they should. -/
structure LInv (same : SC → SC → Bool) (D : Nat → Option Nat) (cs : List Call)
    (pre suf : List Nat) (P : Nat → Prop) (s : List Nat × Lk) (S : Nat → Nat) : Prop where
  buf : s.1 = pre ++ (render D S 0 cs ++ suf)
  bounded : s.2.Bounded
  den : ∀ p g, P p → globAt 0 cs p = some g → s.2.Den same (S p) g ∧
    (g.wide = true → S p < s.2.cnt) ∧ (g.wide = false → S p < 65536)

theorem LInv.patchW {same D cs pre suf P buf lk S} (h : LInv same D cs pre suf P (buf, lk) S)
    {lk' : Lk} (hle : lk.Le lk') (hb : lk'.Bounded) (hc : lk.cnt ≤ lk'.cnt) {p v : Nat}
    {g : Glob} (hg : globAt 0 cs p = some g) (hw : g.wide = true) (hd : lk'.Den same v g)
    (hv : v < lk'.cnt) :
    LInv same D cs pre suf (fun q => q = p ∨ P q) (patchLong buf (p + pre.length) v, lk')
      (Function.update S p v) := by
  refine ⟨?_, hb, ?_⟩
  · have := patch_slot (D := D) (S := S) (v := v) pre suf hg
    rw [if_pos hw, Nat.sub_zero] at this
    rw [show buf = _ from h.buf, patchLong_eq, Nat.add_comm, this]
  · intro q g' hq hg'
    by_cases e : q = p
    · subst e
      rw [hg] at hg'
      cases hg'
      rw [Function.update_self]
      exact ⟨hd, fun _ => hv, (fun h => by rw [hw] at h; cases h)⟩
    · rw [Function.update_of_ne e]
      obtain ⟨h1, h2, h3⟩ := h.den q g' (by rcases hq with h | h; exact absurd h e; exact h) hg'
      exact ⟨h1.mono hle, fun h => lt_of_lt_of_le (h2 h) hc, h3⟩

theorem LInv.patchN {same D cs pre suf P buf lk S} (h : LInv same D cs pre suf P (buf, lk) S)
    {p v : Nat} {g : Glob} (hg : globAt 0 cs p = some g) (hw : g.wide = false)
    (hd : lk.Den same v g) {b : List Nat} (hb : patchShort buf (p + pre.length) v = some b) :
    LInv same D cs pre suf (fun q => q = p ∨ P q) (b, lk) (Function.update S p v) := by
  obtain ⟨hv, rfl⟩ := patchShort_eq hb
  refine ⟨?_, h.bounded, ?_⟩
  · have := patch_slot (D := D) (S := S) (v := v) pre suf hg
    rw [if_neg (by rw [hw]; decide), Nat.sub_zero] at this
    rw [show buf = _ from h.buf, Nat.add_comm, this]
  · intro q g' hq hg'
    by_cases e : q = p
    · subst e
      rw [hg] at hg'
      cases hg'
      rw [Function.update_self]
      exact ⟨hd, (fun h => by rw [hw] at h; cases h), fun _ => hv⟩
    · rw [Function.update_of_ne e]
      exact h.den q g' (by rcases hq with h | h; exact absurd h e; exact h) hg'

theorem LInv.weaken {same D cs pre suf P Q s S} (h : LInv same D cs pre suf P s S)
    (hq : ∀ p, Q p → P p) : LInv same D cs pre suf Q s S :=
  ⟨h.buf, h.bounded, fun p g hp => h.den p g (hq p hp)⟩

theorem LInv.lits {same D cs pre suf P s S} (h : LInv same D cs pre suf P s S) (es : List (SC × List Nat))
    (hes : ∀ k ps, (k, ps) ∈ es → ∀ p ∈ ps,
      ∃ c, globAt 0 cs p = some (.lit c) ∧ (k = c ∨ same k c = true)) :
    (∃ S', LInv same D cs pre suf (fun p => P p ∨ ∃ k ps, (k, ps) ∈ es ∧ p ∈ ps)
      (es.foldl (relLit pre.length) s) S') ∧
    s.2.Le (es.foldl (relLit pre.length) s).2 ∧
    (es.foldl (relLit pre.length) s).2.globals = s.2.globals := by
  induction es generalizing s S P with
  | nil =>
      refine ⟨⟨S, h.weaken ?_⟩, Lk.Le.refl _, rfl⟩
      rintro p (hp | ⟨_, _, hp, _⟩)
      · exact hp
      · cases hp
  | cons e es ih =>
      obtain ⟨k, ps⟩ := e
      have step : ∀ (ps : List Nat) (P : Nat → Prop) (buf : List Nat) (S : Nat → Nat),
          LInv same D cs pre suf P (buf, (s.2.slotLit k).2) S →
          (∀ p ∈ ps, ∃ c, globAt 0 cs p = some (.lit c) ∧ (k = c ∨ same k c = true)) →
          ∃ S', LInv same D cs pre suf (fun p => P p ∨ p ∈ ps)
            (ps.foldl (fun b p => patchLong b (p + pre.length) s.2.cnt) buf,
              (s.2.slotLit k).2) S' := by
        intro ps
        induction ps with
        | nil =>
            intro P buf S h _
            exact ⟨S, h.weaken (by rintro p (hp | hp); exact hp; cases hp)⟩
        | cons p ps ihp =>
            intro P buf S h hps
            obtain ⟨c, hc, hkc⟩ := hps p (by simp)
            have h1 := h.patchW (Lk.Le.refl _) h.bounded (le_refl _) hc rfl (v := s.2.cnt)
              ⟨k, by simp [Lk.slotLit], hkc⟩ (by simp [Lk.slotLit])
            obtain ⟨S', h2⟩ := ihp _ _ _ h1 (fun q hq => hps q (by simp [hq]))
            refine ⟨S', h2.weaken ?_⟩
            rintro q (hq | hq)
            · exact Or.inl (Or.inr hq)
            · rcases List.mem_cons.1 hq with hq | hq
              · exact Or.inl (Or.inl hq)
              · exact Or.inr hq
      have h0 : LInv same D cs pre suf P (s.1, (s.2.slotLit k).2) S :=
        ⟨h.buf, Lk.slotLit_bounded h.bounded k, fun p g hp hg => by
          obtain ⟨h1, h2, h3⟩ := h.den p g hp hg
          exact ⟨h1.mono (Lk.slotLit_le _ _),
            (fun hw => by have := h2 hw; simp only [Lk.slotLit]; omega), h3⟩⟩
      obtain ⟨S1, h1⟩ := step ps P s.1 S h0 (hes k ps (by simp))
      obtain ⟨⟨S2, h2⟩, h3, h4⟩ := ih h1 (fun k' ps' hm => hes k' ps' (by simp [hm]))
      refine ⟨⟨S2, h2.weaken ?_⟩, ?_, ?_⟩
      · rintro p (hp | ⟨k', ps', hm, hp⟩)
        · exact Or.inl (Or.inl hp)
        · rcases List.mem_cons.1 hm with hm | hm
          · cases hm; exact Or.inl (Or.inr hp)
          · exact Or.inr ⟨k', ps', hm, hp⟩
      · exact (Lk.slotLit_le _ k).trans h3
      · exact h4

/-- The globals defined by a list of relocation entries. -/
def setsOf (rs : List (Reloc × Nat)) : List Uid :=
  rs.filterMap fun r => match r.1 with | .setglobal u => some u | _ => none

theorem LInv.others {same D cs pre suf P s S} (h : LInv same D cs pre suf P s S)
    (rs : List (Reloc × Nat)) (hrs : ∀ r ∈ rs, globAt 0 cs r.2 = some r.1.glob)
    (hnd : (setsOf rs).Nodup) (hfresh : ∀ u ∈ setsOf rs, s.2.lookup u = none)
    {s' : List Nat × Lk} (he : relOthers pre.length rs s = some s') :
    (∃ S', LInv same D cs pre suf (fun p => P p ∨ ∃ r, (r, p) ∈ rs) s' S') ∧ s.2.Le s'.2 := by
  induction rs generalizing s S P with
  | nil =>
      cases he
      refine ⟨⟨S, h.weaken ?_⟩, Lk.Le.refl _⟩
      rintro p (hp | ⟨_, hp⟩)
      · exact hp
      · cases hp
  | cons r rs ih =>
      obtain ⟨r, p⟩ := r
      simp only [relOthers, Option.bind_eq_some_iff] at he
      obtain ⟨s1, h1, h2⟩ := he
      have hg := hrs (r, p) (by simp)
      simp only at hg
      have fin : ∀ {S1}, LInv same D cs pre suf (fun q => q = p ∨ P q) s1 S1 →
          (setsOf rs).Nodup → (∀ u ∈ setsOf rs, s1.2.lookup u = none) → s.2.Le s1.2 →
          (∃ S', LInv same D cs pre suf (fun q => P q ∨ ∃ r', (r', q) ∈ (r, p) :: rs) s' S') ∧
            s.2.Le s'.2 := by
        intro S1 h3 h4 h5 h6
        obtain ⟨⟨S', h7⟩, h8⟩ := ih h3 (fun r' hr' => hrs r' (by simp [hr'])) h4 h5 h2
        refine ⟨⟨S', h7.weaken ?_⟩, h6.trans h8⟩
        rintro q (hq | ⟨r', hq⟩)
        · exact Or.inl (Or.inr hq)
        · rcases List.mem_cons.1 hq with hq | hq
          · cases hq; exact Or.inl (Or.inl rfl)
          · exact Or.inr ⟨r', hq⟩
      cases r with
      | getglobal u =>
          simp only [relOther, Option.map_eq_some_iff] at h1
          obtain ⟨v, h1, rfl⟩ := h1
          exact fin (h.patchW (Lk.Le.refl _) h.bounded (le_refl _) hg rfl h1
            (Lk.lookup_lt h.bounded h1)) hnd hfresh (Lk.Le.refl _)
      | setglobal u =>
          simp only [relOther, Option.some.injEq] at h1
          subst h1
          have e : setsOf ((Reloc.setglobal u, p) :: rs) = u :: setsOf rs := rfl
          rw [e] at hnd hfresh
          have hu := hfresh u (by simp)
          rw [List.nodup_cons] at hnd
          refine fin (h.patchW (Lk.slotSet_le _ hu) (Lk.slotSet_bounded h.bounded u)
            (by simp [Lk.slotSet]) hg rfl (Lk.slotSet_lookup _ _) (by simp [Lk.slotSet]))
            hnd.2 ?_ (Lk.slotSet_le _ hu)
          intro v hv
          have hne : u ≠ v := by rintro rfl; exact hnd.1 hv
          rw [Lk.slotSet_other _ hne]
          exact hfresh v (by simp [hv])
      | primitive f =>
          simp only [relOther, Option.bind_eq_some_iff, Option.map_eq_some_iff] at h1
          obtain ⟨v, h1, b, h3, rfl⟩ := h1
          exact fin (h.patchN hg rfl h1 h3) hnd hfresh (Lk.Le.refl _)

/-- Linking the code `cs`: the buffer holds its bytes for slot numbers that mean, in the
resulting tables, what the instructions refer to. -/
theorem link_layout {same : SC → SC → Bool} {D : Nat → Option Nat} {cs : List Call}
    {pre suf : List Nat} {lk lk' : Lk} {buf' : List Nat} {lits : List (SC × List Nat)}
    (hb : lk.Bounded)
    (hl : lits.Perm (litsOf same 0 cs []))
    (hnd : (setsOf (relocsOf 0 cs)).Nodup)
    (hfresh : ∀ u ∈ setsOf (relocsOf 0 cs), lk.lookup u = none)
    (h : patchObject (pre ++ (render D (fun _ => 0) 0 cs ++ suf)) pre.length lits
      (relocsOf 0 cs) lk = some (buf', lk')) :
    lk.Le lk' ∧ ∃ S, LInv same D cs pre suf (fun p => ∃ g, globAt 0 cs p = some g) (buf', lk') S := by
  have h0 : LInv same D cs pre suf (fun _ => False)
      (pre ++ (render D (fun _ => 0) 0 cs ++ suf), lk) (fun _ => 0) :=
    ⟨rfl, hb, fun _ _ h => h.elim⟩
  obtain ⟨⟨S1, h1⟩, h2, h3⟩ := h0.lits lits (by
    intro k ps hm p hp
    rcases litsOf_globAt (hl.mem_iff.1 hm) hp with h | ⟨_, h, _⟩
    · exact h
    · cases h)
  obtain ⟨⟨S2, h4⟩, h5⟩ := h1.others (relocsOf 0 cs) (fun r hr => relocsOf_globAt hr) hnd
    (by intro u hu; unfold Lk.lookup; rw [h3]; exact hfresh u hu) h
  refine ⟨h2.trans h5, S2, h4.weaken ?_⟩
  rintro p ⟨g, hg⟩
  cases g with
  | lit c =>
      obtain ⟨k, ps, h6, h7⟩ := globAt_litsOf (same := same) (t := []) hg
      exact Or.inl (Or.inr ⟨k, ps, hl.mem_iff.2 h6, h7⟩)
  | get u => exact Or.inr ⟨_, globAt_relocsOf (r := .getglobal u) hg⟩
  | set u => exact Or.inr ⟨_, globAt_relocsOf (r := .setglobal u) hg⟩
  | cprim f => exact Or.inr ⟨_, globAt_relocsOf (r := .primitive f) hg⟩

end Mosml.Emit
