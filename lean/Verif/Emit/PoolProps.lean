import Verif.Emit.Pool
import Verif.Emit.Props
import Mathlib.Data.List.Nodup

/-!
# C56: a constant in a program keeps its value in the object code

The literal table merges constants that have equal hash codes and are equal.  Equality
does not distinguish the two zeros of type real, and the hash code looks at the first
eleven nodes only.
-/

namespace Mosml.Emit
open Mosml.Equal (Tree Heap Val Reps hashParam eqAux)

/-- The comparison in the model is the one that the hash table makes: for any two
constants in the compiler's heap, equal hash codes (hash_param 10 100) and a successful
comparison by sml_equal. -/
theorem C56_table_comparison {h : Heap} {v1 v2 : Val} {k c : SC} (h1 : Reps h v1 (encSC k))
    (h2 : Reps h v2 (encSC c)) (hk : k.Plain) :
    sameSC k c = true ↔
      hashParam 101 h 10 100 v1 = hashParam 101 h 10 100 v2 ∧
      ∃ n, eqAux n h v1 v2 = some .tt := by
  rw [hash10_heap h1, hash10_heap h2]
  unfold sameSC
  simp only [Bool.and_eq_true, beq_iff_eq, Option.some.injEq]
  refine and_congr_right fun _ => ?_
  rw [eqT_iff]
  constructor
  · intro he
    exact ⟨_, (Mosml.Equal.C13_equality_partial h v1 v2 _ _ h1 h2 (encSC_ok k hk) _ (le_refl _)).1.2 he⟩
  · rintro ⟨n, hn⟩
    by_contra hne
    have h3 := (Mosml.Equal.C13_equality_partial h v1 v2 _ _ h1 h2 (encSC_ok k hk)
      (max n (encSC k).height) (le_max_right _ _)).2.2 hne
    have h4 : eqAux (max n (encSC k).height) h v1 v2 = some .tt := by
      obtain ⟨m, hm⟩ : ∃ m, max n (encSC k).height = n + m := ⟨_, (Nat.add_sub_cancel' (le_max_left _ _)).symm⟩
      rw [hm]
      exact eqAux_mono hn m
    rw [h3] at h4
    cases h4

/-- the constants 0.0 and ~0.0 in the heap -/
def zHeap : Heap := fun a =>
  [(1, Mosml.Equal.Obj.block 0 [.ptr 2]), (2, .block 3 [.ptr 3]), (3, .dbl 0), (4, .block 0 [.ptr 5]),
    (5, .block 3 [.ptr 6]), (6, .dbl (2 ^ 63))].lookup a

example : Reps zHeap (.ptr 1) (encSC (.real 0)) ∧ Reps zHeap (.ptr 4) (encSC (.real (2 ^ 63))) ∧
    (SC.real 0).Plain := by
  refine ⟨?_, ?_, ?_⟩
  · exact ⟨by decide, 1, .ptr 2, [], rfl, rfl, ⟨by decide, 2, .ptr 3, [], rfl, rfl, ⟨3, rfl, rfl⟩, rfl⟩, rfl⟩
  · exact ⟨by decide, 4, .ptr 5, [], rfl, rfl, ⟨by decide, 5, .ptr 6, [], rfl, rfl, ⟨6, rfl, rfl⟩, rfl⟩, rfl⟩
  · simp [SC.Plain, Mosml.Equal.isNaN]

/-- What a slot operand for the constant `c` refers to: the value stored there differs
from `c` at most in the sign of zeros; if `c` contains no zero of type real, it is `c`. -/
theorem C56_slot_partial {lk : Lk} {slot : Nat} {c : SC} (h : lk.Den sameSC slot (.lit c)) :
    ∃ k, (slot, k) ∈ lk.literals ∧ k.zeq c ∧ (c.NoZero → k = c) := by
  obtain ⟨k, hk, h⟩ := h
  refine ⟨k, hk, ?_⟩
  rcases h with rfl | h
  · exact ⟨zeq_refl k, fun _ => rfl⟩
  · unfold sameSC at h
    simp only [Bool.and_eq_true] at h
    have hz := zeq_of_eqT k c h.2
    exact ⟨hz, eq_of_zeq k c hz⟩

/-- A phrase compiled and linked with the literal table as it is: the bytes decode to
the instructions generated; every slot operand that stands for a constant without zeros
of type real refers to a slot that the linker fills with exactly this constant, and no
other slot assignment competes with it. -/
theorem C56_object_literals_partial {buf : List Nat} {inits funcs : List Zam}
    {st : St} {lk lk' : Lk} {lits : List (SC × List Nat)} {pre suf out : List Nat}
    (hbuf : 0 < buf.length) (hemit : emitPhrase sameSC buf inits funcs = some st)
    (hfit : Fit (phraseText inits funcs) lk) (hapart : lk.Apart lk.cnt)
    (hlen : st.pos < 2 ^ 31) (hl : lits.Perm st.lits)
    (hlink : patchObject (pre ++ (st.buf.take st.pos ++ suf)) pre.length lits
      st.relocs.reverse lk = some (out, lk'))
    (hcnt : lk'.cnt ≤ 2 ^ 32) :
    (∃ code, out = pre ++ (code ++ suf) ∧ Assembled sameSC (phraseText inits funcs) code lk') ∧
      ∀ slot c, c.NoZero → lk'.Den sameSC slot (.lit c) →
        ∀ k, (slot, k) ∈ lk'.literals ↔ k = c := by
  obtain ⟨_, code, h1, _, h2⟩ := C55_object_decodes_partial hbuf hemit hfit hlen hl hlink hcnt
  refine ⟨⟨code, h1, h2⟩, fun slot c hn hd k => ?_⟩
  obtain ⟨k', hk', _, he⟩ := C56_slot_partial hd
  have he := he hn
  subst he
  constructor
  · intro hk
    have hnd := (C55_slots_apart hapart hlink).1.lits
    have := List.inj_on_of_nodup_map hnd hk hk' rfl
    simpa using this
  · rintro rfl; exact hk'

/-- A constant that is a single real, integer, word, character or string keeps its
value, also if it is a zero. -/
theorem C56_scalar {k c : SC} (hc : ∀ t n as, c ≠ .block t n as) (hb : ∀ b, c = .real b → b < 2 ^ 64)
    (hk : ∀ b, k = .real b → b < 2 ^ 64) (h : sameSC k c = true) : k = c := by
  unfold sameSC at h
  simp only [Bool.and_eq_true, beq_iff_eq] at h
  obtain ⟨h1, h2⟩ := h
  have hz := zeq_of_eqT k c h2
  by_cases hn : c.NoZero
  · exact eq_of_zeq k c hz hn
  · cases c with
    | block t n as => exact absurd rfl (hc t n as)
    | real b =>
        have hb := hb b rfl
        have hb0 : isZero b := by simpa [SC.NoZero] using hn
        cases k <;> simp only [SC.zeq] at hz
        case real b' =>
          have hb' := hk b' rfl
          rcases hz with rfl | ⟨hz1, hz2⟩
          · rfl
          · have e1 : b = 0 ∨ b = 2 ^ 63 := by unfold isZero at hb0; omega
            have e2 : b' = 0 ∨ b' = 2 ^ 63 := by unfold isZero at hz1; omega
            have hne : hash10 (encSC (.real 0)) ≠ hash10 (encSC (.real (2 ^ 63))) := by decide +kernel
            rcases e1 with rfl | rfl <;> rcases e2 with rfl | rfl
            · rfl
            · exact absurd h1 hne.symm
            · exact absurd h1 hne
            · rfl
    | _ => simp [SC.NoZero] at hn

example : sameSC (.real 0) (.real 0) = true ∧ sameSC (.real 0) (.real (2 ^ 63)) = false := by decide +kernel

/-! ## Two constants that are merged -/

/-- the bits of 1.0, 2.0, 3.0 -/
def r1 : Nat := 1023 * 2 ^ 52
def r2 : Nat := 1024 * 2 ^ 52
def r3 : Nat := 1024 * 2 ^ 52 + 2 ^ 51

/-- the constant `[z, 1.0, 2.0, 3.0]` (Front.sml:727-740) -/
def zList (z : Nat) : SC :=
  .block 1 2 [.real z, .block 1 2 [.real r1, .block 1 2 [.real r2, .block 1 2 [.real r3, .block 0 2 []]]]]

/-- `fun f true = [0.0, 1.0, 2.0, 3.0] | f false = [~0.0, 1.0, 2.0, 3.0]` -/
def zFuncs : List Zam :=
  [.label 1, .access 0, .branchifnot 2, .quote (zList 0), .ret 1, .label 2, .quote (zList (2 ^ 63)), .ret 1]

def zInits : List Zam := [.closure 1 0, .setGlobal ([84, 102], 1), .quote (.block 0 1 [])]

def zCalls : List Call :=
  [o Opc.CLOSURE, .out 0, .label 0 1, o Opc.SETGLOBAL, .slotSet ([84, 102], 1), o Opc.ATOM0,
    o Opc.BRANCH, .label 0 0,
    .define 1, .out ((Opc.ACC0 : Int) + (0 : Nat)), o Opc.BRANCHIFNOT, .label 0 2, o Opc.GETGLOBAL, .slotLit (zList 0),
    .out ((Opc.RETURN1 : Int) + (1 : Nat) - 1), .define 2, o Opc.GETGLOBAL, .slotLit (zList (2 ^ 63)),
    .out ((Opc.RETURN1 : Int) + (1 : Nat) - 1), .define 0]

/-- the bits of the head of a list of reals -/
def headBits : SC → Option Nat
  | .block _ _ (.real b :: _) => some b
  | _ => none

def zSummary : Option (List Nat × List (Nat × Option Nat)) :=
  (runCalls sameSC zCalls (St.init [0])).bind fun st =>
    (patchObject ([] ++ (st.buf.take st.pos ++ [])) 0 st.lits st.relocs.reverse exLk).map
      fun x => (x.1, x.2.literals.map fun e => (e.1, headBits e.2))

def zCode : List Nat :=
  [Opc.CLOSURE, 0, 15, 0, 0, 0, Opc.SETGLOBAL, 8, 0, 0, 0, Opc.ATOM0,
   Opc.BRANCH, 22, 0, 0, 0,
   Opc.ACC0, Opc.BRANCHIFNOT, 10, 0, 0, 0, Opc.GETGLOBAL, 7, 0, 0, 0, Opc.RETURN1,
   Opc.GETGLOBAL, 7, 0, 0, 0, Opc.RETURN1]

/-- Both branches of `f` load the same slot, and no slot holds the second list: the
object code has lost a constant of the program.  `Real.toString (hd (f false))` is then
"0.0" instead of "~0.0". -/
theorem C56_zero_violation :
    ∃ st lk', emitPhrase sameSC [0] zInits zFuncs = some st ∧
      patchObject ([] ++ (st.buf.take st.pos ++ [])) 0 st.lits st.relocs.reverse exLk =
        some (zCode, lk') ∧
      (∀ slot, (slot, zList (2 ^ 63)) ∉ lk'.literals) ∧ zList 0 ≠ zList (2 ^ 63) := by
  have h1 : emit zInits = some [o Opc.CLOSURE, .out 0, .label 0 1, o Opc.SETGLOBAL,
    .slotSet ([84, 102], 1), o Opc.ATOM0] := ex_inits
  have h2 : emit zFuncs = some [.define 1, .out ((Opc.ACC0 : Int) + (0 : Nat)), o Opc.BRANCHIFNOT, .label 0 2,
      o Opc.GETGLOBAL, .slotLit (zList 0),
      .out ((Opc.RETURN1 : Int) + (1 : Nat) - 1), .define 2, o Opc.GETGLOBAL, .slotLit (zList (2 ^ 63)),
      .out ((Opc.RETURN1 : Int) + (1 : Nat) - 1)] := by
    simp [emit, emitHead, emitZam, zFuncs, outQuote, zList, guard16]
  have he : emitPhrase sameSC [0] zInits zFuncs = runCalls sameSC zCalls (St.init [0]) :=
    emitPhrase_eq rfl h1 h2 rfl
  have hv : zSummary = some (zCode, [(7, some 0)]) := by decide +kernel
  unfold zSummary at hv
  rw [he]
  simp only [Option.bind_eq_some_iff, Option.map_eq_some_iff, Prod.mk.injEq] at hv
  obtain ⟨st, h3, ⟨b, lk'⟩, h4, h5, h6⟩ := hv
  subst h5
  refine ⟨st, lk', h3, h4, ?_, ?_⟩
  · intro slot hm
    have := List.mem_map_of_mem (f := fun e => (e.1, headBits e.2)) hm
    rw [h6] at this
    simp [headBits, zList] at this
  · intro he
    have := congrArg headBits he
    simp [headBits, zList] at this

/-- The hypothesis on zeros is met by ordinary constants. -/
example : (zList r1).NoZero ∧ (zList r1).Plain := by
  simp [zList, SC.NoZero, NoZeros, SC.Plain, Plains, isZero, r1, r2, r3, Mosml.Equal.isNaN]

end Mosml.Emit
