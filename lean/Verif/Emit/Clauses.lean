import Verif.Emit.Chunk

/-!
# Every clause of the emitter is read back as the instruction it was written for
-/

namespace Mosml.Emit

/-- Limits that the emitter relies on without checking them. -/
def SC.Wf : SC → Prop
  | .block t _ [] => t < 256
  | _ => True

def Test.Wf : Test → Prop
  | .noteqtag t => t < 256
  | _ => True

/-- Operand limits not checked by the emitter: a tag is a byte; a call has an argument, a
return discards one; a closure has at most 255 variables; a block has fewer than 2^22
fields; a C primitive has 1 to 255 arguments. -/
def Zam.Wf : Zam → Prop
  | .quote c => c.Wf
  | .apply n => 1 ≤ n
  | .appterm n _ => 1 ≤ n
  | .ret n => 1 ≤ n
  | .closure _ n => n < 256
  | .closurerec _ n => 1 ≤ n ∧ n ≤ 256
  | .makeblock t n => t < 256 ∧ n < 4194304
  | .prim (.atom t) => t < 256
  | .prim (.ccall _ n) => 1 ≤ n ∧ n < 256
  | .test t _ => t.Wf
  | _ => True

theorem guard8_some {n : Nat} {cs cs'} (h : guard8 n cs = some cs') : n ≤ 255 ∧ cs' = cs := by
  unfold guard8 at h
  split at h
  · cases h
  · injection h with h; exact ⟨by omega, h.symm⟩

theorem guard16_some {n : Nat} {cs cs'} (h : guard16 n cs = some cs') :
    n ≤ 65535 ∧ cs' = cs := by
  unfold guard16 at h
  split at h
  · cases h
  · injection h with h; exact ⟨by omega, h.symm⟩

theorem chunk_intConst (i : Int) : Chunk (outIntConst i) [loadInt i] := by
  unfold outIntConst
  split
  next h =>
    have hf : fits31 i := by unfold fits31; omega
    simp only [loadInt, if_pos hf]
    split
    next h' =>
      have : i = 0 ∨ i = 1 ∨ i = 2 ∨ i = 3 := by omega
      rcases this with rfl | rfl | rfl | rfl <;> exact chunk_of rfl reads_nil (by agree)
    next h' =>
      have e : i + i + 1 = 2 * i + 1 := by ring
      split
      next h2 => exact chunk_of (b := (Opc.CONSTBYTE : Nat)) rfl (reads_u8 (by omega) (by omega)).reads
                  (by rw [e]; agree)
      next h2 =>
        split
        next h3 => exact chunk_of (b := (Opc.CONSTSHORT : Nat)) rfl (reads_s16 (by omega) (by omega)).reads
                    (by rw [e]; agree)
        next h3 => exact chunk_of (b := (Opc.CONSTINT : Nat)) rfl (reads_s32 (by omega) (by omega)).reads
                    (by agree)
  next h =>
    split
    next h' =>
      have hf : fits31 i := by unfold fits31; omega
      simp only [loadInt, if_pos hf]
      exact chunk_of (b := (Opc.CONSTINT : Nat)) rfl (reads_s32 (by omega) (by omega)).reads (by agree)
    next h' =>
      have hf : ¬ fits31 i := by unfold fits31; omega
      simp only [loadInt, if_neg hf]
      exact chunk_of (b := (Opc.GETGLOBAL : Nat)) rfl (reads_slot32 (.lit _)).reads (by agree)

theorem chunk_push : Chunk [o Opc.PUSH] [{ kind := .push }] :=
  chunk_of rfl reads_nil (by agree)

theorem chunk_pushIntConst (i : Int) :
    Chunk (outPushIntConst i) [{ kind := .push }, loadInt i] := by
  unfold outPushIntConst
  split
  next h =>
    have hf : fits31 i := by unfold fits31; omega
    simp only [loadInt, if_pos hf]
    split
    next h' =>
      have : i = 0 ∨ i = 1 ∨ i = 2 ∨ i = 3 := by omega
      rcases this with rfl | rfl | rfl | rfl <;> exact chunk_of rfl reads_nil (by agree)
    next h' =>
      have e : i + i + 1 = 2 * i + 1 := by ring
      split
      next h2 =>
        exact chunk_push.append (chunk_of (b := (Opc.CONSTBYTE : Nat)) rfl
          (reads_u8 (by omega) (by omega)).reads (by rw [e]; agree))
      next h2 =>
        split
        next h3 =>
          exact chunk_push.append (chunk_of (b := (Opc.CONSTSHORT : Nat)) rfl
            (reads_s16 (by omega) (by omega)).reads (by rw [e]; agree))
        next h3 => exact chunk_of (b := (Opc.PUSHCONSTINT : Nat)) rfl (reads_s32 (by omega) (by omega)).reads
                    (by agree)
  next h =>
    split
    next h' =>
      have hf : fits31 i := by unfold fits31; omega
      simp only [loadInt, if_pos hf]
      exact chunk_of (b := (Opc.PUSHCONSTINT : Nat)) rfl (reads_s32 (by omega) (by omega)).reads (by agree)
    next h' =>
      have hf : ¬ fits31 i := by unfold fits31; omega
      simp only [loadInt, if_neg hf]
      exact chunk_of (b := (Opc.PUSH_GETGLOBAL : Nat)) rfl (reads_slot32 (.lit _)).reads (by agree)

theorem chunk_atom {t : Nat} (h : t < 256) :
    Chunk (if t < 10 then [o (Opc.ATOM0 + t)] else [o Opc.ATOM, .out t])
      [{ kind := .atom, nums := [(t : Int)] }] := by
  split
  next h' =>
    have : t = 0 ∨ t = 1 ∨ t = 2 ∨ t = 3 ∨ t = 4 ∨ t = 5 ∨ t = 6 ∨ t = 7 ∨ t = 8 ∨ t = 9 := by
      omega
    rcases this with rfl | rfl | rfl | rfl | rfl | rfl | rfl | rfl | rfl | rfl <;>
      exact chunk_of rfl reads_nil (by agree)
  next h' => exact chunk_of (b := (Opc.ATOM : Nat)) rfl (reads_u8 (by omega) (by omega)).reads (by agree)

theorem chunk_lit (c : SC) : Chunk [o Opc.GETGLOBAL, .slotLit c]
    [{ kind := .getglobal, globs := [.lit c] }] :=
  chunk_of rfl (reads_slot32 (.lit _)).reads (by agree)

theorem chunk_pushLit (c : SC) : Chunk [o Opc.PUSH_GETGLOBAL, .slotLit c]
    [{ kind := .push }, { kind := .getglobal, globs := [.lit c] }] :=
  chunk_of rfl (reads_slot32 (.lit _)).reads (by agree)

theorem chunk_quote (c : SC) (h : c.Wf) : Chunk (outQuote c) [loadConst c] := by
  match c, h with
  | .int i, _ => exact chunk_intConst i
  | .word w, _ => exact chunk_intConst w
  | .char c, _ => exact chunk_intConst c
  | .block t _ [], h => exact chunk_atom h
  | .real b, _ => exact chunk_lit _
  | .str s, _ => exact chunk_lit _
  | .block _ _ (_ :: _), _ => exact chunk_lit _

theorem chunk_pushQuote (c : SC) (h : c.Wf) :
    Chunk (outPushQuote c) [{ kind := .push }, loadConst c] := by
  match c, h with
  | .int i, _ => exact chunk_pushIntConst i
  | .word w, _ => exact chunk_pushIntConst w
  | .char c, _ => exact chunk_pushIntConst c
  | .block t _ [], h =>
      simp only [SC.Wf] at h
      simp only [outPushQuote, loadConst]
      split
      next h' => subst h'; exact chunk_of rfl reads_nil (by agree)
      next h' => exact chunk_of (b := (Opc.PUSHATOM : Nat)) rfl (reads_u8 (by omega) (by omega)).reads (by agree)
  | .real b, _ => exact chunk_pushLit _
  | .str s, _ => exact chunk_pushLit _
  | .block _ _ (_ :: _), _ => exact chunk_pushLit _

theorem chunk_branch {b : Int} {l : Nat} {k : Kind} {e : Entry} (he : table[byteOf b]? = some e)
    (ha : e.args = [.label]) (ho : ∀ ts, e.ops [] ts [] = [{ kind := k, labels := ts }]) :
    Chunk [.out b, .label 0 l] [{ kind := k, labels := [l] }] := by
  refine chunk_of he (by rw [ha]; exact (reads_label l).reads) ?_
  intro D RG ts ss hl hs
  cases hs
  rw [ho]
  exact .cons ⟨rfl, rfl, hl, .nil⟩ .nil

theorem chunk_cmp {b : Int} {k : Kind} {e : Entry} (he : table[byteOf b]? = some e)
    (ha : e.args = []) (ho : e.ops [] [] [] = [{ kind := k }]) :
    Chunk [.out b] [{ kind := k }] := by
  refine chunk_of he (by rw [ha]; exact reads_nil) ?_
  intro D RG ts ss hl hs
  cases hs; cases hl
  rw [ho]
  exact .cons ⟨rfl, rfl, .nil, .nil⟩ .nil

theorem chunk_imm {cs : List Call} {load : Op Nat Glob} {k : CmpKind} {b : Nat} (l : Nat)
    (h : Chunk cs [{ kind := .push }, load]) (hb : Chunk [o b] [{ kind := .cmp k .eq }]) :
    Chunk (o Opc.PUSH :: cs ++ [o b, o Opc.POPBRANCHIFNOT, .label 0 l]) (neqImm k load l) := by
  have h1 := chunk_push.append (h.append (hb.append
    (chunk_branch (b := (Opc.POPBRANCHIFNOT : Nat)) (l := l) rfl rfl (fun _ => rfl))))
  exact h1

theorem chunk_test (l : Nat) (t : Test) (h : t.Wf) : Chunk (outTest l t) (t.branch l) := by
  cases t with
  | eq => exact chunk_branch rfl rfl (fun _ => rfl)
  | noteq => exact chunk_branch rfl rfl (fun _ => rfl)
  | int c => cases c <;> exact chunk_branch rfl rfl (fun _ => rfl)
  | float c =>
      cases c <;>
        exact (chunk_cmp rfl rfl rfl).append
          (chunk_branch (b := (Opc.BRANCHIF : Nat)) rfl rfl (fun _ => rfl))
  | str c =>
      cases c <;>
        exact (chunk_cmp rfl rfl rfl).append
          (chunk_branch (b := (Opc.BRANCHIF : Nat)) rfl rfl (fun _ => rfl))
  | word c =>
      cases c <;>
        exact (chunk_cmp rfl rfl rfl).append
          (chunk_branch (b := (Opc.BRANCHIF : Nat)) rfl rfl (fun _ => rfl))
  | intNoteqImm i => exact chunk_imm l (chunk_pushIntConst i) (chunk_cmp rfl rfl rfl)
  | wordNoteqImm i => exact chunk_imm l (chunk_pushIntConst i) (chunk_cmp rfl rfl rfl)
  | floatNoteqImm b => exact chunk_imm l (chunk_pushLit _) (chunk_cmp rfl rfl rfl)
  | strNoteqImm s => exact chunk_imm l (chunk_pushLit _) (chunk_cmp rfl rfl rfl)
  | noteqtag t =>
      simp only [Test.Wf] at h
      exact chunk_of rfl ((reads_u8 (by omega) (by omega)).cons (reads_label l).reads) (by agree)

theorem chunk_testPrim {t : Test} {cs} (h : outTestPrim t = some cs) :
    Chunk cs (Zam.ops (.prim (.test t))) := by
  cases t with
  | eq => cases h; exact chunk_cmp rfl rfl rfl
  | noteq => cases h; exact chunk_cmp rfl rfl rfl
  | int c => cases h; cases c <;> exact chunk_cmp rfl rfl rfl
  | float c => cases h; cases c <;> exact chunk_cmp rfl rfl rfl
  | str c => cases h; cases c <;> exact chunk_cmp rfl rfl rfl
  | word c => cases h; cases c <;> exact chunk_cmp rfl rfl rfl
  | _ => cases h

theorem chunk_apptermHead {n : Nat} (z : Nat) (h1 : 1 ≤ n) (h2 : n ≤ 255) (hz : z ≤ 65535) :
    Chunk ((if n < 5 then [.out ((Opc.APPTERM1 : Int) + n - 1)] else [o Opc.APPTERM, .out n])
        ++ [.short z])
      [{ kind := .appterm, nums := [(n : Int), (z : Int)] }] := by
  split
  next h =>
    have : n = 1 ∨ n = 2 ∨ n = 3 ∨ n = 4 := by omega
    rcases this with rfl | rfl | rfl | rfl <;>
      exact chunk_of (as := [.short z]) rfl (reads_u16 (by omega) (by omega)).reads (by agree)
  next h =>
    exact chunk_of (b := (Opc.APPTERM : Nat)) (as := [.out n] ++ [.short z])
      (ops := [{ kind := .appterm, nums := [(n : Int), (z : Int)] }]) rfl
      ((reads_u8 (by omega) (by omega)).cons (reads_u16 (by omega) (by omega)).reads) (by agree)

/-- `emit_zam` on an instruction. -/
theorem chunk_zam {z : Zam} {cs : List Call} (hw : z.Wf) (h : emitZam z = some cs) :
    Chunk cs z.ops := by
  cases z with
  | quote c =>
      simp only [emitZam, Option.some.injEq] at h; subst h
      exact chunk_quote c hw
  | getGlobal u =>
      simp only [emitZam, Option.some.injEq] at h; subst h
      exact chunk_of rfl (reads_slot32 (.get _)).reads (by agree)
  | setGlobal u =>
      simp only [emitZam, Option.some.injEq] at h; subst h
      exact chunk_of rfl (reads_slot32 (.set _)).reads (by agree)
  | getfield n =>
      obtain ⟨hn, rfl⟩ := guard16_some h
      simp only [Zam.ops]
      split
      next h' =>
        have : n = 0 ∨ n = 1 ∨ n = 2 ∨ n = 3 := by omega
        rcases this with rfl | rfl | rfl | rfl <;> exact chunk_of rfl reads_nil (by agree)
      next => exact chunk_of (b := (Opc.GETFIELD : Nat)) rfl (reads_u16 (by omega) (by omega)).reads (by agree)
  | setfield n =>
      obtain ⟨hn, rfl⟩ := guard16_some h
      simp only [Zam.ops]
      split
      next h' =>
        have : n = 0 ∨ n = 1 ∨ n = 2 ∨ n = 3 := by omega
        rcases this with rfl | rfl | rfl | rfl <;> exact chunk_of rfl reads_nil (by agree)
      next => exact chunk_of (b := (Opc.SETFIELD : Nat)) rfl (reads_u16 (by omega) (by omega)).reads (by agree)
  | access n =>
      obtain ⟨hn, rfl⟩ := guard16_some h
      simp only [Zam.ops]
      split
      next h' =>
        have : n = 0 ∨ n = 1 ∨ n = 2 ∨ n = 3 ∨ n = 4 ∨ n = 5 ∨ n = 6 ∨ n = 7 := by omega
        rcases this with rfl | rfl | rfl | rfl | rfl | rfl | rfl | rfl <;>
          exact chunk_of rfl reads_nil (by agree)
      next => exact chunk_of (b := (Opc.ACCESS : Nat)) rfl (reads_u16 (by omega) (by omega)).reads (by agree)
  | envacc m =>
      obtain ⟨hn, rfl⟩ := guard16_some h
      simp only [Zam.ops]
      split
      next h' =>
        have : m = 0 ∨ m = 1 ∨ m = 2 ∨ m = 3 ∨ m = 4 ∨ m = 5 ∨ m = 6 := by omega
        rcases this with rfl | rfl | rfl | rfl | rfl | rfl | rfl <;>
          exact chunk_of rfl reads_nil (by agree)
      next => exact chunk_of (b := (Opc.ENVACC : Nat)) rfl (reads_u16 (by omega) (by omega)).reads (by agree)
  | assign n =>
      obtain ⟨hn, rfl⟩ := guard16_some h
      exact chunk_of rfl (reads_u16 (by omega) (by omega)).reads (by agree)
  | push => cases h; exact chunk_push
  | pop n =>
      obtain ⟨hn, rfl⟩ := guard16_some h
      exact chunk_of rfl (reads_u16 (by omega) (by omega)).reads (by agree)
  | restart => cases h; exact chunk_cmp rfl rfl rfl
  | grab n =>
      obtain ⟨hn, rfl⟩ := guard8_some h
      exact chunk_of rfl (reads_u8 (by omega) (by omega)).reads (by agree)
  | apply n =>
      obtain ⟨hn, rfl⟩ := guard8_some h
      simp only [Zam.Wf] at hw
      simp only [Zam.ops]
      split
      next h' =>
        have : n = 1 ∨ n = 2 ∨ n = 3 ∨ n = 4 := by omega
        rcases this with rfl | rfl | rfl | rfl <;> exact chunk_of rfl reads_nil (by agree)
      next => exact chunk_of (b := (Opc.APPLY : Nat)) rfl (reads_u8 (by omega) (by omega)).reads (by agree)
  | appterm n z =>
      simp only [Zam.Wf] at hw
      simp only [emitZam, Option.bind_eq_some_iff] at h
      obtain ⟨cs1, h1, h2⟩ := h
      obtain ⟨hn, rfl⟩ := guard8_some h1
      obtain ⟨hz, rfl⟩ := guard16_some h2
      exact chunk_apptermHead z hw hn hz
  | pushRetaddr l => cases h; exact chunk_branch rfl rfl (fun _ => rfl)
  | checkSignals => cases h; exact chunk_cmp rfl rfl rfl
  | ret n =>
      obtain ⟨hn, rfl⟩ := guard16_some h
      simp only [Zam.Wf] at hw
      simp only [Zam.ops]
      split
      next h' =>
        have : n = 1 ∨ n = 2 := by omega
        rcases this with rfl | rfl <;> exact chunk_of rfl reads_nil (by agree)
      next => exact chunk_of (b := (Opc.RETURN : Nat)) rfl (reads_u16 (by omega) (by omega)).reads (by agree)
  | closure l n =>
      simp only [Zam.Wf] at hw
      cases h
      exact chunk_of rfl ((reads_u8 (by omega) (by omega)).cons (reads_label l).reads) (by agree)
  | closurerec l n =>
      simp only [Zam.Wf] at hw
      cases h
      exact chunk_of rfl ((reads_u8 (by omega) (by omega)).cons (reads_label l).reads) (by agree)
  | raise => cases h; exact chunk_cmp rfl rfl rfl
  | makeblock t n =>
      obtain ⟨hw1, hw2⟩ := hw
      simp only [emitZam] at h
      split at h
      · cases h
      next h0 =>
        split at h
        next h5 =>
          have : n = 1 ∨ n = 2 ∨ n = 3 ∨ n = 4 := by omega
          rcases this with rfl | rfl | rfl | rfl <;> cases h <;>
            exact chunk_of rfl (reads_u8 (by omega) (by omega)).reads (by agree)
        next h5 =>
          cases h
          exact chunk_of rfl (reads_header hw1 hw2).reads (by agree)
  | prim p =>
      cases p with
      | dummy n =>
          obtain ⟨hn, rfl⟩ := guard16_some h
          exact chunk_of rfl (reads_u16 (by omega) (by omega)).reads (by agree)
      | test t => exact chunk_testPrim h
      | atom t => cases h; exact chunk_atom hw
      | ccall f n =>
          obtain ⟨hw1, hw2⟩ := hw
          simp only [emitZam, Option.some.injEq] at h
          subst h
          simp only [Zam.ops]
          split
          next h5 =>
            have : n = 1 ∨ n = 2 ∨ n = 3 ∨ n = 4 ∨ n = 5 := by omega
            rcases this with rfl | rfl | rfl | rfl | rfl <;>
              exact chunk_of (as := [.slotPrim f]) rfl (reads_slot16 f).reads (by agree)
          next h5 =>
            exact chunk_of (b := (Opc.C_CALLN : Nat)) (as := [.out n] ++ [.slotPrim f])
              (ops := [{ kind := .ccall, nums := [(n : Int)], globs := [.cprim f] }]) rfl
              ((reads_u8 (by omega) (by omega)).cons (reads_slot16 f).reads) (by agree)
      | identity => cases h; exact chunk_nil
      | simple p => cases h; cases p <;> exact chunk_cmp rfl rfl rfl
  | pushtrap l => cases h; exact chunk_branch rfl rfl (fun _ => rfl)
  | poptrap => cases h; exact chunk_cmp rfl rfl rfl
  | label l => cases h; exact chunk_define l
  | branch l => cases h; exact chunk_branch rfl rfl (fun _ => rfl)
  | branchif l => cases h; exact chunk_branch rfl rfl (fun _ => rfl)
  | branchifnot l => cases h; exact chunk_branch rfl rfl (fun _ => rfl)
  | strictbranchif l => cases h; exact chunk_branch rfl rfl (fun _ => rfl)
  | strictbranchifnot l => cases h; exact chunk_branch rfl rfl (fun _ => rfl)
  | test t l => cases h; exact chunk_test l t hw
  | branchinterval low high l1 l2 =>
      simp only [emitZam, Option.some.injEq] at h
      subst h
      have hlast : Chunk [o Opc.BRANCHINTERVAL, .label 0 l1, .label 0 l2]
          [{ kind := .branchinterval, labels := [l1, l2] }] :=
        chunk_of rfl ((reads_label l1).cons (reads_label l2).reads) (by agree)
      simp only [Zam.ops]
      by_cases hlh : low = high
      · rw [if_neg (by simpa using hlh), if_pos hlh]
        exact ((chunk_pushIntConst low).append chunk_push).append hlast
      · rw [if_pos hlh, if_neg hlh]
        exact ((chunk_pushIntConst low).append (chunk_pushIntConst high)).append hlast
  | switch ls =>
      obtain ⟨hn, rfl⟩ := guard8_some h
      exact chunk_of rfl (reads_table (by omega)).reads (by agree)

end Mosml.Emit
