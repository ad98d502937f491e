import Verif.Emit.Clauses

/-!
# Merging of neighbouring instructions
-/

namespace Mosml.Emit

theorem chunk_pushGet (u : Uid) : Chunk [o Opc.PUSH_GETGLOBAL, .slotGet u]
    [{ kind := .push }, { kind := .getglobal, globs := [.get u] }] :=
  chunk_of rfl (reads_slot32 (.get _)).reads (by agree)

theorem chunk_apply {n : Nat} (h : 1 ≤ n) (h2 : n ≤ 255) :
    Chunk [o Opc.APPLY, .out n] [{ kind := .enter, nums := [(n : Int)] }] :=
  chunk_of rfl (reads_u8 (by omega) (by omega)).reads (by agree)

theorem chunk_appterm {n z : Nat} (h : n ≤ 255) (h2 : z ≤ 65535) :
    Chunk [o Opc.APPTERM, .out n, .short z]
      [{ kind := .appterm, nums := [(n : Int), (z : Int)] }] :=
  chunk_of (b := (Opc.APPTERM : Nat)) (as := [.out n] ++ [.short z])
      (ops := [{ kind := .appterm, nums := [(n : Int), (z : Int)] }]) rfl
      ((reads_u8 (by omega) (by omega)).cons (reads_u16 (by omega) (by omega)).reads) (by agree)

theorem chunk_pushEnv1 : Chunk [o Opc.PUSHENV1]
    [{ kind := .push }, { kind := .envfield, nums := [1] }] :=
  chunk_of rfl reads_nil (by agree)

/-- Every clause of `emit` writes code that does what the instructions it consumes prescribe. -/
theorem chunk_head {zs : List Zam} {cs : List Call} {C : List Zam} (hw : ∀ z ∈ zs, z.Wf)
    (h : emitHead zs = some (cs, C)) :
    ∃ pre, zs = pre ++ C ∧ Chunk cs (pre.flatMap Zam.ops) := by
  rw [emitHead.eq_def] at h
  split at h
  case h_1 => cases h
  case h_2 c C' =>
    cases h
    exact ⟨[.push, .quote c], rfl, chunk_pushQuote c (hw (.quote c) (by simp))⟩
  case h_3 n C' =>
    rw [Option.map_eq_some_iff] at h
    obtain ⟨x, h, h'⟩ := h
    cases h'
    obtain ⟨hn, rfl⟩ := guard16_some h
    refine ⟨[.push, .access n], rfl, ?_⟩
    simp only [List.flatMap_cons, List.flatMap_nil, Zam.ops, List.cons_append, List.nil_append]
    split
    next h' =>
      have : n = 0 ∨ n = 1 ∨ n = 2 ∨ n = 3 ∨ n = 4 ∨ n = 5 ∨ n = 6 ∨ n = 7 := by omega
      rcases this with rfl | rfl | rfl | rfl | rfl | rfl | rfl | rfl <;>
        exact chunk_of rfl reads_nil (by agree)
    next => exact chunk_of (b := (Opc.PUSHACC : Nat)) rfl (reads_u16 (by omega) (by omega)).reads (by agree)
  case h_4 n C' =>
    rw [Option.map_eq_some_iff] at h
    obtain ⟨x, h, h'⟩ := h
    cases h'
    obtain ⟨hn, rfl⟩ := guard8_some h
    have hw : 1 ≤ n := hw (.apply n) (by simp)
    refine ⟨[.push, .envacc 0, .apply n], rfl, ?_⟩
    simp only [List.flatMap_cons, List.flatMap_nil, Zam.ops, List.cons_append, List.nil_append]
    split
    next h' =>
      have : n = 1 ∨ n = 2 ∨ n = 3 ∨ n = 4 := by omega
      rcases this with rfl | rfl | rfl | rfl <;> exact chunk_of rfl reads_nil (by agree)
    next => exact chunk_pushEnv1.append (chunk_apply hw hn)
  case h_5 n z C' =>
    rw [Option.map_eq_some_iff] at h
    obtain ⟨x, h, h'⟩ := h
    cases h'
    rw [Option.bind_eq_some_iff] at h
    obtain ⟨cs1, h1, h2⟩ := h
    obtain ⟨hz, rfl⟩ := guard16_some h2
    have hw : 1 ≤ n := hw (.appterm n z) (by simp)
    refine ⟨[.push, .envacc 0, .appterm n z], rfl, ?_⟩
    simp only [List.flatMap_cons, List.flatMap_nil, Zam.ops, List.cons_append, List.nil_append]
    split at h1
    next h' =>
      have : n = 1 ∨ n = 2 ∨ n = 3 ∨ n = 4 := by omega
      rcases this with rfl | rfl | rfl | rfl <;> cases h1 <;>
        exact chunk_of rfl (reads_u16 (by omega) (by omega)).reads (by agree)
    next =>
      obtain ⟨hn, rfl⟩ := guard8_some h1
      exact chunk_pushEnv1.append (chunk_appterm hn hz)
  case h_6 m C' _ _ =>
    rw [Option.map_eq_some_iff] at h
    obtain ⟨x, h, h'⟩ := h
    cases h'
    obtain ⟨hn, rfl⟩ := guard16_some h
    refine ⟨[.push, .envacc m], rfl, ?_⟩
    simp only [List.flatMap_cons, List.flatMap_nil, Zam.ops, List.cons_append, List.nil_append]
    split
    next h' =>
      have : m = 0 ∨ m = 1 ∨ m = 2 ∨ m = 3 ∨ m = 4 ∨ m = 5 ∨ m = 6 := by omega
      rcases this with rfl | rfl | rfl | rfl | rfl | rfl | rfl <;>
        exact chunk_of rfl reads_nil (by agree)
    next => exact chunk_of (b := (Opc.PUSHENVACC : Nat)) rfl (reads_u16 (by omega) (by omega)).reads (by agree)
  case h_7 u n C' =>
    rw [Option.map_eq_some_iff] at h
    obtain ⟨x, h, h'⟩ := h
    cases h'
    have hw : 1 ≤ n := hw (.apply n) (by simp)
    refine ⟨[.push, .getGlobal u, .apply n], rfl, ?_⟩
    simp only [List.flatMap_cons, List.flatMap_nil, Zam.ops, List.cons_append, List.nil_append]
    split at h
    next h' =>
      have : n = 1 ∨ n = 2 ∨ n = 3 ∨ n = 4 := by omega
      rcases this with rfl | rfl | rfl | rfl <;> cases h <;>
        exact chunk_of rfl (reads_slot32 (.get u)).reads (by agree)
    next h' =>
      obtain ⟨hn, rfl⟩ := guard8_some h
      rw [if_neg h']
      exact (chunk_pushGet u).append (chunk_apply hw hn)
  case h_8 u n z C' =>
    rw [Option.map_eq_some_iff] at h
    obtain ⟨x, h, h'⟩ := h
    cases h'
    have hw : 1 ≤ n := hw (.appterm n z) (by simp)
    refine ⟨[.push, .getGlobal u, .appterm n z], rfl, ?_⟩
    simp only [List.flatMap_cons, List.flatMap_nil, Zam.ops, List.cons_append, List.nil_append]
    split at h
    next h' =>
      obtain ⟨hz, rfl⟩ := guard16_some h
      have hr : Reads [.short z, .slotGet u] [.u16, .slot32] [(z : Int)] [] [.get u] :=
        (reads_u16 (by omega) (by omega)).cons (reads_slot32 (.get u)).reads
      have : n = 1 ∨ n = 2 ∨ n = 3 ∨ n = 4 := by omega
      rcases this with rfl | rfl | rfl | rfl <;>
        exact chunk_of rfl (hr) (by agree)
    next =>
      rw [Option.bind_eq_some_iff] at h
      obtain ⟨cs1, h1, h2⟩ := h
      obtain ⟨hz, rfl⟩ := guard16_some h2
      obtain ⟨hn, rfl⟩ := guard8_some h1
      exact (chunk_pushGet u).append (chunk_appterm hn hz)
  case h_9 u C' _ _ =>
    cases h
    exact ⟨[.push, .getGlobal u], rfl, chunk_pushGet u⟩
  case h_10 C' =>
    cases h
    exact ⟨[.getfield 0, .getfield 0], rfl, chunk_of rfl reads_nil (by agree)⟩
  case h_11 C' =>
    cases h
    exact ⟨[.getfield 0, .getfield 1], rfl, chunk_of rfl reads_nil (by agree)⟩
  case h_12 C' =>
    cases h
    exact ⟨[.getfield 1, .getfield 0], rfl, chunk_of rfl reads_nil (by agree)⟩
  case h_13 C' =>
    cases h
    exact ⟨[.getfield 1, .getfield 1], rfl, chunk_of rfl reads_nil (by agree)⟩
  case h_14 z C' _ _ _ _ _ _ _ _ _ _ _ _ =>
    rw [Option.map_eq_some_iff] at h
    obtain ⟨x, h, h'⟩ := h
    cases h'
    refine ⟨[z], rfl, ?_⟩
    simp only [List.flatMap_cons, List.flatMap_nil, List.append_nil]
    exact chunk_zam (hw _ (by simp)) h

/-- The code for a list of instructions does what the instructions prescribe. -/
theorem chunk_emit (zs : List Zam) {cs : List Call} (hw : ∀ z ∈ zs, z.Wf)
    (h : emit zs = some cs) : Chunk cs (zs.flatMap Zam.ops) := by
  match zs with
  | [] => simp only [emit, Option.some.injEq] at h; subst h; exact chunk_nil
  | z :: zs' =>
      rw [emit] at h
      split at h
      · cases h
      next cs1 C hh =>
        rw [Option.map_eq_some_iff] at h
        obtain ⟨cs2, h2, rfl⟩ := h
        obtain ⟨pre, he, hc⟩ := chunk_head hw hh
        have hlt := emitHead_lt hh
        have h3 := chunk_emit C (fun z hz => hw z (by rw [he]; simp [hz])) h2
        rw [he, List.flatMap_append]
        exact hc.append h3
  termination_by zs.length

/-! ## A label is never crossed -/

theorem emitHead_label {l : Nat} {post : List Zam} (z : Zam) (pre : List Zam) :
    emitHead (z :: pre ++ .label l :: post) =
      (emitHead (z :: pre)).map fun x => (x.1, x.2 ++ .label l :: post) := by
  cases z with
  | push =>
    rcases pre with _ | ⟨y, _ | ⟨w, pre⟩⟩
    · rfl
    · cases y with
      | envacc m => cases m <;> simp [emitHead, Function.comp_def]
      | _ => simp [emitHead, emitZam, Function.comp_def]
    · cases y with
      | envacc m => cases m <;> cases w <;> simp [emitHead, Function.comp_def]
      | getGlobal u => cases w <;> simp [emitHead, Function.comp_def]
      | _ => simp [emitHead, emitZam, Function.comp_def]
  | getfield n =>
    rcases pre with _ | ⟨y, pre⟩
    · simp [emitHead, Function.comp_def]
    · cases y with
      | getfield m =>
        rcases n with _ | _ | n <;> rcases m with _ | _ | m <;> simp [emitHead, Function.comp_def]
      | _ => simp [emitHead, Function.comp_def]
  | _ => simp [emitHead, Function.comp_def]

/-- The code before a label and the code after it are emitted separately. -/
theorem emit_label (l : Nat) (post pre : List Zam) :
    emit (pre ++ .label l :: post) =
      (emit pre).bind fun a => (emit post).map fun b => a ++ .define l :: b := by
  match pre with
  | [] =>
      simp only [List.nil_append]
      rw [emit.eq_def]
      simp only [emitHead, emitZam, Option.map_some]
      rw [emit]
      simp
  | z :: pre' =>
      rw [emit.eq_def (z :: pre' ++ _)]
      simp only [List.cons_append]
      rw [emit.eq_def (z :: pre')]
      have he := emitHead_label (l := l) (post := post) z pre'
      simp only [List.cons_append] at he
      split
      next hh =>
        rw [he] at hh
        simp only [Option.map_eq_none_iff] at hh
        simp only
        split
        · rfl
        next h2 => rw [hh] at h2; cases h2
      next cs C hh =>
        rw [he] at hh
        rw [Option.map_eq_some_iff] at hh
        obtain ⟨⟨cs', C'⟩, h1, h2⟩ := hh
        cases h2
        have hlt := emitHead_lt h1
        simp only
        split
        next h3 => rw [h1] at h3; cases h3
        next cs2 C2 h3 =>
          rw [h1] at h3
          cases h3
          rw [emit_label l post C']
          cases emit C' <;> cases emit post <;> simp
  termination_by pre.length

end Mosml.Emit
