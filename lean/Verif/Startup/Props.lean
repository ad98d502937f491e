import Verif.Startup.Model
import Verif.Util

/-! # C107: what is linked is what is run -/
namespace Mosml.Startup

/-- a size that is written is read again -/
theorem readSize_word (w : Nat) (h : w < 4294967296) (p q : List Nat) (i : Nat) (hi : p.length = i) :
    readSize (p ++ putword w ++ q) i = w := by
  subst hi
  have e : ∀ k, k < 4 → byte (p ++ putword w ++ q) (p.length + k) = byte (putword w) k := by
    intro k hk
    unfold byte
    have hw : k < (putword w).length := hk
    rw [List.append_assoc, List.getD_eq_getElem?_getD, List.getD_eq_getElem?_getD,
      List.getElem?_append_right (by omega), Nat.add_sub_cancel_left, List.getElem?_append_left hw]
  have e0 := e 0 (by omega)
  rw [Nat.add_zero] at e0
  unfold readSize
  rw [e0, e 1 (by omega), e 2 (by omega), e 3 (by omega)]
  simp only [byte, putword, List.getD_cons_zero, List.getD_cons_succ]
  omega

theorem word_length (w : Nat) : (putword w).length = 4 := rfl

theorem trailer_exec (pre code data sym : List Nat) (hc : code.length < 4294967296) (hd : data.length < 4294967296)
    (hs : sym.length < 4294967296) :
    readTrailer (exec pre code data sym) =
      .ok ⟨code.length, data.length, sym.length, 0⟩ (exec pre code data sym) := by
  have hl : (exec pre code data sym).length = (pre ++ code ++ data ++ sym).length + 20 := by
    simp [exec, putword]; omega
  have hb : (exec pre code data sym).drop ((exec pre code data sym).length - 20) =
      putword code.length ++ putword data.length ++ putword sym.length ++ putword 0 ++ [77, 76, 48, 56] := by
    rw [hl, Nat.add_sub_cancel]
    exact List.drop_left
  unfold readTrailer
  rw [if_neg (by omega)]
  simp only
  rw [hb]
  have h0 := readSize_word code.length hc [] (putword data.length ++ putword sym.length ++ putword 0 ++ [77, 76, 48, 56]) 0 rfl
  have h4 := readSize_word data.length hd (putword code.length) (putword sym.length ++ putword 0 ++ [77, 76, 48, 56]) 4 rfl
  have h8 := readSize_word sym.length hs (putword code.length ++ putword data.length) (putword 0 ++ [77, 76, 48, 56]) 8 rfl
  have h12 := readSize_word 0 (by omega) (putword code.length ++ putword data.length ++ putword sym.length) [77, 76, 48, 56] 12 rfl
  have h16 := readSize_word 1296838712 (by omega)
    (putword code.length ++ putword data.length ++ putword sym.length ++ putword 0) [] 16 rfl
  have hm : putword 1296838712 = [77, 76, 48, 56] := by decide
  rw [hm] at h16
  simp only [List.nil_append, List.append_nil, List.append_assoc] at h0 h4 h8 h12 h16 ⊢
  rw [h0, h4, h8, h12, h16, if_pos rfl]

theorem load_exec (pre code data sym : List Nat) (args : List (List Nat)) :
    ∃ t, load ⟨code.length, data.length, sym.length, 0⟩ (exec pre code data sym) args =
      .run args code (data ++ t) := by
  have he : ∃ T : List Nat, T.length = 20 ∧ exec pre code data sym = pre ++ (code ++ (data ++ (sym ++ T))) :=
    ⟨putword code.length ++ putword data.length ++ putword sym.length ++ putword 0 ++ [77, 76, 48, 56], rfl,
      by unfold exec; simp only [List.append_assoc]⟩
  obtain ⟨T, hT, he⟩ := he
  refine ⟨sym ++ T, ?_⟩
  rw [he]
  have hl : (pre ++ (code ++ (data ++ (sym ++ T)))).length =
      pre.length + (20 + code.length + data.length + sym.length + 0) := by
    simp only [List.length_append, hT]; omega
  simp only [load]
  have hn : 20 + code.length + data.length + sym.length + 0 ≤ (pre ++ (code ++ (data ++ (sym ++ T)))).length := by omega
  simp only [if_pos hn]
  rw [hl, Nat.add_sub_cancel, List.drop_left, if_neg (by simp), List.take_left, List.drop_left]

/-- the name is searched for in the path -/
theorem trueName_eq (search : List Nat → Option (List Nat)) (a : List Nat) : trueName search a = (search a).getD a := by
  unfold trueName
  cases search a <;> rfl

/-- A stand-alone program, or any linked file that does not begin with #!, that is called by its name runs its own code, with its
data after it, and gets the whole command line. -/
theorem C107_standalone (files search : List Nat → Option (List Nat)) (a : List Nat) (l : List (List Nat))
    (pre code data sym : List Nat) (hf : files ((search a).getD a) = some (exec pre code data sym))
    (hp : (exec pre code data sym).take 2 ≠ [35, 33])
    (hc : code.length < 4294967296) (hd : data.length < 4294967296) (hs : sym.length < 4294967296) :
    ∃ t, main files search a l = .run ((search a).getD a :: l) code (data ++ t) := by
  rw [← trueName_eq] at hf ⊢
  obtain ⟨t, e⟩ := load_exec pre code data sym (trueName search a :: l)
  refine ⟨t, ?_⟩
  have hl : 20 ≤ (exec pre code data sym).length := by simp [exec, putword]; omega
  unfold main attemptOpen
  rw [hf]
  simp only
  rw [if_neg (by decide), if_neg (by omega), if_neg hp, trailer_exec pre code data sym hc hd hs]
  exact e

theorem options_skip (files search : List Nat → Option (List Nat)) (o l : List (List Nat))
    (h : ∀ x ∈ o, ∃ y, x = 45 :: 118 :: y) : options files search (o ++ l) = options files search l := by
  induction o with
  | nil => rfl
  | cons x o ih =>
    obtain ⟨y, rfl⟩ := h x (by simp)
    rw [List.cons_append, options, if_pos (by rfl), if_pos (by rfl)]
    exact ih (fun z hz => h z (by simp [hz]))

/-- If the command line begins with something else than a program, for instance the runtime, or with a script that
begins with #!, then options -v are skipped and the linked file that follows is run; it gets the command line from its
own name on. -/
theorem C107_bytecode (files search : List Nat → Option (List Nat)) (r : List Nat) (o : List (List Nat)) (a : List Nat)
    (l : List (List Nat)) (pre code data sym : List Nat)
    (hr : ∀ t f, attemptOpen files ((search r).getD r) false ≠ .ok t f)
    (ho : ∀ x ∈ o, ∃ y, x = 45 :: 118 :: y) (ha : a.take 1 ≠ [45])
    (hf : files ((search a).getD a) = some (exec pre code data sym))
    (hc : code.length < 4294967296) (hd : data.length < 4294967296) (hs : sym.length < 4294967296) :
    ∃ t, main files search r (o ++ a :: l) = .run ((search a).getD a :: l) code (data ++ t) := by
  rw [← trueName_eq] at hf ⊢
  rw [← trueName_eq] at hr
  obtain ⟨t, e⟩ := load_exec pre code data sym (trueName search a :: l)
  refine ⟨t, ?_⟩
  have h1 : main files search r (o ++ a :: l) = options files search (o ++ a :: l) := by
    unfold main
    generalize hg : attemptOpen files (trueName search r) false = g
    cases g with
    | ok t f => exact absurd hg (hr t f)
    | _ => rfl
  rw [h1, options_skip files search o _ ho, options, if_neg ha]
  have h2 : attemptOpen files (trueName search a) true =
      .ok ⟨code.length, data.length, sym.length, 0⟩ (exec pre code data sym) := by
    unfold attemptOpen
    rw [hf]
    simp only
    rw [if_pos trivial, trailer_exec pre code data sym hc hd hs]
  rw [h2]
  exact e

theorem attempt_ok (files : List Nat → Option (List Nat)) (n : List Nat) (b : Bool) (t : Trailer) (f : List Nat)
    (h : attemptOpen files n b = .ok t f) :
    files n = some f ∧ 20 ≤ f.length ∧ readSize (f.drop (f.length - 20)) 16 = 1296838712 := by
  have hr : ∀ g, readTrailer g = .ok t f → g = f ∧ 20 ≤ g.length ∧ readSize (g.drop (g.length - 20)) 16 = 1296838712 := by
    intro g hg
    unfold readTrailer at hg
    split at hg
    · cases hg
    · simp only at hg
      split at hg
      · rename_i h1 h2
        injection hg with _ h3
        exact ⟨h3, by omega, h2⟩
      · cases hg
  unfold attemptOpen at h
  cases hg : files n with
  | none => rw [hg] at h; cases h
  | some g =>
    rw [hg] at h
    simp only at h
    have : readTrailer g = .ok t f := by
      split at h
      · exact h
      · split at h
        · cases h
        · split at h
          · cases h
          · exact h
    obtain ⟨h1, h2, h3⟩ := hr g this
    subst h1
    exact ⟨rfl, h2, h3⟩

theorem load_run (t : Trailer) (f : List Nat) (args args' : List (List Nat)) (c r : List Nat)
    (h : load t f args = .run args' c r) : args' = args ∧ c.length = t.codeSize ∧ (c ++ r) <:+ f := by
  simp only [load] at h
  generalize hl : (if 20 + t.codeSize + t.dataSize + t.symbolSize + t.debugSize ≤ f.length then
    f.drop (f.length - (20 + t.codeSize + t.dataSize + t.symbolSize + t.debugSize)) else []) = x at h
  have hx : x <:+ f := by
    rw [← hl]
    split
    · exact List.drop_suffix _ _
    · exact List.nil_suffix
  split at h
  · cases h
  · rename_i hn
    injection h with h1 h2 h3
    refine ⟨h1.symm, ?_, ?_⟩
    · rw [← h2, List.length_take]; omega
    · rw [← h2, ← h3, List.take_append_drop]; exact hx

/-- Only a file that ends with a trailer with the magic number is ever run; its name is the first of the arguments, and what is run
is an end of the file. -/
theorem C107_only (files search : List Nat → Option (List Nat)) (a : List Nat) (l : List (List Nat))
    (args : List (List Nat)) (c r : List Nat) (h : main files search a l = .run args c r) :
    ∃ n rest f, args = n :: rest ∧ rest <:+ l ∧ files n = some f ∧ 20 ≤ f.length ∧
      readSize (f.drop (f.length - 20)) 16 = 1296838712 ∧ (c ++ r) <:+ f := by
  have ho : ∀ l, options files search l = .run args c r → ∃ n rest f, args = n :: rest ∧ rest <:+ l ∧ files n = some f ∧
      20 ≤ f.length ∧ readSize (f.drop (f.length - 20)) 16 = 1296838712 ∧ (c ++ r) <:+ f := by
    intro l
    induction l with
    | nil => intro h; cases h
    | cons x l ih =>
      intro h
      rw [options] at h
      split at h
      · split at h
        · obtain ⟨n, rest, f, h1, h2, h3⟩ := ih h
          exact ⟨n, rest, f, h1, h2.trans (List.suffix_cons _ _), h3⟩
        · split at h <;> cases h
      · generalize hg : attemptOpen files (trueName search x) true = g at h
        cases g with
        | ok t f =>
          obtain ⟨h1, h2, h3⟩ := attempt_ok _ _ _ _ _ hg
          obtain ⟨h4, _, h6⟩ := load_run _ _ _ _ _ _ h
          exact ⟨_, _, f, h4, List.suffix_cons _ _, h1, h2, h3, h6⟩
        | _ => cases h
  unfold main at h
  generalize hg : attemptOpen files (trueName search a) false = g at h
  cases g with
  | ok t f =>
    obtain ⟨h1, h2, h3⟩ := attempt_ok _ _ _ _ _ hg
    obtain ⟨h4, _, h6⟩ := load_run _ _ _ _ _ _ h
    exact ⟨_, _, f, h4, List.suffix_refl _, h1, h2, h3, h6⟩
  | _ => exact ho l h

/-- a file `p` with the header `#!\n`, two bytes of code and one of data; the runtime `r` is no linked file -/
def files1 (n : List Nat) : Option (List Nat) :=
  if n = [112] then some (exec [35, 33, 10] [7, 8] [9] []) else if n = [114] then some [1, 2, 3] else none

example : main files1 (fun _ => none) [114] [[45, 118], [112], [120]] =
    .run [[112], [120]] [7, 8] ([9] ++ [0, 0, 0, 2, 0, 0, 0, 1, 0, 0, 0, 0, 0, 0, 0, 0, 77, 76, 48, 56]) := by decide

/-- the same file, called as a script by the kernel -/
example : main files1 (fun _ => none) [112] [[112], [120]] =
    .run [[112], [120]] [7, 8] ([9] ++ [0, 0, 0, 2, 0, 0, 0, 1, 0, 0, 0, 0, 0, 0, 0, 0, 77, 76, 48, 56]) := by decide

example : main files1 (fun _ => none) [114] [[114]] = .notExecutable [114] ∧
    main files1 (fun _ => none) [114] [[45, 120], [112]] = .unknownOption [45, 120] := by decide

/-- stand-alone: the runtime `1 2 3` is prepended -/
example : main (fun _ => some (exec [1, 2, 3] [7, 8] [9] [])) (fun _ => none) [112] [[120]] =
    .run [[112], [120]] [7, 8] ([9] ++ [0, 0, 0, 2, 0, 0, 0, 1, 0, 0, 0, 0, 0, 0, 0, 0, 77, 76, 48, 56]) := by decide

/-- a name that is found in the path -/
example : main (fun n => if n = [47, 112] then some (exec [1, 2, 3] [7, 8] [9] []) else none) (fun n => some (47 :: n)) [112] [] =
    .run [[47, 112]] [7, 8] ([9] ++ [0, 0, 0, 2, 0, 0, 0, 1, 0, 0, 0, 0, 0, 0, 0, 0, 77, 76, 48, 56]) := by decide

end Mosml.Startup
