import Verif.Loc.Lemmas

namespace Mosml.Loc
open Mosml.Num

/-- C89: every range in every file has one of the two forms to which the theorems below apply. -/
theorem C89_every_range (file : Str) (p1 p2 : Nat) (h12 : p1 ≤ p2) (h2 : p2 ≤ file.length) :
    (∃ pre a m b tail, OneLine file p1 p2 pre a m b tail) ∨
    (∃ pre a x ls y b tail, ManyLines file p1 p2 pre a x ls y b tail) := by
  obtain ⟨pre, a, e1, hpre, ha⟩ := split_last (file.take p1)
  obtain ⟨b, tail, e2, hb, ht⟩ := split_tail (file.drop p2)
  have ef : file = file.take p1 ++ ((file.drop p1).take (p2 - p1) ++ file.drop p2) := by
    have : file.drop p2 = (file.drop p1).drop (p2 - p1) := by
      rw [List.drop_drop]; congr 1; omega
    rw [this, List.take_append_drop, List.take_append_drop]
  have hl1 : p1 = pre.length + a.length := by
    have := congrArg List.length e1
    rw [List.length_take, List.length_append] at this; omega
  have hl2 : ((file.drop p1).take (p2 - p1)).length = p2 - p1 := by
    rw [List.length_take, List.length_drop]; omega
  generalize (file.drop p1).take (p2 - p1) = R at ef hl2
  rw [e1, e2] at ef
  by_cases hR : 10 ∈ R
  · right
    obtain ⟨x, R', eR, hx, hR'⟩ := split_tail R
    rcases hR' with rfl | ⟨R'', rfl⟩
    · rw [List.append_nil] at eR; rw [eR] at hR; exact absurd hR hx
    · obtain ⟨ls, y, e3, hls, hy⟩ := split_lines R''
      refine ⟨pre, a, x, ls, y, b, tail, ?_, hpre, ht, ha, hx, hls, hy, hb, hl1, ?_⟩
      · rw [ef, eR, e3]; simp only [List.append_assoc, List.cons_append]
      · rw [eR, e3] at hl2
        simp only [List.length_append, List.length_cons] at hl2
        omega
  · left
    refine ⟨pre, a, R, b, tail, ?_, hpre, ht, ha, hR, hb, hl1, by omega⟩
    rw [ef, List.append_assoc]

/-- C89: a range within one line.  The report names the number of the line and the columns of the range
in it, shows the line, and marks exactly the characters of the range.  Missing: at the end of a file
without final newline five marks are added (`C89_eof_violation`); files that contain control-Z
(`C89_control_z_violation`). -/
theorem C89_one_line_partial {file pre a m b tail : Str} {p1 p2 : Nat} (h : OneLine file p1 p2 pre a m b tail)
    (hz : 26 ∉ pre ++ (a ++ (m ++ b))) :
    errLoc file p1 p2 = str ", line " ++ num (1 + pre.count 10) ++ str ", characters " ++ num a.length ++
      str "-" ++ num (a.length + m.length) ++ str ":" ++ [10] ++
      shown (a ++ m ++ b ++ (if tail = [] then str "<EOF>" else [])) ++
      shown (under 32 a ++ under 94 m ++ (if tail = [] then str "^^^^^" else [])) := by
  obtain ⟨rfl, hpre, ht, na, nm, nb, rfl, rfl⟩ := h
  simp only [List.mem_append, not_or] at hz
  obtain ⟨zp, za, zm, zb⟩ := hz
  have c1 : advance (pre.length + a.length) ⟨0, 1, 0, pre ++ (a ++ (m ++ (b ++ tail)))⟩ =
      ⟨pre.length + a.length, 1 + pre.count 10, pre.length, m ++ (b ++ tail)⟩ := by
    rw [adv_pre _ _ _ zp hpre]
    have := adv_clean 0 a (m ++ (b ++ tail)) pre.length (1 + pre.count 10) pre.length na za
    rw [Nat.add_zero] at this
    rw [this]; rfl
  have c2 : advance (pre.length + a.length + m.length - (pre.length + a.length))
      ⟨pre.length + a.length, 1 + pre.count 10, pre.length, m ++ (b ++ tail)⟩ =
      ⟨pre.length + a.length + m.length, 1 + pre.count 10, pre.length, b ++ tail⟩ := by
    have e : pre.length + a.length + m.length - (pre.length + a.length) = m.length + 0 := by omega
    rw [e, adv_clean 0 m (b ++ tail) _ _ _ nm zm]; rfl
  unfold errLoc
  rw [c1]
  dsimp only
  rw [c2]
  dsimp only
  rw [if_pos rfl, List.drop_left]
  have d : a ++ (m ++ (b ++ tail)) = (a ++ m ++ b) ++ tail := by simp
  have cl := copyLine_tail (a ++ m ++ b) tail (by simp [na, nm, nb]) (by simp [za, zm, zb]) ht
  have e1 : pre.length + a.length - pre.length = a.length := by omega
  have e2 : pre.length + a.length + m.length - (pre.length + a.length) = m.length + 0 := by omega
  rw [e1, e2, trLine_first a _ _ _ na za, trLine_len m _ _ _ nm zm, trLine_end tail b 94 ht nb zb 0, d, cl]
  unfold errLines
  rw [if_neg (by simp)]
  have f1 : ((pre.length + a.length : Nat) : Int) - (pre.length : Int) = (a.length : Nat) := by omega
  have f2 : ((pre.length + a.length + m.length : Nat) : Int) - (pre.length : Int) =
      ((a.length + m.length : Nat) : Int) := by omega
  rw [f1, f2]
  have s5 : str "^^^^^" = List.replicate 5 94 := by decide
  simp [shown, errPrompt, num, under, s5]
example : errLoc (str "ab\nx\tyz w\n") 5 7 =
    str ", line 2, characters 2-4:\n! x\tyz w\n!  \t^^\n" := by decide +kernel
example : OneLine (str "ab\nx\tyz w\n") 5 7 (str "ab\n") (str "x\t") (str "yz") (str " w") (str "\n") :=
  ⟨by decide, Or.inr ⟨str "ab", by decide⟩, Or.inr ⟨[], by decide⟩, by decide, by decide, by decide, by decide, by decide⟩

/-- C89: a range over several lines.  The report names the numbers of its first and last line and its
columns, both counted from the beginning of the first line; it shows the range line by line, the
characters of the first line before the range and up to 100 characters of the last line behind it as dots,
and leaves out lines in the middle when there are more than seven.  Missing: as in
`C89_one_line_partial`. -/
theorem C89_many_lines_partial {file pre a x y b tail : Str} {ls : List Str} {p1 p2 : Nat}
    (h : ManyLines file p1 p2 pre a x ls y b tail) (hz : 26 ∉ pre ++ (a ++ (x ++ (lines ls ++ (y ++ b))))) :
    errLoc file p1 p2 = str ", line " ++ num (1 + pre.count 10) ++ str "-" ++
      num (1 + pre.count 10 + (1 + ls.length)) ++ str ", characters " ++ num a.length ++
      str "-" ++ num (a.length + (x.length + (1 + ((lines ls).length + y.length)))) ++ str ":" ++ [10] ++
      shown (under 46 a ++ x) ++ shownLines ls ++
      shown (y ++ under 46 (b.take 100) ++ (if tail = [] then str "....." else [])) := by
  obtain ⟨rfl, hpre, ht, na, nx, nls, ny, nb, rfl, rfl⟩ := h
  simp only [List.mem_append, not_or] at hz
  obtain ⟨zp, za, zx, zl, zy, zb⟩ := hz
  have zls : ∀ l ∈ ls, 26 ∉ l := by
    intro l hl hh
    apply zl
    unfold lines
    rw [List.mem_flatten]
    exact ⟨l ++ [10], List.mem_map.mpr ⟨l, hl, rfl⟩, by simp [hh]⟩
  generalize hS : y ++ (b ++ tail) = S
  have c1 : advance (pre.length + a.length) ⟨0, 1, 0, pre ++ (a ++ (x ++ (10 :: (lines ls ++ S))))⟩ =
      ⟨pre.length + a.length, 1 + pre.count 10, pre.length, x ++ (10 :: (lines ls ++ S))⟩ := by
    rw [adv_pre _ _ _ zp hpre]
    have := adv_clean 0 a (x ++ (10 :: (lines ls ++ S))) pre.length (1 + pre.count 10) pre.length na za
    rw [Nat.add_zero] at this
    rw [this]; rfl
  have c2 : advance (pre.length + a.length + (x.length + (1 + ((lines ls).length + y.length))) - (pre.length + a.length))
      ⟨pre.length + a.length, 1 + pre.count 10, pre.length, x ++ (10 :: (lines ls ++ S))⟩ =
      ⟨pre.length + a.length + (x.length + (1 + ((lines ls).length + y.length))),
        1 + pre.count 10 + (1 + ls.length),
        pre.length + a.length + (x.length + (1 + (lines ls).length)), b ++ tail⟩ := by
    have e : pre.length + a.length + (x.length + (1 + ((lines ls).length + y.length))) - (pre.length + a.length) =
        (x ++ (10 :: lines ls)).length + (y.length + 0) := by simp; omega
    have e' : x ++ (10 :: (lines ls ++ S)) = (x ++ (10 :: lines ls)) ++ S := by simp
    have zz : 26 ∉ x ++ (10 :: lines ls) := by simp [zx, zl]
    rw [e, e', adv_lines _ _ _ _ _ _ zz (lines_end ls x), ← hS, adv_clean 0 y (b ++ tail) _ _ _ ny zy, advance]
    have ec : (x ++ (10 :: lines ls)).count 10 = 1 + ls.length := by
      rw [List.count_append, List.count_cons_self, lines_count ls nls, List.count_eq_zero_of_not_mem nx]; omega
    rw [ec]
    have el : (x ++ (10 :: lines ls)).length = x.length + (1 + (lines ls).length) := by simp; omega
    rw [el]
    congr 1
    omega
  unfold errLoc
  rw [c1]
  dsimp only
  rw [c2]
  dsimp only
  rw [if_neg (by omega), List.drop_left]
  have d1 : (pre ++ (a ++ (x ++ (10 :: (lines ls ++ S))))).drop (pre.length + a.length) =
      x ++ (10 :: (lines ls ++ S)) := by
    rw [← List.append_assoc, ← List.length_append, List.drop_left]
  rw [d1, copyLine_line x _ nx zx]
  dsimp only
  rw [middle_eq _ ls S nls zls]
  dsimp only
  have e1 : pre.length + a.length - pre.length = a.length + 0 := by omega
  have e2 : pre.length + a.length + (x.length + (1 + ((lines ls).length + y.length))) -
      (pre.length + a.length + (x.length + (1 + (lines ls).length))) = y.length := by omega
  have t0 : trLine 0 0 46 (x ++ 10 :: (lines ls ++ S)) = [] := by
    rw [trLine_end _ x 46 (Or.inr ⟨_, rfl⟩) nx zx 0]; simp [under]
  rw [e1, e2, trLine_len a _ _ _ na za, t0, ← hS, lastLine_eq, trLine_end tail b 46 ht nb zb 100]
  unfold errLines
  rw [if_pos (by push_cast; omega)]
  have f1 : ((pre.length + a.length : Nat) : Int) - (pre.length : Int) = (a.length : Nat) := by omega
  have f2 : ((pre.length + a.length + (x.length + (1 + ((lines ls).length + y.length))) : Nat) : Int) - (pre.length : Int) =
      ((a.length + (x.length + (1 + ((lines ls).length + y.length))) : Nat) : Int) := by omega
  rw [f1, f2]
  have s5 : str "....." = List.replicate 5 46 := by decide
  simp [shown, errPrompt, num, s5]
example : errLoc (str "val x =\n  let\n in 1 end;\n") 4 21 =
    str ", line 1-3, characters 4-21:\n! ....x =\n!   let\n!  in 1 e...\n" := by decide +kernel
example : ManyLines (str "val x =\n  let\n in 1 end;\n") 4 21 [] (str "val ") (str "x =") [str "  let"]
    (str " in 1 e") (str "nd;") (str "\n") :=
  ⟨by decide, Or.inl rfl, Or.inr ⟨[], by decide⟩, by decide, by decide, by decide, by decide, by decide, by decide, by decide⟩

/-- C89: after the report the stream is where it was. -/
theorem C89_position_restored (name file : Str) (p p1 p2 : Nat) : (errLocation name file p p1 p2).2 = p := rfl

/-- Departure: in the last line of a file without final newline, marks are put that belong to no character
of the range: here the range is the first character. -/
theorem C89_eof_violation : errLoc (str "ab") 0 1 =
    str ", line 1, characters 0-1:\n! ab<EOF>\n! ^^^^^^\n" := by decide +kernel

/-- Departure: behind a control-Z (here in the first line) the report names a wrong line and shows the wrong
text: the range is the `y` in line 2. -/
theorem C89_control_z_violation : errLoc (str "a" ++ [26] ++ str "b\ny\n") 4 5 =
    str ", line 1-2, characters 4-5:\n! ......y\n! <EOF>\n" := by decide +kernel

/-- Departure from Location.sig: `errPrompt msg` prints no newline. -/
theorem C89_errPrompt_violation : errPrompt (str "msg") = str "! msg" ∧ errPrompt (str "msg") ≠ str "! msg\n" := by
  decide +kernel

end Mosml.Loc
