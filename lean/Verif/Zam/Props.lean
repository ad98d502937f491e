import Verif.Zam.Check

/-!
# C31, C32: compiled programs

`compileLambda` lifts the functions of a term out of it and makes code for the
term and for the functions; `Halts P.labels P.start` runs that code on the
abstract machine.  `eval` is the call-by-value semantics of `Spec.lean`.
-/

namespace Mosml.Zam

/-! ## C31 -/

/-- **C31.**  If the semantics gives a closed term a value, then its code runs
to its end on the abstract machine with that value in the accumulator, however
the functions in it are applied. -/
theorem C31_compiled_value {e : Lam} {n : Nat} {v : Val} (hok : Ok 0 false e)
    (he : eval n [] e = some (.val v)) :
    ∃ m, Agrees v m ∧ Halts (compileLambda e).labels (compileLambda e).start (.value m) := by
  obtain ⟨fin, h1, h2⟩ := phrase_sim e hok he
  cases fin with
  | value m => exact ⟨m, h1, h2⟩
  | uncaught m => exact absurd h1 (by simp [Outcome])

/-- **C31.**  And that is the only way the code can end. -/
theorem C31_only_outcome {e : Lam} {n : Nat} {v : Val} (hok : Ok 0 false e)
    (he : eval n [] e = some (.val v)) {fin : Fin}
    (hr : Halts (compileLambda e).labels (compileLambda e).start fin) :
    ∃ m, Agrees v m ∧ fin = .value m := by
  obtain ⟨m, h1, h2⟩ := C31_compiled_value hok he
  exact ⟨m, h1, halts_det hr h2⟩

/-- **C31.**  Integers, in particular, are the same. -/
theorem C31_int {e : Lam} {n : Nat} {z : Int} (hok : Ok 0 false e)
    (he : eval n [] e = some (.val (.int z))) :
    Halts (compileLambda e).labels (compileLambda e).start (.value (.int z)) := by
  obtain ⟨m, h1, h2⟩ := C31_compiled_value hok he
  cases h1
  exact h2

/-- **C31.**  The code generator accepts every term: it never comes to one of
its calls of `fatalError`. -/
theorem C31_no_fatal {e : Lam} (hok : Ok 0 false e) :
    Instr.fatal ∉ (compileLambda e).inits ∧ Instr.fatal ∉ (compileLambda e).funcs :=
  nf_phrase e hok

/-- **C31.**  A static failure never leaves a program. -/
theorem C31_no_static_failure {e : Lam} {n : Nat} (hok : Ok 0 false e) :
    eval n [] e ≠ some .fail := by
  intro he
  obtain ⟨fin, h1, _⟩ := phrase_sim e hok he
  cases fin <;> exact h1

/-! ### Examples for C31 -/

/-- `fn x => fn y => fn z => x - y * z` -/
def exF : Lam := .fn (.fn (.fn (.prim (.arith .sub) [.var 2, .prim (.arith .mul) [.var 1, .var 0]])))

def exI (z : Int) : Lam := .const (.int z)

/-- Partial application: `let f = exF; g = f 100 7 in g 3`. -/
def exPartial : Lam :=
  .lett [exF, .apply (.var 0) [exI 100, exI 7]] (.apply (.var 0) [exI 3])

/-- Over-application: `(fn x => if x = 0 then fn y => y else exF x) 50 4 5`. -/
def exOver : Lam :=
  .apply (.fn (.cond (.prim (.test .eq) [.var 0, exI 0]) (.fn (.var 0)) (.apply exF [.var 0])))
    [exI 50, exI 4, exI 5]

/-- A loop of tail calls: `letrec loop n acc = if n = 0 then acc else
loop (n - 1) (acc + n) in loop 20 0`. -/
def exLoop : Lam :=
  .letrec [.fn (.fn (.cond (.prim (.test .eq) [.var 1, exI 0]) (.var 0)
      (.apply (.var 2) [.prim (.arith .sub) [.var 1, exI 1], .prim (.arith .add) [.var 0, .var 1]])))]
    (.apply (.var 0) [exI 20, exI 0])

/-- Two functions: `even n = n = 0 orelse odd (n - 1)`,
`odd n = not (n = 0) andalso even (n - 1)`. -/
def exEven : Lam :=
  .letrec
    [.fn (.orelse (.prim (.test .eq) [.var 0, exI 0])
        (.apply (.var 1) [.prim (.arith .sub) [.var 0, exI 1]])),
     .fn (.andalso (.prim .not [.prim (.test .eq) [.var 0, exI 0]])
        (.apply (.var 2) [.prim (.arith .sub) [.var 0, exI 1]]))]
    (.apply (.var 1) [exI 11])

/-- Static failure out of a `let`: what the match compiler makes. -/
def exMatch : Lam :=
  .apply (.fn (.statichandle
      (.lett [.prim (.field 0) [.var 0]]
        (.cond (.prim (.test .eq) [.var 0, exI 1]) (exI 10) .staticfail))
      (.prim (.field 1) [.var 0])))
    [.prim (.makeblock 0 1) [exI 2, exI 33]]

example : Ok 0 false exPartial := okB_sound (by decide +kernel)
example : eval 20 [] exPartial = some (.val (.int 79)) := by rfl
example : Halts (compileLambda exPartial).labels (compileLambda exPartial).start (.value (.int 79)) :=
  C31_int (n := 20) (okB_sound (by decide +kernel)) (by rfl)

example : Ok 0 false exOver := okB_sound (by decide +kernel)
example : eval 20 [] exOver = some (.val (.int 30)) := by rfl
example : Halts (compileLambda exOver).labels (compileLambda exOver).start (.value (.int 30)) :=
  C31_int (n := 20) (okB_sound (by decide +kernel)) (by rfl)

example : Ok 0 false exLoop := okB_sound (by decide +kernel)
example : eval 80 [] exLoop = some (.val (.int 210)) := by rfl
example : Halts (compileLambda exLoop).labels (compileLambda exLoop).start (.value (.int 210)) :=
  C31_int (n := 80) (okB_sound (by decide +kernel)) (by rfl)

example : Ok 0 false exEven := okB_sound (by decide +kernel)
example : eval 60 [] exEven = some (.val (vbool false)) := by rfl

example : Ok 0 false exMatch := okB_sound (by decide +kernel)
example : eval 20 [] exMatch = some (.val (.int 33)) := by rfl

/-- The machine itself, on the same programs. -/
example : run (compileLambda exPartial).labels 100 (compileLambda exPartial).start =
    some (.value (.int 79)) := by rfl
example : run (compileLambda exOver).labels 100 (compileLambda exOver).start =
    some (.value (.int 30)) := by rfl
set_option maxRecDepth 8000 in
example : run (compileLambda exLoop).labels 1000 (compileLambda exLoop).start =
    some (.value (.int 210)) := by rfl
example : run (compileLambda exEven).labels 1000 (compileLambda exEven).start =
    some (.value (mbool false)) := by rfl
example : run (compileLambda exMatch).labels 1000 (compileLambda exMatch).start =
    some (.value (.int 33)) := by rfl

/-! ## C32 -/

/-- **C32.**  If no handler is active the program ends with the exception. -/
theorem C32_uncaught {e : Lam} {n : Nat} {v : Val} (hok : Ok 0 false e)
    (he : eval n [] e = some (.exn v)) :
    ∃ m, Agrees v m ∧ Halts (compileLambda e).labels (compileLambda e).start (.uncaught m) := by
  obtain ⟨fin, h1, h2⟩ := phrase_sim e hok he
  cases fin with
  | value m => exact absurd h1 (by simp [Outcome])
  | uncaught m => exact ⟨m, h1, h2⟩

/-- **C32.**  A program ends with an exception only if the semantics says so:
code whose term has a value does not end with an exception. -/
theorem C32_uncaught_only {e : Lam} {n : Nat} {r : Res} (hok : Ok 0 false e)
    (he : eval n [] e = some r) {m : MVal}
    (hr : Halts (compileLambda e).labels (compileLambda e).start (.uncaught m)) :
    ∃ v, r = .exn v ∧ Agrees v m := by
  obtain ⟨fin, h1, h2⟩ := phrase_sim e hok he
  have := halts_det h2 hr
  subst this
  cases r with
  | exn v => exact ⟨v, rfl, h1⟩
  | _ => exact absurd h1 (by simp [Outcome])

/-- **C32.**  The machine: when an exception is raised while the trap frame of
a `PUSHTRAP` is the innermost one, the handler starts with the stack, the
environment, the number of pending arguments and the enclosing trap frame that
were there at the `PUSHTRAP`, and the exception in the accumulator; what has
been pushed since (`X`) is gone. -/
theorem C32_raise_restores {L : Nat → Option Code} {s s1 s2 : State} {l : Nat} {C C2 c : Code}
    {X : List Slot} (hc : s.code = .pushtrap l :: C) (hl : L l = some c)
    (h1 : step L s = .next s1) (h2 : s2.stack = X ++ s1.stack) (ht : s2.trap = s1.trap)
    (hr : s2.code = .raise :: C2) :
    step L s2 = .next { code := c, acc := s2.acc, env := s.env, stack := s.stack, extra := s.extra,
                        trap := s.trap, heap := s2.heap } := by
  obtain ⟨code, acc, env, stack, extra, trap, heap⟩ := s
  obtain ⟨code2, acc2, env2, stack2, extra2, trap2, heap2⟩ := s2
  simp only at hc hr h2 ht
  subst hc hr
  simp only [step, hl, Out.next.injEq] at h1
  subst h1
  simp only at h2 ht
  subst h2 ht
  simp only [step, doRaise]
  rw [if_neg (by omega)]
  have : (X ++ Slot.pc c :: Slot.link trap :: Slot.v env :: Slot.n extra :: stack).length - (stack.length + 4)
      = X.length := by simp
  rw [this, List.drop_left]

/-- **C32.**  And the frame goes away when the body is done. -/
theorem C32_poptrap_restores {L : Nat → Option Code} {s s1 s2 : State} {l : Nat} {C C2 : Code}
    (hc : s.code = .pushtrap l :: C) (h1 : step L s = .next s1) (h2 : s2.stack = s1.stack)
    (hr : s2.code = .poptrap :: C2) :
    step L s2 = .next { s2 with code := C2, stack := s.stack, trap := s.trap } := by
  obtain ⟨code, acc, env, stack, extra, trap, heap⟩ := s
  obtain ⟨code2, acc2, env2, stack2, extra2, trap2, heap2⟩ := s2
  simp only at hc hr h2
  subst hc hr
  simp only [step] at h1
  split at h1
  · simp only [Out.next.injEq] at h1
    subst h1
    simp only at h2
    subst h2
    rfl
  · cases h1

/-- **C32.**  A handler around a term that raises `v`: the outcome of the code
is that of the handler, with `v` as its variable. -/
theorem C32_handled {a b : Lam} {n : Nat} {v : Val} {r : Res} (hok : Ok 0 false (.handle a b))
    (ha : eval n [] a = some (.exn v)) (hb : eval n [v] b = some r) :
    ∃ fin, Outcome r fin ∧
      Halts (compileLambda (.handle a b)).labels (compileLambda (.handle a b)).start fin := by
  refine phrase_sim _ hok (n := n + 1) ?_
  simp only [eval, ha, hb]

/-- **C32.**  A handler around a term that has a value is not run. -/
theorem C32_not_raised {a b : Lam} {n : Nat} {v : Val} (hok : Ok 0 false (.handle a b))
    (ha : eval n [] a = some (.val v)) :
    ∃ m, Agrees v m ∧
      Halts (compileLambda (.handle a b)).labels (compileLambda (.handle a b)).start (.value m) := by
  refine C31_compiled_value hok (n := n + 1) ?_
  simp only [eval, ha]

/-- **C32.**  The innermost handler: with handlers `b` inside and `c` outside,
an exception goes to `b`; `c` gets only what `b` raises. -/
theorem C32_innermost {a b c : Lam} {n : Nat} {v w : Val} (hok : Ok 0 false (.handle (.handle a b) c))
    (ha : eval n [] a = some (.exn v)) (hb : eval n [v] b = some (.val w)) :
    ∃ m, Agrees w m ∧
      Halts (compileLambda (.handle (.handle a b) c)).labels
        (compileLambda (.handle (.handle a b) c)).start (.value m) := by
  refine C31_compiled_value hok (n := n + 2) ?_
  simp only [eval, ha, hb]

/-- **C32.**  What the inner handler raises goes to the outer one. -/
theorem C32_outer {a b c : Lam} {n : Nat} {v w : Val} {r : Res}
    (hok : Ok 0 false (.handle (.handle a b) c)) (ha : eval n [] a = some (.exn v))
    (hb : eval n [v] b = some (.exn w)) (hc : eval (n + 1) [w] c = some r) :
    ∃ fin, Outcome r fin ∧
      Halts (compileLambda (.handle (.handle a b) c)).labels
        (compileLambda (.handle (.handle a b) c)).start fin := by
  refine phrase_sim _ hok (n := n + 2) ?_
  rw [eval]
  simp only [eval, ha, hb] at hc ⊢
  exact hc

/-! ### Examples for C32 -/

/-- `raise 5` under two functions and a pending argument, then handled:
`1 + ((fn x => (fn y => raise (x + y)) 3) 2 handle z => z * 10)` -/
def exHandle : Lam :=
  .prim (.arith .add)
    [exI 1,
     .handle
      (.apply (.fn (.apply (.fn (.prim .raise [.prim (.arith .add) [.var 1, .var 0]])) [exI 3])) [exI 2])
      (.prim (.arith .mul) [.var 0, exI 10])]

/-- `(raise 1 handle x => raise (x + 1)) handle y => y * 100` -/
def exNested : Lam :=
  .handle (.handle (.prim .raise [exI 1]) (.prim .raise [.prim (.arith .add) [.var 0, exI 1]]))
    (.prim (.arith .mul) [.var 0, exI 100])

/-- `4611686018427387903 + 1` raises `Overflow`. -/
def exOverflow : Lam := .prim (.arith .add) [exI 4611686018427387903, exI 1]

example : Ok 0 false exHandle := okB_sound (by decide +kernel)
example : eval 20 [] exHandle = some (.val (.int 51)) := by rfl
example : Halts (compileLambda exHandle).labels (compileLambda exHandle).start (.value (.int 51)) :=
  C31_int (n := 20) (okB_sound (by decide +kernel)) (by rfl)
example : run (compileLambda exHandle).labels 1000 (compileLambda exHandle).start =
    some (.value (.int 51)) := by rfl

example : Ok 0 false exNested := okB_sound (by decide +kernel)
example : eval 20 [] exNested = some (.val (.int 200)) := by rfl
example : run (compileLambda exNested).labels 1000 (compileLambda exNested).start =
    some (.value (.int 200)) := by rfl

example : Ok 0 false exOverflow := okB_sound (by decide +kernel)
example : eval 20 [] exOverflow = some (.exn voverflow) := by rfl
example : ∃ m, Agrees voverflow m ∧
    Halts (compileLambda exOverflow).labels (compileLambda exOverflow).start (.uncaught m) :=
  C32_uncaught (n := 20) (okB_sound (by decide +kernel)) (by rfl)

/-- The hypotheses of `C32_innermost`. -/
example : Ok 0 false (.handle (.handle (.prim .raise [exI 1]) (.var 0)) (exI 7)) ∧
    eval 5 [] (.prim .raise [exI 1]) = some (.exn (.int 1)) ∧
    eval 5 [.int 1] (.var 0) = some (.val (.int 1)) :=
  ⟨okB_sound (by decide +kernel), by rfl, by rfl⟩

/-- The hypotheses of `C32_raise_restores`. -/
example : ∃ (s s1 s2 : State), s.code = .pushtrap 1 :: [] ∧
    step (fun _ => some []) s = .next s1 ∧ s2.stack = [.v (.int 7)] ++ s1.stack ∧ s2.trap = s1.trap ∧
    s2.code = .raise :: [] ∧ step (fun _ => some []) s2 = .next { s with code := [], acc := .int 9 } :=
  ⟨⟨[.pushtrap 1], munit, .int 3, [.v (.int 4)], 2, 0, []⟩, _,
    ⟨[.raise], .int 9, .int 5, [.v (.int 7), .pc [], .link 0, .v (.int 3), .n 2, .v (.int 4)], 0, 5, []⟩,
    rfl, rfl, rfl, rfl, rfl, rfl⟩

end Mosml.Zam
