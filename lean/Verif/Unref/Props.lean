import Verif.Unref.Whole

/-!
# C54: references that become stack slots

`let val r = ref e in .. !r .. r := e' .. end`: the code generator may keep the
contents of `r` in the slot of `r`.  The program must not notice.
-/

namespace Mosml.Unref

/-- Where each shared node of a `let` of `len` arguments occurs: in the `t`th
argument (`own j = t`), in the body (`own j = len`) or elsewhere.  A slot of one
of the arguments is not assigned from where it is in scope (`Lassign` does not
occur in source programs; inner `let`s assign slots of their own). -/
structure Setup (own : Nat → Nat) (d : Nat) (args : List Lam) (body : Lam) (S : Store) : Prop where
  arg : ∀ (t : Nat) (x : Lam), args[t]? = some x → x.Ok (fun j => own j = t) (Asg d t)
  bod : body.Ok (fun j => own j = args.length) (Asg d args.length)
  nodes : ∀ j, own j ≤ args.length → (S.term j).Ok (fun k => own k = own j) (Asg d (own j))

theorem restOk_of {own : Nat → Nat} {d : Nat} : ∀ {l : List Lam},
    (∀ (t : Nat) (x : Lam), l.reverse[t]? = some x → x.Ok (fun j => own j = t) (Asg d t)) → RestOk own d l
  | [], _ => trivial
  | x :: l, h => by
    refine ⟨?_, restOk_of fun t y hy => ?_⟩
    · exact h l.length x (by simp)
    · refine h t y ?_
      have ht : t < l.reverse.length := by
        by_contra hn
        rw [List.getElem?_eq_none (by omega)] at hy
        cases hy
      rw [List.reverse_cons, List.getElem?_append_left ht]
      exact hy

theorem Setup.sound {own : Nat → Nat} {d n : Nat} {c : Int} {args : List Lam} {body e' : Lam}
    {S S' : Store} (h : Setup own d args body S) (hl : ∀ j, c ≤ S.label j)
    (hclean : Clean n args.reverse (d + args.length - 1) c [] body S)
    (hopt : optLet n c d args body S = some (e', S')) :
    Sound S.term d (.lett args body) S'.term e' := by
  simp only [optLet] at hopt
  split at hopt
  · rename_i args' body' S1 ho
    cases hopt
    have hs := optRefs_sound (own := own) (d := d) (len := args.length) (n := n) args.reverse
      (d + args.length - 1) c [] body S args' body' S' (by simp) (by simp) hl
      (restOk_of (by simpa using h.arg)) (by simp only [OkL])
      (by
        simp only [List.length_reverse]
        exact Lam.ok_mono (fun j hj => by omega) (fun _ h => h) _ h.bod)
      (fun j hj => h.nodes j (by simpa using Nat.le_of_lt (by simpa using hj)))
      (fun j hj => by
        simp only [List.length_reverse] at hj ⊢
        have hj2 : own j = args.length := by omega
        have := h.nodes j (by omega)
        rw [hj2] at this
        exact Lam.ok_mono (fun k hk => by omega) (fun _ h => h) _ this)
      hclean ho
    simpa using hs
  · cases hopt

/-- **C54.**  Provided that an attempt that is given up has not rewritten a
shared node, the `let` that results computes what the `let` in the source does.
What is missing: the condition is not met by all programs, see below. -/
theorem C54_local_refs_partial {own : Nat → Nat} {d n : Nat} {c : Int} {args : List Lam}
    {body e' : Lam} {S S' : Store} (h : Setup own d args body S) (hl : ∀ j, c ≤ S.label j)
    (hclean : Clean n args.reverse (d + args.length - 1) c [] body S)
    (hopt : optLet n c d args body S = some (e', S'))
    {F : Nat → Option Fn} {al : Nat → Nat} {s s1 : St} {k : Nat} {r : Res}
    (hal : Function.Injective al) (hf : Fresh al s)
    (hrun : eval F al k S.term d (.lett args body) s = some (r, s1)) :
    ∃ (g : Nat → Nat) (D : Nat → Prop) (s1' : St), (∀ a b, a < b → g a < g b) ∧
      eval F (fun j => al (g j)) k S'.term d e' s = some (r, s1') ∧ Agree al d s D r s1 s1' :=
  h.sound hl hclean hopt F al s k r s1 hal hf hrun

/-- No argument has a shared node. -/
def RestNo (d : Nat) : List Lam → Prop
  | [] => True
  | x :: rest => x.Ok (fun _ => False) (Asg d rest.length) ∧ RestNo d rest

theorem restNo_of {d : Nat} : ∀ {l : List Lam},
    (∀ (t : Nat) (x : Lam), l.reverse[t]? = some x → x.Ok (fun _ => False) (Asg d t)) → RestNo d l
  | [], _ => trivial
  | x :: l, h => by
    refine ⟨?_, restNo_of fun t y hy => ?_⟩
    · exact h l.length x (by simp)
    · refine h t y ?_
      have ht : t < l.reverse.length := by
        by_contra hn
        rw [List.getElem?_eq_none (by omega)] at hy
        cases hy
      rw [List.reverse_cons, List.getElem?_append_left ht]
      exact hy

theorem clean_noShared {n d : Nat} :
    ∀ rest (i c : Int) acc body (S : Store), i = d + rest.length - 1 → RestNo d rest →
    OkL (fun _ => False) (Asg d rest.length) acc → body.Ok (fun _ => False) (Asg d rest.length) →
    Clean n rest i c acc body S
  | [], _, _, _, _, _, _, _, _, _ => trivial
  | x :: rest, i, c, acc, body, S, hi, hr, ha, hb => by
    simp only [List.length_cons] at hi ha hb
    push_cast at hi
    have asg1 : ∀ v, Asg d (rest.length + 1) v → Asg d rest.length v :=
      fun v => Asg.mono (Nat.le_succ _)
    have hxa : OkL (fun _ => False) (Asg d rest.length) (x :: acc) := by
      simp only [OkL]; exact ⟨hr.1, okL_mono (fun _ h => h) asg1 _ ha⟩
    have hb' := Lam.ok_mono (fun _ h => h) asg1 _ hb
    simp only [Clean]
    cases hcell : cellOf x with
    | none => exact clean_noShared rest _ _ _ _ _ (by omega) hr.2 hxa hb'
    | some e =>
      obtain ⟨t, rfl⟩ := cellOf_some hcell
      dsimp only
      cases hp : pass n i (c - 1) acc body S with
      | none => trivial
      | some o =>
        have hst := pass_store hp ha hb
        cases o with
        | raised S1 =>
          simp only [Out.store] at hst
          subst hst
          exact ⟨rfl, clean_noShared rest _ _ _ _ _ (by omega) hr.2 hxa hb'⟩
        | ok p S1 =>
          obtain ⟨acc1, body1⟩ := p
          obtain ⟨_, ha1, hb1, _⟩ := pass_good (Q' := Asg d rest.length)
            (fun v hv => ⟨by simp only [Asg] at hv; omega, asg1 v hv⟩)
            (by simp only [Asg]; omega) ha hb (fun j hj _ => hj.elim) hp
          have hx := hr.1
          simp only [Lam.Ok, OkL, and_true] at hx
          exact clean_noShared rest _ _ _ _ _ (by omega) hr.2
            (by simp only [OkL]; exact ⟨hx, ha1⟩) hb1

/-- **C54**, for a `let` in which no case analysis shares code: it computes what
the `let` in the source does, whatever attempts are given up. -/
theorem C54_without_sharing {d n : Nat} {c : Int} {args : List Lam} {body e' : Lam} {S S' : Store}
    (hargs : ∀ (t : Nat) (x : Lam), args[t]? = some x → x.Ok (fun _ => False) (Asg d t))
    (hbody : body.Ok (fun _ => False) (Asg d args.length)) (hl : ∀ j, c ≤ S.label j)
    (hopt : optLet n c d args body S = some (e', S'))
    {F : Nat → Option Fn} {al : Nat → Nat} {s s1 : St} {k : Nat} {r : Res}
    (hal : Function.Injective al) (hf : Fresh al s)
    (hrun : eval F al k S.term d (.lett args body) s = some (r, s1)) :
    ∃ (g : Nat → Nat) (D : Nat → Prop) (s1' : St), (∀ a b, a < b → g a < g b) ∧
      eval F (fun j => al (g j)) k S'.term d e' s = some (r, s1') ∧ Agree al d s D r s1 s1' := by
  refine Setup.sound (own := fun _ => args.length + 1) ⟨?_, ?_, ?_⟩ hl ?_ hopt F al s k r s1 hal hf hrun
  · intro t x hx
    exact Lam.ok_mono (fun _ h => False.elim h) (fun _ h => h) _ (hargs t x hx)
  · exact Lam.ok_mono (fun _ h => False.elim h) (fun _ h => h) _ hbody
  · intro j hj
    omega
  · refine clean_noShared (d := d) _ _ _ _ _ _ (by simp) (restNo_of (by simpa using hargs))
      (by simp only [OkL]) (by simpa using hbody)

/-! ### The violation

`fun f a b = let val r = ref 5
                 val z = case (a, b) of (1, 2) => 0 | (_, 3) => !r | _ => 1
             in ((z, r); z) end`

The decision tree reaches `!r` in two ways; it is a shared node.  `r` occurs in
the body, so the attempt is given up, but `!r` has become `r` already. -/

/-- The shared node: `!r`, with `r` in slot 2. -/
def vNodes : Store := { term := fun _ => .prim (.field 0) [.var 2], label := fun _ => 0 }

/-- `ref 5` and the case analysis (with conditions for comparisons). -/
def vArgs : List Lam :=
  [.prim (.mk 0 1) [.const 5],
   .statichandle (.cond (.var 0) (.shared 0) (.cond (.var 1) (.shared 0) .staticfail)) (.const 1)]

/-- `((z, r); z)` -/
def vBody : Lam := .seq (.prim (.mk 0 2) [.var 3, .var 2]) (.var 3)

def vState : St :=
  { env := fun x => if x = 0 then some (.atom 1) else if x = 1 then some (.atom 0) else none,
    heap := fun _ => none, k := 0 }

theorem vFresh : Fresh id vState := by
  intro j _
  refine ⟨rfl, fun b c hc => (by cases hc), fun x v hv => ?_⟩
  simp only [vState] at hv
  split_ifs at hv
  · cases hv; simp
  · cases hv; simp

/-- **C54 is violated**: the source computes 5; the `let` that results computes
the address of the reference, whichever addresses are used, and so does what
`Sound` forbids. -/
theorem C54_stale_node_violation :
    Setup (fun _ => 1) 2 vArgs vBody vNodes ∧ (∀ j, 0 ≤ vNodes.label j) ∧
    ∃ e' S', optLet 9 0 2 vArgs vBody vNodes = some (e', S') ∧
      (∀ F, (eval F id 9 vNodes.term 2 (.lett vArgs vBody) vState).map (·.1) =
        some (.val (.int 5))) ∧
      (∀ F al, (eval F al 9 S'.term 2 e' vState).map (·.1) = some (.val (.addr (al 0)))) ∧
      ¬ Sound vNodes.term 2 (.lett vArgs vBody) S'.term e' := by
  have hbad : ∀ F al, (eval F al 9 ((vNodes.mark 0 (0 - 1)).put 0 (Lam.var 2)).term 2
      (.lett vArgs vBody) vState).map (·.1) = some (.val (.addr (al 0))) := by
    intro F al
    rfl
  refine ⟨⟨?_, ?_, ?_⟩, fun j => le_refl _, _, _, rfl, fun F => rfl, hbad, ?_⟩
  · intro t x hx
    match t, hx with
    | 0, hx => cases hx; simp [Lam.Ok, OkL]
    | 1, hx => cases hx; simp [Lam.Ok]
  · simp [vBody, Lam.Ok, OkL]
  · intro j _; simp [vNodes, Lam.Ok, OkL]
  · intro h
    obtain ⟨s1, hs⟩ : ∃ s1, eval (fun _ => none) id 9 vNodes.term 2 (.lett vArgs vBody) vState =
        some (.val (.int 5), s1) := ⟨_, rfl⟩
    obtain ⟨g, D, s1', _, h2, _⟩ := h (fun _ => none) id vState 9 _ s1 (fun _ _ h => h)
      vFresh hs
    have h3 : (.val (.addr (g 0)) : Res) = .val (.int 5) := by
      have h4 := congrArg (Option.map (·.1)) h2
      have h5 := hbad (fun _ => none) fun j => id (g j)
      exact Option.some.inj (h5.symm.trans h4)
    cases h3

/-! ### Examples -/

/-- `let val r = ref 5; val z = <the same> in z + !r end`: here the attempt
succeeds, and the shared node is rewritten once. -/
def gBody : Lam := .prim .add [.var 3, .prim (.field 0) [.var 2]]

example : Setup (fun _ => 1) 2 vArgs gBody vNodes ∧
    Clean 9 vArgs.reverse (2 + vArgs.length - 1) 0 [] gBody vNodes ∧
    ∃ e' S', optLet 9 0 2 vArgs gBody vNodes = some (e', S') ∧
      S'.term 0 = .var 2 ∧
      (∀ F, (eval F id 9 vNodes.term 2 (.lett vArgs gBody) vState).map (·.1) =
        some (.val (.int 10))) ∧
      (∀ F, (eval F id 9 S'.term 2 e' vState).map (·.1) = some (.val (.int 10))) := by
  refine ⟨⟨?_, ?_, ?_⟩, ?_, _, _, rfl, rfl, fun F => rfl, fun F => rfl⟩
  · intro t x hx
    match t, hx with
    | 0, hx => cases hx; simp [Lam.Ok, OkL]
    | 1, hx => cases hx; simp [Lam.Ok]
  · simp [gBody, Lam.Ok, OkL]
  · intro j _; simp [vNodes, Lam.Ok, OkL]
  · exact trivial

/-- `let val r = ref 5; val q = ref r in (r := !r + 1; !r) end` keeps `r`, and
`q` becomes a slot; the assignments go to the block. -/
def nArgs : List Lam := [.prim (.mk 0 1) [.const 5], .prim (.mk 0 1) [.var 0]]
def nBody : Lam :=
  .seq (.prim (.setfield 0) [.var 0, .prim .add [.prim (.field 0) [.var 0], .const 1]])
    (.prim (.field 0) [.var 0])
def nState : St := { env := fun _ => none, heap := fun _ => none, k := 0 }

example : (∀ (t : Nat) (x : Lam), nArgs[t]? = some x → x.Ok (fun _ => False) (Asg 0 t)) ∧
    nBody.Ok (fun _ => False) (Asg 0 nArgs.length) ∧ Fresh id nState ∧
    optLet 9 0 0 nArgs nBody vNodes =
      some (.lett [.prim (.mk 0 1) [.const 5], .var 0] nBody, vNodes) ∧
    (eval (fun _ => none) id 9 vNodes.term 0 (.lett nArgs nBody) nState).map (·.1) =
      some (.val (.int 6)) := by
  refine ⟨?_, ?_, ?_, rfl, rfl⟩
  · intro t x hx
    match t, hx with
    | 0, hx => cases hx; simp [Lam.Ok, OkL]
    | 1, hx => cases hx; simp [Lam.Ok, OkL]
  · simp [nBody, Lam.Ok, OkL]
  · intro j _
    exact ⟨rfl, fun b c hc => (by cases hc), fun x v hv => by cases hv⟩

end Mosml.Unref
