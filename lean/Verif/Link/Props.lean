import Verif.Link.Lemmas
import Verif.Link.Closed
import Verif.Link.SafeLemmas

/-!
# C59, C60: linking
-/

namespace Mosml.Link

open Mosml.Emit (Uid Reloc SC Lk patchObject)

/-! ## C59: which units, in which order -/

/-- C59.  If the consistency check of the units listed succeeds, its result holds the
units listed and units they need, each once, read from its file and not reserved, every
unit after the units it mentions and with the stamps it was compiled against. -/
theorem C59_units_in_order {env : Env} {fuel : Nat} {roots : List Name} {s : P1}
    (h : checkFiles env fuel roots ⟨[], []⟩ = .ok s) :
    InOrder s.done ∧ (∀ n ∈ roots, n ∈ s.done.map (·.1)) ∧
      ∀ u ∈ s.done, env.files u.1 = some u.2 ∧ u.1 ∉ env.reserved ∧ Reach env roots u.1 := by
  have hi : P1.Inv env ⟨[], []⟩ := ⟨rfl, trivial, by simp⟩
  obtain ⟨h1, h2⟩ := checkFiles_ok (roots := roots) roots _ s hi (fun _ h => h) h
  obtain ⟨new, e1, e2⟩ := h1.ext
  refine ⟨h1.inv.order, h2, ?_⟩
  intro u hu
  have h3 := h1.inv.files u hu
  refine ⟨h3.1, h3.2, ?_⟩
  rw [e1] at hu
  simp only [List.append_nil] at hu
  exact (e2 u hu).2

/-- C59.  With automatic linking the check succeeds whenever nothing is wrong with the
units needed. -/
theorem C59_check_succeeds {env : Env} {fuel : Nat} {roots : List Name} {rank : Name → Nat}
    (hl : Linkable env roots rank) (ha : env.autolink = true)
    (hf : ∀ n ∈ roots, rank n < fuel) :
    ∃ s, checkFiles env fuel roots ⟨[], []⟩ = .ok s :=
  checkFiles_total hl ha hf roots _ ⟨rfl, trivial, by simp⟩ (fun _ h => h)

/-- C59.  The check ends: the recursion is never deeper than the number of files. -/
theorem C59_check_terminates {env : Env} {dom : List Name} {fuel : Nat} {roots : List Name}
    (hd : ∀ n t, env.files n = some t → n ∈ dom) (hf : dom.length < fuel) :
    checkFiles env fuel roots ⟨[], []⟩ ≠ .error .fuel :=
  checkFiles_fuel hd hf roots _

/-! ## C59: which phrases -/

/-- C59.  Of the whole program the linker keeps a part, in order, with all the phrases that
are not pure; and everything else that it keeps defines a global that a later part kept
reads. -/
theorem C59_keeps_what_is_needed (toscan : List (Name × Tables)) :
    (reqItems (scanFiles toscan)).Sublist (program toscan.reverse) ∧
    (∀ p, Item.phrase p ∈ program toscan.reverse → p.pure = false →
      Item.phrase p ∈ reqItems (scanFiles toscan)) ∧
    ∀ a i b, reqItems (scanFiles toscan) = a ++ i :: b →
      (∃ p, i = .phrase p ∧ p.pure = false) ∨ ∃ u ∈ i.defines, ∃ j ∈ b, u ∈ j.reads := by
  rw [scan_eq]
  exact ⟨kept_sublist _, fun p h hp => kept_impure _ p h hp,
    fun a i b h => kept_needed _ a b i h⟩

/-- C59.  If all phrases of the program would link in order (`Closed`), the phrases kept
link - no reference is undefined - and, as long as the phrases marked pure are silent,
the linked program does exactly what all phrases together do.  `D` are the globals known
from the start, kept in the slots that `lk` gives. -/
theorem C59_linked_program {V E X : Type} {B : Beh V E X} {D : Uid → Prop}
    {ρ : Uid → Option V} {lk : Lk} {M : Nat → Option V} {toscan : List (Name × Tables)}
    (hB : B.Local) (hc : Closed D (program toscan.reverse)) (hb : lk.Bounded)
    (h0 : ∀ u, D u → ∃ s, lk.lookup u = some s ∧ M s = ρ u)
    (hp : ∀ p, Item.phrase p ∈ program toscan.reverse → PrimsOk lk.prims p) :
    ∃ out lk', linkObjects (scanFiles toscan) lk = some (out, lk') ∧
      (Silent B (program toscan.reverse) ρ →
        runLinked B out M = run B (program toscan.reverse) ρ) := by
  obtain ⟨out, lk', h1, h2⟩ := sim B hB (program toscan.reverse) D ρ lk M hc hb
    (fun u _ hu => h0 u hu)
    (fun p h => hp p ((kept_sublist _).subset h))
  rw [← scan_eq, linkObjects_eq] at h1
  exact ⟨out, lk', h1, h2⟩

/-- C59.  The three passes together: if the check of the units listed succeeds and every
unit by itself is in order with respect to the units it mentions, the program links, and
does what all the units' phrases do in an order in which every unit follows the units it
mentions. -/
theorem C59_link {V E X : Type} {B : Beh V E X} {env : Env} {fuel : Nat} {roots : List Name}
    {s : P1} {pre : Uid → Prop} {ρ : Uid → Option V} {lk : Lk} {M : Nat → Option V}
    (hB : B.Local) (hcheck : checkFiles env fuel roots ⟨[], []⟩ = .ok s)
    (hu : ∀ u ∈ s.done, UnitOk env pre u)
    (hb : lk.Bounded) (h0 : ∀ u, pre u → ∃ s, lk.lookup u = some s ∧ M s = ρ u)
    (hp : ∀ u ∈ s.done, ∀ p ∈ u.2.index, PrimsOk lk.prims p) :
    ∃ out lk', linkObjects (scanFiles s.done) lk = some (out, lk') ∧
      (Silent B (program s.done.reverse) ρ →
        runLinked B out M = run B (program s.done.reverse) ρ) := by
  obtain ⟨h1, -, h3⟩ := C59_units_in_order hcheck
  refine C59_linked_program hB (program_closed (env := env) s.done h1
    (fun u hm => ⟨(h3 u hm).1, hu u hm⟩)) hb h0 ?_
  intro p hpm
  simp only [program, List.mem_flatMap, List.mem_reverse] at hpm
  obtain ⟨u, hm, hi⟩ := hpm
  simp only [unitItems, List.mem_append, List.mem_map, List.mem_reverse] at hi
  rcases hi with ⟨q, hq, e⟩ | ⟨v, hv, e⟩
  · cases e
    exact hp u hm p hq
  · cases e

/-! ### An example: a unit `B` using one of two values of `A` -/

section Example

def nA : Name := [65]
def nB : Name := [66]

/-- `val x = ...` -/
def pX : Phrase := ⟨[1, 0, 0, 0, 0], [], [(.setglobal (qid nA [120], 1), 1)], true⟩
/-- `val y = ...`, not used -/
def pY : Phrase := ⟨[2, 0, 0, 0, 0], [], [(.setglobal (qid nA [121], 2), 1)], true⟩
/-- prints `A.x` -/
def pB : Phrase := ⟨[3, 0, 0, 0, 0], [], [(.getglobal (qid nA [120], 0), 1)], false⟩

def tA : Tables := ⟨[pY, pX], [([121], 2), ([120], 1)], 7, []⟩
def tB : Tables := ⟨[pB], [], 8, [(nA, 7)]⟩

def exEnv : Env :=
  ⟨fun n => if n = nA then some tA else if n = nB then some tB else none, [], true⟩

def exLk : Lk := ⟨0, [], [], fun _ => none⟩

/-- The check finds `A` by itself and puts it first. -/
example : (checkFiles exEnv 3 [nB] ⟨[], []⟩).toOption.map (fun s => s.done.map (·.1)) =
    some [nB, nA] := by decide

/-- A wrong stamp, a cycle, a missing file. -/
example : (match checkFiles ⟨fun n => if n = nA then some { tA with stamp := 9 } else
      if n = nB then some tB else none, [], true⟩ 3 [nB] ⟨[], []⟩ with
    | .error e => some e | .ok _ => none) = some (.incompatible nB nA) := by decide
example : (match checkFiles ⟨fun n => if n = nA then some { tA with mentions := [(nB, 8)] } else
      if n = nB then some tB else none, [], true⟩ 3 [nB] ⟨[], []⟩ with
    | .error e => some e | .ok _ => none) = some (.cyclic nB) := by decide
example : (match checkFiles ⟨fun n => if n = nB then some tB else none, [], true⟩ 3 [nB]
      ⟨[], []⟩ with
    | .error e => some e | .ok _ => none) = some (.unreadable nA) := by decide

/-- `pY` is left out; `pX` gets slot 0, which `pB` reads. -/
example : (linkObjects (scanFiles [(nB, tB), (nA, tA)]) exLk).map (fun r => r.1.map (·.1)) =
    some [[1, 0, 0, 0, 0], [3, 0, 0, 0, 0]] := by decide

theorem exReach (n : Name) (h : Reach exEnv [nB] n) : n = nA ∨ n = nB := by
  induction h with
  | root h => simp at h; exact Or.inr h
  | @step n t m _ hf hm ih =>
      rcases ih with rfl | rfl
      · have : t = tA := by simpa [exEnv] using hf.symm
        subst this; simp [tA] at hm
      · have : t = tB := by simpa [exEnv, nA, nB] using hf.symm
        subst this; simp [tB] at hm; subst hm; exact Or.inl rfl

/-- The hypotheses of `C59_check_succeeds` hold. -/
example : Linkable exEnv [nB] (fun n => if n = nB then 1 else 0) := by
  refine ⟨?_, by simp [exEnv], ?_, ?_⟩
  · intro n h
    rcases exReach n h with rfl | rfl
    · exact ⟨tA, by simp [exEnv]⟩
    · exact ⟨tB, by simp [exEnv, nA, nB]⟩
  · intro n t m t' h hf hm hf'
    rcases exReach n h with rfl | rfl
    · have : t = tA := by simpa [exEnv] using hf.symm
      subst this; simp [tA] at hm
    · have : t = tB := by simpa [exEnv, nA, nB] using hf.symm
      subst this; simp only [tB, List.mem_singleton] at hm; subst hm
      have : t' = tA := by simpa [exEnv] using hf'.symm
      subst this; rfl
  · intro n t m h hf hm
    rcases exReach n h with rfl | rfl
    · have : t = tA := by simpa [exEnv] using hf.symm
      subst this; simp [tA] at hm
    · have : t = tB := by simpa [exEnv, nA, nB] using hf.symm
      subst this; simp only [tB, List.mem_singleton] at hm; subst hm
      simp [nA, nB]

/-- The hypotheses about the units in `C59_link` hold. -/
theorem exUnits (n : Name) (t : Tables) (h : exEnv.files n = some t) :
    UnitOk exEnv (fun _ => False) (n, t) := by
  simp only [exEnv] at h
  split at h
  next e =>
    cases h; subst e
    refine ⟨?_, ?_⟩
    · intro x hx
      simp [unitDefs, unitItems, tA, Item.defines, Phrase.sets, pX, pY, setsOf] at hx
      refine ⟨?_, id⟩
      rcases hx with rfl | rfl | rfl | rfl <;> exact ⟨_, rfl⟩
    · refine .phrase ?_ (by simp [tA]) (.phrase ?_ ?_ (.publish ?_ ?_ (.publish ?_ ?_ .nil)))
      · intro pre u pos post h
        rcases pre with _ | ⟨a, _ | ⟨b, pre⟩⟩ <;> simp [pX] at h
      · intro pre u pos post h
        rcases pre with _ | ⟨a, _ | ⟨b, pre⟩⟩ <;> simp [pY] at h
      · simp [tA, Phrase.sets, pX, pY, setsOf, qid]
      · simp [tA, Phrase.sets, pX, pY, setsOf, qid]
      · simp [tA, Phrase.sets, pX, pY, setsOf, qid]
      · simp [tA, Phrase.sets, pX, pY, setsOf, qid]
      · simp [tA, Phrase.sets, pX, pY, setsOf, qid]
  next =>
    split at h
    next e =>
      cases h; subst e
      refine ⟨by simp [unitDefs, unitItems, tB, Item.defines, Phrase.sets, pB, setsOf], ?_⟩
      refine .phrase ?_ (by simp [Phrase.sets, pB, setsOf]) .nil
      intro pre u pos post h
      rcases pre with _ | ⟨a, _ | ⟨b, pre⟩⟩
      · simp only [pB, List.nil_append, List.cons.injEq, Prod.mk.injEq, Reloc.getglobal.injEq] at h
        obtain ⟨⟨rfl, -⟩, -⟩ := h
        refine Or.inl (Or.inr ⟨(nA, 7), by simp [tB], tA, by simp [exEnv], ?_⟩)
        simp [unitDefs, unitItems, tA, Item.defines]
      · simp [pB] at h
      · simp [pB] at h
    next => cases h

/-- A behaviour: the pure phrases compute 10 and 20, `pB` prints what it reads. -/
def exB : Beh Nat Nat Unit := fun p ρ =>
  match p.code with
  | 1 :: _ => .go [] (fun _ => 10)
  | 2 :: _ => .go [] (fun _ => 20)
  | _ => .go (p.gets.filterMap fun u => if u ∈ p.sets then none else ρ u) (fun _ => 0)

theorem exB_local : exB.Local := by
  intro p ρ ρ' h
  unfold exB
  split
  · rfl
  · rfl
  · congr 1
    apply List.filterMap_congr
    intro u hu
    by_cases hs : u ∈ p.sets
    · simp [hs]
    · simp [hs, h u hu hs]

example : ∃ s out lk', checkFiles exEnv 3 [nB] ⟨[], []⟩ = .ok s ∧
    linkObjects (scanFiles s.done) exLk = some (out, lk') ∧
    runLinked exB out (fun _ => none) = run exB (program s.done.reverse) (fun _ => none) := by
  have hs : checkFiles exEnv 3 [nB] ⟨[], []⟩ =
      .ok ⟨[(nB, 8), (nA, 7)], [(nB, tB), (nA, tA)]⟩ := rfl
  obtain ⟨out, lk', h1, h2⟩ := C59_link (B := exB) (pre := fun _ => False) (ρ := fun _ => none)
    (lk := exLk) (M := fun _ => none) exB_local hs
    (fun u hu => exUnits u.1 u.2 (((C59_units_in_order hs).2.2 u hu).1))
    ⟨by simp [exLk], by simp [exLk]⟩ (by simp)
    (by
      intro u hu p hp f pos hf
      simp only [List.mem_cons, List.not_mem_nil, or_false] at hu
      rcases hu with rfl | rfl
      · simp only [tB, List.mem_cons, List.not_mem_nil, or_false] at hp
        subst hp; simp [pB] at hf
      · simp only [tA, List.mem_cons, List.not_mem_nil, or_false] at hp
        rcases hp with rfl | rfl <;> simp [pX, pY] at hf)
  refine ⟨_, out, lk', hs, h1, h2 ?_⟩
  refine ⟨fun _ => ⟨_, rfl⟩, fun es w h => ⟨fun _ => ⟨_, rfl⟩, fun es w h => ?_⟩⟩
  exact ⟨fun h => by simp [pB] at h, fun _ _ _ => trivial⟩

end Example

end Mosml.Link

namespace Mosml.Safe

/-! ## C60: phrases marked pure -/

/-- C60.  An expression that `isSafe` accepts has no effect: if its evaluation ends, it ends
with a value, without an exception, and leaves the state as it was. -/
theorem C60_safe_no_effect {S : Type} (U : Exp → Env → S → Option (Res × S)) {f : Nat} {e : Exp}
    {ρ : Env} {σ σ' : S} {r : Res} (hs : isSafe e = true)
    (h : eval U f e ρ σ = some (r, σ')) : (∃ v, r = .val v) ∧ σ' = σ :=
  safe_quiet U f e ρ σ hs r σ' h

/-- C60, partial: the evaluation ends if the expression has no loop. -/
theorem C60_safe_terminates_partial {S : Type} (U : Exp → Env → S → Option (Res × S)) {e : Exp}
    (hs : isSafe e = true) (hw : noWhile e = true) (ρ : Env) (σ : S) :
    ∃ f v, eval U f e ρ σ = some (.val v, σ) :=
  ⟨height e, safe_total U (height e) e ρ σ (le_refl _) hs hw⟩

/-- C60, partial: the phrase of a value declaration that is marked pure is silent - it ends,
raises nothing and leaves the state as it was - if it has no loop and its patterns match. -/
theorem C60_pure_phrase_partial {S : Type} (U : Exp → Env → S → Option (Res × S)) (ρ : Env) (σ : S) :
    ∀ {bs : List (Pat × Exp)}, flag (.val bs) = true → (∀ b ∈ bs, noWhile b.2 = true) →
    (∀ b ∈ bs, ∀ f v, eval U f b.2 ρ σ = some (.val v, σ) → ∃ a, matchP b.1 v = some a) →
    ∃ f0, ∀ f, f0 ≤ f → ∃ a, runBinds U f ρ bs σ = some (.inr a, σ) := by
  intro bs
  induction bs with
  | nil => intro _ _ _; exact ⟨0, fun f _ => ⟨[], rfl⟩⟩
  | cons b bs ih =>
      intro hf hw hm
      obtain ⟨p, e⟩ := b
      simp only [flag, List.all_cons, Bool.and_eq_true] at hf
      obtain ⟨f1, h1⟩ := ih hf.2 (fun b hb => hw b (List.mem_cons_of_mem _ hb))
        (fun b hb => hm b (List.mem_cons_of_mem _ hb))
      refine ⟨max f1 (height e), ?_⟩
      intro f hle
      obtain ⟨v, h2⟩ := safe_total U f e ρ σ (le_trans (le_max_right _ _) hle) hf.1
        (hw _ (List.mem_cons_self ..))
      obtain ⟨a, h3⟩ := h1 f (le_trans (le_max_left _ _) hle)
      obtain ⟨c, h4⟩ := hm _ (List.mem_cons_self ..) f v h2
      exact ⟨c ++ a, by simp only [runBinds, h2, h4, h3]⟩

/-- `val (x, _) = (if true then 1 else 2, fn _ => raise ...)` meets the hypotheses. -/
example : flag (.val [(.tup [.var 0, .wild],
    .tuple [.ite (.con true) (.scon 1) (.scon 2), .fn [(.wild, .raise (.var 3))]])]) = true ∧
    noWhile (.tuple [.ite (.con true) (.scon 1) (.scon 2), .fn [(.wild, .raise (.var 3))]]) = true := by
  constructor
  · simp only [flag, List.all_cons, List.all_nil, Bool.and_true]
    rw [isSafe_tuple]
    simp only [List.mem_cons, List.not_mem_nil, or_false, forall_eq_or_imp, forall_eq]
    simp [isSafe]
  · rw [noWhile_tuple]
    simp only [List.mem_cons, List.not_mem_nil, or_false, forall_eq_or_imp, forall_eq]
    simp [noWhile]

/-- C60, violated: `isSafe` accepts `while true do ()`, which does not end. -/
theorem C60_while_violation :
    isSafe (.while (.con true) (.tuple [])) = true ∧
    ∀ (S : Type) (U : Exp → Env → S → Option (Res × S)) f ρ σ,
      eval U f (.while (.con true) (.tuple [])) ρ σ = none := by
  constructor
  · rw [isSafe, Bool.and_eq_true, isSafe_tuple]; simp [isSafe]
  · intro S U f ρ σ; exact loop_none U ρ f σ

/-- C60, violated: `val true = false` is marked pure, and raises `Bind`. -/
theorem C60_bind_violation :
    flag (.val [(.bool true, .con false)]) = true ∧
    ∀ (S : Type) (U : Exp → Env → S → Option (Res × S)) f ρ σ,
      runBinds U (f + 1) ρ [(.bool true, .con false)] σ = some (.inl .bindExn, σ) := by
  constructor
  · simp [flag, isSafe]
  · intro S U f ρ σ; simp [runBinds, eval, matchP]

end Mosml.Safe

namespace Mosml.Link

open Mosml.Safe (Val Dec flag runBinds)

/-- The phrase of a value declaration that binds no variable: it sets no global. -/
def decPhrase (code : List Nat) (bs : List (Mosml.Safe.Pat × Mosml.Safe.Exp)) : Phrase :=
  ⟨code, [], [], flag (.val bs)⟩

/-- What the two phrases of the example do: the first is `val true = false`, the second
prints. -/
def bindB : Beh Nat Nat Val := fun p _ =>
  match p.code with
  | [0] =>
      match runBinds (S := Unit) (fun _ _ _ => none) 1 [] [(.bool true, .con false)] () with
      | some (.inl x, _) => .stop x
      | _ => .go [] (fun _ => 0)
  | _ => .go [1] (fun _ => 0)

/-- C60, violated: a program of the two declarations `val true = false` and `val _ = print
"..."` raises `Bind` and prints nothing; once linked it prints. -/
theorem C60_linked_bind_violation :
    let unit : Name × Tables :=
      (nA, ⟨[⟨[1], [], [], false⟩, decPhrase [0] [(.bool true, .con false)]], [], 0, []⟩)
    run bindB (program [unit]) (fun _ => none) = ([], some .bindExn) ∧
    ∃ out lk', linkObjects (scanFiles [unit]) exLk = some (out, lk') ∧
      runLinked bindB out (fun _ => none) = ([1], none) := by
  have hf : flag (.val [(.bool true, .con false)]) = true := Mosml.Safe.C60_bind_violation.1
  constructor
  · simp [program, unitItems, decPhrase, run, bindB, runBinds, Mosml.Safe.eval, Mosml.Safe.matchP]
  · refine ⟨[([1], ⟨[1], [], [], false⟩, exLk)], exLk, ?_, ?_⟩
    · simp [scanFiles, scanFile, scanPhrase, decPhrase, hf, linkObjects, linkObject, linkPhrases,
        exportNames, Mosml.Emit.patchObject, Mosml.Emit.relOthers]
    · simp [runLinked, bindB]

end Mosml.Link
