import Verif.Infix.Spec

namespace Mosml.Infix

variable {O I : Type} {asId : O → Option I} {status : I → Status}

def mk (e : Entry I) (l r : Tree O I) : Tree O I := match e with
  | .infixL i _ => .applyId i l r
  | .infixR i _ => .applyId i l r
  | .app => .applyObj l r

theorem apply_mk (e : Entry I) (o1 o2 : Tree O I) (rest : List (Tree O I)) : apply e (o2 :: o1 :: rest) = .ok (mk e o1 o2 :: rest) := by
  cases e <;> rfl

def LeftR (a b : Entry I) : Prop := assocLeft a b = .ok true
def RightR (a b : Entry I) : Prop := assocLeft a b = .ok false

theorem LeftR.num {a b : Entry I} : LeftR a b ↔ match a, b with
    | .app, _ => True
    | _, .app => False
    | .infixL _ m, .infixL _ n => n ≤ m
    | .infixR _ m, .infixR _ n => n < m
    | .infixL _ m, .infixR _ n => n < m
    | .infixR _ m, .infixL _ n => n < m := by
  unfold LeftR
  cases a <;> cases b <;> simp only [assocLeft]
  case infixL.infixL => split <;> (try split) <;> simp <;> omega
  case infixL.infixR => split <;> (try split) <;> simp <;> omega
  case infixR.infixL => split <;> (try split) <;> simp <;> omega
  case infixR.infixR => split <;> (try split) <;> simp <;> omega
  all_goals simp

theorem RightR.num {a b : Entry I} : RightR a b ↔ match a, b with
    | .app, _ => False
    | _, .app => True
    | .infixL _ m, .infixL _ n => m < n
    | .infixR _ m, .infixR _ n => m ≤ n
    | .infixL _ m, .infixR _ n => m < n
    | .infixR _ m, .infixL _ n => m < n := by
  unfold RightR
  cases a <;> cases b <;> simp only [assocLeft]
  case infixL.infixL => split <;> (try split) <;> simp <;> omega
  case infixL.infixR => split <;> (try split) <;> simp <;> omega
  case infixR.infixL => split <;> (try split) <;> simp <;> omega
  case infixR.infixR => split <;> (try split) <;> simp <;> omega
  all_goals simp

theorem right_left {a e b : Entry I} (h : RightR a e) (g : LeftR b e) : RightR a b := by
  rw [RightR.num] at h ⊢
  rw [LeftR.num] at g
  cases a <;> cases e <;> cases b <;> simp only at h g ⊢ <;> omega

theorem left_right {e x b : Entry I} (h : LeftR e x) (g : RightR e b) : LeftR b x := by
  rw [LeftR.num] at h ⊢
  rw [RightR.num] at g
  cases e <;> cases x <;> cases b <;> simp only at h g ⊢ <;> omega

/-- the objects between the operands of an entry -/
def Mid (asId : O → Option I) (status : I → Status) : Entry I → List O → Prop
  | .app, l => l = []
  | .infixL i n, l => ∃ o, l = [o] ∧ asId o = some i ∧ status i = .infixL n
  | .infixR i n, l => ∃ o, l = [o] ∧ asId o = some i ∧ status i = .infixR n

/-- a right tree with the entry at its root and its objects -/
inductive PT (asId : O → Option I) (status : I → Status) : Tree O I → Option (Entry I) → List O → Prop
  | leaf {o} : kind asId status o = .operand → PT asId status (.leaf o) none [o]
  | node {e l r el er ls rs mid} : Mid asId status e mid → PT asId status l el ls → PT asId status r er rs → (∀ x ∈ el, LeftR x e) → (∀ x ∈ er, RightR e x) →
      PT asId status (mk e l r) (some e) (ls ++ mid ++ rs)

theorem kind_operand {o : O} (h : kind asId status o = .operand) : asId o = none ∨ ∃ i, asId o = some i ∧ status i = .nonfix := by
  unfold kind at h
  cases hi : asId o with
  | none => exact .inl rfl
  | some i =>
    rw [hi] at h
    dsimp only at h
    cases hs : status i with
    | nonfix => exact .inr ⟨i, rfl, hs⟩
    | infixL n => rw [hs] at h; cases h
    | infixR n => rw [hs] at h; cases h

theorem kind_operator {o : O} {i : I} {n : Int} {b : Bool} (h : kind asId status o = .operator i n b) :
    asId o = some i ∧ (b = true ∧ status i = .infixL n ∨ b = false ∧ status i = .infixR n) := by
  unfold kind at h
  cases hi : asId o with
  | none => rw [hi] at h; cases h
  | some j =>
    rw [hi] at h
    dsimp only at h
    cases hs : status j with
    | nonfix => rw [hs] at h; cases h
    | infixL m => rw [hs] at h; cases h; exact ⟨rfl, .inl ⟨rfl, hs⟩⟩
    | infixR m => rw [hs] at h; cases h; exact ⟨rfl, .inr ⟨rfl, hs⟩⟩

/-! ### `PT` and the specification -/

/-- the root of a tree as an entry -/
def rootOf (status : I → Status) : Tree O I → Option (Entry I)
  | .leaf _ => none
  | .applyObj _ _ => some .app
  | .applyId i _ _ => match status i with
    | .infixL n => some (.infixL i n)
    | .infixR n => some (.infixR i n)
    | .nonfix => none

theorem PT.root {t : Tree O I} {e : Option (Entry I)} {ts : List O} (h : PT asId status t e ts) : e = rootOf status t := by
  cases h with
  | leaf _ => rfl
  | @node e l r _ _ _ _ mid hm _ _ _ _ =>
    cases e with
    | app => rfl
    | infixL i n => obtain ⟨o, _, _, hs⟩ := hm; simp [mk, rootOf, hs]
    | infixR i n => obtain ⟨o, _, _, hs⟩ := hm; simp [mk, rootOf, hs]

theorem PT.reads {t : Tree O I} {e : Option (Entry I)} {ts : List O} (h : PT asId status t e ts) : Reads asId status t ts := by
  induction h with
  | leaf h => exact .leaf h
  | @node e l r _ _ ls rs mid hm _ _ _ _ i1 i2 =>
    cases e with
    | app =>
      cases hm
      rw [List.append_nil]; exact .applyObj i1 i2
    | infixL i n =>
      obtain ⟨o, rfl, h1, h2⟩ := hm
      have hk : kind asId status o = .operator i n true := by simp [kind, h1, h2]
      simpa [mk] using Reads.applyId hk i1 i2
    | infixR i n =>
      obtain ⟨o, rfl, h1, h2⟩ := hm
      have hk : kind asId status o = .operator i n false := by simp [kind, h1, h2]
      simpa [mk] using Reads.applyId hk i1 i2

theorem leftOk_iff {i : I} {e : Entry I} {l : Tree O I} {ls : List O} (he : e = .infixL i n ∧ status i = .infixL n ∨ e = .infixR i n ∧ status i = .infixR n)
    (hl : Reads asId status l ls) : LeftOk status i l ↔ ∀ x ∈ rootOf status l, LeftR x e := by
  cases hl with
  | leaf _ => simp [LeftOk, rootOf]
  | applyObj _ _ => simp [LeftOk, rootOf, LeftR.num]
  | applyId hk _ _ =>
    obtain ⟨_, hk⟩ := kind_operator hk
    rcases he with ⟨rfl, he⟩ | ⟨rfl, he⟩ <;> rcases hk with ⟨_, hk⟩ | ⟨_, hk⟩ <;> simp [LeftOk, rootOf, binding, he, hk, LeftR.num] <;> omega

theorem rightOk_iff {i : I} {e : Entry I} {l : Tree O I} {ls : List O} (he : e = .infixL i n ∧ status i = .infixL n ∨ e = .infixR i n ∧ status i = .infixR n)
    (hl : Reads asId status l ls) : RightOk status i l ↔ ∀ x ∈ rootOf status l, RightR e x := by
  cases hl with
  | leaf _ => simp [RightOk, rootOf]
  | applyObj _ _ => rcases he with ⟨rfl, he⟩ | ⟨rfl, he⟩ <;> simp [RightOk, rootOf, RightR.num]
  | applyId hk _ _ =>
    obtain ⟨_, hk⟩ := kind_operator hk
    rcases he with ⟨rfl, he⟩ | ⟨rfl, he⟩ <;> rcases hk with ⟨_, hk⟩ | ⟨_, hk⟩ <;> simp [RightOk, rootOf, binding, he, hk, RightR.num] <;> omega

theorem PT.right {t : Tree O I} {e : Option (Entry I)} {ts : List O} (h : PT asId status t e ts) : Right status t := by
  induction h with
  | leaf h => exact .leaf
  | @node e l r _ _ ls rs mid hm hl hr h1 h2 i1 i2 =>
    have el := hl.root
    have er := hr.root
    subst el er
    cases e with
    | app =>
      refine .applyObj i1 i2 ?_ ?_
      · cases hl.reads with
        | leaf _ => exact fun h => h
        | applyObj _ _ => exact fun h => h
        | applyId hk _ _ =>
          exfalso
          obtain ⟨_, hk⟩ := kind_operator hk
          rcases hk with ⟨_, hk⟩ | ⟨_, hk⟩ <;> simp [rootOf, hk, LeftR.num] at h1
      · cases hr.reads with
        | leaf _ => trivial
        | applyObj _ _ => simp [rootOf, RightR.num] at h2
        | applyId hk _ _ =>
          exfalso
          obtain ⟨_, hk⟩ := kind_operator hk
          rcases hk with ⟨_, hk⟩ | ⟨_, hk⟩ <;> simp [rootOf, hk, RightR.num] at h2
    | infixL i n =>
      obtain ⟨o, _, _, hs⟩ := hm
      exact .applyId i1 i2 ((leftOk_iff (.inl ⟨rfl, hs⟩) hl.reads).2 h1) ((rightOk_iff (.inl ⟨rfl, hs⟩) hr.reads).2 h2)
    | infixR i n =>
      obtain ⟨o, _, _, hs⟩ := hm
      exact .applyId i1 i2 ((leftOk_iff (.inr ⟨rfl, hs⟩) hl.reads).2 h1) ((rightOk_iff (.inr ⟨rfl, hs⟩) hr.reads).2 h2)

theorem PT.make {t : Tree O I} {ts : List O} (h : Reads asId status t ts) (g : Right status t) : PT asId status t (rootOf status t) ts := by
  induction h with
  | leaf h => exact .leaf h
  | @applyId i n left o l r ls rs hk hl hr i1 i2 =>
    obtain ⟨ho, hk⟩ := kind_operator hk
    cases g with
    | applyId g1 g2 g3 g4 =>
      rcases hk with ⟨_, hk⟩ | ⟨_, hk⟩
      · have hroot : rootOf status (.applyId i l r) = some (.infixL i n) := by simp [rootOf, hk]
        rw [hroot]
        have := PT.node (e := .infixL i n) (mid := [o]) ⟨o, rfl, ho, hk⟩ (i1 g1) (i2 g2) ((leftOk_iff (.inl ⟨rfl, hk⟩) hl).1 g3) ((rightOk_iff (.inl ⟨rfl, hk⟩) hr).1 g4)
        simpa [mk] using this
      · have hroot : rootOf status (.applyId i l r) = some (.infixR i n) := by simp [rootOf, hk]
        rw [hroot]
        have := PT.node (e := .infixR i n) (mid := [o]) ⟨o, rfl, ho, hk⟩ (i1 g1) (i2 g2) ((leftOk_iff (.inr ⟨rfl, hk⟩) hl).1 g3) ((rightOk_iff (.inr ⟨rfl, hk⟩) hr).1 g4)
        simpa [mk] using this
  | @applyObj l r ls rs hl hr i1 i2 =>
    cases g with
    | applyObj g1 g2 g3 g4 =>
      have := PT.node (e := .app) (mid := []) rfl (i1 g1) (i2 g2) (fun x hx => by
        cases l with
        | leaf _ => simp [rootOf] at hx
        | applyObj _ _ => simp [rootOf] at hx; subst hx; rw [LeftR.num]; trivial
        | applyId _ _ _ => exact absurd trivial g3) (fun x hx => by
        cases r with
        | leaf _ => simp [rootOf] at hx
        | applyObj _ _ => exact g4.elim
        | applyId _ _ _ => exact g4.elim)
      simpa [mk, rootOf] using this

/-! ### one step of `process` -/

def entryOf (i : I) (n : Int) (b : Bool) : Entry I := if b then .infixL i n else .infixR i n

theorem process_operand {o : O} (h : kind asId status o = .operand) (rest : List O) (stack : List (Entry I)) (last : LastObj) (output : List (Tree O I)) (hl : last ≠ .arg) :
    process asId status (o :: rest) stack last output = process asId status rest stack .arg (.leaf o :: output) := by
  rcases kind_operand h with h | ⟨i, h, h2⟩ <;> cases last <;> simp_all [process]

theorem process_app {o : O} (h : kind asId status o = .operand) (rest : List O) (stack : List (Entry I)) (output : List (Tree O I)) :
    process asId status (o :: rest) stack .arg output = match flushHigher .app stack output with
      | .error x => .error x
      | .ok (stack, output) => process asId status rest (.app :: stack) .arg (.leaf o :: output) := by
  rcases kind_operand h with h1 | ⟨i, h1, h2⟩
  · simp only [process, h1]
    cases flushHigher .app stack output <;> rfl
  · simp only [process, h1, h2]
    cases flushHigher .app stack output <;> rfl

theorem process_operator {o : O} {i : I} {n : Int} {b : Bool} (h : kind asId status o = .operator i n b) (rest : List O) (stack : List (Entry I)) (last : LastObj) (output : List (Tree O I)) :
    process asId status (o :: rest) stack last output = match flushHigher (entryOf i n b) stack output with
      | .error x => .error x
      | .ok (stack, output) => process asId status rest (entryOf i n b :: stack) .oper output := by
  obtain ⟨h1, h2⟩ := kind_operator h
  rcases h2 with ⟨rfl, h2⟩ | ⟨rfl, h2⟩
  · simp only [process, h1, h2]
    show _ = match flushHigher (.infixL i n) stack output with | .error x => _ | .ok (stack, output) => _
    cases flushHigher (.infixL i n) stack output <;> rfl
  · simp only [process, h1, h2]
    show _ = match flushHigher (.infixR i n) stack output with | .error x => _ | .ok (stack, output) => _
    cases flushHigher (.infixR i n) stack output <;> rfl

theorem flushHigher_stop {e : Entry I} {stack : List (Entry I)} {output : List (Tree O I)} (h : ∀ y ∈ stack.head?, RightR y e) :
    flushHigher e stack output = .ok (stack, output) := by
  cases stack with
  | nil => rfl
  | cons y s =>
    have := h y rfl
    unfold RightR at this
    simp only [flushHigher, this]

theorem flushHigher_go {e y : Entry I} {s : List (Entry I)} {l r : Tree O I} {output : List (Tree O I)} (h : LeftR y e) :
    flushHigher e (y :: s) (r :: l :: output) = flushHigher e s (mk y l r :: output) := by
  unfold LeftR at h
  simp only [flushHigher, h, apply_mk]

/-! ### completeness -/

theorem PT.run {t : Tree O I} {root : Option (Entry I)} {ts : List O} (h : PT asId status t root ts) : ∃ sp so,
    (∀ e stack output, (∀ x ∈ root, LeftR x e) → flushHigher e (sp ++ stack) (so ++ output) = flushHigher e stack (t :: output)) ∧
    (∀ stack output, flushAll (sp ++ stack) (so ++ output) = flushAll stack (t :: output)) ∧
    ∀ rest stack last output, (∀ y ∈ stack.head?, ∀ x ∈ root, RightR y x) → last ≠ .arg →
      process asId status (ts ++ rest) stack last output = process asId status rest (sp ++ stack) .arg (so ++ output) := by
  induction h with
  | @leaf o h =>
    exact ⟨[], [.leaf o], fun _ _ _ _ => rfl, fun _ _ => rfl, fun rest stack last output _ hl => process_operand h _ _ _ _ hl⟩
  | @node e l r el er ls rs mid hm hl hr h1 h2 i1 i2 =>
    obtain ⟨spl, sol, l1, l2, l3⟩ := i1
    obtain ⟨spr, sor, r1, r2, r3⟩ := i2
    refine ⟨spr ++ [e], sor ++ [l], ?_, ?_, ?_⟩
    · intro x stack output hx
      have hx : LeftR e x := hx e rfl
      rw [List.append_assoc, List.append_assoc, r1 x _ _ (fun y hy => left_right hx (h2 y hy))]
      exact flushHigher_go hx
    · intro stack output
      rw [List.append_assoc, List.append_assoc, r2]
      simp [flushAll, apply_mk]
    · intro rest stack last output hh hlast
      have hstop : ∀ output : List (Tree O I), flushHigher e stack output = .ok (stack, output) := fun _ => flushHigher_stop fun y hy => hh y hy e rfl
      have e1 : ls ++ mid ++ rs ++ rest = ls ++ (mid ++ (rs ++ rest)) := by simp
      rw [e1, l3 _ _ _ _ (fun y hy x hx => right_left (hh y hy e rfl) (h1 x hx)) hlast, List.append_assoc, List.append_assoc]
      have hhead : ∀ y ∈ (e :: stack).head?, ∀ x ∈ er, RightR y x := fun y hy x hx => by
        simp at hy; subst hy; exact h2 x hx
      have op : ∀ {o i n b}, kind asId status o = .operator i n b → entryOf i n b = e →
          process asId status ([o] ++ (rs ++ rest)) (spl ++ stack) .arg (sol ++ output) = process asId status rest (spr ++ ([e] ++ stack)) .arg (sor ++ ([l] ++ output)) := by
        intro o i n b hk he
        rw [List.singleton_append, process_operator hk, he, l1 e _ _ h1, hstop]
        exact r3 rest (e :: stack) .oper (l :: output) hhead (by simp)
      cases e with
      | infixL i n =>
        obtain ⟨o, rfl, ho, hs⟩ := hm
        exact op (i := i) (n := n) (b := true) (by simp [kind, ho, hs]) rfl
      | infixR i n =>
        obtain ⟨o, rfl, ho, hs⟩ := hm
        exact op (i := i) (n := n) (b := false) (by simp [kind, ho, hs]) rfl
      | app =>
        cases hm
        cases hr with
        | @node e2 _ _ _ _ _ _ _ _ _ _ _ _ =>
          have := h2 e2 rfl
          rw [RightR.num] at this
          exact this.elim
        | @leaf o hk =>
          rw [List.nil_append, List.singleton_append, process_app hk, l1 .app _ _ h1, hstop]
          have := r3 rest (.app :: stack) .oper (l :: output) hhead (by simp)
          rw [List.singleton_append, process_operand hk _ _ _ _ (by simp)] at this
          exact this

/-! ### soundness -/

/-- the stacks: `t₀ e₁ t₁ e₂ … tₖ₋₁ eₖ`, top first, and the objects read so far -/
inductive FR (asId : O → Option I) (status : I → Status) : List (Tree O I) → List (Entry I) → List O → Prop
  | nil : FR asId status [] [] []
  | cons {t root ts e mid outs st pre} : FR asId status outs st pre → PT asId status t root ts → Mid asId status e mid → (∀ x ∈ root, LeftR x e) →
      (∀ y ∈ st.head?, RightR y e) → FR asId status (t :: outs) (e :: st) (pre ++ ts ++ mid)

theorem FR.length {outs : List (Tree O I)} {st : List (Entry I)} {pre : List O} (h : FR asId status outs st pre) : outs.length = st.length := by
  induction h with
  | nil => rfl
  | cons _ _ _ _ _ ih => simp [ih]

theorem FR.flush {e : Entry I} {outs : List (Tree O I)} {st : List (Entry I)} {pre : List O} (h : FR asId status outs st pre) :
    ∀ {t root ts st' out'}, PT asId status t root ts → (∀ y ∈ st.head?, ∀ x ∈ root, RightR y x) → (∀ x ∈ root, LeftR x e) →
      flushHigher e st (t :: outs) = .ok (st', out') → ∃ t' root' outs' pre' ts', out' = t' :: outs' ∧ FR asId status outs' st' pre' ∧ PT asId status t' root' ts' ∧
        pre' ++ ts' = pre ++ ts ∧ (∀ x ∈ root', LeftR x e) ∧ ∀ y ∈ st'.head?, RightR y e := by
  induction h with
  | nil =>
    intro t root ts st' out' hp _ hr hf
    simp only [flushHigher, Except.ok.injEq, Prod.mk.injEq] at hf
    obtain ⟨rfl, rfl⟩ := hf
    exact ⟨t, root, [], [], ts, rfl, .nil, hp, rfl, hr, by simp⟩
  | @cons t1 root1 ts1 e1 mid outs st pre hF hp1 hm hl1 hh1 ih =>
    intro t root ts st' out' hp hh hr hf
    cases ha : assocLeft e1 e with
    | error x => simp [flushHigher, ha] at hf
    | ok b =>
      cases b with
      | false =>
        simp only [flushHigher, ha, Except.ok.injEq, Prod.mk.injEq] at hf
        obtain ⟨rfl, rfl⟩ := hf
        exact ⟨t, root, _, _, ts, rfl, .cons hF hp1 hm hl1 hh1, hp, rfl, hr, fun y hy => by simp at hy; subst hy; exact ha⟩
      | true =>
        rw [flushHigher_go ha] at hf
        obtain ⟨t', root', outs', pre', ts', k1, k2, k3, k4, k5, k6⟩ := ih (.node hm hp1 hp hl1 (hh e1 rfl)) (fun y hy x hx => by cases hx; exact hh1 y hy)
          (fun x hx => by cases hx; exact ha) hf
        exact ⟨t', root', outs', pre', ts', k1, k2, k3, by rw [k4]; simp, k5, k6⟩

theorem FR.flushAll {outs : List (Tree O I)} {st : List (Entry I)} {pre : List O} (h : FR asId status outs st pre) :
    ∀ {t root ts r}, PT asId status t root ts → (∀ y ∈ st.head?, ∀ x ∈ root, RightR y x) → flushAll st (t :: outs) = .ok r → ∃ root', PT asId status r root' (pre ++ ts) := by
  induction h with
  | nil =>
    intro t root ts r hp _ hf
    simp only [Infix.flushAll, Except.ok.injEq] at hf
    subst hf
    exact ⟨root, hp⟩
  | @cons t1 root1 ts1 e1 mid outs st pre hF hp1 hm hl1 hh1 ih =>
    intro t root ts r hp hh hf
    simp only [Infix.flushAll, apply_mk] at hf
    obtain ⟨root', hr⟩ := ih (.node hm hp1 hp hl1 (hh e1 rfl)) (fun y hy x hx => by cases hx; exact hh1 y hy) hf
    exact ⟨root', by simpa using hr⟩

/-! ### counting -/

theorem apply_length {e : Entry I} {l l' : List (Tree O I)} (h : apply e l = .ok l') : l.length = l'.length + 1 := by
  match l, h with
  | o2 :: o1 :: rest, h => simp only [apply, Except.ok.injEq] at h; subst h; simp
  | [_], h => simp [apply] at h
  | [], h => simp [apply] at h

theorem flushHigher_length {e : Entry I} : ∀ {st st' : List (Entry I)} {l l' : List (Tree O I)}, flushHigher e st l = .ok (st', l') → l.length + st'.length = l'.length + st.length
  | [], st', l, l', h => by simp only [flushHigher, Except.ok.injEq, Prod.mk.injEq] at h; obtain ⟨rfl, rfl⟩ := h; rfl
  | y :: s, st', l, l', h => by
    cases ha : assocLeft y e with
    | error x => simp [flushHigher, ha] at h
    | ok b =>
      cases b with
      | false => simp only [flushHigher, ha, Except.ok.injEq, Prod.mk.injEq] at h; obtain ⟨rfl, rfl⟩ := h; rfl
      | true =>
        simp only [flushHigher, ha] at h
        cases hp : apply y l with
        | error x => simp [hp] at h
        | ok l2 =>
          simp only [hp] at h
          have := flushHigher_length h
          have := apply_length hp
          simp; omega

theorem flushAll_length : ∀ {st : List (Entry I)} {l : List (Tree O I)} {t}, flushAll st l = .ok t → l.length = st.length + 1
  | [], l, t, h => by
    match l, h with
    | [_], _ => rfl
    | [], h => simp [flushAll] at h
    | _ :: _ :: _, h => simp [flushAll] at h
  | y :: s, l, t, h => by
    simp only [flushAll] at h
    cases hp : apply y l with
    | error x => simp [hp] at h
    | ok l2 =>
      simp only [hp] at h
      have := flushAll_length h
      have := apply_length hp
      simp; omega

/-- too few operands: there is no way back -/
theorem bad : ∀ (ts : List O) (st : List (Entry I)) (last : LastObj) (out : List (Tree O I)) (t : Tree O I),
    (match last with | .arg => out.length ≤ st.length | _ => out.length + 1 ≤ st.length) → process asId status ts st last out ≠ .ok t
  | [], st, last, out, t, h, hc => by
    simp only [process] at hc
    have := flushAll_length hc
    cases last <;> simp only at h <;> omega
  | o :: ts, st, last, out, t, h, hc => by
    cases hk : kind asId status o with
    | operand =>
      cases last with
      | arg =>
        rw [process_app hk] at hc
        cases hf : flushHigher .app st out with
        | error x => simp [hf] at hc
        | ok p =>
          obtain ⟨st', out'⟩ := p
          simp only [hf] at hc
          have := flushHigher_length hf
          refine bad ts _ _ _ t ?_ hc
          simp only at h ⊢
          simp; omega
      | oper => rw [process_operand hk _ _ _ _ (by simp)] at hc; exact bad ts _ _ _ t (by simp only at h ⊢; simp; omega) hc
      | void => rw [process_operand hk _ _ _ _ (by simp)] at hc; exact bad ts _ _ _ t (by simp only at h ⊢; simp; omega) hc
    | operator i n b =>
      rw [process_operator hk] at hc
      cases hf : flushHigher (entryOf i n b) st out with
      | error x => simp [hf] at hc
      | ok p =>
        obtain ⟨st', out'⟩ := p
        simp only [hf] at hc
        have := flushHigher_length hf
        refine bad ts _ _ _ t ?_ hc
        cases last <;> simp only at h ⊢ <;> simp <;> omega

theorem mid_entryOf {o : O} {i : I} {n : Int} {b : Bool} (h : kind asId status o = .operator i n b) : Mid asId status (entryOf i n b) [o] := by
  obtain ⟨h1, h2⟩ := kind_operator h
  rcases h2 with ⟨rfl, h2⟩ | ⟨rfl, h2⟩
  · exact ⟨o, rfl, h1, h2⟩
  · exact ⟨o, rfl, h1, h2⟩

theorem process_sound : ∀ (ts : List O) (st : List (Entry I)) (last : LastObj) (out : List (Tree O I)) (pre : List O) (r : Tree O I),
    (match last with
      | .arg => ∃ outs pre' o, kind asId status o = .operand ∧ out = .leaf o :: outs ∧ FR asId status outs st pre' ∧ pre = pre' ++ [o]
      | _ => FR asId status out st pre) →
    process asId status ts st last out = .ok r → ∃ root, PT asId status r root (pre ++ ts)
  | [], st, last, out, pre, r, h, hc => by
    simp only [process] at hc
    cases last with
    | arg =>
      obtain ⟨outs, pre', o, ho, rfl, hF, rfl⟩ := h
      rw [List.append_nil]
      exact hF.flushAll (.leaf ho) (by simp) hc
    | oper => have := FR.length h; have := flushAll_length hc; omega
    | void => have := FR.length h; have := flushAll_length hc; omega
  | o :: ts, st, last, out, pre, r, h, hc => by
    cases hk : kind asId status o with
    | operand =>
      cases last with
      | arg =>
        obtain ⟨outs, pre', o', ho, rfl, hF, rfl⟩ := h
        rw [process_app hk] at hc
        cases hf : flushHigher .app st (.leaf o' :: outs) with
        | error x => simp [hf] at hc
        | ok p =>
          obtain ⟨st', out'⟩ := p
          simp only [hf] at hc
          obtain ⟨t', root', outs', pre2, ts', rfl, k2, k3, k4, k5, k6⟩ := hF.flush (.leaf ho) (by simp) (by simp) hf
          have := process_sound ts _ .arg _ (pre' ++ [o'] ++ [o]) r ⟨_, _, o, hk, rfl, .cons (e := .app) (mid := []) k2 k3 rfl k5 k6, by rw [k4]; simp⟩ hc
          simpa using this
      | oper =>
        rw [process_operand hk _ _ _ _ (by simp)] at hc
        have := process_sound ts _ .arg _ (pre ++ [o]) r ⟨_, _, o, hk, rfl, h, rfl⟩ hc
        simpa using this
      | void =>
        rw [process_operand hk _ _ _ _ (by simp)] at hc
        have := process_sound ts _ .arg _ (pre ++ [o]) r ⟨_, _, o, hk, rfl, h, rfl⟩ hc
        simpa using this
    | operator i n b =>
      rw [process_operator hk] at hc
      cases hf : flushHigher (entryOf i n b) st out with
      | error x => simp [hf] at hc
      | ok p =>
        obtain ⟨st', out'⟩ := p
        simp only [hf] at hc
        have hlen := flushHigher_length hf
        cases last with
        | arg =>
          obtain ⟨outs, pre', o', ho, rfl, hF, rfl⟩ := h
          obtain ⟨t', root', outs', pre2, ts', rfl, k2, k3, k4, k5, k6⟩ := hF.flush (.leaf ho) (by simp) (by simp) hf
          have := process_sound ts _ .oper _ (pre' ++ [o'] ++ [o]) r (by
            have := FR.cons k2 k3 (mid_entryOf hk) k5 k6
            rw [k4] at this
            exact this) hc
          simpa using this
        | oper => have := FR.length h; exact absurd hc (bad ts _ .oper _ r (by simp only; simp; omega))
        | void => have := FR.length h; exact absurd hc (bad ts _ .oper _ r (by simp only; simp; omega))

/-! ### well-formed sequences -/

theorem WellFormed.cat {l l' : List O} (h : WellFormed asId status l) (g : WellFormed asId status l') : WellFormed asId status (l ++ l') := by
  induction h with
  | last h => exact .operand h g
  | operand h _ ih => exact .operand h ih
  | operator h h2 _ ih => exact .operator h h2 ih

theorem WellFormed.op {l l' : List O} {o : O} {i n b} (h : WellFormed asId status l) (hk : kind asId status o = .operator i n b) (g : WellFormed asId status l') :
    WellFormed asId status (l ++ o :: l') := by
  induction h with
  | last h => exact .operator h hk g
  | operand h _ ih => exact .operand h ih
  | operator h h2 _ ih => exact .operator h h2 ih

theorem Reads.wellFormed {t : Tree O I} {l : List O} (h : Reads asId status t l) : WellFormed asId status l := by
  induction h with
  | leaf h => exact .last h
  | applyId hk _ _ i1 i2 => exact i1.op hk i2
  | applyObj _ _ i1 i2 => exact i1.cat i2

/-- with one more operand than operators nothing is missing -/
theorem flushHigher_enough {e : Entry I} : ∀ {st : List (Entry I)} {l : List (Tree O I)}, l.length = st.length + 1 → flushHigher e st l ≠ .error .wrongInfix
  | [], l, _ => by simp [flushHigher]
  | y :: s, l, h => by
    match l, h with
    | a :: b :: l, h =>
      simp only [flushHigher, apply_mk]
      cases ha : assocLeft y e with
      | error x =>
        simp only
        cases y <;> cases e <;> simp only [assocLeft] at ha <;> (try split at ha) <;> (try split at ha) <;> simp_all
        all_goals (intro hx; subst hx; cases ha)
      | ok c =>
        cases c with
        | false => simp
        | true => exact flushHigher_enough (by simp at h ⊢; exact h)

theorem flushAll_enough : ∀ {st : List (Entry I)} {l : List (Tree O I)}, l.length = st.length + 1 → ∃ t, flushAll st l = .ok t
  | [], l, h => by
    match l, h with
    | [t], _ => exact ⟨t, rfl⟩
  | y :: s, l, h => by
    match l, h with
    | a :: b :: l, h =>
      simp only [flushAll, apply_mk]
      exact flushAll_enough (by simp at h ⊢; exact h)

theorem process_enough (ts : List O) (h : WellFormed asId status ts) : (∀ (st : List (Entry I)) (last : LastObj) (out : List (Tree O I)), last ≠ .arg → out.length = st.length →
      (∃ t, process asId status ts st last out = .ok t) ∨ process asId status ts st last out = .error .mixedAssociativity) ∧
    ∀ (st : List (Entry I)) (out : List (Tree O I)), out.length = st.length + 1 →
      (∃ t, process asId status ts st .arg out = .ok t) ∨ process asId status ts st .arg out = .error .mixedAssociativity := by
  -- the second part follows from the first for the sequence that begins with an operand
  have second : ∀ {o : O} {l : List O}, kind asId status o = .operand →
      (∀ (st : List (Entry I)) (last : LastObj) (out : List (Tree O I)), last ≠ .arg → out.length = st.length →
        (∃ t, process asId status (o :: l) st last out = .ok t) ∨ process asId status (o :: l) st last out = .error .mixedAssociativity) →
      ∀ (st : List (Entry I)) (out : List (Tree O I)), out.length = st.length + 1 →
        (∃ t, process asId status (o :: l) st .arg out = .ok t) ∨ process asId status (o :: l) st .arg out = .error .mixedAssociativity := by
    intro o l hk first st out hlen
    rw [process_app hk]
    cases hf : flushHigher .app st out with
    | error x =>
      cases x with
      | wrongInfix => exact absurd hf (flushHigher_enough hlen)
      | mixedAssociativity => exact .inr rfl
    | ok p =>
      obtain ⟨st', out'⟩ := p
      have h1 := flushHigher_length hf
      have h2 := first (.app :: st') .oper out' (by simp) (by simp; omega)
      rw [process_operand hk _ _ _ _ (by simp)] at h2
      exact h2
  induction h with
  | @last o hk =>
    have first : ∀ (st : List (Entry I)) (last : LastObj) (out : List (Tree O I)), last ≠ .arg → out.length = st.length →
        (∃ t, process asId status [o] st last out = .ok t) ∨ process asId status [o] st last out = .error .mixedAssociativity := by
      intro st last out hl hlen
      rw [process_operand hk _ _ _ _ hl]
      simp only [process]
      exact .inl (flushAll_enough (by simp; omega))
    exact ⟨first, second hk first⟩
  | @operand o l hk hw ih =>
    have first : ∀ (st : List (Entry I)) (last : LastObj) (out : List (Tree O I)), last ≠ .arg → out.length = st.length →
        (∃ t, process asId status (o :: l) st last out = .ok t) ∨ process asId status (o :: l) st last out = .error .mixedAssociativity := by
      intro st last out hl hlen
      rw [process_operand hk _ _ _ _ hl]
      exact ih.2 _ _ (by simp; omega)
    exact ⟨first, second hk first⟩
  | @operator o o' i n b l hk hk' hw ih =>
    have first : ∀ (st : List (Entry I)) (last : LastObj) (out : List (Tree O I)), last ≠ .arg → out.length = st.length →
        (∃ t, process asId status (o :: o' :: l) st last out = .ok t) ∨ process asId status (o :: o' :: l) st last out = .error .mixedAssociativity := by
      intro st last out hl hlen
      rw [process_operand hk _ _ _ _ hl, process_operator hk']
      cases hf : flushHigher (entryOf i n b) st (.leaf o :: out) with
      | error x =>
        cases x with
        | wrongInfix => exact absurd hf (flushHigher_enough (by simp; omega))
        | mixedAssociativity => exact .inr rfl
      | ok p =>
        obtain ⟨st', out'⟩ := p
        have h1 := flushHigher_length hf
        exact ih.1 _ .oper _ (by simp) (by simp at h1 ⊢; omega)
    exact ⟨first, second hk first⟩

end Mosml.Infix
