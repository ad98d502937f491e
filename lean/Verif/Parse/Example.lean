import Verif.Parse.Props

/-! Examples for C33: the grammar `S : (nothing) | S a`, whose actions add up the values of the tokens, and the positions of empty symbols. -/
namespace Mosml.Parse.Ex
open Spec (Conf Ent Tok top Decision)

/-- rule 1: `S →`, rule 2: `S → S a`, rule 3: the entry rule; the code of `a` is 257, that of the end of file 0 -/
def G : Grammar where
  rule n := n = 1 ∨ n = 2 ∨ n = 3
  lhs n := if n = 3 then 0 else 1
  rhs n := if n = 1 then [] else if n = 2 then [.nt 1, .tok 257] else [.tok 1, .nt 1]

def T : Tables where
  transl := [0, 257]
  lhs := [-1, 1, 1, 0]
  len := [2, 0, 2, 2]
  defred := [0, 1, 0, 2, 0]
  dgoto := [4, 2]
  sindex := [1, 0, -256, 0, 0]
  rindex := [0, 0, 3, 0, 0]
  gindex := [0, 0]
  tablesize := 3
  table := [0, 3, 1, 3]
  check := [-1, 257, 1, 0]

/-- the values 1, 2, 3, …, `m` and then the end of file for ever -/
def w (m : Nat) : World Nat String where
  lexer p := .ok (if p < m then { tag := 1, arg := some (p + 1), start := 2 * p, stop := 2 * p + 1 } else { tag := 0, arg := none, start := 2 * p, stop := 2 * p })
  arity n := if n = 3 then 1 else if n = 2 then 2 else 0
  act n us := if n = 1 then .value 0 else if n = 2 then .value us.sum else match us with
    | [v] => .yyexit v
    | _ => .exn "impossible"

def edges : List (Int × Sym × Int) := [(0, .tok 1, 1), (1, .nt 1, 2), (2, .tok 257, 3), (0, .nt 0, 4)]
def items : List (Int × Int × Nat) := [(0, 3, 0), (1, 3, 1), (1, 1, 0), (1, 2, 0), (2, 3, 2), (2, 2, 1), (3, 2, 2)]
def las : List (Int × Int × Nat × Int) := [(0, 3, 0, 0), (1, 3, 1, 0), (1, 1, 0, 0), (1, 1, 0, 257), (1, 2, 0, 0), (1, 2, 0, 257), (2, 3, 2, 0),
  (2, 2, 1, 0), (2, 2, 1, 257), (3, 2, 2, 0), (3, 2, 2, 257)]

theorem entry (m : Nat) : Entry G (w m) 3 1 1 := ⟨by simp [G], rfl, rfl, fun v => rfl⟩

def states : List Int := [0, 1, 2, 3, 4]
def codes : List Int := [0, 1, 257]

theorem rules {n : Int} (h : G.rule n) : n ∈ ([1, 2, 3] : List Int) := by simpa [G] using h

/-- the automaton is sound for the grammar -/
def sound (m : Nat) : SoundTables G T (w m) (· ∈ codes) where
  state q := q ∈ states
  item q n k := (q, n, k) ∈ items
  edge q X q' := (q, X, q') ∈ edges
  len n h := (by decide : ∀ n ∈ ([1, 2, 3] : List Int), rd T.len n = some ((G.rhs n).length : Int)) n (rules h)
  lhs n h := (by decide : ∀ n ∈ ([1, 2, 3] : List Int), rd T.lhs n = some (G.lhs n)) n (rules h)
  arity n h := by
    have := rules h
    simp only [List.mem_cons, List.not_mem_nil, or_false] at this
    rcases this with rfl | rfl | rfl <;> simp [w, G]
  initial := by decide
  next {q X q'} _ h := by
    have := (by decide : ∀ e ∈ edges, e.2.2 ∈ states) _ h
    exact this
  bottom {n k} h := by
    have := (by decide : ∀ i ∈ items, i.1 = 0 → i.2.2 = 0) _ h rfl
    exact this
  notBack {q X} h := by
    have := (by decide : ∀ e ∈ edges, e.2.2 ≠ 0) _ h rfl
    exact this
  back {q X q' n k} h g := by
    have := (by decide : ∀ e ∈ edges, ∀ i ∈ items, i.1 = e.2.2 → i.2.2 ≠ 0 → (G.rhs i.2.1)[i.2.2 - 1]? = some e.2.1 ∧ (e.1, i.2.1, i.2.2 - 1) ∈ items) _ h _ g rfl (by simp)
    simpa using this
  total {q x} h g := by
    have := (by decide : ∀ q ∈ states, ∀ x ∈ codes, (Spec.decide T q (some x)).isSome = true) q h x g
    exact Option.isSome_iff_exists.1 this
  shift {q x q'} h g hd := by
    have := (by decide : ∀ q ∈ states, ∀ x ∈ codes, ∀ q' ∈ states, Spec.decide T q (some x) = some (.shift q') → (q, Sym.tok x, q') ∈ edges)
    have b := (by decide : ∀ q ∈ states, ∀ x ∈ codes, (match Spec.decide T q (some x) with | some (.shift q') => decide (q' ∈ states) | _ => true) = true)
    have b := b q h x g
    rw [hd] at b
    exact this q h x g q' (of_decide_eq_true b) hd
  reduce {q x n} h g hd := by
    have b := (by decide : ∀ q ∈ states, ∀ x ∈ none :: codes.map some, (match Spec.decide T q x with
      | some (.reduce n) => decide (n ∈ ([1, 2, 3] : List Int) ∧ (q, n, (G.rhs n).length) ∈ items) | _ => true) = true)
    have b := b q h x (by
      cases x with
      | none => simp
      | some y => exact List.mem_cons_of_mem _ (List.mem_map.2 ⟨y, g y rfl, rfl⟩))
    rw [hd] at b
    have b := of_decide_eq_true b
    exact ⟨by simpa [G] using b.1, b.2⟩
  goto {q n} h g := by
    have b := (by decide : ∀ i ∈ items, i.2.2 = 0 → (match Spec.goto T i.1 (G.lhs i.2.1) with
      | some q' => decide ((i.1, Sym.nt (G.lhs i.2.1), q') ∈ edges) | none => false) = true) _ g rfl
    cases hg : Spec.goto T q (G.lhs n) with
    | none => simp [hg] at b
    | some q' => simp only [hg] at b; exact ⟨q', rfl, of_decide_eq_true b⟩
  exits {n us v} h ha := by
    have hr := rules h
    simp only [List.mem_cons, List.not_mem_nil, or_false] at hr
    rcases hr with rfl | rfl | rfl
    · cases ha
    · cases ha
    · exact ⟨1, 1, entry m⟩
  entryItem {n x s q} h g := by
    have h3 : n = 3 := by
      have hr := rules h.rule
      simp only [List.mem_cons, List.not_mem_nil, or_false] at hr
      rcases hr with rfl | rfl | rfl
      · exact absurd h.rhs (by simp [G])
      · exact absurd h.rhs (by simp [G])
      · rfl
    subst h3
    exact (by decide : ∀ i ∈ items, i.2.1 = 3 → i.2.2 = 0 → i.1 = 0) _ g rfl rfl

/-- … and complete -/
def complete (m : Nat) : CompleteTables G T (w m) where
  la q n k a := (q, n, k, a) ∈ las
  len := (sound m).len
  lhs := (sound m).lhs
  arity := (sound m).arity
  closure {q n k a j ts vs} h hk hj ht := by
    have hr := rules hj
    simp only [List.mem_cons, List.not_mem_nil, or_false] at hr
    simp only [las, List.mem_cons, Prod.mk.injEq, List.not_mem_nil, or_false] at h
    rcases h with ⟨rfl, rfl, rfl, rfl⟩ | ⟨rfl, rfl, rfl, rfl⟩ | ⟨rfl, rfl, rfl, rfl⟩ | ⟨rfl, rfl, rfl, rfl⟩ | ⟨rfl, rfl, rfl, rfl⟩ | ⟨rfl, rfl, rfl, rfl⟩ | ⟨rfl, rfl, rfl, rfl⟩ |
      ⟨rfl, rfl, rfl, rfl⟩ | ⟨rfl, rfl, rfl, rfl⟩ | ⟨rfl, rfl, rfl, rfl⟩ | ⟨rfl, rfl, rfl, rfl⟩ <;> rcases hr with rfl | rfl | rfl <;> first
      | exact absurd hk (by decide)
      | (cases ht; decide)
      | (cases ht with | tok ht => cases ht; simp [las])
  shift {q n k a x} h hk := by
    have b := (by decide : ∀ i ∈ las, (match (G.rhs i.2.1)[i.2.2.1]? with
      | some (.tok x) => (match Spec.decide T i.1 (some x) with | some (.shift q') => decide ((q', i.2.1, i.2.2.1 + 1, i.2.2.2) ∈ las) | _ => false)
      | _ => true) = true) _ h
    dsimp only at b
    rw [hk] at b
    dsimp only at b
    cases hd : Spec.decide T q (some x) with
    | none => simp [hd] at b
    | some d =>
      cases d with
      | shift q' => simp only [hd] at b; exact ⟨q', rfl, of_decide_eq_true b⟩
      | reduce n => simp [hd] at b
      | read => simp [hd] at b
      | error => simp [hd] at b
  goto {q n k a l} h hk := by
    have b := (by decide : ∀ i ∈ las, (match (G.rhs i.2.1)[i.2.2.1]? with
      | some (.nt l) => (match Spec.goto T i.1 l with | some q' => decide ((q', i.2.1, i.2.2.1 + 1, i.2.2.2) ∈ las) | _ => false)
      | _ => true) = true) _ h
    dsimp only at b
    rw [hk] at b
    dsimp only at b
    cases hd : Spec.goto T q l with
    | none => simp [hd] at b
    | some q' => simp only [hd] at b; exact ⟨q', rfl, of_decide_eq_true b⟩
  reduce {q n a} h := by
    have b := (by decide : ∀ i ∈ las, i.2.2.1 = (G.rhs i.2.1).length → Spec.decide T i.1 (some i.2.2.2) = some (.reduce i.2.1)) _ h rfl
    exact b

theorem codesOk : CodesOk T := show ∀ x ∈ T.transl, 0 ≤ x by decide

theorem lexerOk (m : Nat) : LexerOk T (w m) (· ∈ codes) := by
  intro p t h
  simp only [w, Except.ok.injEq] at h
  subst h
  by_cases hp : p < m
  · rw [if_pos hp]; exact ⟨257, rfl, by decide⟩
  · rw [if_neg hp]; exact ⟨0, rfl, by decide⟩

/-- the first tokens -/
def inputs : Nat → List (Int × Nat)
  | 0 => []
  | k + 1 => inputs k ++ [(257, k + 1)]

def total : Nat → Nat
  | 0 => 0
  | k + 1 => total k + (k + 1)

theorem sentence (m : Nat) : ∀ k, Sentence G (w m) 1 (inputs k) (total k)
  | 0 => .nt (n := 1) (us := []) (ts := []) (ts' := []) (by simp [G]) .nil rfl .nil
  | k + 1 => by
    have ih := sentence m k
    have := Trees.nt (w := w m) (G := G) (n := 2) (ts' := []) (v := total (k + 1)) (by simp [G]) (ih.append (.tok (x := 257) (v := k + 1) .nil)) (by
      simp [w, lastN, total]) .nil
    simpa [Sentence, inputs, G] using this

theorem inputs_length : ∀ k, (inputs k).length = k
  | 0 => rfl
  | k + 1 => by simp [inputs, inputs_length k]

theorem feed (m : Nat) : ∀ k, k ≤ m → Feed T 0 (w m) 0 (inputs k)
  | 0, _ => trivial
  | k + 1, h => (feed m k (by omega)).snoc ⟨_, rfl, by
      rw [inputs_length, Nat.zero_add, if_pos (by omega)]; exact ⟨rfl, rfl⟩⟩

/-- every input of the example is accepted, with the sum of the values; this needs stacks that hold three entries only, however long the input -/
example (m : Nat) : ∃ fuel, yyparse T 0 (w m) fuel (env0 0) 1 = .accept (total m) :=
  C33_complete (complete m) codesOk env0_ok (by decide) (entry m) (a := 0) (av := 0) (show (0, 3, 0, 0) ∈ las by decide) ⟨4, by decide⟩ (sentence m m)
    ((feed m m (le_refl _)).snoc ⟨_, rfl, by rw [inputs_length, Nat.zero_add, if_neg (by omega)]; exact ⟨rfl, rfl⟩⟩)

/-- the parser of the example never goes wrong -/
example (m fuel : Nat) : yyparse T 0 (w m) fuel (env0 0) 1 ≠ .undef :=
  (C33_sound (sound m) codesOk (lexerOk m) env0_ok (by decide) (by decide) fuel).1

/-- the automaton of the example is never stuck: the hypothesis of `C33_engine` -/
theorem noUndef (m : Nat) : NoUndef T 0 (w m) (init 1 (env0 0)) := fun k h => by
  have := inv_run (S := sound m) (unit := 0) (lexerOk m) ⟨1, by decide⟩ k _ (inv_init (unit := 0) (sound m) (x := 1) (by decide) (env0 0))
  rw [h] at this
  exact this

/-- the sum of 1, 2 and 3, by running the parser -/
example : (match yyparse T 0 (w 3) 20 (env0 0) 1 with | .accept v => v == 6 | _ => false) = true := by decide +kernel

example (m : Nat) : ∃ k, Spec.run T 0 (w m) k (init 1 (env0 0)) = .accept (total m) :=
  (C33_engine codesOk env0_ok (by decide) (noUndef m) (by simp)).1 (C33_complete (complete m) codesOk env0_ok (by decide) (entry m) (a := 0) (av := 0)
    (show (0, 3, 0, 0) ∈ las by decide) ⟨4, by decide⟩ (sentence m m)
    ((feed m m (le_refl _)).snoc ⟨_, rfl, by rw [inputs_length, Nat.zero_add, if_neg (by omega)]; exact ⟨rfl, rfl⟩⟩))

example (m : Nat) : total m = total m :=
  C33_unambiguous (complete m) (entry m) (a := 0) (av := 0) (show (0, 3, 0, 0) ∈ las by decide) ⟨4, by decide⟩ (sentence m m) (sentence m m)
    ((feed m m (le_refl _)).snoc ⟨_, rfl, by rw [inputs_length, Nat.zero_add, if_neg (by omega)]; exact ⟨rfl, rfl⟩⟩)

example : ∃ e', parseEngine T 0 (env0 0) .start = some (.raiseParseError, e') ∧ EnvOk e' := by
  refine ⟨_, rfl, (C33_stacks (T := T) (unit := 0) (cmd := .start) (o := .raiseParseError) env0_ok (.inl ⟨by simp, by simp, by simp⟩) rfl).1⟩

/-! ### the position of an empty symbol -/

/-- rule 1: `A → x y`, rule 2: `B →`, rule 3: `P → A B`, rule 4: the entry rule for `P`; the codes of `x` and `y` are 257 and 258 -/
def T2 : Tables where
  transl := [0, 257, 258]
  lhs := [-1, 2, 3, 1, 0]
  len := [2, 2, 0, 2, 2]
  defred := [0, 0, 0, 4, 2, 1, 3, 0]
  dgoto := [7, 3, 4, 6]
  sindex := [1, -256, -255, 0, 0, 0, 0, 0]
  rindex := [0, 0, 0, 0, 0, 0, 0, 0]
  gindex := [0, 0, 0, 0]
  tablesize := 3
  table := [0, 2, 1, 5]
  check := [-1, 257, 1, 258]

/-- `x` at the positions 0 to 4, `y` at the position 5 -/
def w2 : World Nat String where
  lexer p := .ok (if p = 0 then { tag := 1, arg := none, start := 0, stop := 5 } else if p = 1 then { tag := 2, arg := none, start := 5, stop := 6 }
    else { tag := 0, arg := none, start := 6, stop := 6 })
  arity _ := 0
  act n _ := if n = 4 then .yyexit 0 else .value n.toNat

/-- `k` iterations of the driver -/
def iterates : Nat → Cmd Nat × Env Nat × Nat → Option (Cmd Nat × Env Nat × Nat)
  | 0, y => some y
  | k + 1, y => match iterate T2 0 w2 y.1 y.2.1 y.2.2 with
    | .inl y => iterates k y
    | .inr _ => none

/-- what the engine returns after three iterations, if it asks for an action: the rule, its length, `symbolStart()` and `symbolEnd()` -/
def fourth : Option (Int × Int × Option Nat × Option Nat) :=
  match iterates 3 (.start, { env0 0 with currChar := 1, esp := 0 }, 0) with
  | none => none
  | some (cmd, e, _) => match parseEngine T2 0 e cmd with
    | some (.computeSemanticAction, e) => some (e.ruleNumber, e.ruleLen, symbolStart e, symbolEnd e)
    | _ => none

/-- The positions of an empty symbol are wrong: in the action of the empty rule for `B`, after `x y`, symbolStart() is 5 and symbolEnd() is 6, which are the
positions of `y`.  The entry of the start stack is that of a symbol that has been popped. -/
theorem C33_symbolStart_violation : fourth = some (2, 0, some 5, some 6) ∧ rd T2.len 2 = some 0 := by decide +kernel

end Mosml.Parse.Ex
