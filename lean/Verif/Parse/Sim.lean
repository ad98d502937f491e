import Verif.Parse.Spec

namespace Mosml.Parse
open Spec (Conf Ent Tok top stopOf Decision)

variable {A E : Type} {T : Tables} {unit : A} {w : World A E}

/-! ### what the stacks hold -/

structure EnvOk (e : Env A) : Prop where
  s : e.s.length = e.stacksize
  v : e.v.length = e.stacksize
  st : e.st.length = e.stacksize
  en : e.en.length = e.stacksize
  pos : 0 < e.stacksize
  bottom : e.s[0]? = some 0
  bottomEnd : e.en[0]? = some 0

def Holds (e : Env A) : List (Ent A) → Prop
  | [] => True
  | a :: r => (e.s[r.length + 1]? = some a.state ∧ e.v[r.length + 1]? = some a.val ∧ e.en[r.length + 1]? = some a.stop ∧
      ∀ p, a.start = some p → e.st[r.length + 1]? = some p) ∧ Holds e r

def Agree (e e' : Env A) (n : Nat) : Prop :=
  ∀ i : Nat, i ≤ n → e'.s[i]? = e.s[i]? ∧ e'.v[i]? = e.v[i]? ∧ e'.st[i]? = e.st[i]? ∧ e'.en[i]? = e.en[i]?

theorem Holds.agree {e e' : Env A} : ∀ {r : List (Ent A)}, Holds e r → Agree e e' r.length → Holds e' r
  | [], _, _ => trivial
  | a :: r, ⟨⟨h1, h2, h3, h4⟩, h5⟩, g => by
    obtain ⟨g1, g2, g3, g4⟩ := g (r.length + 1) (by simp)
    refine ⟨⟨g1.trans h1, g2.trans h2, g4.trans h3, fun p hp => g3.trans (h4 p hp)⟩, h5.agree fun i hi => g i (by simp; omega)⟩

theorem Holds.drop {e : Env A} : ∀ {r : List (Ent A)} (m : Nat), Holds e r → Holds e (r.drop m)
  | [], m, _ => by simp [Holds]
  | a :: r, 0, h => h
  | a :: r, m + 1, h => by simpa using Holds.drop m h.2

theorem Holds.get {e : Env A} : ∀ {r : List (Ent A)} {i : Nat} {a : Ent A}, Holds e r → r[i]? = some a →
    e.v[r.length - i]? = some a.val ∧ ∀ p, a.start = some p → e.st[r.length - i]? = some p
  | [], i, a, _, h => by simp at h
  | b :: r, 0, a, h, k => by
    simp only [List.getElem?_cons_zero, Option.some.injEq] at k
    subst k
    exact ⟨h.1.2.1, h.1.2.2.2⟩
  | b :: r, i + 1, a, h, k => by
    rw [List.getElem?_cons_succ] at k
    have := Holds.get h.2 k
    have hi : i < r.length := (List.getElem?_eq_some_iff.1 k).1
    rw [List.length_cons, show r.length + 1 - (i + 1) = r.length - i by omega]
    exact this

theorem Holds.top {e : Env A} {r : List (Ent A)} (ok : EnvOk e) (h : Holds e r) : e.s[r.length]? = some (top r) ∧ e.en[r.length]? = some (stopOf r) := by
  cases r with
  | nil => exact ⟨ok.bottom, ok.bottomEnd⟩
  | cons a r => exact ⟨h.1.1, h.1.2.2.1⟩

theorem peekVals_eq {e : Env A} {r : List (Ent A)} (h : Holds e r) (he : e.esp = r.length) : ∀ k, k ≤ r.length →
    peekVals e k = some ((r.take k).map Ent.val).reverse
  | 0, _ => by simp [peekVals]
  | k + 1, hk => by
    have hk' : k < r.length := by omega
    unfold peekVals
    rw [if_pos (by omega), peekVals_eq h he k (by omega), he, (h.get (List.getElem?_eq_getElem hk')).1, List.take_succ_eq_append_getElem hk', List.map_append, List.reverse_append]
    rfl

/-! ### running the specification -/

/-- `j` steps lead from `c` to `c'` -/
def Steps (T : Tables) (unit : A) (w : World A E) (j : Nat) (c c' : Conf A) : Prop := ∀ k, Spec.run T unit w (j + k) c = Spec.run T unit w k c'

theorem Steps.refl (c : Conf A) : Steps T unit w 0 c c := fun k => by simp

theorem Steps.trans {i j : Nat} {a b c : Conf A} (h : Steps T unit w i a b) (g : Steps T unit w j b c) : Steps T unit w (i + j) a c := fun k => by
  rw [Nat.add_assoc, h, g]

theorem Steps.one {a b : Conf A} (h : Spec.step T unit w a = .inl b) : Steps T unit w 1 a b := fun k => by
  rw [Nat.add_comm]; simp [Spec.run, h]

/-- the specification does not go wrong -/
def NoUndef (T : Tables) (unit : A) (w : World A E) (c : Conf A) : Prop := ∀ k, Spec.run T unit w k c ≠ .undef

theorem NoUndef.steps {j : Nat} {a b : Conf A} (h : NoUndef T unit w a) (s : Steps T unit w j a b) : NoUndef T unit w b := fun k => by
  rw [← s k]; exact h _

theorem NoUndef.step {a : Conf A} (h : NoUndef T unit w a) : Spec.step T unit w a ≠ .inr .undef := fun e => h 1 (by simp [Spec.run, e])

/-! ### the relation -/

def TokOk (e : Env A) : Option (Tok A) → Prop
  | none => e.currChar = -1
  | some t => e.currChar = t.code ∧ 0 ≤ t.code ∧ e.lval = t.val ∧ e.symbStart = t.start ∧ e.symbEnd = t.stop

structure AtLoop (e : Env A) (c : Conf A) : Prop where
  ok : EnvOk e
  holds : Holds e c.stack
  tok : TokOk e c.tok
  state : e.state = top c.stack
  sp : e.sp = c.stack.length
  lt : e.sp < e.stacksize

/-- a reduction by the rule `ruleNumber` has been decided upon -/
structure Pend (T : Tables) (unit : A) (w : World A E) (e : Env A) (c : Conf A) : Prop where
  ok : EnvOk e
  holds : Holds e c.stack
  tok : TokOk e c.tok
  esp : e.esp = c.stack.length
  step : Spec.step T unit w c = Spec.doReduce T w c e.ruleNumber
  data : ∃ (m : Nat) (l : Int), rd T.len e.ruleNumber = some (m : Int) ∧ rd T.lhs e.ruleNumber = some l ∧ m ≤ c.stack.length ∧
    Spec.goto T (top (c.stack.drop m)) l = some e.state ∧ e.sp = c.stack.length - m + 1
  le : e.sp ≤ e.stacksize

/-- a shift has been done but for the writing of the stacks -/
structure PendPush (e : Env A) (c : Conf A) : Prop where
  ok : EnvOk e
  tok : c.tok = none
  data : ∃ a r, c.stack = a :: r ∧ Holds e r ∧ e.sp = r.length + 1 ∧ e.state = a.state ∧ e.lval = a.val ∧ a.start = some e.symbStart ∧ a.stop = e.symbEnd
  le : e.sp ≤ e.stacksize

/-- the action has been run, but its value is not on the stack -/
structure PendVal (e : Env A) (v : A) (c : Conf A) : Prop where
  ok : EnvOk e
  tok : TokOk e c.tok
  data : ∃ a r, c.stack = a :: r ∧ Holds e r ∧ e.sp = r.length + 1 ∧ e.state = a.state ∧ v = a.val ∧ (∀ p, a.start = some p → e.st[e.sp]? = some p) ∧
    e.en[e.esp]? = some a.stop
  lt : e.sp < e.stacksize

structure PendTok (T : Tables) (unit : A) (e : Env A) (t : Token A) (c : Conf A) : Prop where
  ok : EnvOk e
  holds : Holds e c.stack
  state : e.state = top c.stack
  sp : e.sp = c.stack.length
  lt : e.sp < e.stacksize
  defred : rd T.defred e.state = some 0
  tok : ∃ x, T.transl[t.tag]? = some x ∧ 0 ≤ x ∧ c.tok = some { code := x, val := t.arg.getD unit, start := t.start, stop := t.stop }
  start : e.symbStart = t.start
  stop : e.symbEnd = t.stop

def Rel (T : Tables) (unit : A) (w : World A E) (y : Cmd A × Env A × Nat) (c : Conf A) : Prop :=
  y.2.2 = c.pos ∧ match y.1 with
  | .start => AtLoop { y.2.1 with state := 0, sp := y.2.1.esp } c
  | .tokenRead t => PendTok T unit y.2.1 t c
  | .stacksGrown1 => PendPush y.2.1 c ∧ y.2.1.sp < y.2.1.stacksize
  | .stacksGrown2 => Pend T unit w y.2.1 c ∧ y.2.1.sp < y.2.1.stacksize
  | .semanticActionComputed v => PendVal y.2.1 v c

/-- what `iterate` does after the call of the engine -/
def respond (unit : A) (w : World A E) (pos : Nat) : Option (Out × Env A) → (Cmd A × Env A × Nat) ⊕ Result A E
    | none => .inr .undef
    | some (.readToken, e) => match w.lexer pos with
      | .error x => .inr (.exn x)
      | .ok t => .inl (.tokenRead t, { e with symbStart := t.start, symbEnd := t.stop }, pos + 1)
    | some (.raiseParseError, e) => .inr (.parseError e.currChar)
    | some (.computeSemanticAction, e) => match peekVals e (w.arity e.ruleNumber) with
      | none => .inr .undef
      | some vs => match w.act e.ruleNumber vs with
        | .value v => .inl (.semanticActionComputed v, e, pos)
        | .yyexit v => .inr (.accept v)
        | .exn x => .inr (.exn x)
    | some (.growStacks1, e) => match growStacks unit e with
      | none => .inr .undef
      | some e => .inl (.stacksGrown1, e, pos)
    | some (.growStacks2, e) => match growStacks unit e with
      | none => .inr .undef
      | some e => .inl (.stacksGrown2, e, pos)

theorem iterate_eq (cmd : Cmd A) (e : Env A) (pos : Nat) : iterate T unit w cmd e pos = respond unit w pos (parseEngine T unit e cmd) := rfl

/-- the response agrees with the specification; `p` says that no progress need be made -/
def Good (T : Tables) (unit : A) (w : World A E) (stutter : Bool) (r : (Cmd A × Env A × Nat) ⊕ Result A E) (c : Conf A) : Prop :=
  (∃ o, r = .inr o ∧ ∃ k, Spec.run T unit w k c = o) ∨
  ∃ y c' j, r = .inl y ∧ Steps T unit w j c c' ∧ Rel T unit w y c' ∧ (1 ≤ j ∨ stutter = true ∧ ∃ e p, y = (.stacksGrown2, e, p))

theorem Good.mono {b : Bool} {r : (Cmd A × Env A × Nat) ⊕ Result A E} {c : Conf A} (h : Good T unit w false r c) : Good T unit w b r c := by
  rcases h with h | ⟨y, c', j, h1, h2, h3, h4⟩
  · exact .inl h
  · refine .inr ⟨y, c', j, h1, h2, h3, .inl ?_⟩
    rcases h4 with h4 | h4
    · exact h4
    · simp at h4

theorem Good.trans {b b' : Bool} {r : (Cmd A × Env A × Nat) ⊕ Result A E} {j : Nat} {c c' : Conf A} (hj : 1 ≤ j) (s : Steps T unit w j c c')
    (h : Good T unit w b r c') : Good T unit w b' r c := by
  rcases h with ⟨o, h1, k, h2⟩ | ⟨y, c2, i, h1, h2, h3, h4⟩
  · exact .inl ⟨o, h1, j + k, by rw [s]; exact h2⟩
  · exact .inr ⟨y, c2, j + i, h1, s.trans h2, h3, .inl (by omega)⟩

theorem Good.final {b : Bool} {o : Result A E} {c : Conf A} (h : Spec.step T unit w c = .inr o) : Good T unit w b (.inr o) c :=
  .inl ⟨o, rfl, 1, by simp [Spec.run, h]⟩

theorem Good.next {b : Bool} {y : Cmd A × Env A × Nat} {c c' : Conf A} (h : Spec.step T unit w c = .inl c') (hr : Rel T unit w y c') :
    Good T unit w b (.inl y) c := .inr ⟨y, c', 1, rfl, Steps.one h, hr, .inl (by omega)⟩

/-! ### growing -/

theorem copyStack_eq {B : Type} {old : List B} {n : Nat} (x : B) (h : old.length = n) : copyStack old (List.replicate (n * 2) x) n = some (old ++ List.replicate n x) := by
  unfold copyStack
  rw [if_pos ⟨by omega, by simp; omega⟩, List.take_of_length_le (by omega), List.drop_replicate]
  congr 3; omega

theorem growStacks_eq {e : Env A} (ok : EnvOk e) : ∃ e', growStacks unit e = some e' ∧ EnvOk e' ∧ (∀ n, n < e.stacksize → Agree e e' n) ∧
    e' = { e with s := e'.s, v := e'.v, st := e'.st, en := e'.en, stacksize := e.stacksize * 2 } := by
  refine ⟨{ e with s := e.s ++ List.replicate e.stacksize 0, v := e.v ++ List.replicate e.stacksize unit, st := e.st ++ List.replicate e.stacksize 0,
                   en := e.en ++ List.replicate e.stacksize 0, stacksize := e.stacksize * 2 }, ?_, ?_, ?_, rfl⟩
  · unfold growStacks
    simp only [copyStack_eq _ ok.s, copyStack_eq _ ok.v, copyStack_eq _ ok.st, copyStack_eq _ ok.en]
    rfl
  · have := ok.pos
    refine ⟨?_, ?_, ?_, ?_, ?_, ?_, ?_⟩
    · simp [ok.s]; omega
    · simp [ok.v]; omega
    · simp [ok.st]; omega
    · simp [ok.en]; omega
    · show 0 < e.stacksize * 2; omega
    · rw [List.getElem?_append_left (by rw [ok.s]; exact ok.pos)]; exact ok.bottom
    · rw [List.getElem?_append_left (by rw [ok.en]; exact ok.pos)]; exact ok.bottomEnd
  · intro n hn i hi
    refine ⟨?_, ?_, ?_, ?_⟩
    · exact List.getElem?_append_left (by rw [ok.s]; omega)
    · exact List.getElem?_append_left (by rw [ok.v]; omega)
    · exact List.getElem?_append_left (by rw [ok.st]; omega)
    · exact List.getElem?_append_left (by rw [ok.en]; omega)

theorem TokOk.grow {e e' : Env A} {t : Option (Tok A)} (h : TokOk e t)
    (g : e' = { e with s := e'.s, v := e'.v, st := e'.st, en := e'.en, stacksize := e.stacksize * 2 }) : TokOk e' t := by
  rw [g]; exact h

/-! ### reductions -/

theorem doReduce_data {c : Conf A} {n : Int} (h : Spec.doReduce T w c n ≠ .inr .undef) :
    ∃ (m : Nat) (l q : Int), rd T.len n = some (m : Int) ∧ rd T.lhs n = some l ∧ m ≤ c.stack.length ∧
      Spec.goto T (top (c.stack.drop m)) l = some q ∧ Spec.doReduce T w c n = Spec.reduceTo w c n m q ∧ w.arity n ≤ c.stack.length := by
  unfold Spec.doReduce at h ⊢
  cases hl : rd T.len n with
  | none => rw [hl] at h; exact absurd rfl h
  | some m =>
    cases hh : rd T.lhs n with
    | none => rw [hl, hh] at h; exact absurd rfl h
    | some l =>
      rw [hl, hh] at h
      dsimp only at h ⊢
      by_cases hm : 0 ≤ m ∧ m.toNat ≤ c.stack.length
      · rw [if_pos hm] at h
        cases hg : Spec.goto T (top (c.stack.drop m.toNat)) l with
        | none => rw [hg] at h; exact absurd rfl h
        | some q =>
          rw [hg] at h
          refine ⟨m.toNat, l, q, by rw [Int.toNat_of_nonneg hm.1], rfl, hm.2, hg, by rw [if_pos hm], ?_⟩
          by_contra hn
          apply h
          unfold Spec.reduceTo
          dsimp only
          rw [if_neg hn]
      · rw [if_neg hm] at h; exact absurd rfl h

theorem rd_nat {l : List Int} (i : Nat) : rd l (i : Int) = l[i]? := by
  unfold rd; rw [if_neg (by omega), Int.toNat_natCast]

theorem goto_eq {q l : Int} {q' : Int} (h : Spec.goto T q l = some q') : ∃ n1 hit, rd T.gindex l = some n1 ∧ look T n1 q = some hit ∧
    (match hit with
      | some n2 => rd T.table n2
      | none => rd T.dgoto l) = some q' := by
  unfold Spec.goto at h
  cases hg : rd T.gindex l with
  | none => rw [hg] at h; cases h
  | some n1 =>
    cases hk : look T n1 q with
    | none => rw [hg] at h; simp [hk] at h
    | some hit =>
      refine ⟨n1, hit, rfl, hk, ?_⟩
      rw [hg] at h
      simp only [Option.bind_eq_bind, Option.bind_some, hk] at h
      cases hit with
      | none => exact h
      | some n2 => exact h

theorem reduce_sim {e : Env A} {c : Conf A} {n : Int} (h : AtLoop e c) (nu : NoUndef T unit w c) (hs : Spec.step T unit w c = Spec.doReduce T w c n) :
    ∃ e', reduce T e n = some (if e'.sp < e'.stacksize then .computeSemanticAction else .growStacks2, e') ∧ Pend T unit w e' c := by
  obtain ⟨m, l, q, h1, h2, h3, h4, h5, h6⟩ := doReduce_data (hs ▸ nu.step)
  obtain ⟨n1, hit, g1, g2, g3⟩ := goto_eq h4
  have hsp := h.sp
  have htop := (Holds.top h.ok (h.holds.drop m)).1
  rw [List.length_drop] at htop
  have e1 : rd e.s ((e.sp : Int) - m + 1 - 1) = some (top (c.stack.drop m)) := by
    rw [show (e.sp : Int) - m + 1 - 1 = ((c.stack.length - m : Nat) : Int) by omega, rd_nat]
    exact htop
  have e2 : ((e.sp : Int) - m + 1).toNat = c.stack.length - m + 1 := by omega
  refine ⟨{ e with esp := e.sp, ruleNumber := n, ruleLen := m, state := q, sp := c.stack.length - m + 1 }, ?_, ?_⟩
  · unfold reduce
    simp only [Option.bind_eq_bind, h1, Option.bind_some, h2, e1, g1, g2, e2]
    cases hit with
    | none =>
      dsimp only at g3 ⊢
      rw [g3]
      simp only [Option.bind_some]
      split <;> rfl
    | some n2 =>
      dsimp only at g3 ⊢
      rw [g3]
      simp only [Option.bind_some]
      split <;> rfl
  · refine ⟨⟨h.ok.s, h.ok.v, h.ok.st, h.ok.en, h.ok.pos, h.ok.bottom, h.ok.bottomEnd⟩, h.holds.agree fun i _ => ⟨rfl, rfl, rfl, rfl⟩, ?_, hsp, hs, ⟨m, l, h1, h2, h3, h4, rfl⟩, ?_⟩
    · have := h.tok
      unfold TokOk at *
      exact this
    · have := h.lt
      show c.stack.length - m + 1 ≤ e.stacksize
      omega

theorem action_good {e : Env A} {c : Conf A} (h : Pend T unit w e c) (hlt : e.sp < e.stacksize) (nu : NoUndef T unit w c) (b : Bool) :
    Good T unit w b (respond unit w c.pos (some (.computeSemanticAction, e))) c := by
  obtain ⟨m, l, q, h1, h2, h3, h4, h5, h6⟩ := doReduce_data (h.step ▸ nu.step)
  obtain ⟨m', l', k1, k2, k3, k4, k5⟩ := h.data
  rw [h1] at k1; rw [h2] at k2
  simp only [Option.some.injEq, Nat.cast_inj] at k1 k2
  subst k1 k2
  rw [h4] at k4
  simp only [Option.some.injEq] at k4
  have st := h.step
  rw [h5] at st
  unfold Spec.reduceTo at st
  dsimp only at st
  rw [if_pos h6] at st
  unfold respond
  dsimp only
  rw [peekVals_eq h.holds h.esp _ h6]
  dsimp only
  cases ha : w.act e.ruleNumber ((c.stack.take (w.arity e.ruleNumber)).map Ent.val).reverse with
  | yyexit v =>
    rw [ha] at st
    exact Good.final st
  | exn x =>
    rw [ha] at st
    exact Good.final st
  | value v =>
    rw [ha] at st
    refine Good.next st ⟨rfl, ?_⟩
    dsimp only
    refine ⟨h.ok, h.tok, ⟨_, _, rfl, h.holds.drop m, ?_, k4.symm, rfl, ?_, ?_⟩, hlt⟩
    · rw [List.length_drop]; exact k5
    · intro p hp
      dsimp only at hp
      split at hp
      · cases hp
      · rename_i hm
        obtain ⟨a, a1, a2⟩ := Option.bind_eq_some_iff.1 hp
        have := (h.holds.get a1).2 p a2
        rw [k5, show c.stack.length - m + 1 = c.stack.length - (m - 1) by omega]
        exact this
    · rw [h.esp]
      exact (Holds.top h.ok h.holds).2

theorem reduce_good {e : Env A} {c : Conf A} {n : Int} (h : AtLoop e c) (nu : NoUndef T unit w c) (hs : Spec.step T unit w c = Spec.doReduce T w c n) :
    Good T unit w true (respond unit w c.pos (reduce T e n)) c := by
  obtain ⟨e', h1, h2⟩ := reduce_sim h nu hs
  rw [h1]
  by_cases hlt : e'.sp < e'.stacksize
  · rw [if_pos hlt]
    exact action_good h2 hlt nu true
  · rw [if_neg hlt]
    unfold respond
    dsimp only
    obtain ⟨e2, g1, g2, g3, g4⟩ := growStacks_eq (unit := unit) h2.ok
    rw [g1]
    dsimp only
    refine .inr ⟨_, c, 0, rfl, Steps.refl c, ⟨rfl, ?_⟩, .inr ⟨rfl, _, _, rfl⟩⟩
    dsimp only
    obtain ⟨m, l, d1, d2, d3, d4, d5⟩ := h2.data
    have hle := h2.le
    have hpos := h2.ok.pos
    have hlen := d5
    have q1 : e2.esp = e'.esp := by rw [g4]
    have q2 : e2.ruleNumber = e'.ruleNumber := by rw [g4]
    have q3 : e2.state = e'.state := by rw [g4]
    have q4 : e2.sp = e'.sp := by rw [g4]
    have q5 : e2.stacksize = e'.stacksize * 2 := by rw [g4]
    have hlen2 : c.stack.length < e'.stacksize := by
      by_contra hc
      -- an entry of the stack is inside the arrays
      cases hst : c.stack with
      | nil => rw [hst] at hc; simp at hc; omega
      | cons a r =>
        have hh := h2.holds
        rw [hst] at hh
        have := (List.getElem?_eq_some_iff.1 hh.1.1).1
        rw [h2.ok.s] at this
        rw [hst] at hc
        simp at hc
        omega
    refine ⟨⟨g2, h2.holds.agree (g3 _ hlen2), h2.tok.grow g4, by rw [q1]; exact h2.esp, by rw [q2]; exact h2.step,
      ⟨m, l, by rw [q2]; exact d1, by rw [q2]; exact d2, d3, by rw [q3]; exact d4, by rw [q4]; exact d5⟩, by omega⟩, by omega⟩

/-! ### the loop -/

theorem decide_eq {q : Int} {x : Option Int} {d : Decision} (h : Spec.decide T q x = some d) :
    ∃ n, rd T.defred q = some n ∧ (if n ≠ 0 then some (.reduce n) else match x with
      | none => some .read
      | some x => Spec.tokenAction T q x) = some d := by
  unfold Spec.decide at h
  cases hn : rd T.defred q with
  | none => rw [hn] at h; cases h
  | some n => rw [hn] at h; exact ⟨n, rfl, h⟩

theorem step_decide {c : Conf A} (h : Spec.step T unit w c ≠ .inr .undef) : ∃ d, Spec.decide T (top c.stack) (c.tok.map Tok.code) = some d := by
  unfold Spec.step at h
  cases hd : Spec.decide T (top c.stack) (c.tok.map Tok.code) with
  | none => rw [hd] at h; exact absurd rfl h
  | some d => exact ⟨d, rfl⟩

theorem step_reduce {c : Conf A} {n : Int} (h : Spec.decide T (top c.stack) (c.tok.map Tok.code) = some (.reduce n)) :
    Spec.step T unit w c = Spec.doReduce T w c n := by unfold Spec.step; rw [h]

/-- the condition that codes of tokens are not negative -/
def CodesOk (T : Tables) : Prop := ∀ x ∈ T.transl, 0 ≤ x

theorem read_good {e : Env A} {c : Conf A} (hc : CodesOk T) (h : AtLoop e c) (nu : NoUndef T unit w c) (hd : rd T.defred e.state = some 0)
    (hs : Spec.step T unit w c = Spec.doRead T unit w c) : Good T unit w false (respond unit w c.pos (some (.readToken, e))) c := by
  unfold respond
  dsimp only
  unfold Spec.doRead at hs
  cases hl : w.lexer c.pos with
  | error x => rw [hl] at hs; exact Good.final hs
  | ok t =>
    rw [hl] at hs
    dsimp only at hs ⊢
    cases ht : T.transl[t.tag]? with
    | none => rw [ht] at hs; exact absurd hs nu.step
    | some x =>
      rw [ht] at hs
      refine Good.next hs ⟨rfl, ?_⟩
      dsimp only
      exact ⟨⟨h.ok.s, h.ok.v, h.ok.st, h.ok.en, h.ok.pos, h.ok.bottom, h.ok.bottomEnd⟩, h.holds.agree fun i _ => ⟨rfl, rfl, rfl, rfl⟩, h.state, h.sp, h.lt, hd,
        ⟨x, ht, hc x (List.mem_of_getElem? ht), rfl⟩, rfl, rfl⟩

theorem loopEmpty_good {e : Env A} {c : Conf A} (hc : CodesOk T) (h : AtLoop e c) (nu : NoUndef T unit w c) (ht : c.tok = none) :
    Good T unit w true (respond unit w c.pos (loopEmpty T e)) c := by
  obtain ⟨d, hd⟩ := step_decide nu.step
  obtain ⟨n, h1, h2⟩ := decide_eq hd
  rw [ht] at h2
  unfold loopEmpty
  rw [h.state, h1]
  simp only [Option.bind_eq_bind, Option.bind_some]
  by_cases hn : n ≠ 0
  · rw [if_pos hn] at h2 ⊢
    cases h2
    exact reduce_good h nu (step_reduce hd)
  · rw [if_neg hn] at h2 ⊢
    dsimp only [Option.map_none] at h2
    cases h2
    refine (read_good hc h nu ?_ ?_).mono
    · rw [h.state, h1]; simpa using hn
    · unfold Spec.step; rw [hd]

theorem push_good {e : Env A} {c : Conf A} (hc : CodesOk T) (h : PendPush e c) (hlt : e.sp < e.stacksize) (nu : NoUndef T unit w c) :
    Good T unit w true (respond unit w c.pos (push T e)) c := by
  obtain ⟨a, r, d1, d2, d3, d4, d5, d6, d7⟩ := h.data
  unfold push
  rw [if_pos ⟨by rw [h.ok.s]; exact hlt, by rw [h.ok.v]; exact hlt, by rw [h.ok.st]; exact hlt, by rw [h.ok.en]; exact hlt⟩]
  have hn : ∀ i : Nat, i ≤ r.length → e.sp ≠ i := fun i hi => by omega
  refine loopEmpty_good hc ⟨⟨?_, ?_, ?_, ?_, h.ok.pos, ?_, ?_⟩, ?_, ?_, ?_, ?_, hlt⟩ nu h.tok
  · simpa using h.ok.s
  · simpa using h.ok.v
  · simpa using h.ok.st
  · simpa using h.ok.en
  · dsimp only; rw [List.getElem?_set_ne (hn 0 (by omega))]; exact h.ok.bottom
  · dsimp only; rw [List.getElem?_set_ne (hn 0 (by omega))]; exact h.ok.bottomEnd
  · rw [d1]
    refine ⟨⟨?_, ?_, ?_, ?_⟩, d2.agree ?_⟩
    · dsimp only; rw [← d3, List.getElem?_set_self (by rw [h.ok.s]; exact hlt), d4]
    · dsimp only; rw [← d3, List.getElem?_set_self (by rw [h.ok.v]; exact hlt), d5]
    · dsimp only; rw [← d3, List.getElem?_set_self (by rw [h.ok.en]; exact hlt), d7]
    · intro p hp
      rw [d6] at hp
      cases hp
      dsimp only; rw [← d3, List.getElem?_set_self (by rw [h.ok.st]; exact hlt)]
    · intro i hi
      dsimp only
      exact ⟨List.getElem?_set_ne (hn i hi), List.getElem?_set_ne (hn i hi), List.getElem?_set_ne (hn i hi), List.getElem?_set_ne (hn i hi)⟩
  · rw [h.tok]; rfl
  · rw [d1]; exact d4
  · rw [d1]; exact d3

theorem shift_good {e : Env A} {c : Conf A} {n2 q : Int} {t : Tok A} (hc : CodesOk T) (h : AtLoop e c) (nu : NoUndef T unit w c) (ht : c.tok = some t)
    (hq : rd T.table n2 = some q) (hs : Spec.step T unit w c = Spec.doShift c q) : Good T unit w true (respond unit w c.pos (shift T e n2)) c := by
  unfold Spec.doShift at hs
  rw [ht] at hs
  dsimp only at hs
  have htok := h.tok
  rw [ht] at htok
  obtain ⟨t1, t2, t3, t4, t5⟩ := htok
  have s1 := Steps.one hs
  have nu1 := nu.steps s1
  have hlt := h.lt
  have hsp := h.sp
  unfold shift
  rw [hq]
  simp only [Option.bind_eq_bind, Option.bind_some]
  have pp : PendPush { e with state := q, sp := e.sp + 1 }
      { c with stack := { state := q, val := t.val, start := some t.start, stop := t.stop } :: c.stack, tok := none } :=
    ⟨⟨h.ok.s, h.ok.v, h.ok.st, h.ok.en, h.ok.pos, h.ok.bottom, h.ok.bottomEnd⟩, rfl, ⟨_, _, rfl, h.holds.agree fun i _ => ⟨rfl, rfl, rfl, rfl⟩, by
      show e.sp + 1 = _; rw [hsp], rfl, t3, by rw [← t4], t5.symm⟩, by show e.sp + 1 ≤ e.stacksize; omega⟩
  by_cases hl : e.sp + 1 < e.stacksize
  · rw [if_pos hl]
    exact Good.trans (le_refl 1) s1 (push_good hc pp hl nu1)
  · rw [if_neg hl]
    unfold respond
    dsimp only
    obtain ⟨e2, g1, g2, g3, g4⟩ := growStacks_eq (unit := unit) pp.ok
    rw [g1]
    dsimp only
    refine Good.next hs ⟨rfl, ?_⟩
    dsimp only
    have q1 : e2.sp = e.sp + 1 := by rw [g4]
    have q5 : e2.stacksize = e.stacksize * 2 := by rw [g4]
    refine ⟨⟨g2, rfl, ⟨_, _, rfl, h.holds.agree (g3 _ (by show c.stack.length < e.stacksize; omega)), by rw [q1, hsp], by rw [g4], by rw [g4]; exact t3, by rw [g4, ← t4],
      by rw [g4]; exact t5.symm⟩, by omega⟩, by omega⟩

theorem tokenAction_eq {q x : Int} {d : Decision} (h : Spec.tokenAction T q x = some d) : ∃ n1 hit, rd T.sindex q = some n1 ∧ look T n1 x = some hit ∧
    ((∃ n2 q', hit = some n2 ∧ rd T.table n2 = some q' ∧ d = .shift q') ∨
     (hit = none ∧ ∃ r1 hit', rd T.rindex q = some r1 ∧ look T r1 x = some hit' ∧
       ((∃ n2 n, hit' = some n2 ∧ rd T.table n2 = some n ∧ d = .reduce n) ∨ hit' = none ∧ d = .error))) := by
  unfold Spec.tokenAction at h
  cases h1 : rd T.sindex q with
  | none => rw [h1] at h; cases h
  | some n1 =>
    rw [h1] at h
    simp only [Option.bind_eq_bind, Option.bind_some] at h
    cases h2 : look T n1 x with
    | none => rw [h2] at h; cases h
    | some hit =>
      rw [h2] at h
      simp only [Option.bind_some] at h
      refine ⟨n1, hit, rfl, h2, ?_⟩
      cases hit with
      | some n2 =>
        dsimp only at h
        cases h3 : rd T.table n2 with
        | none => rw [h3] at h; cases h
        | some q' =>
          rw [h3] at h
          simp only [Option.bind_some, Option.some.injEq] at h
          exact .inl ⟨n2, q', rfl, h3, h.symm⟩
      | none =>
        dsimp only at h
        refine .inr ⟨rfl, ?_⟩
        cases h4 : rd T.rindex q with
        | none => rw [h4] at h; cases h
        | some r1 =>
          rw [h4] at h
          simp only [Option.bind_some] at h
          cases h5 : look T r1 x with
          | none => rw [h5] at h; cases h
          | some hit' =>
            rw [h5] at h
            simp only [Option.bind_some] at h
            refine ⟨r1, hit', rfl, h5, ?_⟩
            cases hit' with
            | none =>
              simp only [Option.some.injEq] at h
              exact .inr ⟨rfl, h.symm⟩
            | some n2 =>
              dsimp only at h
              cases h6 : rd T.table n2 with
              | none => rw [h6] at h; cases h
              | some n =>
                rw [h6] at h
                simp only [Option.bind_some, Option.some.injEq] at h
                exact .inl ⟨n2, n, rfl, h6, h.symm⟩

theorem testshift_good {e : Env A} {c : Conf A} {t : Tok A} (hc : CodesOk T) (h : AtLoop e c) (nu : NoUndef T unit w c) (ht : c.tok = some t)
    (hd : rd T.defred e.state = some 0) : Good T unit w true (respond unit w c.pos (testshift T e)) c := by
  obtain ⟨d, hdec⟩ := step_decide nu.step
  obtain ⟨n, h1, h2⟩ := decide_eq hdec
  rw [← h.state, hd] at h1
  cases h1
  rw [ht] at h2
  rw [if_neg (by simp)] at h2
  have htok := h.tok
  rw [ht] at htok
  have hcur : e.currChar = t.code := htok.1
  dsimp only [Option.map_some] at h2
  obtain ⟨n1, hit, k1, k2, k3⟩ := tokenAction_eq h2
  unfold testshift
  rw [h.state, k1, hcur]
  simp only [Option.bind_eq_bind, Option.bind_some, k2]
  rcases k3 with ⟨n2, q', rfl, k4, rfl⟩ | ⟨rfl, r1, hit', k4, k5, k6⟩
  · refine shift_good hc h nu ht k4 ?_
    unfold Spec.step; rw [hdec]
  · dsimp only
    unfold testReduce
    rw [h.state, k4, hcur]
    simp only [Option.bind_eq_bind, Option.bind_some, k5]
    rcases k6 with ⟨n2, n, rfl, k7, rfl⟩ | ⟨rfl, rfl⟩
    · dsimp only
      rw [k7]
      simp only [Option.bind_some]
      exact reduce_good h nu (step_reduce hdec)
    · unfold respond
      dsimp only
      refine Good.final ?_
      unfold Spec.step; rw [hdec, ht, hcur]
      rfl

theorem loop_good {e : Env A} {c : Conf A} (hc : CodesOk T) (h : AtLoop e c) (nu : NoUndef T unit w c) :
    Good T unit w true (respond unit w c.pos (loop T e)) c := by
  obtain ⟨d, hdec⟩ := step_decide nu.step
  obtain ⟨n, h1, h2⟩ := decide_eq hdec
  unfold loop
  rw [h.state, h1]
  simp only [Option.bind_eq_bind, Option.bind_some]
  by_cases hn : n ≠ 0
  · rw [if_pos hn] at h2 ⊢
    cases h2
    exact reduce_good h nu (step_reduce hdec)
  · rw [if_neg hn] at h2 ⊢
    have hd0 : rd T.defred e.state = some 0 := by rw [h.state, h1]; simpa using hn
    cases ht : c.tok with
    | none =>
      have htok := h.tok
      rw [ht] at htok h2
      have htok : e.currChar = -1 := htok
      rw [if_neg (by omega)]
      dsimp only [Option.map_none] at h2
      cases h2
      refine (read_good hc h nu hd0 ?_).mono
      unfold Spec.step; rw [hdec]
    | some t =>
      have htok := h.tok
      rw [ht] at htok
      rw [if_pos (by have := htok.1; have := htok.2.1; omega)]
      exact testshift_good hc h nu ht hd0

theorem action_computed_good {e : Env A} {v : A} {c : Conf A} (hc : CodesOk T) (h : PendVal e v c) (nu : NoUndef T unit w c) :
    Good T unit w true (respond unit w c.pos (actionComputed T e v)) c := by
  obtain ⟨a, r, d1, d2, d3, d4, d5, d6, d7⟩ := h.data
  have hlt := h.lt
  unfold actionComputed
  rw [d7]
  dsimp only
  rw [if_pos ⟨by rw [h.ok.s]; exact hlt, by rw [h.ok.v]; exact hlt, by rw [h.ok.en]; exact hlt⟩]
  have hn : ∀ i : Nat, i ≤ r.length → e.sp ≠ i := fun i hi => by omega
  refine loop_good hc ⟨⟨?_, ?_, ?_, ?_, h.ok.pos, ?_, ?_⟩, ?_, ?_, ?_, ?_, hlt⟩ nu
  · simpa using h.ok.s
  · simpa using h.ok.v
  · exact h.ok.st
  · simpa using h.ok.en
  · dsimp only; rw [List.getElem?_set_ne (hn 0 (by omega))]; exact h.ok.bottom
  · dsimp only; rw [List.getElem?_set_ne (hn 0 (by omega))]; exact h.ok.bottomEnd
  · rw [d1]
    refine ⟨⟨?_, ?_, ?_, ?_⟩, d2.agree ?_⟩
    · dsimp only; rw [← d3, List.getElem?_set_self (by rw [h.ok.s]; exact hlt), d4]
    · dsimp only; rw [← d3, List.getElem?_set_self (by rw [h.ok.v]; exact hlt), d5]
    · dsimp only; rw [← d3, List.getElem?_set_self (by rw [h.ok.en]; exact hlt)]
    · intro p hp
      rw [← d3]; exact d6 p hp
    · intro i hi
      dsimp only
      exact ⟨List.getElem?_set_ne (hn i hi), List.getElem?_set_ne (hn i hi), rfl, List.getElem?_set_ne (hn i hi)⟩
  · have := h.tok
    unfold TokOk at *
    exact this
  · rw [d1]; exact d4
  · rw [d1]; exact d3

theorem token_read_good {e : Env A} {t : Token A} {c : Conf A} (hc : CodesOk T) (h : PendTok T unit e t c) (nu : NoUndef T unit w c) :
    Good T unit w true (respond unit w c.pos (tokenRead T unit e t)) c := by
  obtain ⟨x, t1, t2, t3⟩ := h.tok
  unfold tokenRead
  rw [t1]
  refine testshift_good hc ⟨⟨h.ok.s, h.ok.v, h.ok.st, h.ok.en, h.ok.pos, h.ok.bottom, h.ok.bottomEnd⟩, h.holds.agree fun i _ => ⟨rfl, rfl, rfl, rfl⟩, ?_, h.state, h.sp, h.lt⟩ nu t3 h.defred
  rw [t3]
  exact ⟨rfl, t2, rfl, h.start, h.stop⟩

/-- one iteration of the driver -/
theorem iterate_good {cmd : Cmd A} {e : Env A} {pos : Nat} {c : Conf A} (hc : CodesOk T) (h : Rel T unit w (cmd, e, pos) c) (nu : NoUndef T unit w c) :
    Good T unit w (match cmd with | .stacksGrown2 => false | _ => true) (iterate T unit w cmd e pos) c := by
  obtain ⟨h0, h⟩ := h
  dsimp only at h0 h
  subst h0
  rw [iterate_eq]
  cases cmd with
  | start => exact loop_good hc h nu
  | tokenRead t => exact token_read_good hc h nu
  | stacksGrown1 => exact push_good hc h.1 h.2 nu
  | stacksGrown2 => exact action_good h.1 h.2 nu _
  | semanticActionComputed v => exact action_computed_good hc h nu

theorem drive_sound (hc : CodesOk T) : ∀ (fuel : Nat) (cmd : Cmd A) (e : Env A) (pos : Nat) (c : Conf A), Rel T unit w (cmd, e, pos) c → NoUndef T unit w c →
    drive T unit w fuel cmd e pos ≠ .running → ∃ k, Spec.run T unit w k c = drive T unit w fuel cmd e pos
  | 0, _, _, _, _, _, _, h => absurd rfl h
  | fuel + 1, cmd, e, pos, c, hr, nu, h => by
    rcases iterate_good hc hr nu with ⟨o, h1, h2⟩ | ⟨⟨cmd', e', pos'⟩, c', j, h1, h2, h3, _⟩
    · simp only [drive, h1]; exact h2
    · simp only [drive, h1] at h ⊢
      obtain ⟨k, hk⟩ := drive_sound hc fuel cmd' e' pos' c' h3 (nu.steps h2) h
      exact ⟨j + k, by rw [h2]; exact hk⟩

theorem run_mono : ∀ (k : Nat) (c : Conf A) (j : Nat), Spec.run T unit w k c ≠ .running → Spec.run T unit w (k + j) c = Spec.run T unit w k c
  | 0, c, j, h => absurd rfl h
  | k + 1, c, j, h => by
    rw [Nat.add_right_comm]
    simp only [Spec.run] at h ⊢
    cases hs : Spec.step T unit w c with
    | inl c' => rw [hs] at h; exact run_mono k c' j h
    | inr r => rfl

theorem drive_complete (hc : CodesOk T) (m : Nat) : ∀ (cmd : Cmd A) (e : Env A) (pos : Nat) (c : Conf A) (k : Nat),
    2 * k + (match cmd with | .stacksGrown2 => 0 | _ => 1) ≤ m → Rel T unit w (cmd, e, pos) c → NoUndef T unit w c →
    Spec.run T unit w k c ≠ .running → ∃ fuel, drive T unit w fuel cmd e pos = Spec.run T unit w k c := by
  induction m with
  | zero =>
    intro cmd e pos c k hm hr nu h
    have : k = 0 := by omega
    subst this
    exact absurd rfl h
  | succ m ih =>
    intro cmd e pos c k hm hr nu h
    rcases iterate_good hc hr nu with ⟨o, h1, i, h2⟩ | ⟨⟨cmd', e', pos'⟩, c', j, h1, h2, h3, h4⟩
    · refine ⟨1, ?_⟩
      simp only [drive, h1]
      by_cases ho : o = .running
      · -- a final result is never `running`
        exfalso
        rw [ho] at h1
        unfold iterate at h1
        split at h1 <;> (try split at h1) <;> (try split at h1) <;> simp at h1
      · have a1 := run_mono i c k (by rw [h2]; exact ho)
        have a2 := run_mono k c i h
        rw [Nat.add_comm, a2, h2] at a1
        exact a1.symm
    · have hjk : j ≤ k := by
        by_contra hn
        have := run_mono k c (j - k) h
        rw [show k + (j - k) = j + 0 by omega, h2] at this
        rw [← this] at h
        exact h rfl
      have hk : Spec.run T unit w (k - j) c' = Spec.run T unit w k c := by rw [← h2, show j + (k - j) = k by omega]
      obtain ⟨fuel, hf⟩ := ih cmd' e' pos' c' (k - j) (by
        rcases h4 with h4 | ⟨h4, e2, p2, h5⟩
        · have : (match cmd' with | .stacksGrown2 => 0 | _ => 1) ≤ 1 := by split <;> omega
          have : 0 ≤ (match cmd with | .stacksGrown2 => 0 | _ => 1) := Nat.zero_le _
          omega
        · have : cmd' = .stacksGrown2 := by
            have := congrArg Prod.fst h5
            exact this
          subst this
          have : (match cmd with | .stacksGrown2 => 0 | _ => 1) = 1 := by
            cases cmd <;> simp at h4 ⊢
          dsimp only
          omega) h3 (nu.steps h2) (by rw [hk]; exact h)
      exact ⟨fuel + 1, by simp only [drive, h1]; rw [hf, hk]⟩

end Mosml.Parse
