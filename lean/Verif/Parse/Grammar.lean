import Verif.Parse.Sim
import Mathlib.Data.List.TakeDrop

/-!
C33, the grammar side: what it means for a sequence of tokens to be a sentence with a value, and what makes the tables of an automaton
right for a grammar.  Nothing here mentions the engine; `Tables` are seen through `Spec.decide` and `Spec.goto` only.
-/
namespace Mosml.Parse
open Spec (Conf Ent Tok top Decision)

/-- symbols: tokens with their codes, nonterminals -/
inductive Sym where
  | tok (x : Int)
  | nt (l : Int)
deriving DecidableEq, Repr

structure Grammar where
  rule : Int → Prop
  lhs : Int → Int
  rhs : Int → List Sym

variable {A E : Type}

/-- the last `k` elements -/
def lastN (k : Nat) (l : List A) : List A := l.drop (l.length - k)

/-- a forest of parse trees for a sequence of symbols, with its tokens and the values of its roots; the value of an inner node is computed
by the action of its rule from the values of the last `arity` symbols of the right hand side -/
inductive Trees (G : Grammar) (w : World A E) : List Sym → List (Int × A) → List A → Prop
  | nil : Trees G w [] [] []
  | tok {x v r ts vs} : Trees G w r ts vs → Trees G w (.tok x :: r) ((x, v) :: ts) (v :: vs)
  | nt {n v r us ts ts' vs} : G.rule n → Trees G w (G.rhs n) ts us → w.act n (lastN (w.arity n) us) = .value v → Trees G w r ts' vs →
      Trees G w (.nt (G.lhs n) :: r) (ts ++ ts') (v :: vs)

/-- the input `ts` is a sentence of the nonterminal `s`, with value `v` -/
def Sentence (G : Grammar) (w : World A E) (s : Int) (ts : List (Int × A)) (v : A) : Prop := Trees G w [.nt s] ts [v]

/-- the rule `n` is the entry rule with the pseudo-token `x` for the start symbol `s` -/
structure Entry (G : Grammar) (w : World A E) (n x s : Int) : Prop where
  rule : G.rule n
  rhs : G.rhs n = [.tok x, .nt s]
  arity : w.arity n = 1
  act : ∀ v, w.act n [v] = .yyexit v

/-- the automaton recognises no more than the grammar: `item q n k` means that the state `q` has the rule `n` with the dot before its
`k`th symbol -/
structure SoundTables (G : Grammar) (T : Tables) (w : World A E) (code : Int → Prop) where
  state : Int → Prop
  item : Int → Int → Nat → Prop
  edge : Int → Sym → Int → Prop
  len : ∀ n, G.rule n → rd T.len n = some ((G.rhs n).length : Int)
  lhs : ∀ n, G.rule n → rd T.lhs n = some (G.lhs n)
  arity : ∀ n, G.rule n → w.arity n ≤ (G.rhs n).length
  initial : state 0
  next : ∀ {q X q'}, state q → edge q X q' → state q'
  bottom : ∀ {n k}, item 0 n k → k = 0
  notBack : ∀ {q X}, ¬ edge q X 0
  back : ∀ {q X q' n k}, edge q X q' → item q' n (k + 1) → (G.rhs n)[k]? = some X ∧ item q n k
  total : ∀ {q x}, state q → code x → ∃ d, Spec.decide T q (some x) = some d
  shift : ∀ {q x q'}, state q → code x → Spec.decide T q (some x) = some (.shift q') → edge q (.tok x) q'
  reduce : ∀ {q x n}, state q → (∀ y ∈ x, code y) → Spec.decide T q x = some (.reduce n) → G.rule n ∧ item q n (G.rhs n).length
  goto : ∀ {q n}, state q → item q n 0 → ∃ q', Spec.goto T q (G.lhs n) = some q' ∧ edge q (.nt (G.lhs n)) q'
  /-- only entry rules end the parse, and they occur in the initial state only -/
  exits : ∀ {n us v}, G.rule n → w.act n us = .yyexit v → ∃ x s, Entry G w n x s
  entryItem : ∀ {n x s q}, Entry G w n x s → item q n 0 → q = 0

/-- the automaton recognises no less than the grammar: `la q n k a` means that the item may be followed by the token `a` -/
structure CompleteTables (G : Grammar) (T : Tables) (w : World A E) where
  la : Int → Int → Nat → Int → Prop
  len : ∀ n, G.rule n → rd T.len n = some ((G.rhs n).length : Int)
  lhs : ∀ n, G.rule n → rd T.lhs n = some (G.lhs n)
  arity : ∀ n, G.rule n → w.arity n ≤ (G.rhs n).length
  closure : ∀ {q n k a m ts vs}, la q n k a → (G.rhs n)[k]? = some (.nt (G.lhs m)) → G.rule m → Trees G w ((G.rhs n).drop (k + 1)) ts vs →
    la q m 0 ((ts.map Prod.fst ++ [a]).headD a)
  shift : ∀ {q n k a x}, la q n k a → (G.rhs n)[k]? = some (.tok x) → ∃ q', Spec.decide T q (some x) = some (.shift q') ∧ la q' n (k + 1) a
  goto : ∀ {q n k a l}, la q n k a → (G.rhs n)[k]? = some (.nt l) → ∃ q', Spec.goto T q l = some q' ∧ la q' n (k + 1) a
  reduce : ∀ {q n a}, la q n (G.rhs n).length a → Spec.decide T q (some a) = some (.reduce n)

/-- the tokens that the lexer delivers from position `p` begin with `ts` -/
def Feed (T : Tables) (unit : A) (w : World A E) : Nat → List (Int × A) → Prop
  | _, [] => True
  | p, y :: ys => (∃ t, w.lexer p = .ok t ∧ T.transl[t.tag]? = some y.1 ∧ y.2 = t.arg.getD unit) ∧ Feed T unit w (p + 1) ys

/-! ### forests -/

variable {G : Grammar} {w : World A E} {T : Tables} {unit : A}

theorem Trees.length {Xs ts vs} (h : Trees G w Xs ts vs) : vs.length = Xs.length := by
  induction h with
  | nil => rfl
  | tok _ ih => simp [ih]
  | nt _ _ _ _ _ ih => simp [ih]

theorem Trees.append {Xs ts vs Ys ts' vs'} (h : Trees G w Xs ts vs) (g : Trees G w Ys ts' vs') : Trees G w (Xs ++ Ys) (ts ++ ts') (vs ++ vs') := by
  induction h with
  | nil => exact g
  | tok _ ih => exact .tok ih
  | nt h1 h2 h3 _ _ ih => rw [List.append_assoc]; exact .nt h1 h2 h3 ih

theorem Trees.split : ∀ {Xs Ys ts vs}, Trees G w (Xs ++ Ys) ts vs → ∃ ts1 ts2 vs1 vs2, ts = ts1 ++ ts2 ∧ vs = vs1 ++ vs2 ∧ Trees G w Xs ts1 vs1 ∧ Trees G w Ys ts2 vs2
  | [], Ys, ts, vs, h => ⟨[], ts, [], vs, rfl, rfl, .nil, h⟩
  | X :: Xs, Ys, ts, vs, h => by
    cases h with
    | tok h =>
      obtain ⟨a, b, c, d, rfl, rfl, h1, h2⟩ := Trees.split h
      exact ⟨_ :: a, b, _ :: c, d, rfl, rfl, .tok h1, h2⟩
    | nt h1 h2 h3 h4 =>
      obtain ⟨a, b, c, d, rfl, rfl, g1, g2⟩ := Trees.split h4
      exact ⟨_ ++ a, b, _ :: c, d, by rw [List.append_assoc], rfl, .nt h1 h2 h3 g1, g2⟩

theorem Feed.snoc : ∀ {p : Nat} {ts : List (Int × A)} {y}, Feed T unit w p ts → (∃ t, w.lexer (p + ts.length) = .ok t ∧ T.transl[t.tag]? = some y.1 ∧ y.2 = t.arg.getD unit) →
    Feed T unit w p (ts ++ [y])
  | p, [], y, _, h => ⟨h, trivial⟩
  | p, a :: ts, y, h, g => ⟨h.1, Feed.snoc h.2 (by rw [show p + 1 + ts.length = p + (a :: ts).length by simp; omega]; exact g)⟩

theorem Feed.prefix : ∀ {p : Nat} {ts us : List (Int × A)}, Feed T unit w p (ts ++ us) → Feed T unit w p ts
  | _, [], _, _ => trivial
  | _, _ :: _, _, h => ⟨h.1, Feed.prefix h.2⟩

/-! ### soundness -/

/-- the stack is a path of the automaton; the symbols are listed top first -/
def Path {code : Int → Prop} (S : SoundTables G T w code) : List (Ent A) → List Sym → Prop
  | [], [] => True
  | a :: r, X :: Xs => S.edge (top r) X a.state ∧ Path S r Xs
  | _, _ => False

variable {code : Int → Prop} {S : SoundTables G T w code}

theorem Path.length : ∀ {r : List (Ent A)} {Xs}, Path S r Xs → r.length = Xs.length
  | [], [], _ => rfl
  | _ :: _, _ :: _, h => by simp [h.2.length]
  | [], _ :: _, h => h.elim
  | _ :: _, [], h => h.elim

theorem Path.drop : ∀ {r : List (Ent A)} {Xs} (k : Nat), Path S r Xs → Path S (r.drop k) (Xs.drop k)
  | r, Xs, 0, h => by simpa using h
  | [], [], k + 1, _ => by simp [Path]
  | _ :: _, _ :: _, k + 1, h => by simpa using h.2.drop k
  | [], _ :: _, _, h => h.elim
  | _ :: _, [], _, h => h.elim

theorem Path.state : ∀ {r : List (Ent A)} {Xs}, Path S r Xs → S.state (top r)
  | [], _, _ => S.initial
  | _ :: _, _ :: _, h => S.next h.2.state h.1
  | _ :: _, [], h => h.elim

theorem Path.walk : ∀ {r : List (Ent A)} {Xs} {n : Int} (k : Nat), Path S r Xs → S.item (top r) n k →
    k ≤ r.length ∧ Xs.take k = ((G.rhs n).take k).reverse ∧ S.item (top (r.drop k)) n 0
  | r, Xs, n, 0, _, h => by simpa using h
  | [], [], n, k + 1, _, h => absurd (S.bottom h) (by omega)
  | a :: r, X :: Xs, n, k + 1, h, g => by
    obtain ⟨b1, b2⟩ := S.back h.1 g
    obtain ⟨i1, i2, i3⟩ := Path.walk k h.2 b2
    refine ⟨by simpa using i1, ?_, by simpa using i3⟩
    obtain ⟨hk, hx⟩ := List.getElem?_eq_some_iff.1 b1
    rw [List.take_succ_eq_append_getElem hk, List.reverse_append, hx, List.take_succ_cons, i2]
    rfl
  | [], _ :: _, _, _, h, _ => h.elim
  | _ :: _, [], _, _, h, _ => h.elim

def pend (c : Conf A) : List (Int × A) := match c.tok with
  | none => []
  | some t => [(t.code, t.val)]

/-- the tokens so far: the pseudo-token and then those of the lexer -/
def Consumed (T : Tables) (unit : A) (w : World A E) (x : Int) (v : A) (pos : Nat) (ts : List (Int × A)) : Prop :=
  ∃ us, ts = (x, v) :: us ∧ us.length = pos ∧ Feed T unit w 0 us

structure Inv (S : SoundTables G T w code) (unit : A) (x : Int) (v : A) (c : Conf A) : Prop where
  tok : ∀ t, c.tok = some t → code t.code
  data : ∃ Xs ts, Path S c.stack Xs ∧ Trees G w Xs.reverse ts (c.stack.map Ent.val).reverse ∧ Consumed T unit w x v c.pos (ts ++ pend c)

theorem decide_none {q : Int} {x : Int} {d : Decision} (h : Spec.decide T q (some x) = some d) :
    (∃ n, d = .reduce n ∧ Spec.decide T q none = some (.reduce n)) ∨ Spec.decide T q none = some .read := by
  obtain ⟨n, h1, h2⟩ := decide_eq h
  unfold Spec.decide
  rw [h1]
  simp only [Option.bind_eq_bind, Option.bind_some]
  by_cases hn : n ≠ 0
  · rw [if_pos hn] at h2 ⊢
    cases h2
    exact .inl ⟨n, rfl, rfl⟩
  · rw [if_neg hn]; exact .inr rfl

theorem decide_read {q : Int} {x : Option Int} (h : Spec.decide T q x = some .read) : x = none := by
  obtain ⟨n, h1, h2⟩ := decide_eq h
  by_cases hn : n ≠ 0
  · rw [if_pos hn] at h2; cases h2
  · rw [if_neg hn] at h2
    cases x with
    | none => rfl
    | some x =>
      obtain ⟨_, _, _, _, h3⟩ := tokenAction_eq h2
      rcases h3 with ⟨_, _, _, _, h⟩ | ⟨_, _, _, _, _, ⟨_, _, _, _, h⟩ | ⟨_, h⟩⟩ <;> cases h

theorem take_map_reverse {r : List (Ent A)} {m k : Nat} (hk : k ≤ m) (hm : m ≤ r.length) :
    ((r.take k).map Ent.val).reverse = lastN k ((r.take m).map Ent.val).reverse := by
  unfold lastN
  have e1 : ((r.take m).map Ent.val).reverse.length - k = m - k := by simp; omega
  rw [e1, List.drop_reverse]
  congr 1
  rw [← List.map_take, List.take_take]
  congr 2
  simp; omega

/-- what a final result means -/
def Right (S : SoundTables G T w code) (unit : A) (x : Int) (u : A) : Result A E → Prop
  | .accept v => ∃ n s ts, Entry G w n x s ∧ Sentence G w s ts v ∧ Feed T unit w 0 ts
  | .undef => False
  | _ => True

theorem inv_step (hx : ∀ p t, w.lexer p = .ok t → ∃ y, T.transl[t.tag]? = some y ∧ code y) (hc : ∃ y, code y) {x : Int} {u : A} {c : Conf A} (h : Inv S unit x u c) :
    (∃ c', Spec.step T unit w c = .inl c' ∧ Inv S unit x u c') ∨ ∃ o, Spec.step T unit w c = .inr o ∧ o ≠ .running ∧ Right S unit x u o := by
  obtain ⟨Xs, ts, hp, ht, us, hu1, hu2, hu3⟩ := h.data
  have hst := hp.state
  have hd : ∃ d, Spec.decide T (top c.stack) (c.tok.map Tok.code) = some d := by
    cases hk : c.tok with
    | some t => exact S.total hst (h.tok t hk)
    | none =>
      obtain ⟨y, hy⟩ := hc
      obtain ⟨d, hd⟩ := S.total hst hy
      rcases decide_none hd with ⟨n, _, h2⟩ | h2 <;> exact ⟨_, h2⟩
  obtain ⟨d, hd⟩ := hd
  unfold Spec.step
  rw [hd]
  cases d with
  | read =>
    dsimp only
    have hn : c.tok = none := by
      have := decide_read hd
      cases hk : c.tok with
      | none => rfl
      | some t => rw [hk] at this; cases this
    unfold Spec.doRead
    cases hl : w.lexer c.pos with
    | error x => exact .inr ⟨_, rfl, by simp, trivial⟩
    | ok t =>
      obtain ⟨y, hy, hcy⟩ := hx _ _ hl
      dsimp only
      rw [hy]
      refine .inl ⟨_, rfl, fun t' ht' => ?_, Xs, ts, hp, ht, us ++ [(y, t.arg.getD unit)], ?_, ?_, ?_⟩
      · cases ht'; exact hcy
      · have : pend c = [] := by unfold pend; rw [hn]
        rw [this, List.append_nil] at hu1
        simp [pend, hu1]
      · simp [hu2]
      · refine hu3.snoc ⟨t, ?_, hy, rfl⟩
        rw [hu2, Nat.zero_add]; exact hl
  | error => exact .inr ⟨_, rfl, by simp, trivial⟩
  | shift q =>
    dsimp only
    unfold Spec.doShift
    cases hk : c.tok with
    | none =>
      exfalso
      rw [hk] at hd
      obtain ⟨n, h1, h2⟩ := decide_eq hd
      by_cases hn : n ≠ 0
      · rw [if_pos hn] at h2; cases h2
      · rw [if_neg hn] at h2; cases h2
    | some t =>
      rw [hk] at hd
      refine .inl ⟨_, rfl, fun t' ht' => (by cases ht'), .tok t.code :: Xs, ts ++ [(t.code, t.val)], ⟨S.shift hst (h.tok t hk) hd, hp⟩, ?_, us, ?_, hu2, hu3⟩
      · simp only [List.map_cons, List.reverse_cons]
        exact ht.append (.tok .nil)
      · have : pend c = [(t.code, t.val)] := by unfold pend; rw [hk]
        rw [this] at hu1
        simp [pend, hu1]
  | reduce n =>
    dsimp only
    obtain ⟨hr, hi⟩ := S.reduce hst (fun y hy => by
      obtain ⟨t, ht, rfl⟩ := Option.map_eq_some_iff.1 hy
      exact h.tok t ht) hd
    obtain ⟨w1, w2, w3⟩ := hp.walk _ hi
    have hst2 := (hp.drop (G.rhs n).length).state
    obtain ⟨q', hg, he⟩ := S.goto hst2 w3
    unfold Spec.doReduce
    rw [S.len n hr, S.lhs n hr]
    dsimp only
    rw [if_pos ⟨by omega, by rw [Int.toNat_natCast]; exact w1⟩, Int.toNat_natCast, hg]
    dsimp only
    unfold Spec.reduceTo
    have har := S.arity n hr
    rw [if_pos (by omega)]
    -- the forest of the right hand side
    have hX : Xs.reverse = (Xs.drop (G.rhs n).length).reverse ++ G.rhs n := by
      conv_lhs => rw [← List.take_append_drop (G.rhs n).length Xs, List.reverse_append, w2]
      rw [List.reverse_reverse, List.take_of_length_le (le_refl _)]
    rw [hX] at ht
    obtain ⟨t1, t2, v1, v2, rfl, hv, f1, f2⟩ := ht.split
    have hvs : (c.stack.map Ent.val).reverse = ((c.stack.drop (G.rhs n).length).map Ent.val).reverse ++ ((c.stack.take (G.rhs n).length).map Ent.val).reverse := by
      rw [← List.reverse_append, ← List.map_append, List.take_append_drop]
    have hl := f2.length
    obtain ⟨e1, e2⟩ := List.append_inj' (hvs.symm.trans hv) (by rw [hl]; simp; omega)
    rw [take_map_reverse har w1, e2]
    cases ha : w.act n (lastN (w.arity n) v2) with
    | exn x => exact .inr ⟨_, rfl, by simp, trivial⟩
    | value v =>
      refine .inl ⟨_, rfl, h.tok, .nt (G.lhs n) :: Xs.drop (G.rhs n).length, t1 ++ t2, ⟨he, hp.drop _⟩, ?_, us, ?_, hu2, hu3⟩
      · simp only [List.map_cons, List.reverse_cons]
        have := f1.append (.nt (ts' := []) hr f2 ha .nil)
        rw [List.append_nil, ← e1] at this
        exact this
      · exact hu1
    | yyexit v =>
      refine .inr ⟨_, rfl, by simp, ?_⟩
      obtain ⟨y, s, hen⟩ := S.exits hr ha
      have h0 := S.entryItem hen w3
      -- nothing is below the entry rule
      have hlow : Xs.drop (G.rhs n).length = [] ∧ c.stack.drop (G.rhs n).length = [] := by
        have hpd := hp.drop (G.rhs n).length
        generalize c.stack.drop (G.rhs n).length = r at *
        generalize Xs.drop (G.rhs n).length = ys at *
        cases r with
        | nil => cases ys with
          | nil => exact ⟨rfl, rfl⟩
          | cons _ _ => exact hpd.elim
        | cons a r => cases ys with
          | nil => exact hpd.elim
          | cons Y ys =>
            have : a.state = 0 := h0
            have := hpd.1
            rw [‹a.state = 0›] at this
            exact absurd this S.notBack
      rw [hlow.1] at f1
      have ht1 : t1 = [] := by cases f1; rfl
      subst ht1
      rw [hen.rhs] at f2
      cases f2 with
      | tok f3 =>
        rename_i v0 tts vs
        simp only [List.nil_append, List.cons_append, List.cons.injEq, Prod.mk.injEq] at hu1
        obtain ⟨⟨hy, _⟩, hu1⟩ := hu1
        subst hy
        have hl3 := f3.length
        obtain ⟨v', rfl⟩ : ∃ v', vs = [v'] := by
          match vs, hl3 with
          | [v'], _ => exact ⟨v', rfl⟩
        have : v' = v := by
          rw [hen.arity] at ha
          have e : lastN 1 [v0, v'] = [v'] := rfl
          rw [e, hen.act] at ha
          cases ha; rfl
        subst this
        refine ⟨n, s, tts, hen, f3, ?_⟩
        rw [← hu1] at hu3
        exact hu3.prefix

theorem inv_run (hx : ∀ p t, w.lexer p = .ok t → ∃ y, T.transl[t.tag]? = some y ∧ code y) (hc : ∃ y, code y) {x : Int} {u : A} : ∀ (k : Nat) (c : Conf A),
    Inv S unit x u c → Right S unit x u (Spec.run T unit w k c)
  | 0, _, _ => trivial
  | k + 1, c, h => by
    rcases inv_step hx hc h with ⟨c', h1, h2⟩ | ⟨o, h1, _, h2⟩
    · simp only [Spec.run, h1]; exact inv_run hx hc k c' h2
    · simp only [Spec.run, h1]; exact h2

/-! ### completeness -/

def Input (T : Tables) (unit : A) (w : World A E) (c : Conf A) (xs : List (Int × A)) : Prop := match c.tok with
  | none => Feed T unit w c.pos xs
  | some t => ∃ ys, xs = (t.code, t.val) :: ys ∧ Feed T unit w c.pos ys

theorem ready {c : Conf A} {x : Int} {v : A} {xs : List (Int × A)} {d : Decision} (hi : Input T unit w c ((x, v) :: xs))
    (hd : Spec.decide T (top c.stack) (some x) = some d) : ∃ c' j, Steps T unit w j c c' ∧ c'.stack = c.stack ∧ Input T unit w c' ((x, v) :: xs) ∧
      Spec.decide T (top c'.stack) (c'.tok.map Tok.code) = some d ∧ ((∃ q, d = .shift q) → ∃ t, c'.tok = some t ∧ t.code = x ∧ t.val = v) := by
  cases hk : c.tok with
  | some t =>
    have hi' := hi
    unfold Input at hi'
    rw [hk] at hi'
    obtain ⟨ys, h1, _⟩ := hi'
    simp only [List.cons.injEq, Prod.mk.injEq] at h1
    refine ⟨c, 0, Steps.refl c, rfl, hi, ?_, fun _ => ⟨t, hk, h1.1.1.symm, h1.1.2.symm⟩⟩
    rw [hk, Option.map_some, ← h1.1.1]; exact hd
  | none =>
    rcases decide_none hd with ⟨n, h1, h2⟩ | h2
    · refine ⟨c, 0, Steps.refl c, rfl, hi, ?_, ?_⟩
      · rw [hk, h1]; exact h2
      · rintro ⟨q, hq⟩; rw [hq] at h1; cases h1
    · unfold Input at hi
      rw [hk] at hi
      obtain ⟨⟨t, t1, t2, t3⟩, hf⟩ := hi
      dsimp only at t2 t3
      refine ⟨{ c with tok := some { code := x, val := t.arg.getD unit, start := t.start, stop := t.stop }, pos := c.pos + 1 }, 1, Steps.one ?_, rfl, ?_, ?_, ?_⟩
      · unfold Spec.step
        rw [hk, Option.map_none, h2]
        dsimp only
        unfold Spec.doRead
        rw [t1]
        dsimp only
        rw [t2]
      · exact ⟨xs, by rw [t3], hf⟩
      · exact hd
      · exact fun _ => ⟨_, rfl, rfl, t3.symm⟩

/-- a reduction in a state reached from `stk` by the entries `new` of the right hand side -/
theorem complete_reduce (C : CompleteTables G T w) {c : Conf A} {n : Int} {q : Int} {stk new : List (Ent A)} (hr : G.rule n) (hs : c.stack = new ++ stk)
    (hn : new.length = (G.rhs n).length) (hd : Spec.decide T (top c.stack) (c.tok.map Tok.code) = some (.reduce n))
    (hg : Spec.goto T (top stk) (G.lhs n) = some q) : Spec.step T unit w c = Spec.reduceTo w c n (G.rhs n).length q ∧ c.stack.drop (G.rhs n).length = stk ∧
      ((c.stack.take (w.arity n)).map Ent.val).reverse = lastN (w.arity n) (new.map Ent.val).reverse ∧ w.arity n ≤ c.stack.length := by
  have har := C.arity n hr
  have hdrop : c.stack.drop (G.rhs n).length = stk := by rw [hs, ← hn]; simp
  have hlen : (G.rhs n).length ≤ c.stack.length := by rw [hs]; simp; omega
  refine ⟨?_, hdrop, ?_, by omega⟩
  · unfold Spec.step
    rw [hd]
    dsimp only
    unfold Spec.doReduce
    rw [C.len n hr, C.lhs n hr]
    dsimp only
    rw [if_pos ⟨by omega, by rw [Int.toNat_natCast]; exact hlen⟩, Int.toNat_natCast, hdrop, hg]
  · rw [take_map_reverse har hlen, hs, ← hn, List.take_left]

theorem complete_forest (C : CompleteTables G T w) {Xs : List Sym} {ts : List (Int × A)} {vs : List A} (h : Trees G w Xs ts vs) :
    ∀ {n : Int} {k : Nat} {a : Int} {av : A} {rest : List (Int × A)} {c : Conf A}, (G.rhs n).drop k = Xs → k ≤ (G.rhs n).length → C.la (top c.stack) n k a →
      Input T unit w c (ts ++ (a, av) :: rest) →
      ∃ c' j new, Steps T unit w j c c' ∧ c'.stack = new ++ c.stack ∧ new.map Ent.val = vs.reverse ∧ C.la (top c'.stack) n (G.rhs n).length a ∧
        Input T unit w c' ((a, av) :: rest) := by
  induction h with
  | nil =>
    intro n k a av rest c h1 h2 h3 h4
    have : k = (G.rhs n).length := by
      have := List.drop_eq_nil_iff.1 h1
      omega
    subst this
    exact ⟨c, 0, [], Steps.refl c, rfl, rfl, h3, h4⟩
  | @tok x v r ts vs ht ih =>
    intro n k a av rest c h1 h2 h3 h4
    have hk : (G.rhs n)[k]? = some (.tok x) := by
      have := congrArg (·[0]?) h1
      simpa using this
    have hk2 : (G.rhs n).drop (k + 1) = r := by
      rw [← List.tail_drop, h1]; rfl
    obtain ⟨q', d1, d2⟩ := C.shift h3 hk
    obtain ⟨c1, j1, s1, e1, i1, dd1, tt1⟩ := ready h4 d1
    obtain ⟨t, t1, t2, t3⟩ := tt1 ⟨q', rfl⟩
    have hs : Spec.step T unit w c1 = .inl { c1 with stack := { state := q', val := t.val, start := some t.start, stop := t.stop } :: c1.stack, tok := none } := by
      unfold Spec.step
      rw [dd1]
      dsimp only
      unfold Spec.doShift
      rw [t1]
    have hin : Feed T unit w c1.pos (ts ++ (a, av) :: rest) := by
      unfold Input at i1
      rw [t1] at i1
      obtain ⟨ys, y1, y2⟩ := i1
      simp only [List.append_eq, List.cons.injEq] at y1
      rw [y1.2]; exact y2
    obtain ⟨c2, j2, new, s2, e2, v2, l2, i2⟩ := ih (n := n) (k := k + 1) (a := a) (av := av) (rest := rest)
      (c := { c1 with stack := { state := q', val := t.val, start := some t.start, stop := t.stop } :: c1.stack, tok := none }) hk2
      (by have := (List.getElem?_eq_some_iff.1 hk).1; omega) d2 hin
    refine ⟨c2, j1 + (1 + j2), new ++ [{ state := q', val := t.val, start := some t.start, stop := t.stop }], s1.trans ((Steps.one hs).trans s2), ?_, ?_, l2, i2⟩
    · rw [e2, e1]; simp
    · simp [v2, t3]
  | @nt m v r us ts ts' vs hm hf ha hr ih1 ih2 =>
    intro n k a av rest c h1 h2 h3 h4
    have hk : (G.rhs n)[k]? = some (.nt (G.lhs m)) := by
      have := congrArg (·[0]?) h1
      simpa using this
    have hk2 : (G.rhs n).drop (k + 1) = r := by
      rw [← List.tail_drop, h1]; rfl
    have hcl := C.closure h3 hk hm (hk2 ▸ hr)
    obtain ⟨q', g1, g2⟩ := C.goto h3 hk
    -- the look-ahead behind the phrase
    obtain ⟨b, bv, rest', hb⟩ : ∃ b bv rest', ts' ++ (a, av) :: rest = (b, bv) :: rest' := by
      cases ts' with
      | nil => exact ⟨_, _, _, rfl⟩
      | cons y ys => exact ⟨y.1, y.2, _, rfl⟩
    have hb' : (ts'.map Prod.fst ++ [a]).headD a = b := by
      cases ts' with
      | nil => simp at hb; simp [hb.1.1]
      | cons y ys => simp at hb; simp [hb.1]
    rw [hb'] at hcl
    obtain ⟨c1, j1, new, s1, e1, v1, l1, i1⟩ := ih1 (n := m) (k := 0) (a := b) (av := bv) (rest := rest') (c := c) rfl (by omega) hcl
      (by rw [← hb, ← List.append_assoc]; exact h4)
    obtain ⟨c2, j2, s2, e2, i2, d2, _⟩ := ready i1 (C.reduce l1)
    have hnl : new.length = (G.rhs m).length := by
      have := congrArg List.length v1
      simp at this
      rw [this, hf.length]
    obtain ⟨r1, r2, r3, r4⟩ := complete_reduce (unit := unit) C (c := c2) (new := new) (stk := c.stack) hm (e2.trans e1) hnl d2 g1
    rw [v1, List.reverse_reverse] at r3
    have hs : ∃ a : Ent A, a.state = q' ∧ a.val = v ∧ Spec.step T unit w c2 = .inl { c2 with stack := a :: c.stack } := by
      unfold Spec.reduceTo at r1
      rw [if_pos r4, r3, ha, r2] at r1
      exact ⟨_, rfl, rfl, r1⟩
    obtain ⟨en, en1, en2, hs⟩ := hs
    obtain ⟨c3, j3, new3, s3, e3, v3, l3, i3⟩ := ih2 (n := n) (k := k + 1) (a := a) (av := av) (rest := rest) (c := { c2 with stack := en :: c.stack }) hk2
      (by have := (List.getElem?_eq_some_iff.1 hk).1; omega) (by show C.la en.state _ _ _; rw [en1]; exact g2) (by rw [hb]; exact i2)
    refine ⟨c3, j1 + (j2 + (1 + j3)), new3 ++ [en], s1.trans (s2.trans ((Steps.one hs).trans s3)), ?_, ?_, l3, i3⟩
    · rw [e3]; simp
    · simp [v3, en2]

/-- the initial configuration -/
def init (x : Int) (e : Env A) : Conf A := { stack := [], tok := some { code := x, val := e.lval, start := e.symbStart, stop := e.symbEnd }, pos := 0 }

theorem complete_run (C : CompleteTables G T w) {n x s : Int} (hen : Entry G w n x s) {a : Int} (ha : C.la 0 n 0 a)
    (hgo : ∃ q, Spec.goto T 0 (G.lhs n) = some q) {ts : List (Int × A)} {v : A} {av : A}
    (h : Sentence G w s ts v) (hf : Feed T unit w 0 (ts ++ [(a, av)])) (e : Env A) : ∃ k, Spec.run T unit w k (init x e) = .accept v := by
  have ht : Trees G w (G.rhs n) ((x, e.lval) :: ts) [e.lval, v] := by rw [hen.rhs]; exact .tok h
  obtain ⟨c1, j1, new, s1, e1, v1, l1, i1⟩ := complete_forest (unit := unit) C ht (n := n) (k := 0) (a := a) (av := av) (rest := []) (c := init x e) rfl (by omega) ha
    ⟨_, rfl, hf⟩
  obtain ⟨c2, j2, s2, e2, i2, d2, _⟩ := ready i1 (C.reduce l1)
  obtain ⟨q, hq⟩ := hgo
  have hnl : new.length = (G.rhs n).length := by
    have := congrArg List.length v1
    simp at this
    rw [this, hen.rhs]; rfl
  obtain ⟨r1, r2, r3, r4⟩ := complete_reduce (unit := unit) C (c := c2) (new := new) (stk := []) (q := q) hen.rule (e2.trans e1) hnl d2 hq
  rw [v1, List.reverse_reverse, hen.arity] at r3
  have hs : Spec.step T unit w c2 = .inr (.accept v) := by
    rw [r1]
    unfold Spec.reduceTo
    rw [if_pos r4, hen.arity, r3]
    have e : lastN 1 [e.lval, v] = [v] := rfl
    rw [e, hen.act]
  refine ⟨j1 + (j2 + 1), ?_⟩
  rw [s1, s2]
  simp [Spec.run, hs]

theorem noUndef_of_accept {c : Conf A} {k : Nat} {v : A} (h : Spec.run T unit w k c = .accept v) : NoUndef T unit w c := by
  intro i hi
  have a1 := run_mono k c i (by rw [h]; simp)
  have a2 := run_mono i c k (by rw [hi]; simp)
  rw [Nat.add_comm, a2, hi, h] at a1
  cases a1

end Mosml.Parse
