import Verif.Parse.Grammar

/-! C33: the engine follows the tables and, with right tables, accepts exactly the sentences of the grammar. -/
namespace Mosml.Parse
open Spec (Conf Ent Tok top Decision)

variable {A E : Type} {G : Grammar} {T : Tables} {unit : A} {w : World A E} {code : Int → Prop}

theorem rel_init {e : Env A} {x : Int} (ok : EnvOk e) (hx : 0 ≤ x) : Rel T unit w (.start, { e with currChar := x, esp := 0 }, 0) (init x e) :=
  ⟨rfl, ⟨ok.s, ok.v, ok.st, ok.en, ok.pos, ok.bottom, ok.bottomEnd⟩, trivial, ⟨rfl, hx, rfl, rfl, rfl⟩, rfl, rfl, ok.pos⟩

/-- C33: for all tables and inputs on which the abstract automaton does not get stuck, the parser has a result (a value, a parse error at some token, or
an exception) if and only if the automaton has it.  In particular no stack is accessed outside its bounds, and growing the stacks changes nothing.
The tables may be anything; codes of tokens must not be negative. -/
theorem C33_engine (hc : CodesOk T) {e : Env A} (ok : EnvOk e) {x : Int} (hx : 0 ≤ x) (nu : NoUndef T unit w (init x e)) {o : Result A E} (ho : o ≠ .running) :
    (∃ fuel, yyparse T unit w fuel e x = o) ↔ ∃ k, Spec.run T unit w k (init x e) = o := by
  constructor
  · rintro ⟨fuel, rfl⟩
    exact drive_sound hc fuel _ _ _ _ (rel_init ok hx) nu ho
  · rintro ⟨k, rfl⟩
    exact drive_complete hc _ _ _ _ _ k (le_refl _) (rel_init ok hx) nu ho

/-- the lexer delivers tokens that the tables know -/
def LexerOk (T : Tables) (w : World A E) (code : Int → Prop) : Prop := ∀ p t, w.lexer p = .ok t → ∃ y, T.transl[t.tag]? = some y ∧ code y

theorem inv_init (S : SoundTables G T w code) {x : Int} (hx : code x) (e : Env A) : Inv S unit x e.lval (init x e) :=
  ⟨fun t ht => by cases ht; exact hx, [], [], trivial, .nil, [], rfl, rfl, trivial⟩

/-- C33: with an automaton that is sound for a grammar the parser never goes wrong, whatever the lexer delivers, and whatever it accepts is a sentence with its value. -/
theorem C33_sound (S : SoundTables G T w code) (hc : CodesOk T) (hl : LexerOk T w code) {e : Env A} (ok : EnvOk e) {x : Int} (hx : 0 ≤ x) (hcx : code x) (fuel : Nat) :
    yyparse T unit w fuel e x ≠ .undef ∧
    ∀ v, yyparse T unit w fuel e x = .accept v → ∃ n s ts, Entry G w n x s ∧ Sentence G w s ts v ∧ Feed T unit w 0 ts := by
  have hinv := inv_init (unit := unit) S hcx e
  have hright := fun k => inv_run (S := S) hl ⟨x, hcx⟩ k _ hinv
  have nu : NoUndef T unit w (init x e) := fun k h => by
    have := hright k
    rw [h] at this
    exact this
  constructor
  · intro h
    obtain ⟨k, hk⟩ := (C33_engine hc ok hx nu (o := .undef) (by simp)).1 ⟨fuel, h⟩
    exact nu k hk
  · intro v h
    obtain ⟨k, hk⟩ := (C33_engine hc ok hx nu (o := .accept v) (by simp)).1 ⟨fuel, h⟩
    have := hright k
    rw [hk] at this
    exact this

/-- C33: with an automaton that is complete for a grammar every sentence, followed by a token that may follow it, is accepted with its value. -/
theorem C33_complete (C : CompleteTables G T w) (hc : CodesOk T) {e : Env A} (ok : EnvOk e) {n x s : Int} (hx : 0 ≤ x) (hen : Entry G w n x s) {a : Int} (ha : C.la 0 n 0 a)
    (hgo : ∃ q, Spec.goto T 0 (G.lhs n) = some q) {ts : List (Int × A)} {v av : A} (h : Sentence G w s ts v) (hf : Feed T unit w 0 (ts ++ [(a, av)])) :
    ∃ fuel, yyparse T unit w fuel e x = .accept v := by
  obtain ⟨k, hk⟩ := complete_run (unit := unit) C hen ha hgo h hf e
  exact (C33_engine hc ok hx (noUndef_of_accept hk) (by simp)).2 ⟨k, hk⟩

/-- C33: an automaton cannot be complete for an ambiguous grammar whose trees have different values. -/
theorem C33_unambiguous (C : CompleteTables G T w) {n x s : Int} (hen : Entry G w n x s) {a : Int} (ha : C.la 0 n 0 a)
    (hgo : ∃ q, Spec.goto T 0 (G.lhs n) = some q) {ts : List (Int × A)} {v v' av : A} (h : Sentence G w s ts v) (h' : Sentence G w s ts v')
    (hf : Feed T av w 0 (ts ++ [(a, av)])) : v = v' := by
  obtain ⟨k, hk⟩ := complete_run (unit := av) C hen ha hgo h hf (env0 av)
  obtain ⟨k', hk'⟩ := complete_run (unit := av) C hen ha hgo h' hf (env0 av)
  have a1 := run_mono k _ k' (by rw [hk]; simp)
  have a2 := run_mono k' _ k (by rw [hk']; simp)
  rw [Nat.add_comm, a2, hk, hk'] at a1
  cases a1; rfl

/-! ### the environment stays usable -/

theorem EnvOk.same {e e' : Env A} (ok : EnvOk e) (h : e'.s = e.s ∧ e'.v = e.v ∧ e'.st = e.st ∧ e'.en = e.en ∧ e'.stacksize = e.stacksize) : EnvOk e' := by
  obtain ⟨h1, h2, h3, h4, h5⟩ := h
  exact ⟨by rw [h1, h5]; exact ok.s, by rw [h2, h5]; exact ok.v, by rw [h3, h5]; exact ok.st, by rw [h4, h5]; exact ok.en, by rw [h5]; exact ok.pos, by rw [h1]; exact ok.bottom,
    by rw [h4]; exact ok.bottomEnd⟩

/-- an outcome of the engine after which the stacks are in order; before the next write the stack pointer is above the bottom -/
def Fine (r : Option (Out × Env A)) : Prop := ∀ o e, r = some (o, e) → EnvOk e ∧ (o ≠ .readToken → o ≠ .raiseParseError → 0 < e.sp)

theorem reduce_fine {e : Env A} (ok : EnvOk e) (n : Int) : Fine (reduce T e n) := by
  intro o e' h
  unfold reduce at h
  simp only [Option.bind_eq_bind, Option.bind_eq_some_iff] at h
  obtain ⟨m, _, l, _, q, hq, n1, _, hit, _, q', _, h⟩ := h
  have hpos : 0 < ((e.sp : Int) - m + 1).toNat := by
    unfold rd at hq
    split at hq
    · cases hq
    · omega
  split at h <;> cases h <;> exact ⟨ok.same ⟨rfl, rfl, rfl, rfl, rfl⟩, fun _ _ => hpos⟩

theorem loopEmpty_fine {e : Env A} (ok : EnvOk e) : Fine (loopEmpty T e) := by
  intro o e' h
  unfold loopEmpty at h
  simp only [Option.bind_eq_bind, Option.bind_eq_some_iff] at h
  obtain ⟨n, _, h⟩ := h
  split at h
  · exact reduce_fine ok n o e' h
  · cases h; exact ⟨ok, fun h => absurd rfl h⟩

theorem set_bottom {B : Type} {l : List B} {i : Nat} {b x : B} (h : l[0]? = some b) (hi : 0 < i) : (l.set i x)[0]? = some b := by
  rw [List.getElem?_set_ne (by omega)]; exact h

theorem push_fine {e : Env A} (ok : EnvOk e) (hs : 0 < e.sp) : Fine (push T e) := by
  intro o e' h
  unfold push at h
  split at h
  · refine loopEmpty_fine ?_ o e' h
    exact ⟨by simpa using ok.s, by simpa using ok.v, by simpa using ok.st, by simpa using ok.en, ok.pos, set_bottom ok.bottom hs, set_bottom ok.bottomEnd hs⟩
  · cases h

theorem testshift_fine {e : Env A} (ok : EnvOk e) : Fine (testshift T e) := by
  intro o e' h
  unfold testshift at h
  simp only [Option.bind_eq_bind, Option.bind_eq_some_iff] at h
  obtain ⟨n1, _, hit, _, h⟩ := h
  cases hit with
  | some n2 =>
    dsimp only at h
    unfold shift at h
    simp only [Option.bind_eq_bind, Option.bind_eq_some_iff] at h
    obtain ⟨q, _, h⟩ := h
    have ok' : EnvOk { e with state := q, sp := e.sp + 1 } := ok.same ⟨rfl, rfl, rfl, rfl, rfl⟩
    split at h
    · exact push_fine ok' (Nat.succ_pos _) o e' h
    · cases h; exact ⟨ok', fun _ _ => Nat.succ_pos _⟩
  | none =>
    dsimp only at h
    unfold testReduce at h
    simp only [Option.bind_eq_bind, Option.bind_eq_some_iff] at h
    obtain ⟨n1, _, hit, _, h⟩ := h
    cases hit with
    | some n2 =>
      simp only [Option.bind_eq_some_iff] at h
      obtain ⟨n, _, h⟩ := h
      exact reduce_fine ok n o e' h
    | none => cases h; exact ⟨ok, fun _ h => absurd rfl h⟩

theorem loop_fine {e : Env A} (ok : EnvOk e) : Fine (loop T e) := by
  intro o e' h
  unfold loop at h
  simp only [Option.bind_eq_bind, Option.bind_eq_some_iff] at h
  obtain ⟨n, _, h⟩ := h
  split at h
  · exact reduce_fine ok n o e' h
  · split at h
    · exact testshift_fine ok o e' h
    · cases h; exact ⟨ok, fun h => absurd rfl h⟩

/-- C33: whatever the tables, the tokens and the order of its calls, the engine leaves the four stacks equally long and state 0 at the bottom, so that
the next parse starts from a sound environment however the last one ended. -/
theorem C33_stacks {e e' : Env A} {cmd : Cmd A} {o : Out} (ok : EnvOk e) (hs : (∀ v, cmd ≠ .semanticActionComputed v) ∧ cmd ≠ .stacksGrown1 ∧ cmd ≠ .stacksGrown2 ∨ 0 < e.sp)
    (h : parseEngine T unit e cmd = some (o, e')) : EnvOk e' ∧ (o ≠ .readToken → o ≠ .raiseParseError → 0 < e'.sp) := by
  cases cmd with
  | start => exact loop_fine (e := { e with state := 0, sp := e.esp }) (ok.same ⟨rfl, rfl, rfl, rfl, rfl⟩) o e' h
  | tokenRead t =>
    unfold parseEngine tokenRead at h
    dsimp only at h
    split at h
    · cases h
    · rename_i c _
      exact testshift_fine (e := { e with currChar := c, lval := t.arg.getD unit }) (ok.same ⟨rfl, rfl, rfl, rfl, rfl⟩) o e' h
  | stacksGrown1 => exact push_fine ok (hs.resolve_left (by simp)) o e' h
  | stacksGrown2 =>
    unfold parseEngine at h
    cases h
    exact ⟨ok, fun _ _ => hs.resolve_left (by simp)⟩
  | semanticActionComputed v =>
    have hs' : 0 < e.sp := hs.resolve_left (by simp)
    unfold parseEngine actionComputed at h
    dsimp only at h
    split at h
    · cases h
    · split at h
      · refine loop_fine ?_ o e' h
        exact ⟨by simpa using ok.s, by simpa using ok.v, by simpa using ok.st, by simpa using ok.en, ok.pos, set_bottom ok.bottom hs', set_bottom ok.bottomEnd hs'⟩
      · cases h

theorem env0_ok : EnvOk (env0 unit) := by
  refine ⟨?_, ?_, ?_, ?_, ?_, ?_, ?_⟩ <;> simp [env0]

end Mosml.Parse
