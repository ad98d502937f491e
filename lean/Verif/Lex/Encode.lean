import Verif.Lex.Nfa

/-!
C48: the encoding numbers the positions and actions apart, and the positions automaton of a rule accepts what its cases match.
-/
namespace Mosml.Lex

/-- the action `a` occurs -/
def OccA : Deep → Nat → Prop
  | .action a', a => a = a'
  | .seq r1 r2, a => OccA r1 a ∨ OccA r2 a
  | .alt r1 r2, a => OccA r1 a ∨ OccA r2 a
  | .star r, a => OccA r a
  | _, _ => False

theorem occA_of_firstpos (r : Deep) (a : Nat) (h : Trans.toAction a ∈ firstpos r) : OccA r a := by
  induction r with
  | empty => simp [firstpos] at h
  | chars => simp [firstpos] at h
  | action => simpa [firstpos, OccA] using h
  | seq r1 r2 i1 i2 =>
    simp only [firstpos] at h
    split at h
    · rw [mem_mergeTrans] at h; exact h.imp i1 i2
    · exact .inl (i1 h)
  | alt r1 r2 i1 i2 => rw [firstpos, mem_mergeTrans] at h; exact h.imp i1 i2
  | star r ih => exact ih h

/-- a transition of the expression -/
def OccT (r : Deep) : Trans → Prop
  | .onChars p => Occ r p
  | .toAction a => OccA r a

theorem occT_of_firstpos (r : Deep) (t : Trans) (h : t ∈ firstpos r) : OccT r t := by
  cases t with
  | onChars => exact occ_of_firstpos _ _ h
  | toAction => exact occA_of_firstpos _ _ h

theorem occT_of_fill (r : Deep) (p : Nat) (t : Trans) (h : Fill r p t) : OccT r t := by
  induction r with
  | empty => exact h.elim
  | chars => exact h.elim
  | action => exact h.elim
  | seq r1 r2 i1 i2 =>
    have h' : OccT r1 t ∨ OccT r2 t := by
      rcases h with h | h | h
      · exact .inl (i1 h)
      · exact .inr (i2 h)
      · exact .inr (occT_of_firstpos _ _ h.2)
    cases t <;> exact h'
  | alt r1 r2 i1 i2 =>
    have h' : OccT r1 t ∨ OccT r2 t := h.imp i1 i2
    cases t <;> exact h'
  | star r ih =>
    have h' : OccT r t := h.elim ih (fun h => occT_of_firstpos _ _ h.2)
    cases t <;> exact h'

theorem occA_noAction (r : Deep) (h : NoAction r) (a : Nat) : ¬ OccA r a := by
  induction r with
  | empty => exact id
  | chars => exact id
  | action => exact h.elim
  | seq r1 r2 i1 i2 => exact fun x => x.elim (i1 h.1) (i2 h.2)
  | alt r1 r2 i1 i2 => exact fun x => x.elim (i1 h.1) (i2 h.2)
  | star r ih => exact ih h

/-! #### expressions -/

structure EncOk (e : Regexp) (cs : List (List Nat)) (d : Deep) (cs' : List (List Nat)) : Prop where
  suffix : ∃ new, cs' = new ++ cs
  occ : ∀ p, Occ d p → cs.length ≤ p ∧ p < cs'.length
  lin : Lin d
  na : NoAction d
  dec : ∀ ext : List (List Nat), decode (ext ++ cs').reverse d = e
  charsOk : CharsOk e → (∀ cl ∈ cs, ∀ c ∈ cl, c < 256) → ∀ cl ∈ cs', ∀ c ∈ cl, c < 256
  noEmpty : NoEmptyClass e → (∀ cl ∈ cs, cl ≠ []) → ∀ cl ∈ cs', cl ≠ []

theorem EncOk.le {e cs d cs'} (h : EncOk e cs d cs') : cs.length ≤ cs'.length := by
  obtain ⟨new, e⟩ := h.suffix; simp [e]

theorem encodeRegexp_ok (e : Regexp) (cs : List (List Nat)) : EncOk e cs (encodeRegexp e cs).1 (encodeRegexp e cs).2 := by
  induction e generalizing cs with
  | epsilon =>
    exact { suffix := ⟨[], rfl⟩, occ := fun p h => h.elim, lin := trivial, na := trivial, dec := fun _ => rfl, charsOk := fun _ h => h, noEmpty := fun _ h => h }
  | characters cl =>
    refine { suffix := ⟨[cl], rfl⟩, occ := fun p h => ?_, lin := trivial, na := trivial, dec := fun ext => ?_, charsOk := fun h1 h2 => ?_, noEmpty := fun h1 h2 => ?_ }
    · simp only [encodeRegexp, Occ] at h; subst h; simp [encodeRegexp]
    · simp [encodeRegexp, decode, List.getElem?_append]
    · simp only [encodeRegexp, List.mem_cons, forall_eq_or_imp]; exact ⟨h1, h2⟩
    · simp only [encodeRegexp, List.mem_cons, forall_eq_or_imp]; exact ⟨h1, h2⟩
  | sequence e1 e2 i1 i2 =>
    have h1 := i1 cs
    have h2 := i2 (encodeRegexp e1 cs).2
    obtain ⟨n1, s1⟩ := h1.suffix
    obtain ⟨n2, s2⟩ := h2.suffix
    have l1 := h1.le
    have l2 := h2.le
    refine { suffix := ⟨n2 ++ n1, ?_⟩, occ := fun p h => ?_, lin := ⟨h1.lin, h2.lin, fun p a b => ?_⟩, na := ⟨h1.na, h2.na⟩, dec := fun ext => ?_, charsOk := fun c1 c2 => ?_, noEmpty := fun c1 c2 => ?_ }
    · show (encodeRegexp e2 (encodeRegexp e1 cs).2).2 = _
      rw [s2, s1]; simp
    · show _ ∧ p < (encodeRegexp e2 (encodeRegexp e1 cs).2).2.length
      rcases h with h | h
      · have := h1.occ p h; omega
      · have := h2.occ p h; omega
    · have := h1.occ p a
      have := h2.occ p b
      omega
    · show decode (ext ++ (encodeRegexp e2 (encodeRegexp e1 cs).2).2).reverse (.seq _ _) = _
      rw [decode, h2.dec]
      have := h1.dec (ext ++ n2)
      rw [List.append_assoc, ← s2] at this
      rw [this]
    · exact h2.charsOk c1.2 (h1.charsOk c1.1 c2)
    · exact h2.noEmpty c1.2 (h1.noEmpty c1.1 c2)
  | alternative e1 e2 i1 i2 =>
    have h1 := i1 cs
    have h2 := i2 (encodeRegexp e1 cs).2
    obtain ⟨n1, s1⟩ := h1.suffix
    obtain ⟨n2, s2⟩ := h2.suffix
    have l1 := h1.le
    have l2 := h2.le
    refine { suffix := ⟨n2 ++ n1, ?_⟩, occ := fun p h => ?_, lin := ⟨h1.lin, h2.lin, fun p a b => ?_⟩, na := ⟨h1.na, h2.na⟩, dec := fun ext => ?_, charsOk := fun c1 c2 => ?_, noEmpty := fun c1 c2 => ?_ }
    · show (encodeRegexp e2 (encodeRegexp e1 cs).2).2 = _
      rw [s2, s1]; simp
    · show _ ∧ p < (encodeRegexp e2 (encodeRegexp e1 cs).2).2.length
      rcases h with h | h
      · have := h1.occ p h; omega
      · have := h2.occ p h; omega
    · have := h1.occ p a
      have := h2.occ p b
      omega
    · show decode (ext ++ (encodeRegexp e2 (encodeRegexp e1 cs).2).2).reverse (.alt _ _) = _
      rw [decode, h2.dec]
      have := h1.dec (ext ++ n2)
      rw [List.append_assoc, ← s2] at this
      rw [this]
    · exact h2.charsOk c1.2 (h1.charsOk c1.1 c2)
    · exact h2.noEmpty c1.2 (h1.noEmpty c1.1 c2)
  | repetition e ih =>
    have h := ih cs
    refine { suffix := h.suffix, occ := h.occ, lin := h.lin, na := h.na, dec := fun ext => ?_, charsOk := h.charsOk, noEmpty := h.noEmpty }
    show Regexp.repetition _ = _
    exact congrArg _ (h.dec ext)

/-- an expression without empty classes matches something -/
theorem exists_match (e : Regexp) (h : NoEmptyClass e) : ∃ w, Matches e w := by
  induction e with
  | epsilon => exact ⟨[], rfl⟩
  | characters cl =>
    obtain ⟨c, hc⟩ := List.exists_mem_of_ne_nil cl h
    exact ⟨[c], c, hc, rfl⟩
  | sequence r1 r2 i1 i2 =>
    obtain ⟨w1, h1⟩ := i1 h.1
    obtain ⟨w2, h2⟩ := i2 h.2
    exact ⟨w1 ++ w2, w1, w2, rfl, h1, h2⟩
  | alternative r1 r2 i1 _ =>
    obtain ⟨w1, h1⟩ := i1 h.1
    exact ⟨w1, .inl h1⟩
  | repetition r => exact ⟨[], .nil⟩

/-- from each position of an expression without empty classes the end can be reached -/
theorem productive (chars : List (List Nat)) (v : List (List Trans)) (r : Deep) (K : Trans → Prop) (na : NoAction r) (ex : Exact v r K) (l : Lin r)
    (lt : ∀ p, Occ r p → p < chars.length) (ne : NoEmptyClass (decode chars r)) (hK : ∃ t' w a, K t' ∧ Run chars v t' w a) (p : Nat) (hp : Occ r p) :
    ∃ w a, Run chars v (.onChars p) w a := by
  induction r generalizing K with
  | empty => exact hp.elim
  | action => exact hp.elim
  | chars q =>
    obtain ⟨t', w, a, k, hr⟩ := hK
    simp only [Occ] at hp; subst hp
    have hl := lt p rfl
    simp only [decode, NoEmptyClass] at ne
    obtain ⟨c, hc⟩ := List.exists_mem_of_ne_nil _ ne
    rw [List.getElem?_eq_getElem hl, Option.getD_some] at hc
    exact ⟨c :: w, a, .chr (List.getElem?_eq_getElem hl) hc ((ex p rfl t').2 ⟨rfl, k⟩) hr⟩
  | seq r1 r2 i1 i2 =>
    rcases hp with hp | hp
    · obtain ⟨t', w, a, k, hr⟩ := hK
      obtain ⟨w2, m2⟩ := exists_match _ ne.2
      obtain ⟨t, ht, hr'⟩ := run_complete chars v r2 K na.2 (ex.seq_right l) l.2.1 w2 w a m2 ⟨t', k, hr⟩
      exact i1 _ na.1 (ex.seq_left l) l.1 (fun p h => lt p (.inl h)) ne.1 ⟨t, _, a, ht, hr'⟩ hp
    · exact i2 _ na.2 (ex.seq_right l) l.2.1 (fun p h => lt p (.inr h)) ne.2 hK hp
  | alt r1 r2 i1 i2 =>
    rcases hp with hp | hp
    · exact i1 _ na.1 (ex.alt_left l) l.1 (fun p h => lt p (.inl h)) ne.1 hK hp
    · exact i2 _ na.2 (ex.alt_right l) l.2.1 (fun p h => lt p (.inr h)) ne.2 hK hp
  | star r ih =>
    obtain ⟨t', w, a, k, hr⟩ := hK
    exact ih _ na ex.star l lt ne ⟨t', w, a, .inr k, hr⟩ hp

/-! #### the cases of a rule -/

def None' : Trans → Prop := fun _ => False

theorem case_run (chars : List (List Nat)) (v : List (List Trans)) (d : Deep) (n : Nat) (na : NoAction d) (l : Lin (.seq d (.action n)))
    (ex : Exact v (.seq d (.action n)) None') (w : List Nat) (a : Nat) :
    (∃ t ∈ firstpos (.seq d (.action n)), Run chars v t w a) ↔ a = n ∧ Matches (decode chars d) w := by
  have mem : ∀ t, t ∈ firstpos (.seq d (.action n)) ↔ t ∈ firstpos d ∨ (nullable d = true ∧ t = .toAction n) := by
    intro t
    simp only [firstpos]
    split
    · rename_i h; simp [mem_mergeTrans, h]
    · rename_i h; simp [h]
  have hK : ∀ t, First (.action n) None' t ↔ t = .toAction n := by intro t; simp [First, firstpos, nullable]
  have ex' := ex.seq_left l
  constructor
  · rintro ⟨t, ht, hr⟩
    rcases (mem t).1 ht with h | ⟨h, rfl⟩
    · obtain ⟨w1, w2, e, -, m, t', k, hr'⟩ := run_sound chars v d _ na ex' l.1 t w a h hr
      rw [hK] at k; subst k
      cases hr'
      exact ⟨rfl, by rw [e]; simpa using m⟩
    · cases hr
      exact ⟨rfl, (nullable_matches chars d na).1 h⟩
  · rintro ⟨rfl, m⟩
    obtain ⟨t, ht, hr⟩ := run_complete chars v d _ na ex' l.1 w [] a m ⟨.toAction a, (hK _).2 rfl, .act a⟩
    refine ⟨t, (mem t).2 ?_, by simpa using hr⟩
    exact ht.imp id (fun h => ⟨h.1, (hK _).1 h.2⟩)

structure CasesOk (es : List Regexp) (reg : Deep) (n : Nat) (cs : List (List Nat)) (d : Deep) (n' : Nat) (cs' : List (List Nat)) : Prop where
  count : n' = n + es.length
  suffix : ∃ new, cs' = new ++ cs
  occ : ∀ p, Occ d p → Occ reg p ∨ (cs.length ≤ p ∧ p < cs'.length)
  occA : ∀ a, OccA d a → OccA reg a ∨ a < n'
  lin : Lin reg → (∀ p, Occ reg p → p < cs.length) → Lin d
  back : ∀ v K, Lin d → Exact v d K → Exact v reg K
  run : ∀ (ext : List (List Nat)) v, Lin d → Exact v d None' → ∀ w a, (∃ t ∈ firstpos d, Run (ext ++ cs').reverse v t w a) ↔
    (∃ t ∈ firstpos reg, Run (ext ++ cs').reverse v t w a) ∨ ∃ k e, es[k]? = some e ∧ a = n + k ∧ Matches e w
  prod : (∀ e ∈ es, NoEmptyClass e) → ∀ (ext : List (List Nat)) v, Lin d → Exact v d None' → ∀ p, Occ d p →
    Occ reg p ∨ ∃ w a, Run (ext ++ cs').reverse v (.onChars p) w a
  charsOk : (∀ e ∈ es, CharsOk e) → (∀ cl ∈ cs, ∀ c ∈ cl, c < 256) → ∀ cl ∈ cs', ∀ c ∈ cl, c < 256
  noEmpty : (∀ e ∈ es, NoEmptyClass e) → (∀ cl ∈ cs, cl ≠ []) → ∀ cl ∈ cs', cl ≠ []

theorem lin_of_cases (es : List Regexp) (reg : Deep) (n : Nat) (cs : List (List Nat)) : Lin (encodeCases es reg n cs).1 → Lin reg := by
  induction es generalizing reg n cs with
  | nil => exact id
  | cons e es ih => exact fun h => (ih _ _ _ h).1

theorem encodeCases_ok (es : List Regexp) (reg : Deep) (n : Nat) (cs : List (List Nat)) :
    CasesOk es reg n cs (encodeCases es reg n cs).1 (encodeCases es reg n cs).2.1 (encodeCases es reg n cs).2.2 := by
  induction es generalizing reg n cs with
  | nil =>
    exact { count := rfl, suffix := ⟨[], rfl⟩, occ := fun _ => .inl, occA := fun _ => .inl, lin := fun h _ => h, back := fun _ _ _ h => h,
            run := fun _ _ _ _ _ _ => by simp [encodeCases], prod := fun _ _ _ _ _ _ => .inl, charsOk := fun _ h => h, noEmpty := fun _ h => h }
  | cons e es ih =>
    have he := encodeRegexp_ok e cs
    let d0 := (encodeRegexp e cs).1
    let cs0 := (encodeRegexp e cs).2
    have h := ih (.alt reg (.seq d0 (.action n))) (n + 1) cs0
    have eq : encodeCases (e :: es) reg n cs = encodeCases es (.alt reg (.seq d0 (.action n))) (n + 1) cs0 := rfl
    obtain ⟨n1, s1⟩ := he.suffix
    obtain ⟨n2, s2⟩ := h.suffix
    have l1 : cs.length ≤ cs0.length := he.le
    have l2 : cs0.length ≤ (encodeCases (e :: es) reg n cs).2.2.length := by rw [eq, s2]; simp
    have linS : Lin (.seq d0 (.action n)) := ⟨he.lin, trivial, fun _ _ h => h⟩
    refine { count := ?_, suffix := ⟨n2 ++ n1, ?_⟩, occ := fun p hp => ?_, occA := fun a ha => ?_, lin := fun h1 h2 => ?_, back := fun v K hl hx => ?_,
             run := fun ext v hl hx w a => ?_, prod := fun hne ext v hl hx p hp => ?_, charsOk := fun h1 h2 => ?_, noEmpty := fun h1 h2 => ?_ }
    · rw [eq, h.count, List.length_cons]; omega
    · rw [eq, s2]; show n2 ++ cs0 = _; rw [show cs0 = _ from s1]; simp
    · rw [eq] at hp
      rcases h.occ p hp with (h' | h' | h') | h'
      · exact .inl h'
      · have := he.occ p h'; right; constructor
        · exact this.1
        · exact lt_of_lt_of_le this.2 l2
      · exact h'.elim
      · exact .inr ⟨le_trans l1 h'.1, h'.2⟩
    · rw [eq] at ha ⊢
      have hc := h.count
      rcases h.occA a ha with (h' | h' | h') | h'
      · exact .inl h'
      · exact (occA_noAction _ he.na _ h').elim
      · right; simp only [OccA] at h'; omega
      · exact .inr h'
    · rw [eq]
      refine h.lin ⟨h1, linS, fun p a b => ?_⟩ (fun p hp => ?_)
      · rcases b with b | b
        · have := he.occ p b; have := h2 p a; omega
        · exact b
      · rcases hp with hp | hp | hp
        · exact lt_of_lt_of_le (h2 p hp) l1
        · exact (he.occ p hp).2
        · exact hp.elim
    · rw [eq] at hl hx
      exact (h.back v K hl hx).alt_left (lin_of_cases _ _ _ _ hl)
    · rw [eq] at hl hx ⊢
      rw [h.run ext v hl hx w a]
      have lA := lin_of_cases _ _ _ _ hl
      have xA := h.back v None' hl hx
      have c := case_run (ext ++ (encodeCases es (.alt reg (.seq d0 (.action n))) (n + 1) cs0).2.2).reverse v d0 n he.na lA.2.1 (xA.alt_right lA) w a
      have dec : decode (ext ++ (encodeCases es (.alt reg (.seq d0 (.action n))) (n + 1) cs0).2.2).reverse d0 = e := by
        have := he.dec (ext ++ n2)
        rw [List.append_assoc] at this
        rw [s2]; exact this
      rw [dec] at c
      have mem : ∀ t, t ∈ firstpos (.alt reg (.seq d0 (.action n))) ↔ t ∈ firstpos reg ∨ t ∈ firstpos (.seq d0 (.action n)) := fun t => mem_mergeTrans _ _ _
      constructor
      · rintro (⟨t, ht, hr⟩ | ⟨k, e', hk, ha, m⟩)
        · rcases (mem t).1 ht with ht | ht
          · exact .inl ⟨t, ht, hr⟩
          · have := c.1 ⟨t, ht, hr⟩
            exact .inr ⟨0, e, rfl, this.1, this.2⟩
        · exact .inr ⟨k + 1, e', by simpa using hk, by omega, m⟩
      · rintro (⟨t, ht, hr⟩ | ⟨k, e', hk, ha, m⟩)
        · exact .inl ⟨t, (mem t).2 (.inl ht), hr⟩
        · cases k with
          | zero =>
            simp only [List.getElem?_cons_zero, Option.some.injEq] at hk
            subst hk
            obtain ⟨t, ht, hr⟩ := c.2 ⟨ha, m⟩
            exact .inl ⟨t, (mem t).2 (.inr ht), hr⟩
          | succ k => exact .inr ⟨k, e', by simpa using hk, by omega, m⟩
    · rw [eq] at hl hx hp ⊢
      have lA := lin_of_cases _ _ _ _ hl
      have xA := h.back v None' hl hx
      have dec : decode (ext ++ (encodeCases es (.alt reg (.seq d0 (.action n))) (n + 1) cs0).2.2).reverse d0 = e := by
        have := he.dec (ext ++ n2)
        rw [List.append_assoc] at this
        rw [s2]; exact this
      rcases h.prod (fun e he => hne e (by simp [he])) ext v hl hx p hp with (h' | h' | h') | h'
      · exact .inl h'
      · right
        refine productive _ v d0 _ he.na ((xA.alt_right lA).seq_left lA.2.1) he.lin (fun p hp => ?_) (by rw [dec]; exact hne e (by simp))
          ⟨.toAction n, [], n, .inl (by simp [firstpos]), .act n⟩ p h'
        have := (he.occ p hp).2
        have l3 : cs0.length ≤ (encodeCases es (.alt reg (.seq d0 (.action n))) (n + 1) cs0).2.2.length := l2
        rw [List.length_reverse, List.length_append]
        have l4 : p < cs0.length := this
        omega
      · exact h'.elim
      · exact .inr h'
    · rw [eq]
      exact h.charsOk (fun e he => h1 e (by simp [he])) (he.charsOk (h1 e (by simp)) h2)
    · rw [eq]
      exact h.noEmpty (fun e he => h1 e (by simp [he])) (he.noEmpty (h1 e (by simp)) h2)

/-! #### the rules -/

structure LexOk (ld : List (List Regexp)) (ds : List Deep) (n : Nat) (cs : List (List Nat)) : Prop where
  count : n = (ld.map List.length).sum
  len : ds.length = ld.length
  occ : ∀ d ∈ ds, ∀ p, Occ d p → p < cs.length
  occA : ∀ d ∈ ds, ∀ a, OccA d a → a < n
  lin : ∀ d ∈ ds, Lin d
  disj : ds.Pairwise (fun d d' => ∀ p, Occ d p → Occ d' p → False)
  run : ∀ (ext : List (List Nat)) (j : Nat) cases d, ld[j]? = some cases → ds[j]? = some d → ∀ v, Exact v d None' → ∀ w a,
    (∃ t ∈ firstpos d, Run (ext ++ cs).reverse v t w a) ↔ ∃ k e, cases[k]? = some e ∧ a = actionNumber ld j k ∧ Matches e w
  prod : (∀ cases ∈ ld, ∀ e ∈ cases, NoEmptyClass e) → ∀ (ext : List (List Nat)), ∀ d ∈ ds, ∀ v, Exact v d None' → ∀ p, Occ d p →
    ∃ w a, Run (ext ++ cs).reverse v (.onChars p) w a
  charsOk : (∀ cases ∈ ld, ∀ e ∈ cases, CharsOk e) → ∀ cl ∈ cs, ∀ c ∈ cl, c < 256
  noEmpty : (∀ cases ∈ ld, ∀ e ∈ cases, NoEmptyClass e) → ∀ cl ∈ cs, cl ≠ []

theorem encodeLexdef_ok (ld : List (List Regexp)) : LexOk ld (encodeLexdef ld).1 (encodeLexdef ld).2.1 (encodeLexdef ld).2.2 := by
  induction ld with
  | nil =>
    exact { count := rfl, len := rfl, occ := by simp [encodeLexdef], occA := by simp [encodeLexdef], lin := by simp [encodeLexdef], disj := by simp [encodeLexdef],
            run := by simp, prod := by simp [encodeLexdef], charsOk := by simp [encodeLexdef], noEmpty := by simp [encodeLexdef] }
  | cons cases rest ih =>
    let ds := (encodeLexdef rest).1
    let n := (encodeLexdef rest).2.1
    let cs := (encodeLexdef rest).2.2
    have h := encodeCases_ok cases .empty n cs
    have e1 : (encodeLexdef (cases :: rest)).1 = (encodeCases cases .empty n cs).1 :: ds := rfl
    have e2 : (encodeLexdef (cases :: rest)).2.1 = (encodeCases cases .empty n cs).2.1 := rfl
    have e3 : (encodeLexdef (cases :: rest)).2.2 = (encodeCases cases .empty n cs).2.2 := rfl
    obtain ⟨n2, s2⟩ := h.suffix
    have l2 : cs.length ≤ (encodeCases cases .empty n cs).2.2.length := by rw [s2]; simp
    have lin : Lin (encodeCases cases .empty n cs).1 := h.lin trivial (fun p hp => hp.elim)
    have occ : ∀ p, Occ (encodeCases cases .empty n cs).1 p → cs.length ≤ p ∧ p < (encodeCases cases .empty n cs).2.2.length := fun p hp =>
      (h.occ p hp).elim (fun h => h.elim) id
    have hn : n = (rest.map List.length).sum := ih.count
    rw [e1, e2, e3]
    refine { count := ?_, len := ?_, occ := ?_, occA := ?_, lin := ?_, disj := ?_, run := ?_, prod := ?_, charsOk := ?_, noEmpty := ?_ }
    · rw [h.count, hn, List.map_cons, List.sum_cons]; omega
    · simp [ds, ih.len]
    · simp only [List.mem_cons, forall_eq_or_imp]
      exact ⟨fun p hp => (occ p hp).2, fun d hd p hp => lt_of_lt_of_le (ih.occ d hd p hp) l2⟩
    · simp only [List.mem_cons, forall_eq_or_imp]
      refine ⟨fun a ha => (h.occA a ha).elim (fun h => h.elim) id, fun d hd a ha => ?_⟩
      have : a < n := ih.occA d hd a ha
      rw [h.count]; omega
    · simp only [List.mem_cons, forall_eq_or_imp]
      exact ⟨lin, ih.lin⟩
    · refine List.pairwise_cons.2 ⟨fun d hd p a b => ?_, ih.disj⟩
      have h1 := (occ p a).1
      have h2 : p < cs.length := ih.occ d hd p b
      omega
    · intro ext j cs' d hj hd v ex w a
      cases j with
      | zero =>
        simp only [List.getElem?_cons_zero, Option.some.injEq] at hj hd
        subst hj hd
        rw [h.run ext v lin ex w a]
        simp only [firstpos, List.not_mem_nil, false_and, exists_false, false_or, actionNumber, Nat.zero_add, List.drop_succ_cons, List.drop_zero, ← hn]
      | succ j =>
        simp only [List.getElem?_cons_succ] at hj hd
        have := ih.run (ext ++ n2) j cs' d hj hd v ex w a
        rw [List.append_assoc, show n2 ++ (encodeLexdef rest).2.2 = _ from s2.symm] at this
        rw [this]
        simp [actionNumber]
    · intro hc ext d hd v ex p hp
      rcases List.mem_cons.1 hd with rfl | hd
      · exact (h.prod (hc cases (by simp)) ext v lin ex p hp).elim (fun h => h.elim) id
      · have := ih.prod (fun c h => hc c (by simp [h])) (ext ++ n2) d hd v ex p hp
        rw [List.append_assoc, show n2 ++ (encodeLexdef rest).2.2 = _ from s2.symm] at this
        exact this
    · intro hc
      exact h.charsOk (hc cases (by simp)) (ih.charsOk (fun c h => hc c (by simp [h])))
    · intro hc
      exact h.noEmpty (hc cases (by simp)) (ih.noEmpty (fun c h => hc c (by simp [h])))

/-- in the follow sets of all rules, each rule has its continuations -/
theorem exact_of_follow (ds : List Deep) (disj : ds.Pairwise (fun d d' => ∀ p, Occ d p → Occ d' p → False)) (v : List (List Trans))
    (hv : ∀ p t, At v p t ↔ ∃ r ∈ ds, Fill r p t) (d : Deep) (hd : d ∈ ds) : Exact v d None' := by
  intro p hp t
  have key : ∀ r ∈ ds, Occ r p → r = d := by
    intro r hr ho
    by_contra hne
    obtain ⟨i, hi, rfl⟩ := List.mem_iff_getElem.1 hr
    obtain ⟨j, hj, rfl⟩ := List.mem_iff_getElem.1 hd
    rcases lt_trichotomy i j with h | h | h
    · exact List.pairwise_iff_getElem.1 disj i j hi hj h p ho hp
    · subst h; exact hne rfl
    · exact List.pairwise_iff_getElem.1 disj j i hj hi h p hp ho
  rw [hv, cont_iff]
  constructor
  · rintro ⟨r, hr, hf⟩
    rw [key r hr (occ_of_fill _ _ _ hf)] at hf
    exact .inl hf
  · rintro (h | h)
    · exact ⟨d, hd, h⟩
    · exact h.2.elim

end Mosml.Lex
