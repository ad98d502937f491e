import Verif.Lex.Dfa

/-!
C48: what the generated automaton does on an input.
-/
namespace Mosml.Lex

/-- from the set `S` the word leads to the action -/
def Acc (chars : List (List Nat)) (v : List (List Trans)) (S : List Trans) (w : List Nat) (a : Nat) : Prop := ∃ t ∈ S, Run chars v t w a

theorem acc_nil (chars : List (List Nat)) (v : List (List Trans)) (S : List Trans) (a : Nat) : Acc chars v S [] a ↔ .toAction a ∈ S := by
  constructor
  · rintro ⟨t, ht, hr⟩; cases hr; exact ht
  · exact fun h => ⟨_, h, .act a⟩

theorem acc_cons (chars : List (List Nat)) (v : List (List Trans)) (S : List Trans) (c : Nat) (w : List Nat) (a : Nat) :
    Acc chars v S (c :: w) a ↔ ∃ t, Delta chars v S c t ∧ Run chars v t w a := by
  constructor
  · rintro ⟨t, ht, hr⟩
    cases hr with
    | chr hp hc hat hr => exact ⟨_, ⟨_, ht, _, hp, hc, hat⟩, hr⟩
  · rintro ⟨t, ⟨p, hp, cl, h1, h2, h3⟩, hr⟩
    exact ⟨_, hp, .chr h1 h2 h3 hr⟩

/-- the transition `t` is reached from `S` by the word -/
def Reach (chars : List (List Nat)) (v : List (List Trans)) : List Nat → List Trans → Trans → Prop
  | [], S, t => t ∈ S
  | c :: w, S, t => ∃ S', (∀ u, u ∈ S' ↔ Delta chars v S c u) ∧ Reach chars v w S' t

theorem acc_of_reach (chars : List (List Nat)) (v : List (List Trans)) (w w2 : List Nat) (S : List Trans) (t : Trans) (a : Nat)
    (h : Reach chars v w S t) (hr : Run chars v t w2 a) : Acc chars v S (w ++ w2) a := by
  induction w generalizing S with
  | nil => exact ⟨t, h, hr⟩
  | cons c w ih =>
    obtain ⟨S', h1, h2⟩ := h
    obtain ⟨u, hu, hru⟩ := ih S' h2
    rw [List.cons_append, acc_cons]
    exact ⟨u, (h1 u).1 hu, hru⟩

/-- `k` characters of the input from `pos` -/
def word (inp : Nat → Nat) (pos k : Nat) : List Nat := (List.range k).map (fun i => inp (pos + i))

theorem word_zero (inp : Nat → Nat) (pos : Nat) : word inp pos 0 = [] := rfl

theorem word_succ (inp : Nat → Nat) (pos k : Nat) : word inp pos (k + 1) = inp pos :: word inp (pos + 1) k := by
  simp only [word, List.range_succ_eq_map, List.map_cons, List.map_map, Nat.add_zero]
  congr 1
  apply List.map_congr_left
  intro i _
  simp only [Function.comp]
  congr 1; omega

theorem word_prefix (inp : Nat → Nat) (k : Nat) : word inp 0 k = prefixOf inp k := by simp [word, prefixOf]

structure AutoOk (P N : Nat) (chars : List (List Nat)) (v M : List (List Trans)) (V : List Automaton) : Prop where
  states : ∀ (i : Nat) (S : List Trans), M[i]? = some S → ∃ a, V[i]? = some a ∧ StateOk chars v M S a
  inU : ∀ S ∈ M, ∀ t ∈ S, InU P N t
  few : N ≤ noAction

/-- the least action that the word leads to -/
def Best (chars : List (List Nat)) (v : List (List Trans)) (S : List Trans) (w : List Nat) (n : Nat) : Prop :=
  Acc chars v S w n ∧ ∀ a, Acc chars v S w a → n ≤ a

def RunOk (chars : List (List Nat)) (v : List (List Trans)) (inp : Nat → Nat) (S : List Trans) (fuel pos : Nat) (last : Option (Nat × Nat)) : Outcome → Prop
  | .action n p => (∃ k, p = pos + k ∧ Best chars v S (word inp pos k) n ∧ ∀ k', k < k' → ∀ a, ¬ Acc chars v S (word inp pos k') a) ∨
      (last = some (n, p) ∧ ∀ k a, ¬ Acc chars v S (word inp pos k) a)
  | .illegal => last = none ∧ ∀ k a, ¬ Acc chars v S (word inp pos k) a
  | .broken => False
  | .running => ∀ m ≤ fuel, ∃ t, Reach chars v (word inp pos m) S t

variable {P N : Nat} {chars : List (List Nat)} {v M : List (List Trans)} {V : List Automaton}

theorem best_nil (S : List Trans) (hU : ∀ t ∈ S, InU P N t) (few : N ≤ noAction) :
    ((splitTransSet S).1 ≠ noAction ∧ Best chars v S [] (splitTransSet S).1) ∨ ((splitTransSet S).1 = noAction ∧ ∀ a, ¬ Acc chars v S [] a) := by
  obtain ⟨-, h2, h3⟩ := splitTransSet_spec S
  by_cases e : (splitTransSet S).1 = noAction
  · right
    refine ⟨e, fun a ha => ?_⟩
    rw [acc_nil] at ha
    have h4 := h2 a ha
    have h5 : a < N := hU _ ha
    omega
  · left
    refine ⟨e, (acc_nil _ _ _ _).2 (h3.resolve_left e), fun a ha => h2 a ((acc_nil _ _ _ _).1 ha)⟩

theorem runState_ok (ok : AutoOk P N chars v M V) (inp : Nat → Nat) (hinp : ∀ i, inp i < 256) (fuel i pos : Nat) (last : Option (Nat × Nat)) (S : List Trans)
    (hi : M[i]? = some S) (hS : (splitTransSet S).2 ≠ []) : RunOk chars v inp S fuel pos last (runState V inp fuel i pos last) := by
  induction fuel generalizing i pos last S with
  | zero =>
    show RunOk _ _ _ _ _ _ _ .running
    intro m hm
    have : m = 0 := by omega
    subst this
    obtain ⟨p, hp⟩ := List.exists_mem_of_ne_nil _ hS
    exact ⟨.onChars p, ((splitTransSet_spec S).1 p).1 hp⟩
  | succ fuel ih =>
    obtain ⟨a, ha, hok⟩ := ok.states i S hi
    have hU := ok.inU S (List.mem_of_getElem? hi)
    cases a with
    | perform n => exact (hS hok.2).elim
    | shift rem mvs =>
      obtain ⟨hrem, -, hm⟩ := hok
      obtain ⟨mv, e1, e2⟩ := hm (inp pos) (hinp pos)
      simp only [runState, ha, e1]
      -- the longest match of length at most zero
      obtain ⟨last', hl⟩ : ∃ l, l = remember rem pos last := ⟨_, rfl⟩
      rw [← hl]
      have hlast : (∃ n, last' = some (n, pos) ∧ Best chars v S [] n) ∨ (last' = last ∧ ∀ a, ¬ Acc chars v S [] a) := by
        rcases best_nil (chars := chars) (v := v) S hU ok.few with ⟨h1, h2⟩ | ⟨h1, h2⟩
        · left
          refine ⟨_, ?_, h2⟩
          rw [hl, hrem, if_neg h1]; rfl
        · right
          refine ⟨?_, h2⟩
          rw [hl, hrem, if_pos h1]; rfl
      have acc1 : ∀ k a, Acc chars v S (word inp pos (k + 1)) a ↔ ∃ t, Delta chars v S (inp pos) t ∧ Run chars v t (word inp (pos + 1) k) a := by
        intro k a; rw [word_succ, acc_cons]
      cases mv with
      | backtrack =>
        have hnone : ∀ k, 0 < k → ∀ a, ¬ Acc chars v S (word inp pos k) a := by
          intro k hk a
          obtain ⟨k', rfl⟩ : ∃ k', k = k' + 1 := ⟨k - 1, by omega⟩
          rw [acc1]
          rintro ⟨t, ht, -⟩
          exact e2 t ht
        rcases hlast with ⟨n, h1, h2⟩ | ⟨h1, h2⟩
        · rw [h1]
          exact .inl ⟨0, rfl, h2, hnone⟩
        · have all : ∀ k a, ¬ Acc chars v S (word inp pos k) a := by
            intro k a
            by_cases hk : k = 0
            · subst hk; exact h2 a
            · exact hnone k (by omega) a
          rw [h1]
          cases last with
          | none => exact ⟨rfl, all⟩
          | some x => exact .inr ⟨rfl, all⟩
      | goto d =>
        obtain ⟨S', d1, d2, d3⟩ := e2
        obtain ⟨a', ha', hok'⟩ := ok.states d S' d1
        have hU' := ok.inU S' (List.mem_of_getElem? d1)
        have acc2 : ∀ k a, Acc chars v S (word inp pos (k + 1)) a ↔ Acc chars v S' (word inp (pos + 1) k) a := by
          intro k a
          rw [acc1]
          exact ⟨fun ⟨t, h1, h2⟩ => ⟨t, (d3 t).2 h1, h2⟩, fun ⟨t, h1, h2⟩ => ⟨t, (d3 t).1 h1, h2⟩⟩
        cases a' with
        | perform n =>
          simp only [ha']
          obtain ⟨hn, hps⟩ := hok'
          have nopos : ∀ p, .onChars p ∉ S' := fun p hp => by
            have := ((splitTransSet_spec S').1 p).2 hp
            rw [hps] at this; simp at this
          left
          refine ⟨1, rfl, ?_, ?_⟩
          · rcases best_nil (chars := chars) (v := v) S' hU' ok.few with ⟨h1, h2⟩ | ⟨h1, h2⟩
            · refine ⟨(acc2 0 n).2 (hn ▸ h2.1), fun a ha => ?_⟩
              rw [hn]; exact h2.2 a ((acc2 0 a).1 ha)
            · exfalso
              obtain ⟨t, ht⟩ := List.exists_mem_of_ne_nil _ d2
              cases t with
              | onChars p => exact nopos p ht
              | toAction b => exact h2 b ((acc_nil _ _ _ _).2 ht)
          · intro k' hk' a ha
            obtain ⟨k, rfl⟩ : ∃ k, k' = k + 1 + 1 := ⟨k' - 2, by omega⟩
            rw [acc2, word_succ, acc_cons] at ha
            obtain ⟨t, ⟨p, hp, -⟩, -⟩ := ha
            exact nopos p hp
        | shift rem' mvs' =>
          simp only [ha']
          have := ih d (pos + 1) last' S' d1 hok'.2.1
          cases hres : runState V inp fuel d (pos + 1) last' with
          | broken => rw [hres] at this; exact this
          | running =>
            rw [hres] at this
            intro m hm
            cases m with
            | zero =>
              obtain ⟨p, hp⟩ := List.exists_mem_of_ne_nil _ hS
              exact ⟨.onChars p, ((splitTransSet_spec S).1 p).1 hp⟩
            | succ m =>
              obtain ⟨t, ht⟩ := this m (by omega)
              refine ⟨t, ?_⟩
              rw [word_succ]
              exact ⟨S', d3, ht⟩
          | illegal =>
            rw [hres] at this
            obtain ⟨h1, h2⟩ := this
            rcases hlast with ⟨n, h3, -⟩ | ⟨h3, h4⟩
            · rw [h1] at h3; simp at h3
            · refine ⟨by rw [← h3]; exact h1, fun k a ha => ?_⟩
              cases k with
              | zero => exact h4 a ha
              | succ k => exact h2 k a ((acc2 k a).1 ha)
          | action n p =>
            rw [hres] at this
            rcases this with ⟨k, h1, h2, h3⟩ | ⟨h1, h2⟩
            · left
              refine ⟨k + 1, by omega, ⟨(acc2 k n).2 h2.1, fun a ha => h2.2 a ((acc2 k a).1 ha)⟩, fun k' hk' a ha => ?_⟩
              obtain ⟨k2, rfl⟩ : ∃ k2, k' = k2 + 1 := ⟨k' - 1, by omega⟩
              exact h3 k2 (by omega) a ((acc2 k2 a).1 ha)
            · have hnone : ∀ k, 0 < k → ∀ a, ¬ Acc chars v S (word inp pos k) a := by
                intro k hk a ha
                obtain ⟨k2, rfl⟩ : ∃ k2, k = k2 + 1 := ⟨k - 1, by omega⟩
                exact h2 k2 a ((acc2 k2 a).1 ha)
              rcases hlast with ⟨n', h3, h4⟩ | ⟨h3, h4⟩
              · left
                rw [h1] at h3
                simp only [Option.some.injEq, Prod.mk.injEq] at h3
                exact ⟨0, h3.2, by rw [h3.1]; exact h4, hnone⟩
              · right
                refine ⟨by rw [← h3]; exact h1, fun k a ha => ?_⟩
                cases k with
                | zero => exact h4 a ha
                | succ k => exact hnone (k + 1) (by omega) a ha

/-! #### the whole construction -/

/-- the number of character classes -/
def classes (ld : List (List Regexp)) : Nat := (encodeLexdef ld).2.2.length
/-- the number of actions -/
def actions (ld : List (List Regexp)) : Nat := (ld.map List.length).sum

structure Built (ld : List (List Regexp)) (is : List Nat) (V : List Automaton) : Prop where
  build : ∃ (M : List (List Trans)) (v : List (List Trans)),
    (actions ld ≤ noAction → AutoOk (classes ld) (actions ld) (encodeLexdef ld).2.2.reverse v M V) ∧
    (∀ d ∈ (encodeLexdef ld).1, Exact v d None') ∧
    (∀ p t, At v p t → ∃ d ∈ (encodeLexdef ld).1, OccT d t) ∧
    (∀ (j : Nat) d, (encodeLexdef ld).1[j]? = some d → ∃ i, is[j]? = some i ∧ M[i]? = some (firstpos d))
  len : is.length = ld.length

theorem makeDfa_ok (ld : List (List Regexp)) (hc : ∀ cases ∈ ld, ∀ e ∈ cases, CharsOk e) (fuel : Nat) (hf : 2 ^ (classes ld + actions ld) < fuel) :
    ∃ is V, makeDfa fuel ld = some (some (is, V)) ∧ Built ld is V := by
  have L := encodeLexdef_ok ld
  have hP : (encodeLexdef ld).2.2.reverse.length = classes ld := by simp [classes]
  have hN : (encodeLexdef ld).2.1 = actions ld := L.count
  obtain ⟨v, ev, lv, av⟩ := followpos_spec (encodeLexdef ld).2.2.reverse.length (encodeLexdef ld).1 (fun d hd p hp => by
    rw [hP]; exact L.occ d hd p hp)
  have occU : ∀ d ∈ (encodeLexdef ld).1, ∀ t, OccT d t → InU (classes ld) (actions ld) t := by
    intro d hd t ht
    cases t with
    | onChars p => exact L.occ d hd p ht
    | toAction a => exact hN ▸ L.occA d hd a ht
  have tab : TabOk (classes ld) (actions ld) (encodeLexdef ld).2.2.reverse v := by
    refine { lenC := hP, lenV := by rw [lv, hP], byte := fun cl h => L.charsOk hc cl (List.mem_reverse.1 h), srt := followpos_srt _ _ v ev, inU := fun p t h => ?_ }
    obtain ⟨r, hr, hf⟩ := (av p t).1 h
    exact occU r hr t (occT_of_fill _ _ _ hf)
  have mem0 : MemOk (classes ld) (actions ld) { memory := [], todo := [] } [] := by
    refine { nodup := by simp, states := by simp, todo := by simp, cover := by simp, count := rfl }
  obtain ⟨i1, i2, i3, i4⟩ := initialStates_ok (encodeLexdef ld).1 (fun d hd t ht => occU d hd t (occT_of_firstpos _ _ ht)) mem0
  obtain ⟨l, m', e1, x1, hU, c1, o1⟩ := mapOnStates_ok tab fuel i1 (by simpa using hf)
  obtain ⟨V, e2, l2, h2⟩ := store_ok l (List.replicate m'.memory.length (.perform 0)) (fun x hx => by
    obtain ⟨S, hS, -⟩ := o1 x hx
    simpa using (List.getElem?_eq_some_iff.1 hS).1)
  refine ⟨_, V, by simp only [makeDfa, ev, e1, e2]; rfl, ⟨⟨m'.memory, v, fun few => ?_, fun d hd => exact_of_follow _ L.disj v av d hd, fun p t h => ?_, fun j d hj => ?_⟩, by rw [i3, L.len]⟩⟩
  · refine { states := fun i S hi => ?_, inU := hU, few := few }
    have hlt := (List.getElem?_eq_some_iff.1 hi).1
    obtain ⟨a, ha⟩ := (c1 i hlt).resolve_left (by simp)
    obtain ⟨a', h3, h4⟩ := (h2 i).1 ⟨a, ha⟩
    obtain ⟨S', h5, h6⟩ := o1 (a', i) h3
    have : S' = S := by rw [hi] at h5; exact (Option.some.inj h5).symm
    exact ⟨a', h4, this ▸ h6⟩
  · obtain ⟨r, hr, hf⟩ := (av p t).1 h
    exact ⟨r, hr, occT_of_fill _ _ _ hf⟩
  · obtain ⟨i, h3, h4⟩ := i4 j d hj
    exact ⟨i, h3, x1.get h4⟩

theorem mapOnStates_mono (chars : List (List Nat)) (v : List (List Trans)) (fuel k : Nat) (m : Mem) (r : List (Automaton × Nat) × Mem)
    (h : mapOnStates chars v fuel m = some (some r)) : mapOnStates chars v (fuel + k) m = some (some r) := by
  induction fuel generalizing m r with
  | zero => simp [mapOnStates] at h
  | succ fuel ih =>
    rw [Nat.succ_add]
    simp only [mapOnStates] at h ⊢
    cases ht : m.todo with
    | nil => simp only [ht] at h ⊢; exact h
    | cons x rest =>
      obtain ⟨st, i⟩ := x
      simp only [ht] at h ⊢
      cases hs : translateState chars v st { m with todo := rest } with
      | none => simp [hs] at h
      | some y =>
        obtain ⟨res, m1⟩ := y
        simp only [hs] at h ⊢
        cases hm : mapOnStates chars v fuel m1 with
        | none => simp [hm] at h
        | some o =>
          cases o with
          | none => simp [hm] at h
          | some z =>
            rw [ih m1 z hm]
            simp only [hm] at h
            exact h

theorem makeDfa_mono (fuel k : Nat) (ld : List (List Regexp)) (r : List Nat × List Automaton) (h : makeDfa fuel ld = some (some r)) :
    makeDfa (fuel + k) ld = some (some r) := by
  simp only [makeDfa] at h ⊢
  cases hf : followpos (encodeLexdef ld).2.2.reverse.length (encodeLexdef ld).1 with
  | none => simp only [hf] at h; cases h
  | some v =>
    simp only [hf] at h ⊢
    cases hm : mapOnStates (encodeLexdef ld).2.2.reverse v fuel (initialStates (encodeLexdef ld).1 { memory := [], todo := [] }).2 with
    | none => simp [hm] at h
    | some o =>
      cases o with
      | none => simp [hm] at h
      | some z =>
        rw [mapOnStates_mono _ _ fuel k _ z hm]
        simp only [hm] at h
        exact h

theorem built_of_makeDfa (ld : List (List Regexp)) (hc : ∀ cases ∈ ld, ∀ e ∈ cases, CharsOk e) (fuel : Nat) (is : List Nat) (V : List Automaton)
    (h : makeDfa fuel ld = some (some (is, V))) : Built ld is V := by
  obtain ⟨is', V', h', b⟩ := makeDfa_ok ld hc (fuel + (2 ^ (classes ld + actions ld) + 1)) (by omega)
  rw [makeDfa_mono fuel _ ld _ h] at h'
  simp only [Option.some.injEq, Prod.mk.injEq] at h'
  obtain ⟨rfl, rfl⟩ := h'
  exact b

end Mosml.Lex
