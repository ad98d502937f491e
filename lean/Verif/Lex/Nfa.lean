import Verif.Lex.Spec

/-!
C48: the positions automaton (followpos) recognises the regular expressions.
-/
namespace Mosml.Lex

theorem mem_mergeTrans (s1 s2 : List Trans) (t : Trans) : t ∈ mergeTrans s1 s2 ↔ t ∈ s1 ∨ t ∈ s2 := by
  fun_induction mergeTrans s1 s2 <;> simp_all <;> tauto

/-- what `fill` adds to the follow set of `p` -/
def Fill : Deep → Nat → Trans → Prop
  | .seq r1 r2, p, t => Fill r1 p t ∨ Fill r2 p t ∨ (.onChars p ∈ lastpos r1 ∧ t ∈ firstpos r2)
  | .alt r1 r2, p, t => Fill r1 p t ∨ Fill r2 p t
  | .star r, p, t => Fill r p t ∨ (.onChars p ∈ lastpos r ∧ t ∈ firstpos r)
  | _, _, _ => False

/-- the position `p` occurs in the expression -/
def Occ : Deep → Nat → Prop
  | .chars p', p => p = p'
  | .seq r1 r2, p => Occ r1 p ∨ Occ r2 p
  | .alt r1 r2, p => Occ r1 p ∨ Occ r2 p
  | .star r, p => Occ r p
  | _, _ => False

/-- no position occurs twice -/
def Lin : Deep → Prop
  | .seq r1 r2 => Lin r1 ∧ Lin r2 ∧ ∀ p, Occ r1 p → Occ r2 p → False
  | .alt r1 r2 => Lin r1 ∧ Lin r2 ∧ ∀ p, Occ r1 p → Occ r2 p → False
  | .star r => Lin r
  | _ => True

theorem occ_of_lastpos (r : Deep) (p : Nat) (h : Trans.onChars p ∈ lastpos r) : Occ r p := by
  induction r with
  | empty => simp [lastpos] at h
  | chars q => simpa [lastpos, Occ] using h
  | action => simp [lastpos] at h
  | seq r1 r2 i1 i2 =>
    simp only [lastpos] at h
    split at h
    · rw [mem_mergeTrans] at h; exact h.imp i1 i2
    · exact .inr (i2 h)
  | alt r1 r2 i1 i2 => rw [lastpos, mem_mergeTrans] at h; exact h.imp i1 i2
  | star r ih => exact ih h

theorem occ_of_firstpos (r : Deep) (p : Nat) (h : Trans.onChars p ∈ firstpos r) : Occ r p := by
  induction r with
  | empty => simp [firstpos] at h
  | chars q => simpa [firstpos, Occ] using h
  | action => simp [firstpos] at h
  | seq r1 r2 i1 i2 =>
    simp only [firstpos] at h
    split at h
    · rw [mem_mergeTrans] at h; exact h.imp i1 i2
    · exact .inl (i1 h)
  | alt r1 r2 i1 i2 => rw [firstpos, mem_mergeTrans] at h; exact h.imp i1 i2
  | star r ih => exact ih h

theorem occ_of_fill (r : Deep) (p : Nat) (t : Trans) (h : Fill r p t) : Occ r p := by
  induction r with
  | empty => exact h.elim
  | chars => exact h.elim
  | action => exact h.elim
  | seq r1 r2 i1 i2 =>
    rcases h with h | h | h
    · exact .inl (i1 h)
    · exact .inr (i2 h)
    · exact .inl (occ_of_lastpos _ _ h.1)
  | alt r1 r2 i1 i2 => exact h.imp i1 i2
  | star r ih => exact h.elim ih (fun h => occ_of_lastpos _ _ h.1)

/-! #### the follow sets -/

def At (v : List (List Trans)) (p : Nat) (t : Trans) : Prop := ∃ f, v[p]? = some f ∧ t ∈ f

theorem fillPos_spec (first : List Trans) (v : List (List Trans)) (u : Trans) (h : ∀ p, u = .onChars p → p < v.length) :
    ∃ v', fillPos first v u = some v' ∧ v'.length = v.length ∧ ∀ p t, At v' p t ↔ At v p t ∨ (u = .onChars p ∧ t ∈ first) := by
  cases u with
  | toAction a => exact ⟨v, rfl, rfl, by simp⟩
  | onChars q =>
    have hq := h q rfl
    refine ⟨v.set q (mergeTrans first v[q]), by simp [fillPos, hq], by simp, fun p t => ?_⟩
    unfold At
    rw [List.getElem?_set]
    by_cases e : q = p
    · subst e
      simp only [if_true, hq, List.getElem?_eq_getElem, Option.some.injEq, exists_eq_left', true_and, mem_mergeTrans]
      tauto
    · simp [e]

theorem fillAll_spec (first ts : List Trans) (v : List (List Trans)) (h : ∀ p, .onChars p ∈ ts → p < v.length) :
    ∃ v', fillAll first ts v = some v' ∧ v'.length = v.length ∧ ∀ p t, At v' p t ↔ At v p t ∨ (.onChars p ∈ ts ∧ t ∈ first) := by
  induction ts generalizing v with
  | nil => exact ⟨v, rfl, rfl, by simp⟩
  | cons u ts ih =>
    obtain ⟨v1, e1, l1, a1⟩ := fillPos_spec first v u (fun p e => h p (by simp [e]))
    obtain ⟨v2, e2, l2, a2⟩ := ih v1 (fun p hp => by rw [l1]; exact h p (by simp [hp]))
    refine ⟨v2, by simp [fillAll, e1, e2], by omega, fun p t => ?_⟩
    rw [a2, a1, List.mem_cons]
    constructor
    · rintro ((h | h) | h)
      · exact .inl h
      · exact .inr ⟨.inl h.1.symm, h.2⟩
      · exact .inr ⟨.inr h.1, h.2⟩
    · rintro (h | ⟨h | h, h'⟩)
      · exact .inl (.inl h)
      · exact .inl (.inr ⟨h.symm, h'⟩)
      · exact .inr ⟨h, h'⟩

theorem fill_spec (r : Deep) (v : List (List Trans)) (h : ∀ p, Occ r p → p < v.length) :
    ∃ v', fill r v = some v' ∧ v'.length = v.length ∧ ∀ p t, At v' p t ↔ At v p t ∨ Fill r p t := by
  induction r generalizing v with
  | empty => exact ⟨v, rfl, rfl, by simp [Fill]⟩
  | chars => exact ⟨v, rfl, rfl, by simp [Fill]⟩
  | action => exact ⟨v, rfl, rfl, by simp [Fill]⟩
  | seq r1 r2 i1 i2 =>
    obtain ⟨v1, e1, l1, a1⟩ := i1 v (fun p hp => h p (.inl hp))
    obtain ⟨v2, e2, l2, a2⟩ := i2 v1 (fun p hp => by rw [l1]; exact h p (.inr hp))
    obtain ⟨v3, e3, l3, a3⟩ := fillAll_spec (firstpos r2) (lastpos r1) v2 (fun p hp => by
      rw [l2, l1]; exact h p (.inl (occ_of_lastpos _ _ hp)))
    refine ⟨v3, by simp [fill, e1, e2, e3], by omega, fun p t => ?_⟩
    rw [a3, a2, a1, Fill]; tauto
  | alt r1 r2 i1 i2 =>
    obtain ⟨v1, e1, l1, a1⟩ := i1 v (fun p hp => h p (.inl hp))
    obtain ⟨v2, e2, l2, a2⟩ := i2 v1 (fun p hp => by rw [l1]; exact h p (.inr hp))
    refine ⟨v2, by simp [fill, e1, e2], by omega, fun p t => ?_⟩
    rw [a2, a1, Fill]; tauto
  | star r ih =>
    obtain ⟨v1, e1, l1, a1⟩ := ih v h
    obtain ⟨v3, e3, l3, a3⟩ := fillAll_spec (firstpos r) (lastpos r) v1 (fun p hp => by
      rw [l1]; exact h p (occ_of_lastpos _ _ hp))
    refine ⟨v3, by simp [fill, e1, e3], by omega, fun p t => ?_⟩
    rw [a3, a1, Fill]; tauto

theorem fillList_spec (rs : List Deep) (v : List (List Trans)) (h : ∀ r ∈ rs, ∀ p, Occ r p → p < v.length) :
    ∃ v', fillList rs v = some v' ∧ v'.length = v.length ∧ ∀ p t, At v' p t ↔ At v p t ∨ ∃ r ∈ rs, Fill r p t := by
  induction rs generalizing v with
  | nil => exact ⟨v, rfl, rfl, by simp⟩
  | cons r rs ih =>
    obtain ⟨v1, e1, l1, a1⟩ := fill_spec r v (h r (by simp))
    obtain ⟨v2, e2, l2, a2⟩ := ih v1 (fun r hr p hp => by rw [l1]; exact h r (by simp [hr]) p hp)
    refine ⟨v2, by simp [fillList, e1, e2], by omega, fun p t => ?_⟩
    rw [a2, a1]; simp [or_assoc]

theorem followpos_spec (size : Nat) (rs : List Deep) (h : ∀ r ∈ rs, ∀ p, Occ r p → p < size) :
    ∃ v, followpos size rs = some v ∧ v.length = size ∧ ∀ p t, At v p t ↔ ∃ r ∈ rs, Fill r p t := by
  obtain ⟨v, e, l, a⟩ := fillList_spec rs (List.replicate size []) (by simpa using h)
  refine ⟨v, e, by simpa using l, fun p t => ?_⟩
  rw [a]
  constructor
  · rintro (⟨f, hf, ht⟩ | h)
    · rw [List.getElem?_replicate] at hf
      split at hf
      · simp only [Option.some.injEq] at hf; subst hf; simp at ht
      · simp at hf
    · exact h
  · exact .inr

/-! #### continuations -/

/-- the transitions possible before `r` when those of `K` are possible after it -/
def First (r : Deep) (K : Trans → Prop) (t : Trans) : Prop := t ∈ firstpos r ∨ (nullable r = true ∧ K t)

/-- the transitions possible after the position `p` inside `r`, when those of `K` are possible after `r` -/
def Cont : Deep → (Trans → Prop) → Nat → Trans → Prop
  | .empty, _, _, _ => False
  | .action _, _, _, _ => False
  | .chars p', K, p, t => p = p' ∧ K t
  | .seq r1 r2, K, p, t => Cont r1 (First r2 K) p t ∨ Cont r2 K p t
  | .alt r1 r2, K, p, t => Cont r1 K p t ∨ Cont r2 K p t
  | .star r, K, p, t => Cont r (fun t => t ∈ firstpos r ∨ K t) p t

theorem cont_iff (r : Deep) (K : Trans → Prop) (p : Nat) (t : Trans) :
    Cont r K p t ↔ Fill r p t ∨ (.onChars p ∈ lastpos r ∧ K t) := by
  induction r generalizing K with
  | empty => simp [Cont, Fill, lastpos]
  | chars q => simp [Cont, Fill, lastpos]
  | action => simp [Cont, Fill, lastpos]
  | seq r1 r2 i1 i2 =>
    rw [Cont, i1, i2, Fill, lastpos, First]
    cases nullable r2
    · simp; tauto
    · simp [mem_mergeTrans]; tauto
  | alt r1 r2 i1 i2 => rw [Cont, i1, i2, Fill, lastpos, mem_mergeTrans]; tauto
  | star r ih => rw [Cont, ih, Fill, lastpos]; tauto

theorem occ_of_cont (r : Deep) (K : Trans → Prop) (p : Nat) (t : Trans) (h : Cont r K p t) : Occ r p :=
  ((cont_iff r K p t).1 h).elim (occ_of_fill _ _ _) (fun h => occ_of_lastpos _ _ h.1)

/-- the follow sets of the positions of `r` are its continuations -/
def Exact (v : List (List Trans)) (r : Deep) (K : Trans → Prop) : Prop := ∀ p, Occ r p → ∀ t, At v p t ↔ Cont r K p t

section
variable {v : List (List Trans)} {r1 r2 r : Deep} {K : Trans → Prop}

theorem Exact.seq_left (h : Exact v (.seq r1 r2) K) (l : Lin (.seq r1 r2)) : Exact v r1 (First r2 K) := fun p hp t => by
  rw [h p (.inl hp) t, Cont]
  exact ⟨fun h => h.elim id (fun h => (l.2.2 p hp (occ_of_cont _ _ _ _ h)).elim), .inl⟩

theorem Exact.seq_right (h : Exact v (.seq r1 r2) K) (l : Lin (.seq r1 r2)) : Exact v r2 K := fun p hp t => by
  rw [h p (.inr hp) t, Cont]
  exact ⟨fun h => h.elim (fun h => (l.2.2 p (occ_of_cont _ _ _ _ h) hp).elim) id, .inr⟩

theorem Exact.alt_left (h : Exact v (.alt r1 r2) K) (l : Lin (.alt r1 r2)) : Exact v r1 K := fun p hp t => by
  rw [h p (.inl hp) t, Cont]
  exact ⟨fun h => h.elim id (fun h => (l.2.2 p hp (occ_of_cont _ _ _ _ h)).elim), .inl⟩

theorem Exact.alt_right (h : Exact v (.alt r1 r2) K) (l : Lin (.alt r1 r2)) : Exact v r2 K := fun p hp t => by
  rw [h p (.inr hp) t, Cont]
  exact ⟨fun h => h.elim (fun h => (l.2.2 p (occ_of_cont _ _ _ _ h) hp).elim) id, .inr⟩

theorem Exact.star (h : Exact v (.star r) K) : Exact v r (fun t => t ∈ firstpos r ∨ K t) := h

end

/-! #### runs -/

/-- the positions automaton: from `t`, reading the word ends in the action -/
inductive Run (chars : List (List Nat)) (v : List (List Trans)) : Trans → List Nat → Nat → Prop where
  | act (a : Nat) : Run chars v (.toAction a) [] a
  | chr {p cl c t w a} : chars[p]? = some cl → c ∈ cl → At v p t → Run chars v t w a → Run chars v (.onChars p) (c :: w) a

/-- the regular expression of an encoded one -/
def decode (chars : List (List Nat)) : Deep → Regexp
  | .empty => .epsilon
  | .chars p => .characters ((chars[p]?).getD [])
  | .action _ => .epsilon
  | .seq r1 r2 => .sequence (decode chars r1) (decode chars r2)
  | .alt r1 r2 => .alternative (decode chars r1) (decode chars r2)
  | .star r => .repetition (decode chars r)

def NoAction : Deep → Prop
  | .action _ => False
  | .seq r1 r2 => NoAction r1 ∧ NoAction r2
  | .alt r1 r2 => NoAction r1 ∧ NoAction r2
  | .star r => NoAction r
  | _ => True

theorem nullable_matches (chars : List (List Nat)) (r : Deep) (na : NoAction r) : nullable r = true ↔ Matches (decode chars r) [] := by
  induction r with
  | empty => simp [nullable, decode, Matches]
  | chars => simp [nullable, decode, Matches]
  | action => exact na.elim
  | seq r1 r2 i1 i2 =>
    simp only [nullable, Bool.and_eq_true, decode, Matches, i1 na.1, i2 na.2]
    constructor
    · rintro ⟨h1, h2⟩; exact ⟨[], [], rfl, h1, h2⟩
    · rintro ⟨w1, w2, e, h1, h2⟩
      have := List.append_eq_nil_iff.1 e.symm
      rw [this.1] at h1; rw [this.2] at h2; exact ⟨h1, h2⟩
  | alt r1 r2 i1 i2 => simp [nullable, decode, Matches, i1 na.1, i2 na.2]
  | star r => simp only [nullable, decode, Matches, true_iff]; exact .nil

theorem run_sound (chars : List (List Nat)) (v : List (List Trans)) (r : Deep) (K : Trans → Prop) (na : NoAction r) (ex : Exact v r K) (l : Lin r)
    (t : Trans) (w : List Nat) (a : Nat) (ht : t ∈ firstpos r) (run : Run chars v t w a) :
    ∃ w1 w2, w = w1 ++ w2 ∧ w1 ≠ [] ∧ Matches (decode chars r) w1 ∧ ∃ t', K t' ∧ Run chars v t' w2 a := by
  induction r generalizing K t w with
  | empty => simp [firstpos] at ht
  | action => exact na.elim
  | chars p =>
    simp only [firstpos, List.mem_singleton] at ht
    subst ht
    cases run with
    | chr hp hc hat hrun =>
      rename_i cl c t' w'
      refine ⟨[c], w', rfl, by simp, ?_, t', ((ex p rfl t').1 hat).2, hrun⟩
      simp only [decode, Matches, hp, Option.getD_some]; exact ⟨c, hc, rfl⟩
  | alt r1 r2 i1 i2 =>
    rw [firstpos, mem_mergeTrans] at ht
    rcases ht with ht | ht
    · obtain ⟨w1, w2, e, n, m, t', k, h⟩ := i1 _ na.1 (ex.alt_left l) l.1 _ _ ht run
      exact ⟨w1, w2, e, n, .inl m, t', k, h⟩
    · obtain ⟨w1, w2, e, n, m, t', k, h⟩ := i2 _ na.2 (ex.alt_right l) l.2.1 _ _ ht run
      exact ⟨w1, w2, e, n, .inr m, t', k, h⟩
  | seq r1 r2 i1 i2 =>
    have right : ∀ t w, t ∈ firstpos r2 → Run chars v t w a →
        ∃ w1 w2, w = w1 ++ w2 ∧ w1 ≠ [] ∧ Matches (decode chars r2) w1 ∧ ∃ t', K t' ∧ Run chars v t' w2 a :=
      fun t w h1 h2 => i2 _ na.2 (ex.seq_right l) l.2.1 t w h1 h2
    have left : t ∈ firstpos r1 → _ := fun h1 => i1 _ na.1 (ex.seq_left l) l.1 t w h1 run
    rw [firstpos] at ht
    have cases' : t ∈ firstpos r1 ∨ (nullable r1 = true ∧ t ∈ firstpos r2) := by
      split at ht
      · rename_i h; rw [mem_mergeTrans] at ht; exact ht.imp id (fun x => ⟨h, x⟩)
      · exact .inl ht
    rcases cases' with h | ⟨nl, h⟩
    · obtain ⟨w1, w2, e, n, m, t', k, hr⟩ := left h
      rcases k with k | ⟨nl, k⟩
      · obtain ⟨w3, w4, e', n', m', t'', k', hr'⟩ := right _ _ k hr
        exact ⟨w1 ++ w3, w4, by rw [e, e', List.append_assoc], by simp [n], ⟨w1, w3, rfl, m, m'⟩, t'', k', hr'⟩
      · exact ⟨w1, w2, e, n, ⟨w1, [], by simp, m, (nullable_matches chars r2 na.2).1 nl⟩, t', k, hr⟩
    · obtain ⟨w1, w2, e, n, m, t', k, hr⟩ := right _ _ h run
      exact ⟨w1, w2, e, n, ⟨[], w1, rfl, (nullable_matches chars r1 na.1).1 nl, m⟩, t', k, hr⟩
  | star r ih =>
    have step : ∀ n, ∀ t w, w.length ≤ n → t ∈ firstpos r → Run chars v t w a →
        ∃ w1 w2, w = w1 ++ w2 ∧ w1 ≠ [] ∧ StarOf (Matches (decode chars r)) w1 ∧ ∃ t', K t' ∧ Run chars v t' w2 a := by
      intro n
      induction n with
      | zero =>
        intro t w hl ht hr
        obtain ⟨w1, w2, e, n, -⟩ := ih _ na ex.star l t w ht hr
        exfalso
        rw [e] at hl; simp at hl; exact n hl.1
      | succ n ihn =>
        intro t w hl ht hr
        obtain ⟨w1, w2, e, n1, m, t', k, hr'⟩ := ih _ na ex.star l t w ht hr
        rcases k with k | k
        · have hl2 : w2.length ≤ n := by
            have := List.length_pos_iff.2 n1
            rw [e, List.length_append] at hl; omega
          obtain ⟨w3, w4, e', n', m', t'', k', hr''⟩ := ihn t' w2 hl2 k hr'
          exact ⟨w1 ++ w3, w4, by rw [e, e', List.append_assoc], by simp [n1], .cons m m', t'', k', hr''⟩
        · exact ⟨w1, w2, e, n1, by simpa using StarOf.cons m .nil, t', k, hr'⟩
    exact step w.length t w le_rfl ht run

theorem run_complete (chars : List (List Nat)) (v : List (List Trans)) (r : Deep) (K : Trans → Prop) (na : NoAction r) (ex : Exact v r K) (l : Lin r)
    (w1 w2 : List Nat) (a : Nat) (m : Matches (decode chars r) w1) (hK : ∃ t', K t' ∧ Run chars v t' w2 a) :
    ∃ t, First r K t ∧ Run chars v t (w1 ++ w2) a := by
  induction r generalizing K w1 w2 with
  | empty =>
    obtain ⟨t', k, hr⟩ := hK
    simp only [decode, Matches] at m; subst m
    exact ⟨t', .inr ⟨rfl, k⟩, hr⟩
  | action => exact na.elim
  | chars p =>
    obtain ⟨t', k, hr⟩ := hK
    simp only [decode, Matches] at m
    obtain ⟨c, hc, rfl⟩ := m
    refine ⟨.onChars p, .inl (by simp [firstpos]), ?_⟩
    cases hp : chars[p]? with
    | none => simp [hp] at hc
    | some cl => exact .chr hp (by simpa [hp] using hc) ((ex p rfl t').2 ⟨rfl, k⟩) hr
  | alt r1 r2 i1 i2 =>
    rcases m with m | m
    · obtain ⟨t, ht, hr⟩ := i1 _ na.1 (ex.alt_left l) l.1 w1 w2 m hK
      refine ⟨t, ?_, hr⟩
      rcases ht with ht | ⟨n, k⟩
      · exact .inl (by rw [firstpos, mem_mergeTrans]; exact .inl ht)
      · exact .inr ⟨by simp [nullable, n], k⟩
    · obtain ⟨t, ht, hr⟩ := i2 _ na.2 (ex.alt_right l) l.2.1 w1 w2 m hK
      refine ⟨t, ?_, hr⟩
      rcases ht with ht | ⟨n, k⟩
      · exact .inl (by rw [firstpos, mem_mergeTrans]; exact .inr ht)
      · exact .inr ⟨by simp [nullable, n], k⟩
  | seq r1 r2 i1 i2 =>
    obtain ⟨u1, u2, rfl, m1, m2⟩ := m
    obtain ⟨t2, ht2, hr2⟩ := i2 _ na.2 (ex.seq_right l) l.2.1 u2 w2 m2 hK
    obtain ⟨t1, ht1, hr1⟩ := i1 _ na.1 (ex.seq_left l) l.1 u1 (u2 ++ w2) m1 ⟨t2, ht2, hr2⟩
    refine ⟨t1, ?_, by rw [List.append_assoc]; exact hr1⟩
    rcases ht1 with h | ⟨n, h | ⟨n', k⟩⟩
    · left; rw [firstpos]; split
      · rw [mem_mergeTrans]; exact .inl h
      · exact h
    · left; rw [firstpos, n]; simp only [if_true, mem_mergeTrans]; exact .inr h
    · right; exact ⟨by simp [nullable, n, n'], k⟩
  | star r ih =>
    simp only [decode, Matches] at m
    induction m with
    | nil =>
      obtain ⟨t', k, hr⟩ := hK
      exact ⟨t', .inr ⟨rfl, k⟩, hr⟩
    | cons m1 _ ih2 =>
      rename_i u1 u2 _
      obtain ⟨t, ht, hr⟩ := ih2
      have ht' : t ∈ firstpos r ∨ K t := ht.imp id (fun h => h.2)
      obtain ⟨t1, ht1, hr1⟩ := ih _ na ex.star l u1 (u2 ++ w2) m1 ⟨t, ht', hr⟩
      refine ⟨t1, ?_, by rw [List.append_assoc]; exact hr1⟩
      rcases ht1 with h | ⟨-, h | k⟩
      · exact .inl h
      · exact .inl h
      · exact .inr ⟨rfl, k⟩

end Mosml.Lex
