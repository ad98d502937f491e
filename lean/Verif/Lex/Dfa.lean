import Verif.Lex.Encode
import Mathlib.Data.List.Sort
import Mathlib.Data.List.Sublists

/-!
C48: the subset construction: it ends, and its table follows the positions automaton.
-/
namespace Mosml.Lex

/-! #### order -/

def TLt : Trans → Trans → Prop
  | .onChars a, .onChars b => a < b
  | .toAction a, .toAction b => a < b
  | .onChars _, .toAction _ => True
  | .toAction _, .onChars _ => False

theorem TLt.trans {a b c : Trans} (h1 : TLt a b) (h2 : TLt b c) : TLt a c := by
  cases a <;> cases b <;> cases c <;> simp_all [TLt] <;> omega

theorem TLt.irrefl (a : Trans) : ¬ TLt a a := by cases a <;> simp [TLt]

instance : Std.Antisymm TLt := ⟨fun _ _ h1 h2 => (TLt.irrefl _ (h1.trans h2)).elim⟩
instance : Std.Irrefl TLt := ⟨TLt.irrefl⟩

abbrev Srt (l : List Trans) : Prop := l.Pairwise TLt

theorem srt_cons_merge {t : Trans} {a b : List Trans} (h1 : ∀ x ∈ a, TLt t x) (h2 : ∀ x ∈ b, TLt t x) (h : Srt (mergeTrans a b)) : Srt (t :: mergeTrans a b) := by
  refine List.pairwise_cons.2 ⟨fun x hx => ?_, h⟩
  exact ((mem_mergeTrans _ _ _).1 hx).elim (h1 x) (h2 x)

theorem mem_tail_lt {t u : Trans} {l : List Trans} (h : TLt t u) (hs : Srt (u :: l)) : ∀ x ∈ u :: l, TLt t x := by
  intro x hx
  rcases List.mem_cons.1 hx with rfl | hx
  · exact h
  · exact h.trans ((List.pairwise_cons.1 hs).1 x hx)

theorem mergeTrans_srt (a b : List Trans) (ha : Srt a) (hb : Srt b) : Srt (mergeTrans a b) := by
  fun_induction mergeTrans a b with
  | case1 => exact hb
  | case2 => exact ha
  | case3 r1 r2 n ih =>
    have ha' := List.pairwise_cons.1 ha
    have hb' := List.pairwise_cons.1 hb
    exact srt_cons_merge ha'.1 hb'.1 (ih ha'.2 hb'.2)
  | case4 r1 r2 n1 n2 _ h ih =>
    have ha' := List.pairwise_cons.1 ha
    exact srt_cons_merge ha'.1 (mem_tail_lt h hb) (ih ha'.2 hb)
  | case5 r1 r2 n1 n2 h1 h2 ih =>
    have hb' := List.pairwise_cons.1 hb
    exact srt_cons_merge (mem_tail_lt (show n2 < n1 by omega) ha) hb'.1 (ih ha hb'.2)
  | case6 r1 r2 n ih =>
    have ha' := List.pairwise_cons.1 ha
    have hb' := List.pairwise_cons.1 hb
    exact srt_cons_merge ha'.1 hb'.1 (ih ha'.2 hb'.2)
  | case7 r1 r2 n1 n2 _ h ih =>
    have ha' := List.pairwise_cons.1 ha
    exact srt_cons_merge ha'.1 (mem_tail_lt h hb) (ih ha'.2 hb)
  | case8 r1 r2 n1 n2 h1 h2 ih =>
    have hb' := List.pairwise_cons.1 hb
    exact srt_cons_merge (mem_tail_lt (show n2 < n1 by omega) ha) hb'.1 (ih ha hb'.2)
  | case9 r1 r2 n1 n2 ih =>
    have ha' := List.pairwise_cons.1 ha
    exact srt_cons_merge ha'.1 (mem_tail_lt (by trivial) hb) (ih ha'.2 hb)
  | case10 r1 r2 n1 n2 ih =>
    have hb' := List.pairwise_cons.1 hb
    exact srt_cons_merge (mem_tail_lt (by trivial) ha) hb'.1 (ih ha hb'.2)

theorem firstpos_srt (r : Deep) : Srt (firstpos r) := by
  induction r with
  | empty => simp [firstpos]
  | chars => simp [firstpos]
  | action => simp [firstpos]
  | seq r1 r2 i1 i2 =>
    rw [firstpos]; split
    · exact mergeTrans_srt _ _ i1 i2
    · exact i1
  | alt r1 r2 i1 i2 => exact mergeTrans_srt _ _ i1 i2
  | star r ih => exact ih

theorem fillAll_srt (first ts : List Trans) (v v' : List (List Trans)) (hf : Srt first) (hv : ∀ f ∈ v, Srt f) (h : fillAll first ts v = some v') :
    ∀ f ∈ v', Srt f := by
  induction ts generalizing v with
  | nil => simp only [fillAll, Option.some.injEq] at h; subst h; exact hv
  | cons t ts ih =>
    simp only [fillAll] at h
    cases ht : fillPos first v t with
    | none => simp [ht] at h
    | some v1 =>
      simp only [ht] at h
      refine ih v1 ?_ h
      cases t with
      | toAction => simp only [fillPos, Option.some.injEq] at ht; subst ht; exact hv
      | onChars p =>
        simp only [fillPos] at ht
        cases hp : v[p]? with
        | none => simp [hp] at ht
        | some f =>
          simp only [hp, Option.some.injEq] at ht
          subst ht
          intro g hg
          rcases List.mem_or_eq_of_mem_set hg with hg | rfl
          · exact hv g hg
          · exact mergeTrans_srt _ _ hf (hv f (List.mem_of_getElem? hp))

theorem fill_srt (r : Deep) (v v' : List (List Trans)) (hv : ∀ f ∈ v, Srt f) (h : fill r v = some v') : ∀ f ∈ v', Srt f := by
  induction r generalizing v v' with
  | empty => simp only [fill, Option.some.injEq] at h; subst h; exact hv
  | chars => simp only [fill, Option.some.injEq] at h; subst h; exact hv
  | action => simp only [fill, Option.some.injEq] at h; subst h; exact hv
  | seq r1 r2 i1 i2 =>
    simp only [fill, bind, Option.bind_eq_some_iff] at h
    obtain ⟨v1, h1, v2, h2, h3⟩ := h
    exact fillAll_srt _ _ _ _ (firstpos_srt r2) (i2 _ _ (i1 _ _ hv h1) h2) h3
  | alt r1 r2 i1 i2 =>
    simp only [fill, bind, Option.bind_eq_some_iff] at h
    obtain ⟨v1, h1, h2⟩ := h
    exact i2 _ _ (i1 _ _ hv h1) h2
  | star r ih =>
    simp only [fill, bind, Option.bind_eq_some_iff] at h
    obtain ⟨v1, h1, h2⟩ := h
    exact fillAll_srt _ _ _ _ (firstpos_srt r) (ih _ _ hv h1) h2

theorem fillList_srt (rs : List Deep) (v v' : List (List Trans)) (hv : ∀ f ∈ v, Srt f) (h : fillList rs v = some v') : ∀ f ∈ v', Srt f := by
  induction rs generalizing v with
  | nil => simp only [fillList, Option.some.injEq] at h; subst h; exact hv
  | cons r rs ih =>
    simp only [fillList] at h
    cases hr : fill r v with
    | none => simp [hr] at h
    | some v1 =>
      simp only [hr] at h
      exact ih v1 (fill_srt r v v1 hv hr) h

theorem followpos_srt (size : Nat) (rs : List Deep) (v : List (List Trans)) (h : followpos size rs = some v) : ∀ f ∈ v, Srt f :=
  fillList_srt rs _ v (fun f hf => by rw [(List.mem_replicate.1 hf).2]; exact List.Pairwise.nil) h

/-! #### the bound -/

/-- the transitions of `P` positions and `N` actions -/
def universe' (P N : Nat) : List Trans := (List.range P).map .onChars ++ (List.range N).map .toAction

def InU (P N : Nat) : Trans → Prop
  | .onChars p => p < P
  | .toAction a => a < N

theorem mem_universe (P N : Nat) (t : Trans) : t ∈ universe' P N ↔ InU P N t := by
  cases t <;> simp [universe', InU]

theorem universe_srt (P N : Nat) : Srt (universe' P N) := by
  unfold universe' Srt
  rw [List.pairwise_append]
  refine ⟨?_, ?_, ?_⟩
  · rw [List.pairwise_map]; exact List.pairwise_lt_range
  · rw [List.pairwise_map]; exact List.pairwise_lt_range
  · simp only [List.mem_map, forall_exists_index, and_imp]
    rintro _ x _ rfl _ y _ rfl
    trivial

theorem states_bound (P N : Nat) (M : List (List Trans)) (nd : M.Nodup) (h : ∀ S ∈ M, Srt S ∧ ∀ t ∈ S, InU P N t) : M.length ≤ 2 ^ (P + N) := by
  have sub : M ⊆ (universe' P N).sublists := by
    intro S hS
    rw [List.mem_sublists]
    obtain ⟨h1, h2⟩ := h S hS
    exact List.sublist_of_subperm_of_pairwise (List.subperm_of_subset h1.nodup (fun t ht => (mem_universe P N t).2 (h2 t ht))) h1 (universe_srt P N)
  have := (List.subperm_of_subset nd sub).length_le
  rw [List.length_sublists] at this
  simpa [universe'] using this

/-! #### one state -/

theorem splitTransSet_spec (S : List Trans) :
    (∀ p, p ∈ (splitTransSet S).2 ↔ .onChars p ∈ S) ∧ (∀ a, .toAction a ∈ S → (splitTransSet S).1 ≤ a) ∧
    ((splitTransSet S).1 = noAction ∨ .toAction (splitTransSet S).1 ∈ S) := by
  unfold splitTransSet
  suffices h : ∀ (n0 : Nat) (ps0 : List Nat), let r := S.foldl (fun (x : Nat × List Nat) t => match t with
      | .onChars pos => (x.1, pos :: x.2)
      | .toAction act1 => if act1 < x.1 then (act1, x.2) else (x.1, x.2)) (n0, ps0)
      (∀ p, p ∈ r.2 ↔ p ∈ ps0 ∨ .onChars p ∈ S) ∧ (∀ a, .toAction a ∈ S → r.1 ≤ a) ∧ r.1 ≤ n0 ∧ (r.1 = n0 ∨ .toAction r.1 ∈ S) by
    obtain ⟨h1, h2, h3, h4⟩ := h noAction []
    exact ⟨fun p => (h1 p).trans ⟨fun h => h.elim (fun h => absurd h List.not_mem_nil) id, .inr⟩, h2, h4⟩
  induction S with
  | nil => intro n0 ps0; simp
  | cons t S ih =>
    intro n0 ps0
    cases t with
    | onChars q =>
      obtain ⟨h1, h2, h3, h4⟩ := ih n0 (q :: ps0)
      refine ⟨fun p => ?_, fun a ha => ?_, h3, ?_⟩
      · show p ∈ (List.foldl _ (n0, q :: ps0) S).2 ↔ _
        rw [h1]; simp; tauto
      · exact h2 a (by simpa using ha)
      · exact h4.imp id (fun h => by simp only [List.mem_cons]; exact .inr h)
    | toAction b =>
      by_cases hb : b < n0
      · obtain ⟨h1, h2, h3, h4⟩ := ih b ps0
        have e : List.foldl (fun (x : Nat × List Nat) t => match t with
          | .onChars pos => (x.1, pos :: x.2)
          | .toAction act1 => if act1 < x.1 then (act1, x.2) else (x.1, x.2)) (n0, ps0) (.toAction b :: S) =
          List.foldl (fun (x : Nat × List Nat) t => match t with
          | .onChars pos => (x.1, pos :: x.2)
          | .toAction act1 => if act1 < x.1 then (act1, x.2) else (x.1, x.2)) (b, ps0) S := by simp [hb]
        simp only [e]
        refine ⟨fun p => ?_, fun a ha => ?_, by omega, ?_⟩
        · rw [h1]; simp
        · rcases List.mem_cons.1 ha with h | h
          · cases h; exact h3
          · exact h2 a h
        · right
          rcases h4 with h | h
          · rw [h]; simp
          · simp only [List.mem_cons]; exact .inr h
      · obtain ⟨h1, h2, h3, h4⟩ := ih n0 ps0
        have e : List.foldl (fun (x : Nat × List Nat) t => match t with
          | .onChars pos => (x.1, pos :: x.2)
          | .toAction act1 => if act1 < x.1 then (act1, x.2) else (x.1, x.2)) (n0, ps0) (.toAction b :: S) =
          List.foldl (fun (x : Nat × List Nat) t => match t with
          | .onChars pos => (x.1, pos :: x.2)
          | .toAction act1 => if act1 < x.1 then (act1, x.2) else (x.1, x.2)) (n0, ps0) S := by simp [hb]
        simp only [e]
        refine ⟨fun p => ?_, fun a ha => ?_, h3, ?_⟩
        · rw [h1]; simp
        · rcases List.mem_cons.1 ha with h | h
          · cases h; omega
          · exact h2 a h
        · exact h4.imp id (fun h => by simp only [List.mem_cons]; exact .inr h)

/-- the transitions possible after reading `c` from the set `S` -/
def Delta (chars : List (List Nat)) (v : List (List Trans)) (S : List Trans) (c : Nat) (t : Trans) : Prop :=
  ∃ p, .onChars p ∈ S ∧ ∃ cl, chars[p]? = some cl ∧ c ∈ cl ∧ At v p t

theorem addChars_spec (f : List Trans) (cl : List Nat) (tr : List (List Trans)) (h : ∀ c ∈ cl, c < tr.length) (hf : Srt f) (hs : ∀ g ∈ tr, Srt g) :
    ∃ tr', addChars f cl tr = some tr' ∧ tr'.length = tr.length ∧ (∀ g ∈ tr', Srt g) ∧ ∀ c t, At tr' c t ↔ At tr c t ∨ (c ∈ cl ∧ t ∈ f) := by
  induction cl generalizing tr with
  | nil => exact ⟨tr, rfl, rfl, hs, by simp⟩
  | cons d cl ih =>
    have hd := h d (by simp)
    obtain ⟨tr', e, l, s, a⟩ := ih (tr.set d (mergeTrans tr[d] f)) (fun c hc => by rw [List.length_set]; exact h c (by simp [hc])) (fun g hg => by
      rcases List.mem_or_eq_of_mem_set hg with hg | rfl
      · exact hs g hg
      · exact mergeTrans_srt _ _ (hs _ (List.getElem_mem hd)) hf)
    refine ⟨tr', by simp [addChars, addChar, hd, e], by simpa using l, s, fun c t => ?_⟩
    rw [a]
    unfold At
    rw [List.getElem?_set]
    by_cases e : d = c
    · subst e
      simp only [if_true, hd, List.getElem?_eq_getElem, Option.some.injEq, exists_eq_left', mem_mergeTrans, List.mem_cons, true_or, true_and]
      tauto
    · have : c ≠ d := fun h => e h.symm
      simp [e, this]

theorem addPositions_spec (chars : List (List Nat)) (v : List (List Trans)) (ps : List Nat) (tr : List (List Trans)) (hl : v.length = chars.length)
    (hp : ∀ p ∈ ps, p < chars.length) (hc : ∀ cl ∈ chars, ∀ c ∈ cl, c < tr.length) (hv : ∀ f ∈ v, Srt f) (hs : ∀ g ∈ tr, Srt g) :
    ∃ tr', addPositions chars v ps tr = some tr' ∧ tr'.length = tr.length ∧ (∀ g ∈ tr', Srt g) ∧
      ∀ c t, At tr' c t ↔ At tr c t ∨ ∃ p ∈ ps, ∃ cl, chars[p]? = some cl ∧ c ∈ cl ∧ At v p t := by
  induction ps generalizing tr with
  | nil => exact ⟨tr, rfl, rfl, hs, by simp⟩
  | cons p ps ih =>
    have h1 := hp p (by simp)
    have h2 : p < v.length := by omega
    obtain ⟨tr1, e1, l1, s1, a1⟩ := addChars_spec v[p] chars[p] tr (hc _ (List.getElem_mem h1)) (hv _ (List.getElem_mem h2)) hs
    obtain ⟨tr2, e2, l2, s2, a2⟩ := ih tr1 (fun q hq => hp q (by simp [hq])) (fun cl h c hcl => by rw [l1]; exact hc cl h c hcl) s1
    refine ⟨tr2, by simp [addPositions, h1, h2, e1, e2], by omega, s2, fun c t => ?_⟩
    rw [a2, a1]
    have : (∃ cl, chars[p]? = some cl ∧ c ∈ cl ∧ At v p t) ↔ (c ∈ chars[p] ∧ t ∈ v[p]) := by
      simp [At, List.getElem?_eq_getElem h1, List.getElem?_eq_getElem h2]
    simp only [List.mem_cons, exists_eq_or_imp, this]
    tauto

/-! #### the memory of states -/

/-- `M'` continues `M` -/
def Ext (M M' : List (List Trans)) : Prop := ∃ new, M' = M ++ new

theorem Ext.refl (M : List (List Trans)) : Ext M M := ⟨[], by simp⟩
theorem Ext.trans {A B C : List (List Trans)} (h1 : Ext A B) (h2 : Ext B C) : Ext A C := by
  obtain ⟨x, rfl⟩ := h1; obtain ⟨y, rfl⟩ := h2; exact ⟨x ++ y, by simp⟩
theorem Ext.get {A B : List (List Trans)} (h : Ext A B) {i : Nat} {S : List Trans} (hi : A[i]? = some S) : B[i]? = some S := by
  obtain ⟨x, rfl⟩ := h
  rw [List.getElem?_append_left (List.getElem?_eq_some_iff.1 hi).1]; exact hi

/-- the invariant of the memory; `done` are the numbers of the states already translated -/
structure MemOk (P N : Nat) (m : Mem) (done : List Nat) : Prop where
  nodup : m.memory.Nodup
  states : ∀ S ∈ m.memory, Srt S ∧ ∀ t ∈ S, InU P N t
  todo : ∀ x ∈ m.todo, m.memory[x.2]? = some x.1
  cover : ∀ i < m.memory.length, i ∈ done ∨ ∃ S, (S, i) ∈ m.todo
  count : m.todo.length + done.length = m.memory.length

theorem getState_ok {P N : Nat} {m : Mem} {done : List Nat} (h : MemOk P N m done) (S : List Trans) (hS : Srt S ∧ ∀ t ∈ S, InU P N t) :
    MemOk P N (getState m S).2 done ∧ Ext m.memory (getState m S).2.memory ∧ (getState m S).2.memory[(getState m S).1]? = some S := by
  unfold getState
  by_cases hm : S ∈ m.memory
  · simp only [hm, if_true]
    refine ⟨h, Ext.refl _, ?_⟩
    have := List.idxOf_lt_length_of_mem hm
    rw [List.getElem?_eq_getElem this, List.getElem_idxOf]
  · simp only [hm, if_false]
    refine ⟨?_, ⟨[S], rfl⟩, by simp⟩
    refine { nodup := ?_, states := ?_, todo := ?_, cover := ?_, count := ?_ }
    · rw [List.nodup_append]
      refine ⟨h.nodup, by simp, fun a ha b hb => ?_⟩
      rw [List.mem_singleton] at hb
      subst hb
      intro e; exact hm (e ▸ ha)
    · intro S' hS'
      rcases List.mem_append.1 hS' with h' | h'
      · exact h.states S' h'
      · rw [List.mem_singleton] at h'; rw [h']; exact hS
    · intro x hx
      rcases List.mem_cons.1 hx with rfl | hx
      · simp
      · exact Ext.get ⟨[S], rfl⟩ (h.todo x hx)
    · intro i hi
      rw [List.length_append, List.length_singleton] at hi
      by_cases e : i < m.memory.length
      · exact (h.cover i e).imp id (fun ⟨S, hS⟩ => ⟨S, by simp [hS]⟩)
      · exact .inr ⟨S, by simp; left; omega⟩
    · have := h.count
      simp only [List.length_cons, List.length_append, List.length_nil]; omega

/-- a move leads to the set of the transitions that satisfy `D` -/
def MoveOk (M : List (List Trans)) (D : Trans → Prop) : Move → Prop
  | .backtrack => ∀ t, ¬ D t
  | .goto d => ∃ S, M[d]? = some S ∧ S ≠ [] ∧ ∀ t, t ∈ S ↔ D t

theorem MoveOk.ext {M M' : List (List Trans)} {D : Trans → Prop} {mv : Move} (h : MoveOk M D mv) (e : Ext M M') : MoveOk M' D mv := by
  cases mv with
  | backtrack => exact h
  | goto d => obtain ⟨S, h1, h2, h3⟩ := h; exact ⟨S, e.get h1, h2, h3⟩

theorem gotoState_ok {P N : Nat} {m : Mem} {done : List Nat} (h : MemOk P N m done) (S : List Trans) (hS : Srt S ∧ ∀ t ∈ S, InU P N t) :
    MemOk P N (gotoState m S).2 done ∧ Ext m.memory (gotoState m S).2.memory ∧ MoveOk (gotoState m S).2.memory (· ∈ S) (gotoState m S).1 := by
  cases S with
  | nil => exact ⟨h, Ext.refl _, by simp [gotoState, MoveOk]⟩
  | cons t ts =>
    obtain ⟨h1, h2, h3⟩ := getState_ok h (t :: ts) hS
    exact ⟨h1, h2, t :: ts, h3, by simp, fun _ => Iff.rfl⟩

theorem shiftLoop_ok {P N : Nat} {done : List Nat} (tr : List (List Trans)) (hS : ∀ S ∈ tr, Srt S ∧ ∀ t ∈ S, InU P N t) {m : Mem} (h : MemOk P N m done) :
    MemOk P N (shiftLoop tr m).2 done ∧ Ext m.memory (shiftLoop tr m).2.memory ∧ (shiftLoop tr m).1.length = tr.length ∧
      ∀ (c : Nat) (S : List Trans), tr[c]? = some S → ∃ mv, (shiftLoop tr m).1[c]? = some mv ∧ MoveOk (shiftLoop tr m).2.memory (· ∈ S) mv := by
  induction tr generalizing m with
  | nil => exact ⟨h, Ext.refl _, rfl, by simp⟩
  | cons S tr ih =>
    obtain ⟨g1, g2, g3⟩ := gotoState_ok h S (hS S (by simp))
    obtain ⟨i1, i2, i3, i4⟩ := ih (fun S h => hS S (by simp [h])) g1
    have e1 : (shiftLoop (S :: tr) m).2 = (shiftLoop tr (gotoState m S).2).2 := rfl
    have e2 : (shiftLoop (S :: tr) m).1 = (gotoState m S).1 :: (shiftLoop tr (gotoState m S).2).1 := rfl
    rw [e1, e2]
    refine ⟨i1, g2.trans i2, by simp [i3], fun c S' hc => ?_⟩
    cases c with
    | zero =>
      simp only [List.getElem?_cons_zero, Option.some.injEq] at hc
      subst hc
      exact ⟨_, rfl, g3.ext i2⟩
    | succ c => exact i4 c S' (by simpa using hc)

/-- the automaton state of a set of transitions -/
def StateOk (chars : List (List Nat)) (v M : List (List Trans)) (S : List Trans) : Automaton → Prop
  | .perform n => n = (splitTransSet S).1 ∧ (splitTransSet S).2 = []
  | .shift rem mvs => rem = (if (splitTransSet S).1 = noAction then none else some (splitTransSet S).1) ∧ (splitTransSet S).2 ≠ [] ∧
      ∀ c < 256, ∃ mv, mvs[c]? = some mv ∧ MoveOk M (Delta chars v S c) mv

theorem StateOk.ext {chars : List (List Nat)} {v M M' : List (List Trans)} {S : List Trans} {a : Automaton} (h : StateOk chars v M S a) (e : Ext M M') :
    StateOk chars v M' S a := by
  cases a with
  | perform => exact h
  | shift rem mvs => exact ⟨h.1, h.2.1, fun c hc => let ⟨mv, h1, h2⟩ := h.2.2 c hc; ⟨mv, h1, h2.ext e⟩⟩

structure TabOk (P N : Nat) (chars : List (List Nat)) (v : List (List Trans)) : Prop where
  lenC : chars.length = P
  lenV : v.length = P
  byte : ∀ cl ∈ chars, ∀ c ∈ cl, c < 256
  srt : ∀ f ∈ v, Srt f
  inU : ∀ p t, At v p t → InU P N t

theorem translateState_ok {P N : Nat} {chars : List (List Nat)} {v : List (List Trans)} (tab : TabOk P N chars v) {m : Mem} {done : List Nat} (h : MemOk P N m done)
    (S : List Trans) (hS : ∀ t ∈ S, InU P N t) :
    ∃ a m', translateState chars v S m = some (a, m') ∧ MemOk P N m' done ∧ Ext m.memory m'.memory ∧ StateOk chars v m'.memory S a := by
  unfold translateState
  obtain ⟨sp, -, -⟩ := splitTransSet_spec S
  rcases hs : splitTransSet S with ⟨n, ps⟩
  cases ps with
  | nil => exact ⟨_, _, rfl, h, Ext.refl _, by simp [StateOk, hs]⟩
  | cons p ps =>
    rw [hs] at sp
    obtain ⟨tr, e1, l1, s1, a1⟩ := addPositions_spec chars v (p :: ps) (List.replicate 256 []) (by rw [tab.lenV, tab.lenC])
      (fun q hq => by rw [tab.lenC]; exact hS _ ((sp q).1 hq)) (by rw [List.length_replicate]; exact tab.byte) tab.srt
      (fun g hg => by rw [(List.mem_replicate.1 hg).2]; exact List.Pairwise.nil)
    have a2 : ∀ c t, At tr c t ↔ Delta chars v S c t := by
      intro c t
      rw [a1]
      have : ¬ At (List.replicate 256 []) c t := by
        rintro ⟨f, hf, ht⟩
        rw [(List.mem_replicate.1 (List.mem_of_getElem? hf)).2] at ht
        simp at ht
      unfold Delta
      simp only [this, false_or]
      exact ⟨fun ⟨q, hq, x⟩ => ⟨q, (sp q).1 hq, x⟩, fun ⟨q, hq, x⟩ => ⟨q, (sp q).2 hq, x⟩⟩
    obtain ⟨i1, i2, i3, i4⟩ := shiftLoop_ok tr (fun T hT => ⟨s1 T hT, fun t ht => by
      obtain ⟨c, hc, e⟩ := List.mem_iff_getElem.1 hT
      have : At tr c t := ⟨T, by rw [List.getElem?_eq_getElem hc, e], ht⟩
      obtain ⟨q, -, cl, -, -, hat⟩ := (a2 c t).1 this
      exact tab.inU q t hat⟩) h
    simp only [transitionFrom, e1]
    refine ⟨_, _, rfl, i1, i2, by rw [hs], by simp [hs], fun c hc => ?_⟩
    have hc' : c < tr.length := by rw [l1, List.length_replicate]; exact hc
    obtain ⟨mv, m1, m2⟩ := i4 c _ (List.getElem?_eq_getElem hc')
    refine ⟨mv, m1, ?_⟩
    have : Delta chars v S c = (· ∈ tr[c]) := by
      funext t
      rw [← a2 c t]
      simp [At, List.getElem?_eq_getElem hc']
    rw [this]; exact m2

theorem mapOnStates_ok {P N : Nat} {chars : List (List Nat)} {v : List (List Trans)} (tab : TabOk P N chars v) (fuel : Nat) {m : Mem} {done : List Nat}
    (h : MemOk P N m done) (hf : 2 ^ (P + N) < fuel + done.length) :
    ∃ l m', mapOnStates chars v fuel m = some (some (l, m')) ∧ Ext m.memory m'.memory ∧
      (∀ S ∈ m'.memory, ∀ t ∈ S, InU P N t) ∧ (∀ i < m'.memory.length, i ∈ done ∨ ∃ a, (a, i) ∈ l) ∧
      (∀ x ∈ l, ∃ S, m'.memory[x.2]? = some S ∧ StateOk chars v m'.memory S x.1) := by
  induction fuel generalizing m done with
  | zero =>
    exfalso
    have := states_bound P N m.memory h.nodup h.states
    have := h.count
    omega
  | succ fuel ih =>
    rcases ht : m.todo with _ | ⟨⟨S, i⟩, r⟩
    · refine ⟨[], m, by simp [mapOnStates, ht], Ext.refl _, fun S hS => (h.states S hS).2, fun i hi => ?_, by simp⟩
      have := h.cover i hi
      simpa [ht] using this
    · have hi := h.todo (S, i) (by simp [ht])
      have hiS : S ∈ m.memory := List.mem_of_getElem? hi
      have h' : MemOk P N { m with todo := r } (i :: done) := by
        refine { nodup := h.nodup, states := h.states, todo := ?_, cover := ?_, count := ?_ }
        · intro x hx; exact h.todo x (by simp only [ht, List.mem_cons]; exact .inr hx)
        · intro k hk
          rcases h.cover k hk with hd | ⟨S', hS'⟩
          · exact .inl (by simp [hd])
          · rw [ht, List.mem_cons] at hS'
            rcases hS' with e | e
            · left; cases e; simp
            · exact .inr ⟨S', e⟩
        · have := h.count
          rw [ht] at this
          simp only [List.length_cons] at this ⊢
          omega
      obtain ⟨a, m1, e1, k1, x1, o1⟩ := translateState_ok tab h' S (h.states S hiS).2
      obtain ⟨l, m2, e2, x2, u2, c2, o2⟩ := ih k1 (by simp only [List.length_cons]; omega)
      refine ⟨(a, i) :: l, m2, by simp [mapOnStates, ht, e1, e2], x1.trans x2, u2, fun k hk => ?_, fun x hx => ?_⟩
      · rcases c2 k hk with hd | ⟨b, hb⟩
        · rcases List.mem_cons.1 hd with rfl | hd
          · exact .inr ⟨a, by simp⟩
          · exact .inl hd
        · exact .inr ⟨b, by simp [hb]⟩
      · rcases List.mem_cons.1 hx with rfl | hx
        · exact ⟨S, (x1.trans x2).get hi, o1.ext x2⟩
        · exact o2 x hx

theorem initialStates_ok {P N : Nat} (ds : List Deep) (hd : ∀ d ∈ ds, ∀ t ∈ firstpos d, InU P N t) {m : Mem} (h : MemOk P N m []) :
    MemOk P N (initialStates ds m).2 [] ∧ Ext m.memory (initialStates ds m).2.memory ∧ (initialStates ds m).1.length = ds.length ∧
      ∀ (j : Nat) (d : Deep), ds[j]? = some d → ∃ i, (initialStates ds m).1[j]? = some i ∧ (initialStates ds m).2.memory[i]? = some (firstpos d) := by
  induction ds with
  | nil => exact ⟨h, Ext.refl _, rfl, by simp⟩
  | cons d ds ih =>
    obtain ⟨i1, i2, i3, i4⟩ := ih (fun d h => hd d (by simp [h]))
    obtain ⟨g1, g2, g3⟩ := getState_ok i1 (firstpos d) ⟨firstpos_srt d, hd d (by simp)⟩
    have e1 : (initialStates (d :: ds) m).2 = (getState (initialStates ds m).2 (firstpos d)).2 := rfl
    have e2 : (initialStates (d :: ds) m).1 = (getState (initialStates ds m).2 (firstpos d)).1 :: (initialStates ds m).1 := rfl
    rw [e1, e2]
    refine ⟨g1, i2.trans g2, by simp [i3], fun j d' hj => ?_⟩
    cases j with
    | zero =>
      simp only [List.getElem?_cons_zero, Option.some.injEq] at hj
      subst hj
      exact ⟨_, rfl, g3⟩
    | succ j =>
      obtain ⟨i, h1, h2⟩ := i4 j d' (by simpa using hj)
      exact ⟨i, by simpa using h1, g2.get h2⟩

theorem store_ok (l : List (Automaton × Nat)) (V : List Automaton) (h : ∀ x ∈ l, x.2 < V.length) :
    ∃ V', store l V = some V' ∧ V'.length = V.length ∧
      ∀ i, ((∃ a, (a, i) ∈ l) → ∃ a, (a, i) ∈ l ∧ V'[i]? = some a) ∧ ((∀ a, (a, i) ∉ l) → V'[i]? = V[i]?) := by
  induction l generalizing V with
  | nil => exact ⟨V, rfl, rfl, by simp⟩
  | cons x l ih =>
    obtain ⟨b, k⟩ := x
    have hk := h (b, k) (by simp)
    obtain ⟨V', e, le, hV⟩ := ih (V.set k b) (fun x hx => by rw [List.length_set]; exact h x (by simp [hx]))
    refine ⟨V', by simp only [store, if_pos hk, e], by simpa using le, fun i => ⟨?_, fun hn => ?_⟩⟩
    · rintro ⟨a, ha⟩
      by_cases hl : ∃ a, (a, i) ∈ l
      · obtain ⟨a', h1, h2⟩ := (hV i).1 hl
        exact ⟨a', by simp [h1], h2⟩
      · rcases List.mem_cons.1 ha with e | e
        · cases e
          refine ⟨b, by simp, ?_⟩
          rw [(hV k).2 (fun a ha => hl ⟨a, ha⟩)]
          have hk' : k < V.length := hk
          simp [hk']
        · exact (hl ⟨a, e⟩).elim
    · rw [(hV i).2 (fun a ha => hn a (by simp [ha]))]
      have : k ≠ i := by rintro rfl; exact hn b (by simp)
      rw [List.getElem?_set]; simp [this]

end Mosml.Lex
