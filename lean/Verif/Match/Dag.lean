import Verif.Match.Spec

/-!
C50: the decision dag: what a node decides, and what `unique` does.
-/
namespace Mosml.Match

/-- the test of a node -/
def testR (γ : Nat → R) (ρ : List R) (a : Acc) : Con → Option Bool
  | .scon c => (evalAcc γ ρ a).map (sconEq c)
  | .vec n => (evalAcc γ ρ a).map (sconEq (.int n))
  | .ccon tag sp _ => match evalAcc γ ρ a with
    | some (.block t _) => if t < sp then some (decide (tag = t)) else none
    | _ => none
  | .eexn b => match evalAcc γ ρ a, evalAcc γ ρ b with
    | some (.name n), some (.name m) => some (decide (n = m))
    | _, _ => none
  | .tup _ => none

def isLeaf : Dec → Bool
  | .ifEq .. => false
  | _ => true

/-- node `n` decides for the leaf `m` -/
inductive Leads (γ : Nat → R) (ρ : List R) (N : List Dec) : Nat → Nat → Prop where
  | leaf {n d} : N[n]? = some d → isLeaf d = true → Leads γ ρ N n n
  | yes {n a c t e m} : N[n]? = some (.ifEq a c t e) → testR γ ρ a c = some true → Leads γ ρ N t m → Leads γ ρ N n m
  | no {n a c t e m} : N[n]? = some (.ifEq a c t e) → testR γ ρ a c = some false → Leads γ ρ N e m → Leads γ ρ N n m

theorem get_prefix {α} {l l' : List α} (h : l <+: l') {i : Nat} {x : α} (hi : l[i]? = some x) : l'[i]? = some x := by
  obtain ⟨r, rfl⟩ := h
  rw [List.getElem?_append_left]
  · exact hi
  · exact (List.getElem?_eq_some_iff.1 hi).1

theorem Leads.mono {γ ρ N N' n m} (h : Leads γ ρ N n m) (hp : N <+: N') : Leads γ ρ N' n m := by
  induction h with
  | leaf h1 h2 => exact .leaf (get_prefix hp h1) h2
  | yes h1 h2 _ ih => exact .yes (get_prefix hp h1) h2 ih
  | no h1 h2 _ ih => exact .no (get_prefix hp h1) h2 ih

/-- the nodes are built from earlier nodes, and the successors of a node count as used -/
structure WfG (g : Dag) : Prop where
  len : g.refs.length = g.nodes.length
  ok : ∀ i a c t e, g.nodes[i]? = some (.ifEq a c t e) → t < i ∧ e < i ∧ 0 < g.refs.getD t 0 ∧ 0 < g.refs.getD e 0

/-- what building a decision does to the dag -/
structure Built (g g' : Dag) (n : Nat) : Prop where
  pre : g.nodes <+: g'.nodes
  wf : WfG g → WfG g'
  lt : n < g'.nodes.length

theorem getD_modify_ge (l : List Nat) (n i : Nat) : l.getD i 0 ≤ (l.modify n (· + 1)).getD i 0 := by
  rw [List.getD_eq_getElem?_getD, List.getD_eq_getElem?_getD, List.getElem?_modify]
  by_cases h : n = i
  · simp only [h]
    cases l[i]? <;> simp
  · simp [h]

theorem getD_modify_self (l : List Nat) (n : Nat) (h : n < l.length) : 0 < (l.modify n (· + 1)).getD n 0 := by
  rw [List.getD_eq_getElem?_getD, List.getElem?_modify, List.getElem?_eq_getElem h]
  simp

theorem getD_append_ge (l r : List Nat) (i : Nat) : l.getD i 0 ≤ (l ++ r).getD i 0 := by
  rw [List.getD_eq_getElem?_getD, List.getD_eq_getElem?_getD, List.getElem?_append]
  split
  · exact le_rfl
  · rename_i h; rw [List.getElem?_eq_none (by omega)]; simp

theorem WfG.incr {g : Dag} (h : WfG g) (n : Nat) : WfG (incrnode g n) :=
  ⟨by simp [incrnode, h.len], fun i a c t e hi => by
    obtain ⟨h1, h2, h3, h4⟩ := h.ok i a c t e hi
    exact ⟨h1, h2, lt_of_lt_of_le h3 (getD_modify_ge _ _ _), lt_of_lt_of_le h4 (getD_modify_ge _ _ _)⟩⟩

theorem unique_built (a : Acc) (c : Con) (t e : Nat) (g : Dag) (ht : t < g.nodes.length) (he : e < g.nodes.length) : Built g (unique a c t e g).2 (unique a c t e g).1 := by
  unfold unique
  by_cases h : t = e
  · rw [if_pos h]; exact ⟨List.prefix_rfl, id, ht⟩
  · rw [if_neg h]
    by_cases hm : Dec.ifEq a c t e ∈ g.nodes
    · rw [if_pos hm]; exact ⟨List.prefix_rfl, id, List.idxOf_lt_length_of_mem hm⟩
    · rw [if_neg hm]
      refine ⟨List.prefix_append _ _, fun w => ?_, by simp⟩
      have w2 := (w.incr t).incr e
      refine ⟨by simpa using w2.len, fun i a' c' t' e' hi => ?_⟩
      simp only at hi ⊢
      rw [List.getElem?_append] at hi
      split at hi
      · obtain ⟨h1, h2, h3, h4⟩ := w2.ok i a' c' t' e' hi
        exact ⟨h1, h2, lt_of_lt_of_le h3 (getD_append_ge _ _ _), lt_of_lt_of_le h4 (getD_append_ge _ _ _)⟩
      · rename_i hi'
        have hlen : (incrnode (incrnode g t) e).nodes = g.nodes := rfl
        rw [hlen] at hi hi'
        have : i - g.nodes.length = 0 := by
          by_contra hc
          rw [List.getElem?_eq_none (by simp; omega)] at hi
          simp at hi
        rw [this] at hi
        simp only [List.getElem?_cons_zero, Option.some.injEq, Dec.ifEq.injEq] at hi
        obtain ⟨rfl, rfl, rfl, rfl⟩ := hi
        refine ⟨by omega, by omega, ?_, ?_⟩
        · refine lt_of_lt_of_le ?_ (getD_append_ge _ _ _)
          refine lt_of_lt_of_le (getD_modify_self g.refs t (by rw [w.len]; exact ht)) (getD_modify_ge _ _ _)
        · refine lt_of_lt_of_le ?_ (getD_append_ge _ _ _)
          exact getD_modify_self _ e (by simp [incrnode, w.len]; exact he)

theorem unique_leads {γ ρ a c t e g b m} (ht : testR γ ρ a c = some b) (h : Leads γ ρ g.nodes (if b then t else e) m) :
    Leads γ ρ (unique a c t e g).2.nodes (unique a c t e g).1 m := by
  unfold unique
  by_cases hte : t = e
  · rw [if_pos hte]; subst hte; simpa using h
  · rw [if_neg hte]
    have key : ∀ N i, g.nodes <+: N → N[i]? = some (.ifEq a c t e) → Leads γ ρ N i m := by
      intro N i hp hi
      cases b with
      | true => exact .yes hi ht (h.mono hp)
      | false => exact .no hi ht (h.mono hp)
    by_cases hm : Dec.ifEq a c t e ∈ g.nodes
    · rw [if_pos hm]
      refine key _ _ List.prefix_rfl ?_
      rw [List.getElem?_eq_getElem (List.idxOf_lt_length_of_mem hm), List.getElem_idxOf]
    · rw [if_neg hm]
      refine key _ _ (List.prefix_append _ _) ?_
      show (g.nodes ++ [_])[g.nodes.length]? = _
      simp

/-- a leaf that a root decides for counts as used, once the root does -/
theorem leads_used {γ ρ g n m} (w : WfG g) (hn : 0 < g.refs.getD n 0) (h : Leads γ ρ g.nodes n m) : 0 < g.refs.getD m 0 := by
  induction h with
  | leaf _ _ => exact hn
  | yes h1 _ _ ih => exact ih (w.ok _ _ _ _ _ h1).2.2.1
  | no h1 _ _ ih => exact ih (w.ok _ _ _ _ _ h1).2.2.2

/-! ### building -/

theorem mktest_built {k : Nat} {fail conequal : Termd → M} (hf : ∀ d g n g', k ≤ g.nodes.length → fail d g = some (n, g') → Built g g' n)
    (hc : ∀ d g n g', k ≤ g.nodes.length → conequal d g = some (n, g') → Built g g' n) {pcon obj dsc ctx work g n g'} (hk : k ≤ g.nodes.length)
    (h : mktest fail conequal pcon obj dsc ctx work g = some (n, g')) : Built g g' n := by
  unfold mktest at h
  cases hs : staticmatch pcon dsc with
  | yes => rw [hs] at h; exact hc _ _ _ _ hk h
  | no =>
    rw [hs] at h
    simp only at h
    cases hb : builddsc ctx dsc work with
    | none => rw [hb] at h; simp at h
    | some d => rw [hb] at h; exact hf _ _ _ _ hk h
  | maybe =>
    rw [hs] at h
    simp only at h
    cases h1 : conequal (.pos pcon (bots (arity pcon))) g with
    | none => rw [h1] at h; simp at h
    | some x =>
      obtain ⟨t, g1⟩ := x
      rw [h1] at h
      cases hb : builddsc ctx (addneg dsc pcon) work with
      | none => rw [hb] at h; simp at h
      | some d =>
        rw [hb] at h
        simp only [Option.bind_some] at h
        cases h2 : fail d g1 with
        | none => rw [h2] at h; simp at h
        | some y =>
          obtain ⟨e, g2⟩ := y
          rw [h2] at h
          simp only [Option.bind_some, Option.some.injEq] at h
          have b1 := hc _ _ _ _ hk h1
          have b2 := hf _ _ _ _ (hk.trans b1.pre.length_le) h2
          have b3 := unique_built obj pcon t e g2 (lt_of_lt_of_le b1.lt b2.pre.length_le) b2.lt
          rw [h] at b3
          exact ⟨(b1.pre.trans b2.pre).trans b3.pre, fun w => b3.wf (b2.wf (b1.wf w)), b3.lt⟩

/-- the leaves are nodes of the dag -/
def LeavesIn (N : List Dec) (failure : Nat) (rules : List Rule) : Prop := failure < N.length ∧ ∀ r ∈ rules, r.2 < N.length

theorem build_all (failure : Nat) (objs1 : List Acc) (topCon : Con) (k : Nat) (fuel : Nat) :
    (∀ dsc rules g n g', failure < k → (∀ r ∈ rules, r.2 < k) → k ≤ g.nodes.length → fail failure objs1 topCon fuel dsc rules g = some (n, g') → Built g g' n) ∧
    (∀ ctx work rhs rules g n g', failure < k → rhs < k → (∀ r ∈ rules, r.2 < k) → k ≤ g.nodes.length →
      succeed failure objs1 topCon fuel ctx work rhs rules g = some (n, g') → Built g g' n) ∧
    (∀ pat obj dsc ctx work rhs rules g n g', failure < k → rhs < k → (∀ r ∈ rules, r.2 < k) → k ≤ g.nodes.length →
      mtch failure objs1 topCon fuel pat obj dsc ctx work rhs rules g = some (n, g') → Built g g' n) := by
  induction fuel with
  | zero => refine ⟨?_, ?_, ?_⟩ <;> intros <;> simp_all [fail, succeed, mtch]
  | succ fuel ih =>
    obtain ⟨ih1, ih2, ih3⟩ := ih
    refine ⟨?_, ?_, ?_⟩
    · intro dsc rules g n g' hf hr hk h
      cases rules with
      | nil => rw [fail] at h; cases h; exact ⟨List.prefix_rfl, id, by omega⟩
      | cons r rules =>
        obtain ⟨ps, rhs⟩ := r
        cases dsc with
        | pos c dscs => rw [fail] at h; exact ih2 _ _ _ _ _ _ _ hf (hr _ List.mem_cons_self) (fun r h => hr r (List.mem_cons_of_mem _ h)) hk h
        | neg cs => rw [fail] at h; simp at h
    · intro ctx work rhs rules g n g' hf hrhs hr hk h
      unfold succeed at h
      split at h
      · simp at *
      · cases h; exact ⟨List.prefix_rfl, id, by omega⟩
      · rename_i e; cases e; exact ih2 _ _ _ _ _ _ _ hf hrhs hr hk h
      · rename_i e; cases e; exact ih3 _ _ _ _ _ _ _ _ _ _ hf hrhs hr hk h
      · simp at h
    · intro pat obj dsc ctx work rhs rules g n g' hf hrhs hr hk h
      rw [mtch] at h
      simp only at h
      have hfail : ∀ d g n g', k ≤ g.nodes.length → fail failure objs1 topCon fuel d rules g = some (n, g') → Built g g' n :=
        fun d g n g' hk h => ih1 _ _ _ _ _ hf hr hk h
      have hleaf : ∀ d g n g', k ≤ g.nodes.length → succeed failure objs1 topCon fuel (apply ctx d) work rhs rules g = some (n, g') → Built g g' n :=
        fun d g n g' hk h => ih2 _ _ _ _ _ _ _ hf hrhs hr hk h
      split at h
      · exact mktest_built hfail hleaf hk h
      · split at h
        · exact mktest_built hfail hleaf hk h
        · exact mktest_built hfail (fun d g n g' hk h => ih2 _ _ _ _ _ _ _ hf hrhs hr hk h) hk h
      · exact hleaf _ _ _ _ hk h
      · exact mktest_built hfail hleaf hk h
      · exact mktest_built hfail (fun d g n g' hk h => ih2 _ _ _ _ _ _ _ hf hrhs hr hk h) hk h
      · exact mktest_built hfail hleaf hk h
      · exact hleaf _ _ _ _ hk h
      · exact ih2 _ _ _ _ _ _ _ hf hrhs hr hk h
      · simp at h

end Mosml.Match
