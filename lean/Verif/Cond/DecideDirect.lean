import Verif.Cond.DecideCode

namespace Mosml.Cond

variable {α : Type}

/-- An entry of the table of a direct switch. -/
def DirectEntry (sf : Nat) (br : I α) (C1 X : Code α) (clauses : List (Nat × α)) (i l : Nat) : Prop :=
  (l = sf ∧ ∀ a, (i, a) ∉ clauses) ∨
    ∃ a D, (i, a) ∈ clauses ∧ l ≠ sf ∧ (.label l :: .act a :: D) <:+ X ∧ (D = C1 ∨ ∃ D', D = br :: D')

theorem compCase_ok (sf size : Nat) (br : I α) (C1 : Code α) : ∀ (clauses : List (Nat × α)) (k : Nat)
    (r : List Nat × Code α × Nat), sf ≤ k → (clauses.map (·.1)).Nodup →
    compCase br C1 clauses (List.replicate size sf) k = some r →
    k ≤ r.2.2 ∧ r.1.length = size ∧ dead r.2.1 = r.2.1 ∧
      ∀ i l, r.1[i]? = some l → DirectEntry sf br C1 r.2.1 clauses i l
  | [], _, _, _, _, h => by simp [compCase] at h
  | [(tag, a)], k, r, hk, _, h => by
      simp only [compCase, labelC, Option.some.injEq] at h
      subst h
      refine ⟨Nat.le_succ k, by simp, rfl, fun i l hl => ?_⟩
      simp only [List.getElem?_set, List.length_replicate] at hl
      split at hl
      · rename_i e
        split at hl
        · obtain rfl := Option.some.inj hl
          subst e
          exact Or.inr ⟨a, C1, by simp, by omega, List.suffix_refl _, Or.inl rfl⟩
        · cases hl
      · rename_i e
        rw [List.getElem?_replicate] at hl
        split at hl
        · obtain rfl := Option.some.inj hl
          refine Or.inl ⟨rfl, fun b hb => ?_⟩
          simp only [List.mem_singleton, Prod.mk.injEq] at hb
          exact e hb.1.symm
        · cases hl
  | (tag, a) :: c :: rest, k, r, hk, nd, h => by
      simp only [compCase] at h
      obtain ⟨q, hq, rfl⟩ := Option.map_eq_some_iff.1 h
      rw [List.map_cons, List.nodup_cons] at nd
      obtain ⟨i1, i2, i3, i4⟩ := compCase_ok sf size br C1 (c :: rest) k q hk nd.2 hq
      simp only [labelC, i3]
      have hsuf : q.2.1 <:+ (.label (q.2.2 + 1) :: .act a :: br :: q.2.1) := ⟨[.label (q.2.2 + 1), .act a, br], rfl⟩
      refine ⟨by omega, by simp [i2], rfl, fun i l hl => ?_⟩
      simp only [List.getElem?_set] at hl
      split at hl
      · rename_i e
        split at hl
        · obtain rfl := Option.some.inj hl
          subst e
          exact Or.inr ⟨a, _, by simp, by omega, List.suffix_refl _, Or.inr ⟨_, rfl⟩⟩
        · cases hl
      · rename_i e
        rcases i4 i l hl with ⟨rfl, h2⟩ | ⟨b, D, h1, h2, h3, h4⟩
        · refine Or.inl ⟨rfl, fun b hb => ?_⟩
          rcases List.mem_cons.1 hb with hb | hb
          · simp only [Prod.mk.injEq] at hb; exact e hb.1.symm
          · exact h2 b hb
        · exact Or.inr ⟨b, D, List.mem_cons_of_mem _ h1, h2, h3.trans hsuf, h4⟩

theorem Fresh.compCase (br : I α) (hbr : NoLabel br) (C1 : Code α) (T : List Nat) : ∀ (clauses : List (Nat × α))
    (k : Nat) (r : List Nat × Code α × Nat), compCase br C1 clauses T k = some r → Fresh C1 k r.2.1 r.2.2
  | [], _, _, h => by simp [Cond.compCase] at h
  | [(tag, a)], k, r, h => by
      simp only [Cond.compCase, Option.some.injEq] at h
      subst h
      exact (Fresh.cons (x := .act a) _ _).trans (Fresh.labelC _ _)
  | (tag, a) :: c :: rest, k, r, h => by
      simp only [Cond.compCase] at h
      obtain ⟨q, hq, rfl⟩ := Option.map_eq_some_iff.1 h
      exact (Fresh.compCase br hbr C1 T (c :: rest) k q hq).trans ((Fresh.dead _ _).trans
        ((Fresh.cons _ _ hbr).trans ((Fresh.cons (x := .act a) _ _).trans (Fresh.labelC _ _))))

/-! ## Execution is deterministic -/

mutual
theorem go_det (P : Code α) (sf : Nat) : ∀ {C : Code α} {n : Int} {r r' : Res α}, Go P sf C n r → Go P sf C n r' → r = r'
  | _, _, _, _, .act a C n, h => by cases h; rfl
  | _, _, _, _, .label hl hg, h => by
      cases h with
      | label _ h => exact go_det P sf hg h
      | arrive => exact absurd rfl hl
  | _, _, _, _, .arrive C n, h => by
      cases h with
      | label h _ => exact absurd rfl h
      | arrive => rfl
  | _, _, _, _, .branch hj, h => by
      cases h with
      | branch h => exact jump_det P sf hj h
  | _, _, _, _, .less h1 hj, h => by
      cases h with
      | less _ h => exact jump_det P sf hj h
      | greater h2 _ _ => omega
      | inside h2 _ _ => omega
  | _, _, _, _, .greater h1 h2 hj, h => by
      cases h with
      | less h3 _ => omega
      | greater _ _ h => exact jump_det P sf hj h
      | inside _ h3 _ => omega
  | _, _, _, _, .inside h1 h2 hg, h => by
      cases h with
      | less h3 _ => omega
      | greater _ h3 _ => omega
      | inside _ _ h => exact go_det P sf hg h
  | _, _, _, _, .switch (i := i) hl hj, h => by
      generalize hn : (i : Int) = n at h
      cases h with
      | switch hl' h =>
          have := Int.ofNat.inj hn
          subst this
          rw [hl] at hl'
          obtain rfl := Option.some.inj hl'
          exact jump_det P sf hj h
theorem jump_det (P : Code α) (sf : Nat) : ∀ {l : Nat} {n : Int} {r r' : Res α}, Jump P sf l n r → Jump P sf l n r' → r = r'
  | _, _, _, _, .failed n, h => by
      cases h with
      | failed => rfl
      | found h _ _ => exact absurd rfl h
  | _, _, _, _, .found hl hf hg, h => by
      cases h with
      | failed => exact absurd rfl hl
      | found _ hf' h =>
          rw [hf] at hf'
          obtain rfl := Option.some.inj hf'
          exact go_det P sf hg h
end

/-! ## Overflow -/

theorem subInt_some {x y : Int} (h1 : -(2 ^ 62) ≤ x - y) (h2 : x - y < 2 ^ 62) : ∃ d, subInt x y = some d :=
  ⟨x - y, by rw [subInt, if_pos ⟨h1, h2⟩]⟩

theorem findStop_some (cs : List (Int × α)) (start : Nat)
    (h : ∀ i < cs.length, ∃ d, subInt (keyAt cs i) (keyAt cs start) = some d) :
    ∀ s0 < cs.length, ∃ stop, findStop cs start s0 = some stop := by
  intro s0
  induction s0 with
  | zero => intro _; exact ⟨0, rfl⟩
  | succ s0 ih =>
      intro hs
      obtain ⟨d, hd⟩ := h _ hs
      simp only [findStop, hd, Option.bind_some]
      split
      · exact ih (by omega)
      · exact ⟨_, rfl⟩

theorem partition_some (cs : List (Int × α))
    (h : ∀ i < cs.length, ∀ j < cs.length, ∃ d, subInt (keyAt cs i) (keyAt cs j) = some d) :
    ∀ (fuel start : Nat), ∃ ps, partition cs fuel start = some ps := by
  intro fuel
  induction fuel with
  | zero => intro _; exact ⟨[], rfl⟩
  | succ fuel ih =>
      intro start
      simp only [partition]
      split
      · exact ⟨[], rfl⟩
      · rename_i hlt
        obtain ⟨stop, hst⟩ := findStop_some cs start (fun i hi => h i hi start (by omega)) (cs.length - 1) (by omega)
        obtain ⟨ps, hps⟩ := ih (stop + 1)
        rw [hst, Option.bind_some, hps]
        exact ⟨_, rfl⟩

/-! ## Sizes of the tables -/

theorem compCases_length (sf : Nat) (br : I α) (C : Code α) (v : List (Option α)) (k : Nat) :
    (compCases sf br C v k).1.length = v.length := by
  induction v with
  | nil => rfl
  | cons e v ih => simp only [compCases, List.length_cons, ih]

/-- Tables in code that are not in `C` have at most 255 entries. -/
def Tables (C X : Code α) : Prop := ∀ ls, .switch ls ∈ X → .switch ls ∈ C ∨ ls.length ≤ 255

theorem Tables.of_suffix {C X Y : Code α} (h : Tables C X) (hs : Y <:+ X) : Tables C Y :=
  fun ls hl => h ls (hs.subset hl)

theorem Tables.cons {C X : Code α} (h : Tables C X) (x : I α) (hx : ∀ ls, x = .switch ls → .switch ls ∈ C ∨ ls.length ≤ 255) :
    Tables C (x :: X) := by
  intro ls hl
  rcases List.mem_cons.1 hl with hl | hl
  · exact hx ls hl.symm
  · exact h ls hl

theorem Tables.labelC {C X : Code α} (h : Tables C X) (k : Nat) : Tables C (labelC X k).2.1 := by
  unfold Cond.labelC
  split
  · exact h
  · exact h
  · exact h.cons _ (fun ls e => by cases e)

theorem Tables.compAct {C X : Code α} (h : Tables C X) (sf : Nat) (a : Option α) : Tables C (compAct sf a X) := by
  cases a with
  | none => exact (h.of_suffix (dead_suffix X)).cons _ (fun ls e => by cases e)
  | some a => exact h.cons _ (fun ls e => by cases e)

theorem Tables.compCases {C X : Code α} (h : Tables C X) (sf : Nat) (br : I α) (hbr : ∀ ls, br ≠ .switch ls) :
    ∀ (v : List (Option α)) (k : Nat), Tables C (compCases sf br X v k).2.1
  | [], _ => h
  | e :: v, k =>
      (((Tables.compCases h sf br hbr v k).of_suffix (dead_suffix _)).cons br
        (fun ls e => absurd e (hbr ls))).compAct sf e |>.labelC _

theorem Tables.addSwitch {C X : Code α} (h : Tables C X) (ls : List Nat) (hl : ls.length ≤ 255) :
    Tables C (addSwitch ls X) := by
  have hb : ∀ l, Tables C (.branch l :: Cond.dead X) := fun l =>
    (h.of_suffix (dead_suffix X)).cons _ (fun ls e => by cases e)
  unfold Cond.addSwitch
  split
  · exact h.cons _ (fun ls e => by cases e; exact Or.inr (by simp))
  · split
    · split
      · split
        · exact h
        · exact hb _
      · exact hb _
    · exact h.cons _ (fun ls e => by cases e; exact Or.inr hl)

theorem Tables.compDec {C : Code α} (sf : Nat) (br : I α) (hbr : ∀ ls, br ≠ .switch ls) : ∀ (t : DTree α), TreeOk t →
    ∀ (X : Code α) (k : Nat), Tables C X → Tables C (compDec sf br t X k).1
  | .fail, _, X, k, h => (h.of_suffix (dead_suffix X)).cons _ (fun ls e => by cases e)
  | .interval left d right, ⟨hl, hr, d1, d2, d3⟩, X, k, h => by
      have hsub : ∀ (t : DTree α) (X : Code α) (k : Nat), Tables C X → Tables C (Cond.compDec sf br t X k).1 →
          Tables C (Cond.sub sf br t X k).2.1 := by
        intro t X k h1 h2
        cases t with
        | fail => exact h1
        | interval l d r => exact h2.labelC _
      have R := hsub right X k h (Tables.compDec sf br hbr right hr X k h)
      rw [compDec_interval]
      simp only
      generalize Cond.sub sf br right X k = r at *
      have L := hsub left r.2.1 r.2.2 R (Tables.compDec sf br hbr left hl _ _ R)
      generalize Cond.sub sf br left r.2.1 r.2.2 = l at *
      split
      · exact (((L.of_suffix (dead_suffix _)).cons br (fun ls e => absurd e (hbr ls))).compAct _ _).cons _
          (fun ls e => by cases e)
      · refine Tables.cons ?_ _ (fun ls e => by cases e)
        exact ((L.compCases sf br hbr _ _).of_suffix (dead_suffix _)).addSwitch _
          (by rw [compCases_length]; omega)

end Mosml.Cond
