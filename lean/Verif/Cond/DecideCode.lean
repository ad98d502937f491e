import Verif.Cond.DecideLemmas

namespace Mosml.Cond

variable {α : Type}

/-- The segments of a tree are well formed. -/
def TreeOk : DTree α → Prop
  | .fail => True
  | .interval l d r =>
      TreeOk l ∧ TreeOk r ∧
        d.low ≤ d.high ∧ d.act.length = (d.high - d.low + 1).toNat ∧ d.high - d.low < 255

theorem makeTree_treeOk (ps : List (Dec α)) (hp : Apart ps) : ∀ (fuel s t : Nat), TreeOk (makeTree ps fuel s t) := by
  intro fuel
  induction fuel with
  | zero => intro s t; trivial
  | succ fuel ih =>
      intro s t
      simp only [makeTree]
      split
      · trivial
      · split
        · trivial
        · rename_i d hd
          exact ⟨ih _ _, ih _ _, hp.1 d (List.mem_of_getElem? hd)⟩

theorem compileNBranch_treeOk (clauses : List (Int × α)) (nd : (clauses.map (·.1)).Nodup) (t : DTree α)
    (h : compileNBranch clauses = some t) : TreeOk t := by
  have nd' : ((sort clauses).map (·.1)).Nodup := ((sort_perm clauses).map _).nodup_iff.2 nd
  obtain ⟨ps, h1, rfl⟩ := Option.map_eq_some_iff.1 h
  have hs := strict_of _ (sort_ordered clauses) nd'
  exact makeTree_treeOk ps (partition_ok (sort clauses) hs _ 0 ps (by omega) h1).1 _ _ _

/-! ## Labels -/

/-- The labels placed in code. -/
def labels : Code α → List Nat
  | [] => []
  | .label l :: C => l :: labels C
  | _ :: C => labels C

theorem labels_append (A B : Code α) : labels (A ++ B) = labels A ++ labels B := by
  induction A with
  | nil => rfl
  | cons x A ih => cases x <;> simp [labels, ih]

theorem find_mem (A B : Code α) (l : Nat) (h : l ∉ labels A) : find l (A ++ .label l :: B) = some B := by
  induction A with
  | nil => simp [find]
  | cons x A ih =>
      cases x <;> simp only [labels, List.mem_cons, not_or] at h <;> simp only [List.cons_append, find]
      case label l' => rw [if_neg (fun e => h.1 e.symm)]; exact ih h.2
      all_goals exact ih h

theorem find_suffix (P B : Code α) (l : Nat) (nd : (labels P).Nodup) (h : (.label l :: B) <:+ P) :
    find l P = some B := by
  obtain ⟨A, rfl⟩ := h
  apply find_mem
  rw [labels_append] at nd
  have := (List.nodup_append.1 nd).2.2
  intro hm
  exact this l hm l (by simp [labels]) rfl

theorem dead_suffix (C : Code α) : dead C <:+ C := by
  fun_induction dead C with
  | case1 => exact List.suffix_refl _
  | case2 => exact List.suffix_refl _
  | case3 => exact List.suffix_refl _
  | case4 x C h1 h2 ih => exact ih.trans (List.suffix_cons _ _)

theorem dead_label (l : Nat) (C : Code α) : dead (.label l :: C) = .label l :: C := rfl

theorem suffix_cons_of {x : I α} {C P : Code α} (h : (x :: C) <:+ P) : C <:+ P :=
  (List.suffix_cons x C).trans h

theorem jump_label (P : Code α) (sf : Nat) (nd : (labels P).Nodup) (l : Nat) (hl : l ≠ sf) (B : Code α)
    (h : (.label l :: B) <:+ P) (n : Int) (r : Res α) (hg : Go P sf B n r) : Jump P sf l n r :=
  .found hl (find_suffix P B l nd h) hg

/-! ## The table -/

/-- The result for an entry: the clause, followed by the jump behind it; or failure. -/
def resOf (br : I α) (e : Option α) (r : Res α) : Prop :=
  match e with
  | none => r = .failed
  | some a => ∃ C, r = .enter a (br :: C)

/-- `ls` are labels for the entries `v` in a program of which `X` is a part. -/
def Entries (sf : Nat) (br : I α) (X : Code α) (v : List (Option α)) (ls : List Nat) : Prop :=
  List.Forall₂ (fun e l => match e with
    | none => l = sf
    | some a => l ≠ sf ∧ ∃ D, (.label l :: .act a :: br :: D) <:+ X) v ls

theorem Entries.mono {sf : Nat} {br : I α} {X Y : Code α} {v : List (Option α)} {ls : List Nat} (h : X <:+ Y)
    (he : Entries sf br X v ls) : Entries sf br Y v ls := by
  refine List.Forall₂.imp ?_ he
  intro e l hl
  cases e with
  | none => exact hl
  | some a => exact ⟨hl.1, hl.2.imp fun D hD => hD.trans h⟩

theorem compCases_ok (sf : Nat) (br : I α) (C : Code α) : ∀ (v : List (Option α)) (k : Nat), sf ≤ k →
    k ≤ (compCases sf br C v k).2.2 ∧
    Entries sf br (dead (compCases sf br C v k).2.1) v (compCases sf br C v k).1 ∧
    (dead C) <:+ dead (compCases sf br C v k).2.1
  | [], k, hk => ⟨le_refl _, List.Forall₂.nil, List.suffix_refl _⟩
  | e :: v, k, hk => by
      obtain ⟨i1, i2, i3⟩ := compCases_ok sf br C v k hk
      simp only [compCases]
      generalize compCases sf br C v k = r at *
      have hdd : dead (dead r.2.1) = dead r.2.1 := by
        generalize r.2.1 = X
        fun_induction dead X with
        | case1 => rfl
        | case2 => rfl
        | case3 => rfl
        | case4 x C h1 h2 ih => exact ih
      cases e with
      | none =>
          simp only [compAct, labelC]
          have e1 : dead (br :: dead r.2.1) = dead r.2.1 ∨ dead (br :: dead r.2.1) = br :: dead r.2.1 := by
            cases br with
            | label l => exact Or.inr rfl
            | other b n => cases b
                           · exact Or.inl hdd
                           · exact Or.inr rfl
            | _ => exact Or.inl hdd
          have e2 : dead r.2.1 <:+ dead (.branch sf :: dead (br :: dead r.2.1)) := by
            rcases e1 with e1 | e1
            · rw [e1]; show dead r.2.1 <:+ dead (dead r.2.1); rw [hdd]; exact List.suffix_refl _
            · rw [e1]
              show dead r.2.1 <:+ dead (br :: dead r.2.1)
              rw [e1]; exact List.suffix_cons _ _
          exact ⟨i1, List.Forall₂.cons rfl (i2.mono e2), i3.trans e2⟩
      | some a =>
          simp only [compAct, labelC]
          have e2 : dead r.2.1 <:+ dead (.label (r.2.2 + 1) :: .act a :: br :: dead r.2.1) := by
            rw [dead_label]
            exact ⟨[.label (r.2.2 + 1), .act a, br], rfl⟩
          refine ⟨by omega, List.Forall₂.cons ⟨by omega, dead r.2.1, List.suffix_refl _⟩ (i2.mono e2), i3.trans e2⟩

theorem addSwitch_suffix (ls : List Nat) (C : Code α) (h : dead C = C) : C <:+ addSwitch ls C := by
  unfold addSwitch
  split
  · exact List.suffix_cons _ _
  · split
    · split
      · split
        · exact List.suffix_refl _
        · exact List.suffix_cons _ _
      · rw [h]; exact List.suffix_cons _ _
    · exact List.suffix_cons _ _

theorem dead_dead (C : Code α) : dead (dead C) = dead C := by
  fun_induction dead C with
  | case1 => rfl
  | case2 => rfl
  | case3 => rfl
  | case4 x C h1 h2 ih => exact ih

/-- Dispatch through the table: control gets to the label of the entry. -/
theorem addSwitch_go (P : Code α) (sf : Nat) (nd : (labels P).Nodup) (ls : List Nat) (C : Code α)
    (hC : dead C = C) (hP : addSwitch ls C <:+ P) (i l : Nat) (hl : ls[i]? = some l) (r : Res α)
    (hj : ∀ m : Int, Jump P sf l m r) :
    Go P sf (addSwitch ls C) i r := by
  have hsuf := (addSwitch_suffix ls C hC).trans hP
  unfold addSwitch
  cases ls with
  | nil => simp at hl
  | cons l0 rest =>
      simp only
      split
      · rename_i hall
        have e : l = l0 := by
          rcases i with _ | i
          · simpa using hl.symm
          · have := List.mem_of_getElem? (l := rest) (i := i) (by simpa using hl)
            simpa using List.all_eq_true.1 hall l this
        subst e
        split
        · rename_i l' C1
          split
          · rename_i e
            subst e
            have hf := find_suffix P C1 l' nd hsuf
            rcases hj i with _ | ⟨hne, hf', hg⟩
            · exact .arrive _ _
            · rw [hf] at hf'
              obtain rfl := Option.some.inj hf'
              exact .label hne hg
          · exact .branch (hj i)
        · exact .branch (hj i)
      · exact .switch hl (hj i)

/-- Entering an entry. -/
theorem entries_jump (P : Code α) (sf : Nat) (nd : (labels P).Nodup) (br : I α) (X : Code α)
    (v : List (Option α)) (ls : List Nat) (hX : X <:+ P) (he : Entries sf br X v ls) (i : Nat) (e : Option α)
    (hi : v[i]? = some e) :
    ∃ l r, ls[i]? = some l ∧ resOf br e r ∧ ∀ m : Int, Jump P sf l m r := by
  induction he generalizing i with
  | nil => simp at hi
  | @cons a b v ls hab _ ih =>
      rcases i with _ | i
      · simp only [List.getElem?_cons_zero, Option.some.injEq] at hi
        subst hi
        cases a with
        | none => exact ⟨b, .failed, rfl, rfl, fun m => by rw [hab]; exact .failed m⟩
        | some a =>
            obtain ⟨h1, D, h2⟩ := hab
            exact ⟨b, .enter a (br :: D), rfl, ⟨D, rfl⟩, fun m =>
              jump_label P sf nd b h1 _ (h2.trans hX) m _ (.act a _ m)⟩
      · simpa using ih i (by simpa using hi)

/-! ## The code of a decision tree -/

theorem compSwitch_ok (P : Code α) (sf : Nat) (nd : (labels P).Nodup) (br : I α) (v : List (Option α))
    (C : Code α) (k : Nat) (hk : sf ≤ k) (hP : (compSwitch sf br v C k).1 <:+ P) :
    k ≤ (compSwitch sf br v C k).2 ∧ dead C <:+ (compSwitch sf br v C k).1 ∧
      ∀ (i : Nat) (e : Option α), v[i]? = some e →
        ∃ r, resOf br e r ∧ Go P sf (compSwitch sf br v C k).1 i r := by
  obtain ⟨c1, c2, c3⟩ := compCases_ok sf br C v k hk
  simp only [compSwitch] at hP ⊢
  generalize compCases sf br C v k = q at *
  have hs := addSwitch_suffix q.1 (dead q.2.1) (dead_dead _)
  refine ⟨c1, c3.trans hs, fun i e he => ?_⟩
  obtain ⟨l, r, h1, h2, h3⟩ := entries_jump P sf nd br _ v q.1 (hs.trans hP) c2 i e he
  exact ⟨r, h2, addSwitch_go P sf nd q.1 _ (dead_dead _) hP i l h1 r h3⟩

/-- What `compDec` promises: the code of the tree `t`. -/
def DecOk (P : Code α) (sf : Nat) (br : I α) (t : DTree α) (C : Code α) (k : Nat) : Prop :=
  k ≤ (compDec sf br t C k).2 ∧ dead C <:+ (compDec sf br t C k).1 ∧
    ((compDec sf br t C k).1 <:+ P → ∀ n, ∃ r, resOf br (evalTree t n) r ∧ Go P sf (compDec sf br t C k).1 n r)

/-- A subtree: a label for it. -/
def sub (sf : Nat) (br : I α) (t : DTree α) (C : Code α) (k : Nat) : Nat × Code α × Nat :=
  match t with
  | .fail => (sf, C, k)
  | t => let r := compDec sf br t C k; labelC r.1 r.2

theorem compDec_interval (sf : Nat) (br : I α) (left right : DTree α) (d : Dec α) (C : Code α) (k : Nat) :
    compDec sf br (.interval left d right) C k =
      let r := sub sf br right C k
      let l := sub sf br left r.2.1 r.2.2
      match d.act with
      | [a] => (.interval d.low d.high l.1 r.1 :: compAct sf a (br :: dead l.2.1), l.2.2)
      | v =>
          let q := compSwitch sf br v l.2.1 l.2.2
          (.interval d.low d.high l.1 r.1 :: q.1, q.2) := by
  cases left <;> cases right <;> rfl

theorem compDec_head (sf : Nat) (br : I α) (left right : DTree α) (d : Dec α) (C : Code α) (k : Nat) :
    ∃ lo hi l1 l2 X, (compDec sf br (.interval left d right) C k).1 = .interval lo hi l1 l2 :: X := by
  rw [compDec_interval]
  simp only
  split <;> exact ⟨_, _, _, _, _, rfl⟩

/-- A subtree with its label. -/
theorem sub_ok (P : Code α) (sf : Nat) (nd : (labels P).Nodup) (br : I α) (t : DTree α) (C : Code α) (k : Nat)
    (hk : sf ≤ k) (h : DecOk P sf br t C k) :
    k ≤ (sub sf br t C k).2.2 ∧ dead C <:+ dead (sub sf br t C k).2.1 ∧
      (dead (sub sf br t C k).2.1 <:+ P → ∀ n, ∃ r, resOf br (evalTree t n) r ∧ Jump P sf (sub sf br t C k).1 n r) := by
  cases t with
  | fail => exact ⟨le_refl _, List.suffix_refl _, fun _ n => ⟨.failed, rfl, .failed n⟩⟩
  | interval left d right =>
      obtain ⟨h1, h2, h3⟩ := h
      obtain ⟨lo, hi, l1, l2, X, hX⟩ := compDec_head sf br left right d C k
      simp only [sub]
      generalize compDec sf br (.interval left d right) C k = q at *
      rw [hX] at h2 h3
      rw [hX]
      simp only [labelC, dead_label]
      refine ⟨by omega, h2.trans (List.suffix_cons _ _), fun hP n => ?_⟩
      obtain ⟨r, r1, r2⟩ := h3 (suffix_cons_of hP) n
      exact ⟨r, r1, jump_label P sf nd _ (by omega) _ hP n r r2⟩

theorem compDec_ok (P : Code α) (sf : Nat) (nd : (labels P).Nodup) (br : I α) : ∀ (t : DTree α), TreeOk t →
    ∀ (C : Code α) (k : Nat), sf ≤ k → DecOk P sf br t C k
  | .fail, _, C, k, hk =>
      ⟨le_refl _, List.suffix_cons _ _, fun _ n => ⟨.failed, rfl, .branch (.failed n)⟩⟩
  | .interval left d right, ⟨hl, hr, d1, d2, d3⟩, C, k, hk => by
      have R := sub_ok P sf nd br right C k hk (compDec_ok P sf nd br right hr C k hk)
      have L := sub_ok P sf nd br left (sub sf br right C k).2.1 (sub sf br right C k).2.2 (by omega)
        (compDec_ok P sf nd br left hl _ _ (by omega))
      rw [DecOk, compDec_interval]
      simp only
      generalize sub sf br right C k = r at *
      generalize sub sf br left r.2.1 r.2.2 = l at *
      obtain ⟨R1, R2, R3⟩ := R
      obtain ⟨L1, L2, L3⟩ := L
      -- the code behind the comparison
      have key : ∀ (X : Code α) (k' : Nat), l.2.2 ≤ k' → dead l.2.1 <:+ X →
          (X <:+ P → ∀ (i : Nat) (e : Option α), d.act[i]? = some e → ∃ q, resOf br e q ∧ Go P sf X i q) →
          k ≤ k' ∧ dead C <:+ (.interval d.low d.high l.1 r.1 :: X) ∧
            ((.interval d.low d.high l.1 r.1 :: X) <:+ P → ∀ n, ∃ q,
              resOf br (evalTree (.interval left d right) n) q ∧
                Go P sf (.interval d.low d.high l.1 r.1 :: X) n q) := by
        intro X k' hk' hX hgo
        refine ⟨by omega, ((R2.trans L2).trans hX).trans (List.suffix_cons _ _), fun hP n => ?_⟩
        have hX' := suffix_cons_of hP
        simp only [evalTree]
        split
        · rename_i hlt
          obtain ⟨q, q1, q2⟩ := L3 (hX.trans hX') n
          exact ⟨q, q1, .less hlt q2⟩
        · rename_i hge
          split
          · rename_i hgt
            obtain ⟨q, q1, q2⟩ := R3 ((L2.trans hX).trans hX') n
            exact ⟨q, q1, .greater (by omega) hgt q2⟩
          · rename_i hle
            have hi : (n - d.low).toNat < d.act.length := by omega
            obtain ⟨q, q1, q2⟩ := hgo hX' (n - d.low).toNat d.act[(n - d.low).toNat] (List.getElem?_eq_getElem hi)
            refine ⟨q, ?_, .inside (by omega) (by omega) ?_⟩
            · rw [Dec.entry, List.getElem?_eq_getElem hi]
              exact q1
            · have e : ((n - d.low).toNat : Int) = n - d.low := by omega
              rw [e] at q2; exact q2
      split
      · rename_i a ha
        refine key _ _ (le_refl _) ?_ ?_
        · cases a with
          | none =>
              simp only [compAct]
              refine List.IsSuffix.trans ?_ (List.suffix_cons _ _)
              cases br with
              | label l => exact List.suffix_cons _ _
              | other b n =>
                  cases b
                  · show _ <:+ dead (dead l.2.1); rw [dead_dead]; exact List.suffix_refl _
                  · exact List.suffix_cons _ _
              | _ => show _ <:+ dead (dead l.2.1); rw [dead_dead]; exact List.suffix_refl _
          | some a => exact ⟨[.act a, br], rfl⟩
        · intro hX i e he
          rw [ha] at he
          rcases i with _ | i
          · simp only [List.getElem?_cons_zero, Option.some.injEq] at he
            subst he
            cases a with
            | none => exact ⟨.failed, rfl, .branch (.failed _)⟩
            | some a => exact ⟨_, ⟨_, rfl⟩, .act a _ _⟩
          · simp at he
      · rename_i v hv
        have S : ∀ Q : Code α, (labels Q).Nodup → _ := fun Q hQ => compSwitch_ok Q sf hQ br d.act l.2.1 l.2.2 (by omega)
        have Sk : l.2.2 ≤ (compSwitch sf br d.act l.2.1 l.2.2).2 ∧
            dead l.2.1 <:+ (compSwitch sf br d.act l.2.1 l.2.2).1 := by
          obtain ⟨c1, c2, c3⟩ := compCases_ok sf br l.2.1 d.act l.2.2 (by omega)
          exact ⟨c1, c3.trans (addSwitch_suffix _ _ (dead_dead _))⟩
        exact key _ _ Sk.1 Sk.2 fun hX i e he => (S P nd hX).2.2 i e he

/-! ## Labels are placed once -/

/-- The labels of `X` are those of `C`, or fewer, and new ones between `k` and `k'`. -/
def Fresh (C : Code α) (k : Nat) (X : Code α) (k' : Nat) : Prop :=
  k ≤ k' ∧ ((labels C).Nodup → (∀ l ∈ labels C, l ≤ k) → (labels X).Nodup ∧ ∀ l ∈ labels X, l ≤ k')

theorem labels_suffix {A B : Code α} (h : A <:+ B) : List.Sublist (labels A) (labels B) := by
  obtain ⟨t, rfl⟩ := h
  rw [labels_append]
  exact List.sublist_append_right _ _

theorem Fresh.refl (C : Code α) (k : Nat) : Fresh C k C k := ⟨le_refl _, fun h1 h2 => ⟨h1, h2⟩⟩

theorem Fresh.trans {C X Y : Code α} {k1 k2 k3 : Nat} (h1 : Fresh C k1 X k2) (h2 : Fresh X k2 Y k3) :
    Fresh C k1 Y k3 :=
  ⟨le_trans h1.1 h2.1, fun a b => h2.2 (h1.2 a b).1 (h1.2 a b).2⟩

theorem Fresh.sub {C X : Code α} {k : Nat} (h : (labels X).Sublist (labels C)) : Fresh C k X k :=
  ⟨le_refl _, fun h1 h2 => ⟨h1.sublist h, fun l hl => h2 l (h.subset hl)⟩⟩

theorem Fresh.dead (C : Code α) (k : Nat) : Fresh C k (dead C) k := Fresh.sub (labels_suffix (dead_suffix C))

/-- Not a label. -/
def NoLabel : I α → Prop
  | .label _ => False
  | _ => True

theorem labels_cons_noLabel {x : I α} (h : NoLabel x) (C : Code α) : labels (x :: C) = labels C := by
  cases x <;> first | rfl | exact h.elim

theorem Fresh.cons {x : I α} (C : Code α) (k : Nat) (h : NoLabel x := by exact trivial) : Fresh C k (x :: C) k :=
  Fresh.sub (by rw [labels_cons_noLabel h])

theorem Fresh.labelC (C : Code α) (k : Nat) : Fresh C k (labelC C k).2.1 (labelC C k).2.2 := by
  unfold Cond.labelC
  split
  · exact Fresh.refl _ _
  · exact Fresh.refl _ _
  · show Fresh C k (.label (k + 1) :: C) (k + 1)
    refine ⟨by omega, fun h1 h2 => ⟨?_, ?_⟩⟩
    · simp only [labels, List.nodup_cons]
      exact ⟨fun hm => by have := h2 _ hm; omega, h1⟩
    · intro l hl
      simp only [labels, List.mem_cons] at hl
      rcases hl with rfl | hl
      · omega
      · have := h2 l hl; omega

theorem Fresh.compAct (sf : Nat) (a : Option α) (C : Code α) (k : Nat) : Fresh C k (compAct sf a C) k := by
  cases a with
  | none => exact (Fresh.dead C k).trans (Fresh.cons _ _)
  | some a => exact Fresh.cons _ _

theorem Fresh.addSwitch (ls : List Nat) (C : Code α) (k : Nat) : Fresh C k (addSwitch ls C) k := by
  unfold Cond.addSwitch
  split
  · exact Fresh.cons _ _
  · split
    · split
      · split
        · exact Fresh.refl _ _
        · exact Fresh.cons _ _
      · exact (Fresh.dead _ _).trans (Fresh.cons _ _)
    · exact Fresh.cons _ _

theorem Fresh.compCases (sf : Nat) (br : I α) (hbr : NoLabel br) (C : Code α) : ∀ (v : List (Option α)) (k : Nat),
    Fresh C k (compCases sf br C v k).2.1 (compCases sf br C v k).2.2
  | [], k => Fresh.refl _ _
  | e :: v, k =>
      (Fresh.compCases sf br hbr C v k).trans
        ((Fresh.dead _ _).trans ((Fresh.cons _ _ hbr).trans ((Fresh.compAct sf e _ _).trans (Fresh.labelC _ _))))

theorem Fresh.compSwitch (sf : Nat) (br : I α) (hbr : NoLabel br) (v : List (Option α)) (C : Code α) (k : Nat) :
    Fresh C k (compSwitch sf br v C k).1 (compSwitch sf br v C k).2 :=
  (Fresh.compCases sf br hbr C v k).trans ((Fresh.dead _ _).trans (Fresh.addSwitch _ _ _))

theorem Fresh.compDec (sf : Nat) (br : I α) (hbr : NoLabel br) : ∀ (t : DTree α) (C : Code α) (k : Nat),
    Fresh C k (compDec sf br t C k).1 (compDec sf br t C k).2
  | .fail, C, k => (Fresh.dead _ _).trans (Fresh.cons _ _)
  | .interval left d right, C, k => by
      have hsub : ∀ (t : DTree α) (C : Code α) (k : Nat), Fresh C k (Cond.compDec sf br t C k).1 (Cond.compDec sf br t C k).2 →
          Fresh C k (Cond.sub sf br t C k).2.1 (Cond.sub sf br t C k).2.2 := by
        intro t C k h
        cases t with
        | fail => exact Fresh.refl _ _
        | interval l d r => exact h.trans (Fresh.labelC _ _)
      have R := hsub right C k (Fresh.compDec sf br hbr right C k)
      rw [compDec_interval]
      simp only
      generalize Cond.sub sf br right C k = r at *
      have L := hsub left r.2.1 r.2.2 (Fresh.compDec sf br hbr left _ _)
      generalize Cond.sub sf br left r.2.1 r.2.2 = l at *
      split
      · exact (R.trans L).trans ((Fresh.dead _ _).trans ((Fresh.cons _ _ hbr).trans
          ((Fresh.compAct _ _ _ _).trans (Fresh.cons _ _))))
      · exact (R.trans L).trans ((Fresh.compSwitch sf br hbr _ _ _).trans (Fresh.cons _ _))

end Mosml.Cond
