import Verif.Match.Main

/-!
C50: the Lambda code made of a dag does what the dag decides.
-/
namespace Mosml.Match

/-- what the leaf does -/
def leafOut (γ : Nat → R) (ρ : List R) (fl : Lam) (g : Dag) (m : Nat) : Out := match g.nodes[m]? with
  | some .failure => evalLam γ ρ fl
  | some (.success k) => .rhs k
  | _ => .stuck

/-- the node after a sequence of tests -/
def pick {κ : Type} (hit : κ → Bool) (o : Nat) : List (κ × Nat) → Nat
  | [] => o
  | (c, t) :: rest => if hit c then t else pick hit o rest

theorem collect_leads {γ ρ κ g last} {getcon : Con → Option κ} {hit : κ → Bool} (hg : ∀ con c b, getcon con = some c → testR γ ρ last con = some b → b = hit c)
    {fuel cases n cases' o} (h : collect g getcon last fuel cases n = some (cases', o)) :
    ∃ new, cases'.reverse = cases.reverse ++ new ∧ ∀ m, Leads γ ρ g.nodes n m → Leads γ ρ g.nodes (pick hit o new) m := by
  induction fuel generalizing cases n with
  | zero => simp [collect] at h
  | succ fuel ih =>
    rw [collect] at h
    split at h
    · rename_i obj con t e hn
      split at h
      · rename_i hif
        cases hc : getcon con with
        | none => rw [hc] at h; simp at h
        | some c =>
          rw [hc] at h
          obtain ⟨new, h1, h2⟩ := ih h
          refine ⟨(c, t) :: new, by rw [h1]; simp, fun m hm => ?_⟩
          have hobj := hif.1
          subst hobj
          rw [pick]
          cases hm with
          | leaf h3 h4 => rw [hn] at h3; cases h3; simp [isLeaf] at h4
          | yes h3 h4 h5 => rw [hn] at h3; cases h3; rw [← hg _ _ _ hc h4]; exact h5
          | no h3 h4 h5 => rw [hn] at h3; cases h3; rw [← hg _ _ _ hc h4]; exact h2 m h5
      · cases h; exact ⟨[], by simp, fun m hm => hm⟩
    · cases h; exact ⟨[], by simp, fun m hm => hm⟩

theorem evalCase_pick {γ ρ g fl r o m} {f : Nat → Option Lam} (hf : ∀ n l m, f n = some l → Leads γ ρ g.nodes n m → evalLam γ ρ l = leafOut γ ρ fl g m)
    {new : List (SCon × Nat)} {ls} (h : new.mapM (fun (c, n) => (f n).map (fun l => (c, l))) = some ls) (hl : Leads γ ρ g.nodes (pick (fun c => sconEq c r) o new) m) :
    evalCase γ ρ r ls = leafOut γ ρ fl g m ∨ evalCase γ ρ r ls = .staticfail ∧ Leads γ ρ g.nodes o m := by
  induction new generalizing ls with
  | nil => simp at h; subst h; exact .inr ⟨rfl, hl⟩
  | cons x new ih =>
    obtain ⟨c, t⟩ := x
    simp only [List.mapM_cons, Option.bind_eq_bind] at h
    cases h1 : f t with
    | none => rw [h1] at h; simp at h
    | some l1 =>
      rw [h1] at h
      simp only [Option.map_some, Option.bind_some] at h
      cases h2 : new.mapM (fun (c, n) => (f n).map (fun l => (c, l))) with
      | none => rw [h2] at h; simp at h
      | some ls' =>
        rw [h2] at h
        simp only [Option.bind_some, Option.pure_def, Option.some.injEq] at h
        subst h
        rw [evalCase]
        rw [pick] at hl
        split
        · rename_i hh; rw [if_pos hh] at hl; exact .inl (hf _ _ _ h1 hl)
        · rename_i hh; rw [if_neg hh] at hl; exact ih h2 hl

theorem evalSwitch_pick {γ ρ g fl tag o m} {f : Nat → Option Lam} (hf : ∀ n l m, f n = some l → Leads γ ρ g.nodes n m → evalLam γ ρ l = leafOut γ ρ fl g m)
    {new : List (Nat × Nat)} {ls} (h : new.mapM (fun (c, n) => (f n).map (fun l => (c, l))) = some ls) (hl : Leads γ ρ g.nodes (pick (fun c => decide (c = tag)) o new) m) :
    evalSwitch γ ρ tag ls = leafOut γ ρ fl g m ∨ evalSwitch γ ρ tag ls = .staticfail ∧ Leads γ ρ g.nodes o m := by
  induction new generalizing ls with
  | nil => simp at h; subst h; exact .inr ⟨rfl, hl⟩
  | cons x new ih =>
    obtain ⟨c, t⟩ := x
    simp only [List.mapM_cons, Option.bind_eq_bind] at h
    cases h1 : f t with
    | none => rw [h1] at h; simp at h
    | some l1 =>
      rw [h1] at h
      simp only [Option.map_some, Option.bind_some] at h
      cases h2 : new.mapM (fun (c, n) => (f n).map (fun l => (c, l))) with
      | none => rw [h2] at h; simp at h
      | some ls' =>
        rw [h2] at h
        simp only [Option.bind_some, Option.pure_def, Option.some.injEq] at h
        subst h
        rw [evalSwitch]
        rw [pick] at hl
        split
        · rename_i hh; rw [if_pos (by simpa using hh)] at hl; exact .inl (hf _ _ _ h1 hl)
        · rename_i hh; rw [if_neg (by simpa using hh)] at hl; exact ih h2 hl

theorem leafOut_ne {γ ρ fl g m} (hfl : fl = .failLam ∨ fl = .unspec) : leafOut γ ρ fl g m ≠ .staticfail := by
  unfold leafOut
  split
  · rcases hfl with rfl | rfl <;> simp [evalLam]
  · simp
  · simp

theorem handle_ok {γ ρ fl g m b l2} {o : Nat} (hfl : fl = .failLam ∨ fl = .unspec) (hh : ∀ m, Leads γ ρ g.nodes o m → evalLam γ ρ l2 = leafOut γ ρ fl g m)
    (h : evalLam γ ρ b = leafOut γ ρ fl g m ∨ evalLam γ ρ b = .staticfail ∧ Leads γ ρ g.nodes o m) : evalLam γ ρ (.handle b l2) = leafOut γ ρ fl g m := by
  rw [evalLam]
  rcases h with h | ⟨h, hl⟩
  · rw [h]
    have := leafOut_ne (γ := γ) (ρ := ρ) (g := g) (m := m) hfl
    split
    · rename_i e; exact (this e).elim
    · rfl
  · rw [h]; exact hh m hl

theorem leads_test {γ ρ N n m a c t e} (h : Leads γ ρ N n m) (hn : N[n]? = some (.ifEq a c t e)) : ∃ b, testR γ ρ a c = some b ∧ Leads γ ρ N (if b then t else e) m := by
  cases h with
  | leaf h1 h2 => rw [hn] at h1; cases h1; simp [isLeaf] at h2
  | yes h1 h2 h3 => rw [hn] at h1; cases h1; exact ⟨true, h2, h3⟩
  | no h1 h2 h3 => rw [hn] at h1; cases h1; exact ⟨false, h2, h3⟩

theorem toseq_ok {γ ρ g fl} (hfl : fl = .failLam ∨ fl = .unspec) (fuel : Nat) :
    (∀ n l m, toseq g fl fuel n = some l → Leads γ ρ g.nodes n m → evalLam γ ρ l = leafOut γ ρ fl g m) ∧
    (∀ n l m, share g fl fuel n = some l → Leads γ ρ g.nodes n m → evalLam γ ρ l = leafOut γ ρ fl g m) := by
  induction fuel with
  | zero => constructor <;> intros <;> simp_all [toseq, share]
  | succ fuel ih =>
    obtain ⟨ih1, ih2⟩ := ih
    constructor
    · intro n l m h hl
      rw [toseq] at h
      cases hn : g.nodes[n]? with
      | none => rw [hn] at h; simp at h
      | some d =>
        rw [hn] at h
        cases d with
        | failure =>
          cases h
          cases hl with
          | leaf _ _ => unfold leafOut; rw [hn]
          | yes h1 => rw [hn] at h1; cases h1
          | no h1 => rw [hn] at h1; cases h1
        | success k =>
          cases h
          cases hl with
          | leaf _ _ => unfold leafOut; rw [hn]; rfl
          | yes h1 => rw [hn] at h1; cases h1
          | no h1 => rw [hn] at h1; cases h1
        | ifEq a c t e =>
          obtain ⟨b, hb, hl⟩ := leads_test hl hn
          cases c with
          | tup k => simp [testR] at hb
          | scon c =>
            simp only [Option.bind_eq_some_iff, Option.some.injEq, Prod.exists] at h
            obtain ⟨cases', o, hc, l1, hl1, ls, hls, l2, hl2, rfl⟩ := h
            rw [testR] at hb
            cases hr : evalAcc γ ρ a with
            | none => rw [hr] at hb; simp at hb
            | some r =>
              rw [hr] at hb
              simp only [Option.map_some, Option.some.injEq] at hb
              have hg : ∀ con c b, getSCon con = some c → testR γ ρ a con = some b → b = sconEq c r := by
                intro con c b h1 h2
                cases con <;> simp [getSCon] at h1
                subst h1
                rw [testR, hr] at h2
                simpa using h2.symm
              obtain ⟨new, e1, e2⟩ := collect_leads (γ := γ) (ρ := ρ) hg hc
              simp only [List.reverse_nil, List.nil_append] at e1
              unfold revmap at hls
              rw [e1] at hls
              refine handle_ok hfl (fun m hm => ih2 _ _ _ hl2 hm) ?_
              rw [evalLam, hr]
              simp only [evalCase]
              rw [hb]
              cases b with
              | true => exact .inl (by simpa using ih2 _ _ _ hl1 hl)
              | false => simpa using evalCase_pick ih2 hls (e2 m hl)
          | vec k =>
            simp only [Option.bind_eq_some_iff, Option.some.injEq, Prod.exists] at h
            obtain ⟨cases', o, hc, l1, hl1, ls, hls, l2, hl2, rfl⟩ := h
            rw [testR] at hb
            cases hr : evalAcc γ ρ a with
            | none => rw [hr] at hb; simp at hb
            | some r =>
              rw [hr] at hb
              simp only [Option.map_some, Option.some.injEq] at hb
              have hg : ∀ con c b, getVec con = some c → testR γ ρ a con = some b → b = sconEq c r := by
                intro con c b h1 h2
                cases con <;> simp [getVec] at h1
                subst h1
                rw [testR, hr] at h2
                simpa using h2.symm
              obtain ⟨new, e1, e2⟩ := collect_leads (γ := γ) (ρ := ρ) hg hc
              simp only [List.reverse_nil, List.nil_append] at e1
              unfold revmap at hls
              rw [e1] at hls
              refine handle_ok hfl (fun m hm => ih2 _ _ _ hl2 hm) ?_
              rw [evalLam, hr]
              simp only [evalCase]
              rw [hb]
              cases b with
              | true => exact .inl (by simpa using ih2 _ _ _ hl1 hl)
              | false => simpa using evalCase_pick ih2 hls (e2 m hl)
          | ccon tag sp ar =>
            simp only [Option.bind_eq_some_iff, Option.some.injEq, Prod.exists] at h
            obtain ⟨cases', o, hc, l1, hl1, ls, hls, l2, hl2, rfl⟩ := h
            rw [testR] at hb
            split at hb
            · rename_i tg fs hr
              split at hb
              · rename_i hlt
                simp only [Option.some.injEq] at hb
                have hg : ∀ con c b, getCCon con = some c → testR γ ρ a con = some b → b = decide (c = tg) := by
                  intro con c b h1 h2
                  cases con <;> simp [getCCon] at h1
                  subst h1
                  rw [testR, hr] at h2
                  simp only at h2
                  split at h2
                  · simpa using h2.symm
                  · simp at h2
                obtain ⟨new, e1, e2⟩ := collect_leads (γ := γ) (ρ := ρ) hg hc
                simp only [List.reverse_nil, List.nil_append] at e1
                unfold revmap at hls
                rw [e1] at hls
                refine handle_ok hfl (fun m hm => ih2 _ _ _ hl2 hm) ?_
                rw [evalLam, hr]
                simp only [evalSwitch, hlt, if_true]
                subst hb
                by_cases ht : tag = tg
                · rw [if_pos ht]
                  exact .inl (ih2 _ _ _ hl1 (by simpa [ht] using hl))
                · rw [if_neg ht]
                  exact evalSwitch_pick ih2 hls (e2 m (by simpa [ht] using hl))
              · simp at hb
            · simp at hb
          | eexn b' =>
            simp only [Option.bind_eq_some_iff, Option.some.injEq] at h
            obtain ⟨l1, hl1, l2, hl2, rfl⟩ := h
            rw [testR] at hb
            split at hb
            · rename_i x y h1 h2
              simp only [Option.some.injEq] at hb
              rw [evalLam, h1, h2]
              simp only
              subst hb
              split
              · rename_i hxy; exact ih2 _ _ _ hl1 (by simpa [hxy] using hl)
              · rename_i hxy; exact ih2 _ _ _ hl2 (by simpa [hxy] using hl)
            · simp at hb
    · intro n l m h hl
      rw [share] at h
      split at h
      · cases h1 : toseq g fl fuel n with
        | none => rw [h1] at h; simp at h
        | some l' =>
          rw [h1] at h
          simp only [Option.map_some, Option.some.injEq] at h
          subst h
          rw [evalLam]
          exact ih1 _ _ _ h1 hl
      · exact ih1 _ _ _ h hl

end Mosml.Match
