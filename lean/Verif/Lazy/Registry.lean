import Verif.Lazy.Spec

/-!
# Lemmas on the registry
-/

namespace Mosml.Lazy

variable {V P : Type}

/-- What the table has for a name with this status. -/
def Agrees (σ : Registry V P) (nam : Name) : Status V → Prop
  | .never => σ.table nam = none
  | .unregistered => ∃ r, σ.table nam = some r ∧ r < σ.refs.length ∧ σ.refs[r]? = some none
  | .registered v => ∃ r, σ.table nam = some r ∧ r < σ.refs.length ∧ σ.refs[r]? = some (some v)

/-- The registry agrees with a history, the last operation first. -/
structure Inv (σ : Registry V P) (hist : List (Op V P)) : Prop where
  agrees : ∀ nam, Agrees σ nam (statusOf nam hist)
  inj : ∀ n m r, σ.table n = some r → σ.table m = some r → n = m
  cptr : ∀ nam, σ.cptrs nam = firstCptr nam hist.reverse

theorem Inv.lt {σ : Registry V P} {hist} (h : Inv σ hist) {n r} (hn : σ.table n = some r) :
    r < σ.refs.length := by
  have := h.agrees n
  cases hs : statusOf n hist <;> rw [hs] at this <;> simp only [Agrees] at this
  · rw [this] at hn; simp at hn
  all_goals
    obtain ⟨r', h1, h2, -⟩ := this
    rw [hn] at h1; simp at h1; omega

theorem inv_empty : Inv (Registry.empty : Registry V P) [] :=
  ⟨fun _ => rfl, fun _ _ _ h => by simp [Registry.empty] at h, fun _ => rfl⟩

theorem firstCptr_append (nam : Name) (l l' : List (Op V P)) :
    firstCptr nam (l ++ l') = (firstCptr nam l).or (firstCptr nam l') := by
  unfold firstCptr
  rw [List.findSome?_append]

theorem firstCptr_other (nam : Name) (hist : List (Op V P)) (o : Op V P)
    (ho : ∀ n p, o ≠ .registercptr n p) :
    firstCptr nam (o :: hist).reverse = firstCptr nam hist.reverse := by
  rw [List.reverse_cons, firstCptr_append]
  cases o <;> first | (exact absurd rfl (ho _ _)) | simp [firstCptr]

theorem agrees_refs {σ σ' : Registry V P} {nam : Name} {st : Status V} (ht : σ'.table nam = σ.table nam)
    (hl : σ.refs.length ≤ σ'.refs.length)
    (hr : ∀ r, σ.table nam = some r → r < σ.refs.length → σ'.refs[r]? = σ.refs[r]?)
    (h : Agrees σ nam st) : Agrees σ' nam st := by
  cases st <;> simp only [Agrees] at *
  · rw [ht]; exact h
  all_goals
    obtain ⟨r, h1, h2, h3⟩ := h
    exact ⟨r, by rw [ht]; exact h1, by omega, by rw [hr r h1 h2]; exact h3⟩

theorem inv_register {σ : Registry V P} {hist} (h : Inv σ hist) (nam : Name) (v : V) :
    Inv (register σ nam v).1 (.register nam v :: hist) ∧
      (register σ nam v).2 = match statusOf nam hist with
        | .registered _ => .fail
        | _ => .unit := by
  have ha := h.agrees nam
  have hc : ∀ n, firstCptr n (.register nam v :: hist).reverse = firstCptr n hist.reverse :=
    fun n => firstCptr_other n hist _ (by simp)
  have other : ∀ (σ' : Registry V P), (∀ n, n ≠ nam → σ'.table n = σ.table n) →
      σ.refs.length ≤ σ'.refs.length →
      (∀ n r, n ≠ nam → σ.table n = some r → r < σ.refs.length → σ'.refs[r]? = σ.refs[r]?) →
      ∀ n, n ≠ nam → Agrees σ' n (statusOf n (.register nam v :: hist)) := by
    intro σ' ht hl hr n hn
    simp only [statusOf, if_neg (Ne.symm hn)]
    exact agrees_refs (ht n hn) hl (fun r => hr n r hn) (h.agrees n)
  cases hs : statusOf nam hist with
  | never =>
    rw [hs] at ha; simp only [Agrees] at ha
    simp only [register, peekInsert, ha]
    refine ⟨⟨fun n => ?_, ?_, fun n => by rw [hc]; exact h.cptr n⟩, trivial⟩
    · by_cases hn : n = nam
      · subst hn
        simp only [statusOf, if_true, hs, Agrees]
        exact ⟨σ.refs.length, rfl, by simp, by simp⟩
      · refine other _ (fun n hn => by simp [hn]) (by simp) ?_ n hn
        intro n r _ _ hlt
        exact List.getElem?_append_left hlt
    · intro n m r h1 h2
      simp only at h1 h2
      by_cases hn : n = nam <;> by_cases hm : m = nam
      · rw [hn, hm]
      · rw [if_pos hn] at h1; rw [if_neg hm] at h2
        have := h.lt h2
        simp at h1; omega
      · rw [if_neg hn] at h1; rw [if_pos hm] at h2
        have := h.lt h1
        simp at h2; omega
      · rw [if_neg hn] at h1; rw [if_neg hm] at h2
        exact h.inj n m r h1 h2
  | unregistered =>
    rw [hs] at ha; simp only [Agrees] at ha
    obtain ⟨r, h1, h2, h3⟩ := ha
    have hg : (σ.refs ++ [some v]).getD r none = none := by
      rw [List.getD_eq_getElem?_getD, List.getElem?_append_left h2, h3]; rfl
    simp only [register, peekInsert, h1, hg]
    refine ⟨⟨fun n => ?_, h.inj, fun n => by rw [hc]; exact h.cptr n⟩, trivial⟩
    by_cases hn : n = nam
    · subst hn
      simp only [statusOf, if_true, hs, Agrees]
      exact ⟨r, h1, by simp; omega, List.getElem?_set_self (by simp; omega)⟩
    · refine other ⟨σ.table, (σ.refs ++ [some v]).set r (some v), σ.cptrs⟩ (fun n hn => rfl) (by simp) ?_ n hn
      intro n q hn hq hlt
      have hne : r ≠ q := by rintro rfl; exact hn (h.inj n nam r hq h1)
      show ((σ.refs ++ [some v]).set r (some v))[q]? = _
      rw [List.getElem?_set_ne hne, List.getElem?_append_left hlt]
  | registered w =>
    rw [hs] at ha; simp only [Agrees] at ha
    obtain ⟨r, h1, h2, h3⟩ := ha
    have hg : (σ.refs ++ [some v]).getD r none = some w := by
      rw [List.getD_eq_getElem?_getD, List.getElem?_append_left h2, h3]; rfl
    simp only [register, peekInsert, h1, hg]
    refine ⟨⟨fun n => ?_, h.inj, fun n => by rw [hc]; exact h.cptr n⟩, trivial⟩
    by_cases hn : n = nam
    · subst hn
      simp only [statusOf, if_true, hs, Agrees]
      exact ⟨r, h1, by simp; omega, by rw [List.getElem?_append_left h2]; exact h3⟩
    · refine other ⟨σ.table, σ.refs ++ [some v], σ.cptrs⟩ (fun n hn => rfl) (by simp) ?_ n hn
      intro n q hn hq hlt
      exact List.getElem?_append_left hlt

theorem inv_unregister {σ : Registry V P} {hist} (h : Inv σ hist) (nam : Name) :
    Inv (unregister σ nam).1 (.unregister nam :: hist) ∧
      (unregister σ nam).2 = match statusOf nam hist with
        | .never => .fail
        | _ => .unit := by
  have ha := h.agrees nam
  have hc : ∀ n, firstCptr n (.unregister nam :: hist).reverse = firstCptr n hist.reverse :=
    fun n => firstCptr_other n hist _ (by simp)
  have reg : ∀ r, σ.table nam = some r → r < σ.refs.length → statusOf nam hist ≠ .never →
      Inv (unregister σ nam).1 (.unregister nam :: hist) ∧
        (unregister σ nam).2 = .unit := by
    intro r h1 h2 h3
    simp only [unregister, h1]
    refine ⟨⟨fun n => ?_, h.inj, fun n => by rw [hc]; exact h.cptr n⟩, trivial⟩
    by_cases hn : n = nam
    · subst hn
      simp only [statusOf, if_true]
      have : ∃ q, σ.table n = some q ∧ q < (σ.refs.set r none).length ∧
          (σ.refs.set r none)[q]? = some none :=
        ⟨r, h1, by simpa using h2, List.getElem?_set_self h2⟩
      cases hs : statusOf n hist with
      | never => exact absurd hs h3
      | unregistered => exact this
      | registered w => exact this
    · simp only [statusOf, if_neg (Ne.symm hn)]
      refine agrees_refs (σ := σ) rfl (by simp) (fun q hq hlt => ?_) (h.agrees n)
      have hne : r ≠ q := by rintro rfl; exact hn (h.inj n nam r hq h1)
      exact List.getElem?_set_ne hne
  cases hs : statusOf nam hist with
  | never =>
    rw [hs] at ha; simp only [Agrees] at ha
    simp only [unregister, ha]
    refine ⟨⟨fun n => ?_, h.inj, fun n => by rw [hc]; exact h.cptr n⟩, trivial⟩
    by_cases hn : n = nam
    · subst hn; simp only [statusOf, if_true, hs]; exact ha
    · simp only [statusOf, if_neg (Ne.symm hn)]; exact h.agrees n
  | unregistered =>
    rw [hs] at ha; simp only [Agrees] at ha
    obtain ⟨r, h1, h2, h3⟩ := ha
    exact reg r h1 h2 (by rw [hs]; simp)
  | registered w =>
    rw [hs] at ha; simp only [Agrees] at ha
    obtain ⟨r, h1, h2, h3⟩ := ha
    exact reg r h1 h2 (by rw [hs]; simp)

theorem inv_registercptr {σ : Registry V P} {hist} (h : Inv σ hist) (nam : Name) (p : P) :
    Inv (registercptr σ nam p).1 (.registercptr nam p :: hist) ∧
      (registercptr σ nam p).2 = match firstCptr nam hist.reverse with
        | none => .unit
        | some _ => .fail := by
  have hf : ∀ n, firstCptr n (.registercptr nam p :: hist).reverse =
      (firstCptr n hist.reverse).or (if nam = n then some p else none) := by
    intro n
    rw [List.reverse_cons, firstCptr_append]
    congr 1
    by_cases hn : nam = n <;> simp [firstCptr, hn]
  have hc := h.cptr nam
  cases hs : firstCptr nam hist.reverse with
  | none =>
    rw [hs] at hc
    simp only [registercptr, peekInsert, hc]
    refine ⟨⟨fun n => h.agrees n, h.inj, fun n => ?_⟩, trivial⟩
    rw [hf]
    by_cases hn : n = nam
    · subst hn; simp [hs]
    · simp [hn, Ne.symm hn, h.cptr n]
  | some q =>
    rw [hs] at hc
    simp only [registercptr, peekInsert, hc]
    refine ⟨⟨fun n => h.agrees n, h.inj, fun n => ?_⟩, trivial⟩
    rw [hf]
    by_cases hn : n = nam
    · subst hn; simp [hs, hc]
    · simp [Ne.symm hn, h.cptr n]

theorem inv_same {σ : Registry V P} {hist} (h : Inv σ hist) (o : Op V P)
    (hs : ∀ n, statusOf n (o :: hist) = statusOf n hist) (ho : ∀ n p, o ≠ .registercptr n p) :
    Inv σ (o :: hist) :=
  ⟨fun n => by rw [hs]; exact h.agrees n, h.inj,
    fun n => by rw [firstCptr_other n hist o ho]; exact h.cptr n⟩

theorem inv_step {σ : Registry V P} {hist} (h : Inv σ hist) (o : Op V P) :
    Inv (step σ o).1 (o :: hist) := by
  cases o with
  | register n v => exact (inv_register h n v).1
  | unregister n => exact (inv_unregister h n).1
  | registercptr n p => exact (inv_registercptr h n p).1
  | isRegistered n => exact inv_same h _ (fun _ => rfl) (by simp)
  | getValueptr n => exact inv_same h _ (fun _ => rfl) (by simp)
  | getValue n => exact inv_same h _ (fun _ => rfl) (by simp)
  | getcptr n => exact inv_same h _ (fun _ => rfl) (by simp)

theorem inv_after (ops : List (Op V P)) : ∀ (σ : Registry V P) hist, Inv σ hist →
    Inv (after σ ops) (ops.reverse ++ hist) := by
  induction ops with
  | nil => intro σ hist h; simpa [after] using h
  | cons o ops ih =>
    intro σ hist h
    have := ih _ _ (inv_step h o)
    simpa [after] using this

/-- The entry of a name is never changed. -/
theorem table_step {σ : Registry V P} (o : Op V P) (nam : Name) (r : Nat)
    (h : σ.table nam = some r) : (step σ o).1.table nam = some r := by
  cases o with
  | register n v =>
    simp only [step, register, peekInsert]
    cases ht : σ.table n with
    | none =>
      simp only
      rw [if_neg (by rintro rfl; rw [ht] at h; simp at h)]; exact h
    | some q =>
      simp only
      split <;> exact h
  | unregister n => simp only [step, unregister]; split <;> exact h
  | registercptr n p => simp only [step, registercptr]; split <;> exact h
  | _ => exact h

theorem table_after (ops : List (Op V P)) (nam : Name) (r : Nat) : ∀ (σ : Registry V P),
    σ.table nam = some r → (after σ ops).table nam = some r := by
  induction ops with
  | nil => intro σ h; exact h
  | cons o ops ih => intro σ h; exact ih _ (table_step o nam r h)

end Mosml.Lazy
