import Verif.Unref.Rel

/-!
# The two runs agree

`P : Pm` are the parameters of the comparison.
-/

namespace Mosml.Unref

open List (Forall₂)

structure Pm where
  /-- The addresses of the first and of the second run. -/
  al : Nat → Nat
  al' : Nat → Nat
  /-- The block that only the first run has. -/
  a0 : Nat
  /-- How many blocks the second run has made less. -/
  δ : Nat
  /-- The comparison is from the `m`th to the `K`th block of the first run. -/
  m : Nat
  K : Nat
  /-- What the second run has at `a0`. -/
  T0 : Option Cell
  ok : ∀ j, m ≤ j → j < K → al' (j - δ) = al j ∧ al j ≠ a0

/-- The states: `sp` is the slot that holds the block in the first run and its
contents in the second; in a function that has been called meanwhile it is
`none`, and the block remains as it is. -/
structure Inv (P : Pm) (sp : Option Int) (C0 : Option Cell) (s s' : St) : Prop where
  k : s.k = s'.k + P.δ
  lo : P.m ≤ s.k
  heap : ∀ b, b ≠ P.a0 → s.heap b = s'.heap b
  cells : ∀ b c, b ≠ P.a0 → s.heap b = some c → ∀ v ∈ c.fields, v ≠ .addr P.a0
  env : ∀ x, sp ≠ some x → s.env x = s'.env x ∧ ∀ v, s.env x = some v → v ≠ .addr P.a0
  at0 : s'.heap P.a0 = P.T0
  caller : sp = none → s.heap P.a0 = C0
  cell : ∀ i, sp = some i → s.env i = some (.addr P.a0) ∧
    ∃ t w, s.heap P.a0 = some (.block t [w]) ∧ s'.env i = some w ∧ w ≠ .addr P.a0

def Ress.No (a0 : Nat) : Ress → Prop
  | .vals vs => ∀ v ∈ vs, v ≠ .addr a0
  | .stop r => r.No a0

variable {P : Pm} {sp : Option Int} {C0 : Option Cell}

def Sim (P : Pm) (sp : Option Int) (C0 : Option Cell) (ev ev' : Ev) : Prop :=
  ∀ s s' r s1, Inv P sp C0 s s' → ev s = some (r, s1) → s1.k ≤ P.K →
    ∃ s1', ev' s' = some (r, s1') ∧ r.No P.a0 ∧ Inv P sp C0 s1 s1'

def Sims (P : Pm) (sp : Option Int) (C0 : Option Cell) (ev ev' : St → Option (Ress × St)) : Prop :=
  ∀ s s' r s1, Inv P sp C0 s s' → ev s = some (r, s1) → s1.k ≤ P.K →
    ∃ s1', ev' s' = some (r, s1') ∧ r.No P.a0 ∧ Inv P sp C0 s1 s1'

theorem Inv.setEnv {s s' : St} (h : Inv P sp C0 s s') {x : Int} {v : Val} (hx : sp ≠ some x)
    (hv : v ≠ .addr P.a0) : Inv P sp C0 (s.set x v) (s'.set x v) where
  k := h.k
  lo := h.lo
  heap := h.heap
  cells := h.cells
  env := by
    intro y hy
    simp only [St.set]
    by_cases hxy : y = x
    · simp only [hxy, if_true, true_and]
      intro w hw; cases hw; exact hv
    · simp only [hxy, if_false]
      exact h.env y hy
  at0 := h.at0
  caller := h.caller
  cell := by
    intro i hi
    have hne : i ≠ x := by rintro rfl; exact hx hi
    simp only [St.set, hne, if_false]
    exact h.cell i hi

theorem Inv.putHeap {s s' : St} (h : Inv P sp C0 s s') {a : Nat} {c : Cell} (ha : a ≠ P.a0)
    (hc : ∀ v ∈ c.fields, v ≠ .addr P.a0) : Inv P sp C0 (s.put a c) (s'.put a c) where
  k := h.k
  lo := h.lo
  heap := by
    intro b hb
    simp only [St.put]
    by_cases hba : b = a
    · simp only [hba, if_true]
    · simp only [hba, if_false]; exact h.heap b hb
  cells := by
    intro b c' hb
    simp only [St.put]
    by_cases hba : b = a
    · simp only [hba, if_true]
      intro hw; cases hw; exact hc
    · simp only [hba, if_false]; exact h.cells b c' hb
  env := h.env
  at0 := by
    simp only [St.put, Ne.symm ha, if_false]; exact h.at0
  caller := by
    intro hs
    simp only [St.put, Ne.symm ha, if_false]; exact h.caller hs
  cell := by
    intro i hi
    simp only [St.put, Ne.symm ha, if_false]
    exact h.cell i hi

theorem Inv.al {s s' : St} (h : Inv P sp C0 s s') (hK : s.k < P.K) :
    P.al' s'.k = P.al s.k ∧ P.al s.k ≠ P.a0 := by
  have h1 := P.ok s.k h.lo hK
  have h2 : s.k - P.δ = s'.k := by have := h.k; omega
  rw [h2] at h1
  exact h1

theorem Inv.alloc {s s' : St} (h : Inv P sp C0 s s') {c : Cell} (hK : s.k < P.K)
    (hc : ∀ v ∈ c.fields, v ≠ .addr P.a0) :
    Inv P sp C0 (s.alloc P.al c) (s'.alloc P.al' c) := by
  have ha := h.al hK
  have h1 := h.putHeap (a := P.al s.k) ha.2 hc
  simp only [St.alloc, ha.1]
  exact ⟨by have := h.k; simp only; omega, Nat.le_trans h.lo (Nat.le_succ _), h1.heap, h1.cells,
    h1.env, h1.at0, h1.caller, h1.cell⟩

theorem Sim.andThen {ev ev' : Ev} {f f' : Val → Ev} (h : Sim P sp C0 ev ev')
    (hk : ∀ v, KM (f v)) (hf : ∀ v, v ≠ .addr P.a0 → Sim P sp C0 (f v) (f' v)) :
    Sim P sp C0 (fun s => andThen (ev s) f) (fun s => andThen (ev' s) f') := by
  intro s s' r s1 hI h1 hK
  simp only [Unref.andThen] at h1 ⊢
  split at h1
  · rename_i v s2 he
    obtain ⟨s2', he', hv, hI2⟩ := h _ _ _ _ hI he (Nat.le_trans (hk _ _ _ _ h1) hK)
    rw [he']
    exact hf v hv _ _ _ _ hI2 h1 hK
  · rename_i m hm
    obtain ⟨s2', he', hv, hI2⟩ := h _ _ _ _ hI h1 hK
    rw [he']
    cases r with
    | val v => exact absurd h1 (hm v s1)
    | exn v => exact ⟨_, rfl, hv, hI2⟩
    | fail => exact ⟨_, rfl, hv, hI2⟩

theorem Sims.andThens {ev ev' : St → Option (Ress × St)} {f f' : List Val → Ev}
    (h : Sims P sp C0 ev ev') (hk : ∀ v, KM (f v))
    (hf : ∀ vs, (∀ v ∈ vs, v ≠ .addr P.a0) → Sim P sp C0 (f vs) (f' vs)) :
    Sim P sp C0 (fun s => andThens (ev s) f) (fun s => andThens (ev' s) f') := by
  intro s s' r s1 hI h1 hK
  simp only [Unref.andThens] at h1 ⊢
  split at h1
  · rename_i v s2 he
    obtain ⟨s2', he', hv, hI2⟩ := h _ _ _ _ hI he (Nat.le_trans (hk _ _ _ _ h1) hK)
    rw [he']
    exact hf v hv _ _ _ _ hI2 h1 hK
  · rename_i r2 s2 he
    cases h1
    obtain ⟨s2', he', hv, hI2⟩ := h _ _ _ _ hI he hK
    rw [he']
    exact ⟨_, rfl, hv, hI2⟩
  · cases h1

section lists
variable {V : Nat → Prop}

theorem sim_evalLR {ev ev' : Lam → Ev} (hk : ∀ e, KM (ev e))
    (h : ∀ e e', Tr sp V e e' → Sim P sp C0 (ev e) (ev' e')) :
    ∀ {es es'}, Forall₂ (Tr sp V) es es' → Sims P sp C0 (evalLR ev es) (evalLR ev' es')
  | _, _, .nil, s, s', r, s1, hI, h1, hK => by
    cases h1
    exact ⟨_, rfl, by simp [Ress.No], hI⟩
  | _, _, .cons (l₁ := es) (l₂ := es') he hes, s, s', r, s1, hI, h1, hK => by
    simp only [evalLR] at h1 ⊢
    split at h1
    · rename_i v s2 h2
      have hk2 : s2.k ≤ s1.k := by
        split at h1
        · rename_i h3; cases h1; exact km_evalLR hk _ _ _ _ h3
        · exact km_evalLR hk _ _ _ _ h1
      obtain ⟨s2', h2', hv, hI2⟩ := h _ _ he _ _ _ _ hI h2 (Nat.le_trans hk2 hK)
      rw [h2']
      dsimp only
      split at h1
      · rename_i vs s3 h3
        cases h1
        obtain ⟨s3', h3', hvs, hI3⟩ := sim_evalLR hk h hes _ _ _ _ hI2 h3 hK
        rw [h3']
        refine ⟨_, rfl, ?_, hI3⟩
        intro w hw
        rcases List.mem_cons.1 hw with rfl | hw
        · exact hv
        · exact hvs w hw
      · rename_i hm
        obtain ⟨s3', h3', hvs, hI3⟩ := sim_evalLR hk h hes _ _ _ _ hI2 h1 hK
        rw [h3']
        cases r with
        | vals vs => exact absurd h1 (hm vs s1)
        | stop r => exact ⟨_, rfl, hvs, hI3⟩
    · rename_i r2 s2 hm h2
      cases h1
      obtain ⟨s2', h2', hv, hI2⟩ := h _ _ he _ _ _ _ hI h2 hK
      rw [h2']
      cases r2 with
      | val v => exact absurd rfl (hm v)
      | exn v => exact ⟨_, rfl, hv, hI2⟩
      | fail => exact ⟨_, rfl, hv, hI2⟩
    · cases h1

theorem sim_evalRL {ev ev' : Lam → Ev} (hk : ∀ e, KM (ev e))
    (h : ∀ e e', Tr sp V e e' → Sim P sp C0 (ev e) (ev' e')) :
    ∀ {es es'}, Forall₂ (Tr sp V) es es' → Sims P sp C0 (evalRL ev es) (evalRL ev' es')
  | _, _, .nil, s, s', r, s1, hI, h1, hK => by
    cases h1
    exact ⟨_, rfl, by simp [Ress.No], hI⟩
  | _, _, .cons (l₁ := es) (l₂ := es') he hes, s, s', r, s1, hI, h1, hK => by
    simp only [evalRL] at h1 ⊢
    split at h1
    · rename_i vs s2 h2
      have hk2 : s2.k ≤ s1.k := by
        split at h1
        · rename_i h3; cases h1; exact hk _ _ _ _ h3
        · rename_i h3; cases h1; exact hk _ _ _ _ h3
        · cases h1
      obtain ⟨s2', h2', hvs, hI2⟩ := sim_evalRL hk h hes _ _ _ _ hI h2 (Nat.le_trans hk2 hK)
      rw [h2']
      dsimp only
      split at h1
      · rename_i v s3 h3
        cases h1
        obtain ⟨s3', h3', hv, hI3⟩ := h _ _ he _ _ _ _ hI2 h3 hK
        rw [h3']
        refine ⟨_, rfl, ?_, hI3⟩
        intro w hw
        rcases List.mem_cons.1 hw with rfl | hw
        · exact hv
        · exact hvs w hw
      · rename_i r2 s3 hm h3
        cases h1
        obtain ⟨s3', h3', hv, hI3⟩ := h _ _ he _ _ _ _ hI2 h3 hK
        rw [h3']
        cases r2 with
        | val v => exact absurd rfl (hm v)
        | exn v => exact ⟨_, rfl, hv, hI3⟩
        | fail => exact ⟨_, rfl, hv, hI3⟩
      · cases h1
    · rename_i hm
      obtain ⟨s2', h2', hv, hI2⟩ := sim_evalRL hk h hes _ _ _ _ hI h1 hK
      rw [h2']
      cases r with
      | vals vs => exact absurd h1 (hm vs s1)
      | stop r => exact ⟨_, rfl, hv, hI2⟩

theorem sim_evalLets {ev ev' : Nat → Lam → Ev} (hk : ∀ d e, KM (ev d e)) :
    ∀ {es es'} {d : Nat}, (∀ i, sp = some i → i < d) →
    (∀ d' e e', d ≤ d' → Tr sp V e e' → Sim P sp C0 (ev d' e) (ev' d' e')) →
    Forall₂ (Tr sp V) es es' → Sims P sp C0 (evalLets ev d es) (evalLets ev' d es')
  | _, _, _, _, _, .nil, s, s', r, s1, hI, h1, hK => by
    cases h1
    exact ⟨_, rfl, by simp [Ress.No], hI⟩
  | _, _, d, hd, h, .cons (l₁ := es) (l₂ := es') he hes, s, s', r, s1, hI, h1, hK => by
    simp only [evalLets] at h1 ⊢
    split at h1
    · rename_i v s2 h2
      have hk2 : s2.k ≤ s1.k := km_evalLets hk _ _ (s2.set d v) _ _ h1
      obtain ⟨s2', h2', hv, hI2⟩ := h _ _ _ (Nat.le_refl _) he _ _ _ _ hI h2 (Nat.le_trans hk2 hK)
      rw [h2']
      dsimp only
      have hs : sp ≠ some (d : Int) := fun hs => by have := hd _ hs; omega
      exact sim_evalLets hk (fun i hi => by have := hd i hi; push_cast; omega)
        (fun d' e e' hd' => h d' e e' (by omega)) hes _ _ _ _ (hI2.setEnv hs hv) h1 hK
    · rename_i r2 s2 hm h2
      cases h1
      obtain ⟨s2', h2', hv, hI2⟩ := h _ _ _ (Nat.le_refl _) he _ _ _ _ hI h2 hK
      rw [h2']
      cases r2 with
      | val v => exact absurd rfl (hm v)
      | exn v => exact ⟨_, rfl, hv, hI2⟩
      | fail => exact ⟨_, rfl, hv, hI2⟩
    · cases h1

theorem sim_fills {ev ev' : Lam → Ev} (hk : ∀ e, KM (ev e))
    (h : ∀ e e', Tr sp V e e' → Sim P sp C0 (ev e) (ev' e')) :
    ∀ {es es'} {d : Nat}, (∀ i, sp = some i → i < d) →
    Forall₂ (Tr sp V) es es' → Sims P sp C0 (fills ev d es) (fills ev' d es')
  | _, _, _, _, .nil, s, s', r, s1, hI, h1, hK => by
    cases h1
    exact ⟨_, rfl, by simp [Ress.No], hI⟩
  | _, _, d, hd, .cons (l₁ := es) (l₂ := es') he hes, s, s', r, s1, hI, h1, hK => by
    cases he
    case prim p fre fre' hf =>
      cases p
      case closure lbl =>
        simp only [fills] at h1 ⊢
        split at h1
        · rename_i vs s2 h2
          have hs : sp ≠ some (d : Int) := fun hs => by have := hd _ hs; omega
          have hk2 : s2.k ≤ s1.k := by
            split at h1
            · have h3 := km_fills hk _ _ _ _ _ h1
              exact h3
            · cases h1
          obtain ⟨s2', h2', hvs, hI2⟩ := sim_evalLR hk h hf _ _ _ _ hI h2 (Nat.le_trans hk2 hK)
          rw [h2']
          dsimp only
          rw [← (hI2.env d hs).1]
          split at h1
          · rename_i a ha
            exact sim_fills hk h (fun i hi => by have := hd i hi; push_cast; omega) hes _ _ _ _
              (hI2.putHeap (fun h => (hI2.env d hs).2 _ ha (by rw [h])) hvs) h1 hK
          · cases h1
        · rename_i hm
          obtain ⟨s2', h2', hv, hI2⟩ := sim_evalLR hk h hf _ _ _ _ hI h1 hK
          rw [h2']
          cases r with
          | vals vs => exact absurd h1 (hm vs s1)
          | stop r => exact ⟨_, rfl, hv, hI2⟩
      all_goals simp [fills] at h1
    all_goals simp [fills] at h1

theorem sim_dummies : ∀ {es es' : List Lam} {d : Nat} {s s' : St}, es.length = es'.length →
    (∀ i, sp = some i → i < d) → Inv P sp C0 s s' → (dummies P.al d es s).k ≤ P.K →
    Inv P sp C0 (dummies P.al d es s) (dummies P.al' d es' s')
  | [], [], _, _, _, _, _, hI, _ => hI
  | e :: es, e' :: es', d, s, s', hl, hd, hI, hK => by
    simp only [dummies] at hK ⊢
    have h1 := km_dummies P.al es (d + 1) ((s.alloc P.al (.clos 0 [])).set d (.addr (P.al s.k)))
    have hK1 : s.k < P.K := Nat.lt_of_lt_of_le (Nat.lt_succ_self _) (Nat.le_trans h1 hK)
    have ha := hI.al hK1
    have hs : sp ≠ some (d : Int) := fun hs => by have := hd _ hs; omega
    rw [ha.1]
    refine sim_dummies (by simpa using hl) (fun i hi => by have := hd i hi; push_cast; omega)
      ((hI.alloc (c := .clos 0 []) hK1 (by simp [Cell.fields])).setEnv hs ?_) hK
    intro h; exact ha.2 (Val.addr.inj h)
  | [], _ :: _, _, _, _, hl, _, _, _ => by simp at hl
  | _ :: _, [], _, _, _, hl, _, _, _ => by simp at hl

theorem sim_pick {α} [BEq α] (x : α) : ∀ (ks : List α) {es es'}, Forall₂ (Tr sp V) es es' →
    (pick x ks es = none ∧ pick x ks es' = none) ∨
      ∃ e e', pick x ks es = some e ∧ pick x ks es' = some e' ∧ Tr sp V e e'
  | [], _, _, h => by left; simp [pick]
  | k :: ks, _, _, .nil => by left; simp [pick]
  | k :: ks, _, _, .cons (a := e) (b := e') he hes => by
    simp only [pick]
    split
    · exact Or.inr ⟨_, _, rfl, rfl, he⟩
    · exact sim_pick x ks hes

end lists

theorem field_mem {c : Cell} {k : Nat} {v : Val} (h : c.fields[k]? = some v) : v ∈ c.fields :=
  List.mem_of_getElem? h

theorem setField_fields {c c' : Cell} {k : Nat} {v : Val} (h : c.setField k v = some c') :
    ∀ w ∈ c'.fields, w ∈ c.fields ∨ w = v := by
  cases c with
  | clos => simp [Cell.setField] at h
  | block t l =>
    simp only [Cell.setField] at h
    split_ifs at h
    cases h
    intro w hw
    simp only [Cell.fields] at hw ⊢
    exact List.mem_or_eq_of_mem_set hw

theorem sim_primSem (p : Prim) (vs : List Val) (hvs : ∀ v ∈ vs, v ≠ .addr P.a0) :
    Sim P sp C0 (primSem P.al p vs) (primSem P.al' p vs) := by
  intro s s' r s1 hI h hK
  rw [primSem.eq_def] at h ⊢
  split at h
  · cases h
    have hK1 : s.k < P.K := hK
    have ha := hI.al hK1
    refine ⟨_, by rw [ha.1], ?_, hI.alloc (c := .block _ _) hK1 hvs⟩
    intro h; exact ha.2 (Val.addr.inj h)
  · cases h
    have hK1 : s.k < P.K := hK
    have ha := hI.al hK1
    refine ⟨_, by rw [ha.1], ?_, hI.alloc (c := .clos _ _) hK1 hvs⟩
    intro h; exact ha.2 (Val.addr.inj h)
  · rename_i k a
    have ha : a ≠ P.a0 := fun h => hvs (.addr a) (by simp) (by rw [h])
    rw [← hI.heap a ha]
    split at h
    · rename_i c hc
      simp only [Option.map_eq_some_iff] at h ⊢
      obtain ⟨v, hv, h⟩ := h
      cases h
      exact ⟨s', ⟨v, hv, rfl⟩, hI.cells a c ha hc v (field_mem hv), hI⟩
    · cases h
  · rename_i k a v
    have ha : a ≠ P.a0 := fun h => hvs (.addr a) (by simp) (by rw [h])
    rw [← hI.heap a ha]
    split at h
    · rename_i c hc
      simp only [Option.map_eq_some_iff] at h ⊢
      obtain ⟨c', hv, h⟩ := h
      cases h
      refine ⟨_, ⟨c', hv, rfl⟩, by simp [Res.No], hI.putHeap ha ?_⟩
      intro w hw
      rcases setField_fields hv w hw with h | rfl
      · exact hI.cells a c ha hc w h
      · exact hvs _ (by simp)
    · cases h
  · cases h
    exact ⟨_, rfl, hvs _ (by simp), hI⟩
  · cases h
    exact ⟨_, rfl, by simp [Res.No, bool], hI⟩
  · cases h
    exact ⟨_, rfl, by simp [Res.No], hI⟩
  · cases h

end Mosml.Unref
