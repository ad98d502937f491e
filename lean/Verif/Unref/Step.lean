import Verif.Unref.Pass

/-!
# Turning one block into a slot
-/

namespace Mosml.Unref

open List (Forall₂)

theorem Sound.refl (N d e) : Sound N d e N e := by
  intro F al s n r s1 hal hf h
  exact ⟨id, fun _ => False, s1, fun _ _ h => h, h, fun _ h => h.elim, fun _ _ => rfl,
    fun _ h => h.elim, fun _ _ _ _ _ _ h => h.elim, fun _ _ => ⟨rfl, fun _ _ _ h => h.elim⟩,
    fun _ h => h.elim⟩

theorem mono_le {g : Nat → Nat} (hg : ∀ a b, a < b → g a < g b) : ∀ j, j ≤ g j
  | 0 => Nat.zero_le _
  | j + 1 => Nat.lt_of_le_of_lt (mono_le hg j) (hg j (j + 1) (Nat.lt_succ_self j))

theorem mono_inj {g : Nat → Nat} (hg : ∀ a b, a < b → g a < g b) : Function.Injective g := by
  intro a b h
  rcases Nat.lt_trichotomy a b with h1 | h1 | h1
  · have := hg _ _ h1; omega
  · exact h1
  · have := hg _ _ h1; omega

theorem Fresh.comp {al : Nat → Nat} {s : St} (h : Fresh al s) {g : Nat → Nat}
    (hg : ∀ a b, a < b → g a < g b) : Fresh (fun j => al (g j)) s :=
  fun j hj => h (g j) (Nat.le_trans hj (mono_le hg j))

theorem Sound.trans {N N1 N2 d e e1 e2} (h1 : Sound N d e N1 e1) (h2 : Sound N1 d e1 N2 e2) :
    Sound N d e N2 e2 := by
  intro F al s n r s1 hal hf h
  obtain ⟨g, D, s1', hg, he, hA⟩ := h1 F al s n r s1 hal hf h
  obtain ⟨g2, D2, s2', hg2, he2, hA2⟩ := h2 F _ s n r s1' (hal.comp (mono_inj hg)) (hf.comp hg) he
  refine ⟨fun j => g (g2 j), fun a => D a ∨ D2 a, s2', fun a b hab => hg _ _ (hg2 _ _ hab), he2, ?_,
    ?_, ?_, ?_, ?_, ?_⟩
  · rintro a (ha | ha)
    · exact hA.new a ha
    · obtain ⟨j, hj, rfl⟩ := hA2.new a ha
      exact ⟨g j, Nat.le_trans hj (mono_le hg j), rfl⟩
  · intro b hb
    rw [hA.heap b fun h => hb (Or.inl h), hA2.heap b fun h => hb (Or.inr h)]
  · intro b hb
    by_cases hb2 : D2 b
    · exact hA2.gone b hb2
    · rw [← hA2.heap b hb2]
      exact hA.gone b (hb.resolve_right hb2)
  · rintro b c hc v hv a (ha | ha)
    · by_cases hb2 : D2 b
      · rw [hA2.gone b hb2] at hc; cases hc
      · rw [← hA2.heap b hb2] at hc
        exact hA.cells b c hc v hv a ha
    · exact hA2.cells b c hc v hv a ha
  · intro x hx
    refine ⟨(hA.env x hx).1.trans (hA2.env x hx).1, ?_⟩
    rintro v hv a (ha | ha)
    · exact (hA.env x hx).2 v ((hA2.env x hx).1 ▸ hv) a ha
    · exact (hA2.env x hx).2 v hv a ha
  · rintro a (ha | ha)
    · exact hA.res a ha
    · exact hA2.res a ha

theorem evalLets_append (ev : Nat → Lam → Ev) : ∀ (A B : List Lam) (d : Nat) (s : St),
    evalLets ev d (A ++ B) s =
      match evalLets ev d A s with
      | some (.vals _, s2) => evalLets ev (d + A.length) B s2
      | r => r
  | [], B, d, s => rfl
  | e :: A, B, d, s => by
    simp only [List.cons_append, evalLets]
    cases ev d e s with
    | none => rfl
    | some p =>
      obtain ⟨r, s2⟩ := p
      cases r with
      | val v =>
        simp only [evalLets_append ev A B, List.length_cons]
        rw [show d + (A.length + 1) = d + 1 + A.length by omega]
      | exn v => rfl
      | fail => rfl

/-- The first part of the runs, in which both do the same. -/
def pre (al al' : Nat → Nat) (hal : Function.Injective al) (K : Nat)
    (h : ∀ j, j < K → al' j = al j) : Pm where
  al := al
  al' := al'
  a0 := al K
  δ := 0
  m := 0
  K := K
  T0 := none
  ok := fun j _ hj => ⟨h j hj, fun h' => by have := hal h'; omega⟩

theorem pre_inv {al al' hal K h} {s : St} (hf : Fresh al s) (hK : s.k ≤ K) :
    Inv (pre al al' hal K h) none none s s where
  k := rfl
  lo := Nat.zero_le _
  heap := fun _ _ => rfl
  cells := fun b c _ hc v hv => (hf K hK).2.1 b c hc v hv
  env := fun x _ => ⟨rfl, fun v hv => (hf K hK).2.2 x v hv⟩
  at0 := (hf K hK).1
  caller := fun _ => (hf K hK).1
  cell := fun i hi => by cases hi

theorem pre_agree {al al' hal K h} {s s1 s1' : St} {d r}
    (hI : Inv (pre al al' hal K h) none none s1 s1') : Agree al d s (fun _ => False) r s1 s1' where
  new := fun _ h => h.elim
  heap := by
    intro b _
    by_cases hb : b = al K
    · subst hb
      exact (hI.caller rfl).trans hI.at0.symm
    · exact hI.heap b hb
  gone := fun _ h => h.elim
  cells := fun _ _ _ _ _ _ h => h.elim
  env := fun x _ => ⟨(hI.env x (by simp)).1, fun _ _ _ h => h.elim⟩
  res := fun _ h => h.elim

/-- The address of every block but the `k1`th. -/
def skip (k1 : Nat) (j : Nat) : Nat := if j < k1 then j else j + 1

theorem skip_mono (k1 : Nat) : ∀ a b, a < b → skip k1 a < skip k1 b := by
  intro a b h
  simp only [skip]
  split_ifs <;> omega

/-- The second part: the first run has made one block more. -/
def post (al : Nat → Nat) (hal : Function.Injective al) (k1 : Nat) (K : Nat) : Pm where
  al := al
  al' := fun j => al (skip k1 j)
  a0 := al k1
  δ := 1
  m := k1 + 1
  K := K
  T0 := none
  ok := by
    intro j hj _
    refine ⟨?_, fun h' => by have := hal h'; omega⟩
    simp only [skip]
    rw [if_neg (by omega)]
    congr 1; omega

theorem step {N N' : Nat → Lam} {A acc acc' : List Lam} {e body body' : Lam} {t d : Nat}
    {PA V : Nat → Prop} {Q : Int → Prop} (hA : OkL PA Q A) (he : e.Ok PA Q)
    (hPA : ∀ j, PA j → N' j = N j ∧ (N j).Ok PA Q)
    (hV : ∀ j, V j → Tr (some (d + A.length : Int)) V (N j) (N' j))
    (hacc : Forall₂ (Tr (some (d + A.length : Int)) V) acc acc')
    (hbody : Tr (some (d + A.length : Int)) V body body') :
    Sound N d (.lett (A ++ .prim (.mk t 1) [e] :: acc) body) N' (.lett (A ++ e :: acc') body') := by
  have hN : ∀ j, PA j → Tr none PA (N j) (N' j) := by
    intro j hj
    rw [(hPA j hj).1]
    exact Tr.refl _ (hPA j hj).2
  have hTA := Tr.reflL A hA
  have hTe := Tr.refl e he
  intro F al s n r s1 hal hf h
  cases n with
  | zero => cases h
  | succ n =>
  simp only [eval, evalLets_append] at h ⊢
  have km := km_eval F al n
  cases hsA : evalLets (eval F al n N) d A s with
  | none => rw [hsA] at h; simp [andThens] at h
  | some p =>
  obtain ⟨r2, s2⟩ := p
  rw [hsA] at h
  have hk2 := km_evalLets (km N) A d _ _ _ hsA
  have simA : ∀ al' K hK, s2.k ≤ K → ∃ s2', evalLets (eval F al' n N') d A s = some (r2, s2') ∧
      Inv (pre al al' hal K hK) none none s2 s2' := by
    intro al' K hK hle
    have h1 := sim_evalLets (P := pre al al' hal K hK) (sp := none) (C0 := none) (V := PA)
      (ev := eval F al n N) (ev' := eval F al' n N') (es := A) (es' := A) (d := d) (km N)
      (fun i hi => by cases hi)
      (fun d' e e' _ ht => sim_eval F (pre al al' hal K hK) n n none none PA N N' d' e e'
        (Nat.le_refl _) hN (fun i hi => by cases hi) ht) hTA
    obtain ⟨s2', h2, _, h3⟩ := h1 s s r2 s2 (pre_inv hf (Nat.le_trans hk2 hle)) hsA hle
    exact ⟨s2', h2, h3⟩
  cases r2 with
  | stop r2 =>
    simp only [andThens] at h
    obtain ⟨rfl, rfl⟩ : r2 = r ∧ s2 = s1 := by cases h; exact ⟨rfl, rfl⟩
    obtain ⟨s2', h2, hI⟩ := simA (fun j => al (id j)) s2.k (fun _ _ => rfl) (Nat.le_refl _)
    refine ⟨id, _, s2', fun _ _ h => h, ?_, pre_agree hI⟩
    rw [h2]; rfl
  | vals vs =>
  dsimp only at h
  simp only [evalLets] at h
  cases n with
  | zero => simp [eval, andThens] at h
  | succ n =>
  simp only [eval, evalLR] at h
  cases hse : eval F al n N (d + A.length) e s2 with
  | none => rw [hse] at h; simp [andThens] at h
  | some p =>
  obtain ⟨r3, s3⟩ := p
  rw [hse] at h
  have hk3 := km_eval F al n _ _ _ _ _ _ hse
  have simE : ∀ al' K hK, s3.k ≤ K → ∃ s2' s3',
      evalLets (eval F al' (n + 1) N') d A s = some (.vals vs, s2') ∧
      eval F al' (n + 1) N' (d + A.length) e s2' = some (r3, s3') ∧ r3.No (al K) ∧
      Inv (pre al al' hal K hK) none none s3 s3' := by
    intro al' K hK hle
    obtain ⟨s2', h2, hI⟩ := simA al' K hK (Nat.le_trans hk3 hle)
    obtain ⟨s3', h3, hr, hI3⟩ := sim_eval F (pre al al' hal K hK) n (n + 1) none none PA N N'
      (d + A.length) e e (Nat.le_succ _) hN (fun i hi => by cases hi) hTe _ _ _ _ hI hse hle
    exact ⟨s2', s3', h2, h3, hr, hI3⟩
  cases r3 with
  | exn v =>
    obtain ⟨rfl, rfl⟩ : .exn v = r ∧ s3 = s1 := by cases h; exact ⟨rfl, rfl⟩
    obtain ⟨s2', s3', h2, h3, _, hI⟩ := simE (fun j => al (id j)) s3.k (fun _ _ => rfl) (Nat.le_refl _)
    refine ⟨id, _, s3', fun _ _ h => h, ?_, pre_agree hI⟩
    rw [h2]
    simp only [evalLets]
    rw [h3]; rfl
  | fail =>
    obtain ⟨rfl, rfl⟩ : .fail = r ∧ s3 = s1 := by cases h; exact ⟨rfl, rfl⟩
    obtain ⟨s2', s3', h2, h3, _, hI⟩ := simE (fun j => al (id j)) s3.k (fun _ _ => rfl) (Nat.le_refl _)
    refine ⟨id, _, s3', fun _ _ h => h, ?_, pre_agree hI⟩
    rw [h2]
    simp only [evalLets]
    rw [h3]; rfl
  | val w =>
    obtain ⟨s2', s3', h2, h3, hw, hI⟩ := simE (fun j => al (skip s3.k j)) s3.k
      (fun j hj => by simp [skip, hj]) (Nat.le_refl _)
    have h' : andThens (evalLets (eval F al (n + 1) N) (d + A.length + 1) acc
        ((s3.alloc al (.block t [w])).set (d + A.length : Nat) (.addr (al s3.k))))
        (fun _ s => eval F al (n + 1) N (d + (A ++ .prim (.mk t 1) [e] :: acc).length) body s) =
          some (r, s1) := h
    have hlen : (A ++ .prim (.mk t 1) [e] :: acc).length = (A ++ e :: acc').length := by
      simp [hacc.length_eq]
    rw [hlen] at h'
    have hd2 : ∀ i, some (d + A.length : Int) = some i → i < (d + A.length + 1 : Nat) := by
      intro i hi; cases hi; push_cast; omega
    have hsim := Sims.andThens (P := post al hal s3.k s1.k) (sp := some (d + A.length : Int))
      (C0 := none)
      (sim_evalLets (V := V) (ev := eval F al (n + 1) N)
        (ev' := eval F (fun j => al (skip s3.k j)) (n + 1) N')
        (km_eval F al (n + 1) N) hd2
        (fun d' e e' hd' ht => sim_eval F (post al hal s3.k s1.k) (n + 1) (n + 1) _ none V N N' d' e e'
          (Nat.le_refl _) hV (fun i hi => by have := hd2 i hi; omega) ht) hacc)
      (f := fun _ s => eval F al (n + 1) N (d + (A ++ e :: acc').length) body s)
      (f' := fun _ s => eval F (fun j => al (skip s3.k j)) (n + 1) N' (d + (A ++ e :: acc').length)
        body' s)
      (fun vs => km_eval F al (n + 1) N _ _)
      (fun vs _ => sim_eval F (post al hal s3.k s1.k) (n + 1) (n + 1) _ none V N N' _ body body'
          (Nat.le_refl _) hV (fun i hi => by
            have := hd2 i hi
            simp only [List.length_append, List.length_cons]
            push_cast at this ⊢; omega) hbody)
    have hx := hsim _ (s3'.set (d + A.length : Nat) w) r s1 ?_ h' (Nat.le_refl _)
    · obtain ⟨s1', h4, hr, hI4⟩ := hx
      refine ⟨skip s3.k, fun a => a = al s3.k, s1', skip_mono _, ?_, ?_⟩
      · rw [h2]
        simp only [evalLets]
        rw [h3]
        exact h4
      · refine ⟨?_, ?_, ?_, ?_, ?_, ?_⟩
        · rintro a rfl
          exact ⟨s3.k, Nat.le_trans hk2 hk3, rfl⟩
        · intro b hb
          exact hI4.heap b hb
        · rintro b rfl
          exact hI4.at0
        · rintro b c hc v hv a rfl
          have hb : b ≠ al s3.k := by
            rintro rfl
            have h6 : s1'.heap (al s3.k) = none := hI4.at0
            rw [h6] at hc; cases hc
          exact hI4.cells b c hb ((hI4.heap b hb).trans hc) v hv
        · intro x hx
          have hne : some (d + A.length : Int) ≠ some x := by intro h; cases h; omega
          have h5 := hI4.env x hne
          refine ⟨h5.1, ?_⟩
          rintro v hv a rfl
          exact h5.2 v (h5.1.trans hv)
        · rintro a rfl
          exact hr
    · refine ⟨?_, ?_, ?_, ?_, ?_, ?_, ?_, ?_⟩
      · have := hI.k
        simp only [St.set, St.alloc, St.put, post, pre] at this ⊢
        omega
      · exact Nat.le_refl _
      · intro b hb
        simp only [post] at hb
        simp only [St.set, St.alloc, St.put, hb, if_false]
        exact hI.heap b hb
      · intro b c hb
        simp only [post] at hb
        simp only [St.set, St.alloc, St.put, hb, if_false]
        exact hI.cells b c hb
      · intro x hx
        have hne : x ≠ ((d + A.length : Nat) : Int) := by
          rintro rfl; exact hx (by push_cast; rfl)
        simp only [St.set, St.alloc, St.put, hne, if_false]
        exact hI.env x (by simp)
      · exact hI.at0
      · intro h; cases h
      · intro i hi
        cases hi
        exact ⟨by simp [St.set, post], t, w, by simp [St.set, St.alloc, St.put, post],
          by simp [St.set], hw⟩

end Mosml.Unref
