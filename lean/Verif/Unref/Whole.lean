import Verif.Unref.Step

/-!
# All arguments of a `let`
-/

namespace Mosml.Unref

open List (Forall₂)

def Out.store {α} : Out α → Store
  | .ok _ S => S
  | .raised S => S

/-- What every pass does to the store, however it ends. -/
def Rl (R : Store → Store → Prop) {α} (m : M α) : Prop := ∀ S o, m S = some o → R S o.store

section
variable {R : Store → Store → Prop} (hr : ∀ S, R S S) (ht : ∀ S S1 S2, R S S1 → R S1 S2 → R S S2)
include hr

theorem Rl.ret {α} (a : α) : Rl R (M.ret a) := by
  intro S o h; cases h; exact hr S

include ht

theorem Rl.bind {α β} {m : M α} {f : α → M β} (h : Rl R m) (hf : ∀ a, Rl R (f a)) :
    Rl R (M.bind m f) := by
  intro S o ho
  simp only [M.bind] at ho
  split at ho
  · rename_i h1
    exact ht _ _ _ (h _ _ h1) (hf _ _ _ ho)
  · rename_i h1
    cases ho
    exact h _ _ h1
  · cases ho

theorem Rl.map {f : Lam → M Lam} {P Q} (hf : ∀ e : Lam, e.Ok P Q → Rl R (f e)) :
    ∀ es, OkL P Q es → Rl R (mapM f es)
  | [], _ => Rl.ret hr _
  | e :: es, h => by
    simp only [OkL] at h
    exact Rl.bind hr ht (hf e h.1) fun _ => Rl.bind hr ht (Rl.map hf es h.2) fun _ => Rl.ret hr _

theorem Rl.unref {P : Nat → Prop} {Q : Int → Prop} {i c : Int}
    (hP : ∀ (S : Store) j, P j → (S.term j).Ok P Q)
    (hm : ∀ (S : Store) j, P j → R S (S.mark j c)) (hp : ∀ (S : Store) j e, P j → R S (S.put j e)) :
    ∀ n e, e.Ok P Q → Rl R (unref n i c e)
  | 0, e, _ => by intro S o h; simp [Unref.unref] at h
  | n + 1, e, ho => by
    have ih := Rl.unref hP hm hp n (i := i)
    have ihl := Rl.map hr ht ih
    have rt : ∀ a : Lam, Rl R (M.ret a) := Rl.ret hr
    have bd : ∀ {m : M Lam} {f : Lam → M Lam}, Rl R m → (∀ a, Rl R (f a)) → Rl R (M.bind m f) :=
      Rl.bind hr ht
    have bdl : ∀ {m : M (List Lam)} {f : List Lam → M Lam}, Rl R m → (∀ a, Rl R (f a)) →
      Rl R (M.bind m f) := Rl.bind hr ht
    cases e
    case prim p args =>
      simp only [Lam.Ok] at ho
      rcases unref_prim n i c p args with ⟨v, rfl, rfl, hu⟩ | ⟨v, a, rfl, rfl, hu⟩ | hu
      · rw [hu]
        split_ifs
        · exact rt _
        · exact rt _
      · rw [hu]
        simp only [OkL] at ho
        split_ifs
        · exact bd (ih _ ho.2.1) fun _ => rt _
        · exact bd (ih _ ho.2.1) fun _ => rt _
      · rw [hu]
        exact bdl (ihl _ ho) fun _ => rt _
    all_goals simp only [Unref.unref]
    all_goals simp only [Lam.Ok] at ho
    case var v =>
      split_ifs
      · intro S o h; cases h; exact hr S
      · exact rt _
    case assign v a => exact bd (ih _ ho.2) fun _ => rt _
    case const => exact rt _
    case apply f args => exact bd (ih _ ho.1) fun _ => bdl (ihl _ ho.2) fun _ => rt _
    case lett f args => exact bdl (ihl _ ho.1) fun _ => bd (ih _ ho.2) fun _ => rt _
    case letrec f args => exact bdl (ihl _ ho.1) fun _ => bd (ih _ ho.2) fun _ => rt _
    case statichandle a b => exact bd (ih _ ho.1) fun _ => bd (ih _ ho.2) fun _ => rt _
    case staticfail => exact rt _
    case handle a b => exact bd (ih _ ho.1) fun _ => bd (ih _ ho.2) fun _ => rt _
    case cond a b =>
      exact bd (ih _ ho.1) fun _ => bd (ih _ ho.2.1) fun _ => bd (ih _ ho.2.2) fun _ => rt _
    case seq a b => exact bd (ih _ ho.1) fun _ => bd (ih _ ho.2) fun _ => rt _
    case «while» a b => exact bd (ih _ ho.1) fun _ => bd (ih _ ho.2) fun _ => rt _
    case andalso a b => exact bd (ih _ ho.1) fun _ => bd (ih _ ho.2) fun _ => rt _
    case orelse a b => exact bd (ih _ ho.1) fun _ => bd (ih _ ho.2) fun _ => rt _
    case case a ks acts => exact bd (ih _ ho.1) fun _ => bdl (ihl _ ho.2) fun _ => rt _
    case switch a ks acts => exact bd (ih _ ho.1) fun _ => bdl (ihl _ ho.2) fun _ => rt _
    case unspec => exact rt _
    case shared j =>
      intro S o h
      dsimp only at h
      split_ifs at h
      · split at h
        · rename_i h1
          cases h
          have h2 := ih _ (hP _ _ ho) _ _ h1
          exact ht _ _ _ (hm S j ho) (ht _ _ _ h2 (hp _ _ _ ho))
        · rename_i h1
          cases h
          have h2 := ih _ (hP _ _ ho) _ _ h1
          exact ht _ _ _ (hm S j ho) h2
        · cases h
      · cases h; exact hr S

theorem Rl.pass {P : Nat → Prop} {Q : Int → Prop} {i c : Int}
    (hP : ∀ (S : Store) j, P j → (S.term j).Ok P Q)
    (hm : ∀ (S : Store) j, P j → R S (S.mark j c)) (hp : ∀ (S : Store) j e, P j → R S (S.put j e))
    (n acc body) (h1 : OkL P Q acc) (h2 : body.Ok P Q) : Rl R (pass n i c acc body) :=
  Rl.bind hr ht (Rl.map hr ht (fun e h => Rl.unref hr ht hP hm hp n e h) _ h1) fun _ =>
    Rl.bind hr ht (Rl.unref hr ht hP hm hp n _ h2) fun _ => Rl.ret hr _

end

theorem pass_label {n i c acc body} {S : Store} {o} (h : pass n i c acc body S = some o) (j : Nat) :
    o.store.label j = S.label j ∨ o.store.label j = c := by
  have := Rl.pass (R := fun S S' => ∀ j, S'.label j = S.label j ∨ S'.label j = c)
    (fun S j => Or.inl rfl)
    (fun S S1 S2 h1 h2 j => by
      rcases h2 j with h | h
      · rw [h]; exact h1 j
      · exact Or.inr h)
    (P := fun _ => True) (Q := fun _ => True) (i := i) (c := c) (fun S j _ => Lam.ok_true _)
    (fun S j _ k => by
      simp only [Store.mark]
      split_ifs
      · exact Or.inr rfl
      · exact Or.inl rfl)
    (fun S j e _ k => Or.inl rfl) n acc body (okL_true _) (Lam.ok_true _)
  exact this S o h j

/-- Without shared nodes, the store remains as it is. -/
theorem pass_store {n i c acc body} {S : Store} {o} {Q : Int → Prop}
    (h : pass n i c acc body S = some o) (h1 : OkL (fun _ => False) Q acc)
    (h2 : body.Ok (fun _ => False) Q) : o.store = S := by
  have := Rl.pass (R := fun S S' => S' = S) (fun S => rfl)
    (fun S S1 S2 h1 h2 => h2.trans h1)
    (P := fun _ => False) (Q := Q) (i := i) (c := c) (fun S j h => h.elim)
    (fun S j h => h.elim) (fun S j e h => h.elim) n acc body h1 h2
  exact this S o h

theorem pass_good {n i c acc body acc' body'} {S S' : Store} {B : Nat → Prop} {Q Q' : Int → Prop}
    (hQ : ∀ v, Q v → v ≠ i ∧ Q' v) (hQi : Q' i) (hacc : OkL B Q acc) (hb : body.Ok B Q)
    (hS : Clo B Q c S) (h : pass n i c acc body S = some (.ok (acc', body') S')) :
    Done i c B Q' S S' ∧ OkL B Q' acc' ∧ body'.Ok B Q' ∧
      ∀ V : Nat → Prop, (∀ j, S'.label j = c → V j) →
        Forall₂ (Tr (some i) V) acc acc' ∧ Tr (some i) V body body' := by
  obtain ⟨e1, S1, h1, h⟩ := bind_ok h
  obtain ⟨e2, S2, h2, h⟩ := bind_ok h
  obtain ⟨h3, rfl⟩ := ret_ok h
  cases h3
  have g1 := goods_map (good_unref hQ hQi n) _ _ _ _ hacc hS h1
  have g2 := good_unref hQ hQi n _ _ _ _ hb (hS.after g1.done) h2
  exact ⟨g1.done.trans g2.done, g1.ok, g2.ok,
    fun V hV => ⟨g1.tr V (Tr.up g2.done hV), g2.tr V hV⟩⟩

/-- The slots that may be assigned while the arguments from the `t`th on have
been dealt with. -/
def Asg (d t : Nat) (v : Int) : Prop := v < d ∨ (d + t : Int) ≤ v

theorem Asg.mono {d t u : Nat} (h : u ≤ t) {v : Int} : Asg d t v → Asg d u v := by
  simp only [Asg]; omega

/-- The arguments that remain, the last one first: each has its own nodes. -/
def RestOk (own : Nat → Nat) (d : Nat) : List Lam → Prop
  | [] => True
  | x :: rest => x.Ok (fun j => own j = rest.length) (Asg d rest.length) ∧ RestOk own d rest

theorem okL_append {P Q} : ∀ {es es' : List Lam}, OkL P Q es → OkL P Q es' → OkL P Q (es ++ es')
  | [], _, _, h => h
  | e :: es, _, h, h' => by
    simp only [OkL, List.cons_append] at h ⊢
    exact ⟨h.1, okL_append h.2 h'⟩

theorem RestOk.okL {own : Nat → Nat} {d : Nat} : ∀ {rest : List Lam} (t : Nat), RestOk own d rest →
    rest.length ≤ t → OkL (fun j => own j < t) (fun _ => True) rest.reverse
  | [], _, _, _ => by simp only [List.reverse_nil, OkL]
  | x :: rest, t, h, ht => by
    simp only [List.length_cons] at ht
    rw [List.reverse_cons]
    exact okL_append (RestOk.okL t h.2 (by omega)) (by
      simp only [OkL, and_true]
      exact Lam.ok_mono (fun j hj => by omega) (fun _ _ => trivial) _ h.1)

theorem cellOf_some {x e : Lam} (h : cellOf x = some e) : ∃ t, x = .prim (.mk t 1) [e] := by
  rw [cellOf.eq_def] at h
  split at h
  · cases h; exact ⟨_, rfl⟩
  · cases h

/-- Each attempt that is given up leaves the shared nodes as they were. -/
def Clean (n : Nat) : List Lam → Int → Int → List Lam → Lam → Store → Prop
  | [], _, _, _, _, _ => True
  | x :: rest, i, c, acc, body, S =>
    match cellOf x with
    | some e =>
      (match pass n i (c - 1) acc body S with
       | some (.ok (acc', body') S') => Clean n rest (i - 1) (c - 1) (e :: acc') body' S'
       | some (.raised S') => S'.term = S.term ∧ Clean n rest (i - 1) (c - 1) (x :: acc) body S'
       | none => True)
    | none => Clean n rest (i - 1) c (x :: acc) body S

theorem optRefs_sound {own : Nat → Nat} {d len n : Nat} :
    ∀ rest (i c : Int) acc body (S : Store) acc' body' S', rest.length ≤ len →
    i = d + rest.length - 1 → (∀ j, c ≤ S.label j) → RestOk own d rest →
    OkL (fun j => rest.length ≤ own j ∧ own j ≤ len) (Asg d rest.length) acc →
    body.Ok (fun j => rest.length ≤ own j ∧ own j ≤ len) (Asg d rest.length) →
    (∀ j, own j < rest.length → (S.term j).Ok (fun k => own k = own j) (Asg d (own j))) →
    (∀ j, rest.length ≤ own j ∧ own j ≤ len →
      (S.term j).Ok (fun k => rest.length ≤ own k ∧ own k ≤ len) (Asg d rest.length)) →
    Clean n rest i c acc body S →
    optRefs n rest i c acc body S = some (acc', body', S') →
    Sound S.term d (.lett (rest.reverse ++ acc) body) S'.term (.lett acc' body')
  | [], i, c, acc, body, S, acc', body', S', _, hi, hl, hrest, hacc, hbody, hN1, hN2, hcl, h => by
    simp only [optRefs] at h
    cases h
    exact Sound.refl _ _ _
  | x :: rest, i, c, acc, body, S, acc', body', S', hlen, hi, hl, hrest, hacc, hbody, hN1, hN2, hcl,
      h => by
    have ih := optRefs_sound (own := own) (d := d) (len := len) (n := n) rest
    simp only [List.length_cons] at hlen hi hacc hbody hN1 hN2
    push_cast at hi
    have hi' : i - 1 = d + rest.length - 1 := by omega
    have hi2 : i = d + rest.length := by omega
    have hx := hrest.1
    have kp : ∀ (acc : List Lam),
        OkL (fun j => rest.length + 1 ≤ own j ∧ own j ≤ len) (Asg d rest.length) acc → ∀ y : Lam,
        y.Ok (fun j => own j = rest.length) (Asg d rest.length) →
        OkL (fun j => rest.length ≤ own j ∧ own j ≤ len) (Asg d rest.length) (y :: acc) := by
      intro acc ha y hy
      simp only [OkL]
      exact ⟨Lam.ok_mono (fun j hj => by omega) (fun _ h => h) _ hy,
        okL_mono (fun j hj => by omega) (fun _ h => h) _ ha⟩
    have asg1 : ∀ v, Asg d (rest.length + 1) v → Asg d rest.length v :=
      fun v => Asg.mono (Nat.le_succ _)
    have stay : ∀ S1 : Store, S1.term = S.term → ∀ c', c' ≤ c → (∀ j, c' ≤ S1.label j) →
        Clean n rest (i - 1) c' (x :: acc) body S1 →
        optRefs n rest (i - 1) c' (x :: acc) body S1 = some (acc', body', S') →
        Sound S.term d (.lett ((x :: rest).reverse ++ acc) body) S'.term (.lett acc' body') := by
      intro S1 hS1 c' hc' hl' hcl' h'
      have := ih (i - 1) c' (x :: acc) body S1 acc' body' S' (by omega) hi' hl' hrest.2
        (kp acc (okL_mono (fun _ h => h) asg1 _ hacc) x hx)
        (Lam.ok_mono (fun j hj => by omega) asg1 _ hbody)
        (fun j hj => by rw [hS1]; exact hN1 j (by omega))
        (fun j hj => by
          rw [hS1]
          by_cases hj2 : own j = rest.length
          · exact Lam.ok_mono (fun k hk => by omega) (fun v hv => by rw [hj2] at hv; exact hv) _
              (hN1 j (by omega))
          · exact Lam.ok_mono (fun k hk => by omega) asg1 _ (hN2 j (by omega)))
        hcl' h'
      rw [hS1] at this
      simpa using this
    simp only [optRefs] at h
    simp only [Clean] at hcl
    cases hcell : cellOf x with
    | none =>
      rw [hcell] at h hcl
      exact stay S rfl c (le_refl _) hl hcl h
    | some e =>
      rw [hcell] at h hcl
      obtain ⟨t, rfl⟩ := cellOf_some hcell
      dsimp only at h hcl
      cases hp : pass n i (c - 1) acc body S with
      | none => rw [hp] at h; cases h
      | some o =>
        rw [hp] at h hcl
        have hlab := pass_label hp
        cases o with
        | raised S1 =>
          exact stay S1 hcl.1 (c - 1) (by omega)
            (fun j => by
              have h1 := hlab j
              have h2 := hl j
              simp only [Out.store] at h1
              omega) hcl.2 h
        | ok p S1 =>
          obtain ⟨acc1, body1⟩ := p
          dsimp only at h hcl
          simp only [Lam.Ok, OkL, and_true] at hx
          have hlt : ∀ j, S.label j ≠ c - 1 := fun j => by have := hl j; omega
          obtain ⟨hd, ha1, hb1, htr⟩ := pass_good (Q' := Asg d rest.length)
            (fun v hv => ⟨by simp only [Asg] at hv; omega, asg1 v hv⟩)
            (by simp only [Asg]; omega) hacc hbody (fun j hj _ => hN2 j hj) hp
          have hun : ∀ j, ¬ (rest.length + 1 ≤ own j ∧ own j ≤ len) → S1.term j = S.term j := by
            intro j hj
            exact hd.old j (Or.inr fun h' => hj (hd.new j (hlt j) h').1)
          have hstep := step (N := S.term) (N' := S1.term) (A := rest.reverse) (acc := acc)
            (acc' := acc1) (e := e) (body := body) (body' := body1) (t := t) (d := d)
            (PA := fun j => own j < rest.length + 1) (V := fun j => S1.label j = c - 1)
            (Q := fun _ => True) (RestOk.okL _ hrest.2 (by omega))
            (Lam.ok_mono (fun j hj => by omega) (fun _ _ => trivial) _ hx)
            (fun j hj => ⟨hun j (by omega),
              Lam.ok_mono (fun k hk => by omega) (fun _ _ => trivial) _ (hN1 j hj)⟩)
            (fun j hj => by
              rw [List.length_reverse, ← hi2]
              exact (hd.new j (hlt j) hj).2.2 _ fun _ h => h)
            (by rw [List.length_reverse, ← hi2]; exact (htr _ fun _ h => h).1)
            (by rw [List.length_reverse, ← hi2]; exact (htr _ fun _ h => h).2)
          have hrec := ih (i - 1) (c - 1) (e :: acc1) body1 S1 acc' body' S' (by omega) hi'
            (fun j => by
              have h1 := hlab j
              have h2 := hl j
              simp only [Out.store] at h1
              omega) hrest.2
            (kp _ ha1 e hx)
            (Lam.ok_mono (fun j hj => by omega) (fun _ h => h) _ hb1)
            (fun j hj => by rw [hun j (by omega)]; exact hN1 j (by omega))
            (fun j hj => by
              by_cases hj2 : own j = rest.length
              · rw [hun j (by omega)]
                exact Lam.ok_mono (fun k hk => by omega) (fun v hv => by rw [hj2] at hv; exact hv) _
                  (hN1 j (by omega))
              · by_cases hj3 : S1.label j = c - 1
                · exact Lam.ok_mono (fun k hk => by omega) (fun _ h => h) _
                    (hd.new j (hlt j) hj3).2.1
                · rw [hd.old j (Or.inr hj3)]
                  exact Lam.ok_mono (fun k hk => by omega) asg1 _ (hN2 j (by omega)))
            hcl h
          have := hstep.trans hrec
          simpa using this

end Mosml.Unref
