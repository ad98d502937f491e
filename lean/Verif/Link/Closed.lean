import Verif.Link.Order

namespace Mosml.Link

open Mosml.Emit (Uid)

theorem closed_new {is : List Item} {D : Uid → Prop} (h : Closed D is) :
    ∀ u ∈ is.flatMap Item.defines, ¬ D u := by
  induction is generalizing D with
  | nil => intro u hu; simp at hu
  | cons i is ih =>
      intro u hu hD
      rw [List.flatMap_cons, List.mem_append] at hu
      cases h with
      | phrase hg hd hc =>
          rcases hu with hu | hu
          · exact hd u hu hD
          · exact ih hc u hu (Or.inl hD)
      | publish hv ha hc =>
          rcases hu with hu | hu
          · simp only [Item.defines, List.mem_singleton] at hu
            subst hu; exact ha hD
          · exact ih hc u hu (Or.inl hD)

theorem Closed.mono {is : List Item} {D D' : Uid → Prop} (h : Closed D is)
    (hle : ∀ u, D u → D' u) (hnew : ∀ u ∈ is.flatMap Item.defines, ¬ D' u) : Closed D' is := by
  induction is generalizing D D' with
  | nil => exact .nil
  | cons i is ih =>
      have hdisj : ∀ u ∈ is.flatMap Item.defines, ¬ D' u := fun u hu =>
        hnew u (by rw [List.flatMap_cons]; exact List.mem_append_right _ hu)
      cases h with
      | @phrase _ p _ hg hd hc =>
          have hdp : ∀ u ∈ p.sets, ¬ D' u := fun u hu =>
            hnew u (by rw [List.flatMap_cons]; exact List.mem_append_left _ hu)
          refine .phrase ?_ hdp ?_
          · intro pre u pos post e
            exact (hg pre u pos post e).imp (hle u) id
          · have hnd := closed_new hc
            refine ih hc (fun u hu => hu.imp (hle u) id) ?_
            rintro u hu (h1 | h1)
            · exact hdisj u hu h1
            · exact hnd u hu (Or.inr h1)
      | @publish _ a v _ hv ha hc =>
          refine .publish (hle _ hv) (hnew a (by simp [Item.defines])) ?_
          have hnd := closed_new hc
          refine ih hc (fun u hu => hu.imp (hle u) id) ?_
          rintro u hu (h1 | h1)
          · exact hdisj u hu h1
          · exact hnd u hu (Or.inr h1)

theorem Closed.append {a b : List Item} {D : Uid → Prop} (h : Closed D a)
    (hb : Closed (fun u => D u ∨ u ∈ a.flatMap Item.defines) b) : Closed D (a ++ b) := by
  induction a generalizing D with
  | nil => simpa using hb
  | cons i a ih =>
      have e : ∀ (S : List Uid), (∀ u, u ∈ i.defines ↔ u ∈ S) →
          (fun u => D u ∨ u ∈ (i :: a).flatMap Item.defines) =
          (fun u => (D u ∨ u ∈ S) ∨ u ∈ a.flatMap Item.defines) := by
        intro S hS
        funext u
        rw [List.flatMap_cons, List.mem_append, hS u, or_assoc]
      cases h with
      | @phrase _ p _ hg hd hc =>
          refine .phrase hg hd (ih hc ?_)
          rw [e p.sets (fun _ => Iff.rfl)] at hb
          exact hb
      | @publish _ x v _ hv hx hc =>
          refine .publish hv hx (ih hc ?_)
          rw [e [x] (fun _ => Iff.rfl)] at hb
          simpa using hb

theorem qid_inj {u v i j : Name} (h : qid u i = qid v j) : u = v := by
  unfold qid at h
  rw [List.cons.injEq] at h
  exact (List.append_inj h.2 h.1).1

theorem program_closed {env : Env} {pre : Uid → Prop} : ∀ (toscan : List (Name × Tables)),
    InOrder toscan → (∀ u ∈ toscan, env.files u.1 = some u.2 ∧ UnitOk env pre u) →
    Closed pre (program toscan.reverse) := by
  intro toscan
  induction toscan with
  | nil => intro _ _; exact .nil
  | cons u us ih =>
      intro ho hu
      obtain ⟨h1, h2, h3⟩ := ho
      have : program (u :: us).reverse = program us.reverse ++ unitItems u := by
        simp [program, List.flatMap_append]
      rw [this]
      have hmem : ∀ x, x ∈ (program us.reverse).flatMap Item.defines ↔ ∃ v ∈ us, x ∈ unitDefs v := by
        intro x
        simp only [program, unitDefs, List.mem_flatMap, List.mem_reverse]
        constructor
        · rintro ⟨i, ⟨v, hv, hi⟩, hx⟩; exact ⟨v, hv, i, hi, hx⟩
        · rintro ⟨v, hv, i, hi, hx⟩; exact ⟨i, ⟨v, hv, hi⟩, hx⟩
      refine (ih h3 (fun v hv => hu v (List.mem_cons_of_mem _ hv))).append ?_
      have hU := (hu u (List.mem_cons_self ..)).2
      refine hU.closed.mono ?_ ?_
      · rintro x (hx | ⟨m, hm, t, ht, hx⟩)
        · exact Or.inl hx
        · refine Or.inr ((hmem x).2 ?_)
          obtain ⟨t', h4, _⟩ := h2 m hm
          have h5 := (hu (m.1, t') (List.mem_cons_of_mem _ h4)).1
          simp only at h5
          rw [ht] at h5
          cases h5
          exact ⟨_, h4, hx⟩
      · rintro x hx (hp | hp)
        · exact (hU.own x hx).2 hp
        · obtain ⟨v, hv, hxv⟩ := (hmem x).1 hp
          obtain ⟨⟨i, e1⟩, _⟩ := hU.own x hx
          obtain ⟨⟨j, e2⟩, _⟩ := ((hu v (List.mem_cons_of_mem _ hv)).2).own x hxv
          rw [e1] at e2
          have := qid_inj e2
          exact h1 (by rw [this, List.mem_map]; exact ⟨v, hv, rfl⟩)

end Mosml.Link
