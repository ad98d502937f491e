import Verif.Link.Spec
import Verif.Util
import Mathlib.Data.List.Perm.Subperm

namespace Mosml.Link

/-! ## The first pass -/

structure P1.Inv (env : Env) (s : P1) : Prop where
  dog : s.dog = s.done.map fun u => (u.1, u.2.stamp)
  order : InOrder s.done
  files : ∀ u ∈ s.done, env.files u.1 = some u.2 ∧ u.1 ∉ env.reserved

theorem P1.Inv.find_some {env : Env} {s : P1} (h : s.Inv env) {n : Name} {st : Nat}
    (e : s.find n = some st) : ∃ t, (n, t) ∈ s.done ∧ t.stamp = st := by
  unfold P1.find at e
  rw [Option.map_eq_some_iff] at e
  obtain ⟨x, h1, rfl⟩ := e
  have h2 := List.mem_of_find?_eq_some h1
  have h3 := List.find?_some h1
  simp only [decide_eq_true_eq] at h3
  rw [h.dog, List.mem_map] at h2
  obtain ⟨⟨a, t⟩, h4, rfl⟩ := h2
  cases h3
  exact ⟨t, h4, rfl⟩

theorem P1.Inv.find_none {env : Env} {s : P1} (h : s.Inv env) {n : Name}
    (e : s.find n = none) : n ∉ s.done.map (·.1) := by
  unfold P1.find at e
  rw [Option.map_eq_none_iff, List.find?_eq_none] at e
  intro hn
  rw [List.mem_map] at hn
  obtain ⟨u, h1, rfl⟩ := hn
  have := e (u.1, u.2.stamp) (by rw [h.dog, List.mem_map]; exact ⟨u, h1, rfl⟩)
  simp at this

/-- What a successful call does: it adds units needed by `n`, none of them pending, and
then `n` is there. -/
structure Step (env : Env) (roots : List Name) (pending : List Name) (s s' : P1) : Prop where
  inv : s'.Inv env
  ext : ∃ new, s'.done = new ++ s.done ∧
    ∀ u ∈ new, u.1 ∉ pending ∧ Reach env roots u.1

theorem Step.refl {env : Env} {roots pending : List Name} {s : P1} (h : s.Inv env) :
    Step env roots pending s s := ⟨h, [], rfl, by simp⟩

theorem Step.trans {env : Env} {roots pending : List Name} {a b c : P1}
    (h : Step env roots pending a b) (h' : Step env roots pending b c) :
    Step env roots pending a c := by
  obtain ⟨n1, e1, p1⟩ := h.ext
  obtain ⟨n2, e2, p2⟩ := h'.ext
  refine ⟨h'.inv, n2 ++ n1, by rw [e2, e1, List.append_assoc], ?_⟩
  intro u hu
  rw [List.mem_append] at hu
  exact hu.elim (p2 u) (p1 u)

theorem Step.keeps {env : Env} {roots pending : List Name} {a b : P1}
    (h : Step env roots pending a b) {u : Name × Tables} (hu : u ∈ a.done) : u ∈ b.done := by
  obtain ⟨n1, e1, -⟩ := h.ext
  rw [e1]; exact List.mem_append_right _ hu

/-- What the call promises about the unit asked for. -/
def Has (s : P1) (n : Name) (stampOpt : Option Nat) : Prop :=
  ∃ t, (n, t) ∈ s.done ∧ ∀ st, stampOpt = some st → t.stamp = st

theorem rename_ok {n m : Name} {r : Except Err P1} {s : P1} (h : rename n m r = .ok s) :
    r = .ok s := by
  cases r with
  | ok x => exact h
  | error e => cases e <;> simp [rename] at h

theorem foldNeeds_ok {env : Env} {roots pending : List Name} {n : Name}
    {chk : Name → Nat → P1 → Except Err P1} : ∀ (ms : List (Name × Nat)) (s s' : P1),
    (∀ m ∈ ms, ∀ s s', s.Inv env → chk m.1 m.2 s = .ok s' →
      Step env roots pending s s' ∧ Has s' m.1 (some m.2)) →
    s.Inv env → foldNeeds chk n ms s = .ok s' →
    Step env roots pending s s' ∧ ∀ m ∈ ms, Has s' m.1 (some m.2) := by
  intro ms
  induction ms with
  | nil =>
      intro s s' _ hi h
      simp only [foldNeeds, Except.ok.injEq] at h
      subst h
      exact ⟨Step.refl hi, by simp⟩
  | cons m ms ih =>
      intro s s' hc hi h
      simp only [foldNeeds] at h
      cases hr : rename n m.1 (chk m.1 m.2 s) with
      | error e => rw [hr] at h; simp at h
      | ok s1 =>
          rw [hr] at h
          obtain ⟨h1, h2⟩ := hc m (List.mem_cons_self ..) s s1 hi (rename_ok hr)
          obtain ⟨h3, h4⟩ := ih s1 s' (fun m hm => hc m (List.mem_cons_of_mem _ hm)) h1.inv h
          refine ⟨h1.trans h3, ?_⟩
          intro x hx
          rw [List.mem_cons] at hx
          rcases hx with rfl | hx
          · obtain ⟨t, h5, h6⟩ := h2
            exact ⟨t, h3.keeps h5, h6⟩
          · exact h4 x hx

theorem readFor_ok {env : Env} {n : Name} {stampOpt : Option Nat} {t : Tables}
    (h : readFor env n stampOpt = .ok t) :
    env.files n = some t ∧ ∀ st, stampOpt = some st → t.stamp = st := by
  unfold readFor at h
  cases stampOpt with
  | none =>
      simp only at h
      cases hf : env.files n with
      | none => rw [hf] at h; simp at h
      | some t' =>
          rw [hf] at h; simp only [Except.ok.injEq] at h
          subst h; exact ⟨rfl, by simp⟩
  | some st =>
      simp only at h
      split at h
      · cases hf : env.files n with
        | none => rw [hf] at h; simp at h
        | some t' =>
            rw [hf] at h; simp only at h
            split at h
            next he =>
              simp only [Except.ok.injEq] at h
              subst h
              refine ⟨rfl, ?_⟩
              intro st' hst; cases hst; exact he.symm
            next => simp at h
      · simp at h

theorem checkFile_ok {env : Env} {roots : List Name} : ∀ (fuel : Nat) (n : Name)
    (stampOpt : Option Nat) (pending : List Name) (s s' : P1), s.Inv env → Reach env roots n →
    checkFile env fuel n stampOpt pending s = .ok s' →
    Step env roots pending s s' ∧ Has s' n stampOpt := by
  intro fuel
  induction fuel with
  | zero => intro n so pending s s' _ _ h; simp [checkFile] at h
  | succ fuel ih =>
      intro n so pending s s' hi hr h
      simp only [checkFile] at h
      split at h
      next => simp at h
      next hpend =>
      split at h
      next => simp at h
      next hres =>
      cases hf : s.find n with
      | some st' =>
          rw [hf] at h
          simp only at h
          obtain ⟨t, h1, h2⟩ := hi.find_some hf
          cases so with
          | none =>
              simp only [Except.ok.injEq] at h
              subst h
              exact ⟨Step.refl hi, t, h1, by simp⟩
          | some st =>
              simp only at h
              split at h
              next => simp at h
              next he =>
                simp only [Except.ok.injEq] at h
                subst h
                refine ⟨Step.refl hi, t, h1, ?_⟩
                intro x hx; cases hx
                rw [h2]; exact (not_not.1 he).symm
      | none =>
          rw [hf] at h
          simp only at h
          cases hrd : readFor env n so with
          | error e => rw [hrd] at h; simp at h
          | ok t =>
              rw [hrd] at h
              simp only at h
              obtain ⟨hfile, hst⟩ := readFor_ok hrd
              cases hn : foldNeeds (fun m st => checkFile env fuel m (some st) (n :: pending)) n
                  t.mentions s with
              | error e => rw [hn] at h; simp at h
              | ok s1 =>
                  rw [hn] at h
                  simp only [Except.ok.injEq] at h
                  obtain ⟨h1, h2⟩ := foldNeeds_ok (env := env) (roots := roots)
                    (pending := n :: pending) t.mentions s s1
                    (fun m hm a b ha hab => ih m.1 (some m.2) (n :: pending) a b ha
                      (.step hr hfile hm) hab) hi hn
                  obtain ⟨new, e1, e2⟩ := h1.ext
                  have hnot : n ∉ s1.done.map (·.1) := by
                    rw [e1, List.map_append, List.mem_append, not_or]
                    refine ⟨?_, hi.find_none hf⟩
                    rw [List.mem_map]
                    rintro ⟨u, hu, rfl⟩
                    exact (e2 u hu).1 (List.mem_cons_self ..)
                  subst h
                  refine ⟨⟨⟨?_, ?_, ?_⟩, (n, t) :: new, ?_, ?_⟩, t, List.mem_cons_self .., hst⟩
                  · simp [h1.inv.dog]
                  · refine ⟨hnot, ?_, h1.inv.order⟩
                    intro m hm
                    obtain ⟨t', h3, h4⟩ := h2 m hm
                    exact ⟨t', h3, h4 _ rfl⟩
                  · intro u hu
                    rw [List.mem_cons] at hu
                    rcases hu with rfl | hu
                    · exact ⟨hfile, hres⟩
                    · exact h1.inv.files u hu
                  · simp [e1]
                  · intro u hu
                    rw [List.mem_cons] at hu
                    rcases hu with rfl | hu
                    · exact ⟨hpend, hr⟩
                    · exact ⟨fun h => (e2 u hu).1 (List.mem_cons_of_mem _ h), (e2 u hu).2⟩

theorem checkFiles_ok {env : Env} {roots : List Name} {fuel : Nat} : ∀ (ns : List Name) (s s' : P1),
    s.Inv env → (∀ n ∈ ns, n ∈ roots) → checkFiles env fuel ns s = .ok s' →
    Step env roots [] s s' ∧ ∀ n ∈ ns, n ∈ s'.done.map (·.1) := by
  intro ns
  induction ns with
  | nil =>
      intro s s' hi _ h
      simp only [checkFiles, Except.ok.injEq] at h
      subst h
      exact ⟨Step.refl hi, by simp⟩
  | cons n ns ih =>
      intro s s' hi hr h
      simp only [checkFiles] at h
      cases hc : checkFile env fuel n none [] s with
      | error e => rw [hc] at h; simp at h
      | ok s1 =>
          rw [hc] at h
          simp only at h
          obtain ⟨h1, h2⟩ := checkFile_ok (roots := roots) fuel n none [] s s1 hi
            (.root (hr n (List.mem_cons_self ..))) hc
          obtain ⟨h3, h4⟩ := ih s1 s' h1.inv (fun x hx => hr x (List.mem_cons_of_mem _ hx)) h
          refine ⟨h1.trans h3, ?_⟩
          intro x hx
          rw [List.mem_cons] at hx
          rcases hx with rfl | hx
          · obtain ⟨t, h5, _⟩ := h2
            rw [List.mem_map]; exact ⟨_, h3.keeps h5, rfl⟩
          · exact h4 x hx

/-! ## Success -/

theorem foldNeeds_total {env : Env} {roots pending : List Name} {n : Name}
    {chk : Name → Nat → P1 → Except Err P1} : ∀ (ms : List (Name × Nat)) (s : P1),
    (∀ m ∈ ms, ∀ s s', s.Inv env → chk m.1 m.2 s = .ok s' → Step env roots pending s s') →
    (∀ m ∈ ms, ∀ s, s.Inv env → ∃ s', chk m.1 m.2 s = .ok s') →
    s.Inv env → ∃ s', foldNeeds chk n ms s = .ok s' := by
  intro ms
  induction ms with
  | nil => intro s _ _ _; exact ⟨s, rfl⟩
  | cons m ms ih =>
      intro s hc ht hi
      obtain ⟨s1, h1⟩ := ht m (List.mem_cons_self ..) s hi
      have h2 := hc m (List.mem_cons_self ..) s s1 hi h1
      obtain ⟨s2, h3⟩ := ih s1 (fun m hm => hc m (List.mem_cons_of_mem _ hm))
        (fun m hm => ht m (List.mem_cons_of_mem _ hm)) h2.inv
      exact ⟨s2, by simp only [foldNeeds, h1, rename]; exact h3⟩

theorem checkFile_total {env : Env} {roots : List Name} {rank : Name → Nat}
    (hl : Linkable env roots rank) (ha : env.autolink = true) : ∀ (fuel : Nat) (n : Name)
    (stampOpt : Option Nat) (pending : List Name) (s : P1), rank n < fuel → s.Inv env →
    Reach env roots n → (∀ x ∈ pending, rank n < rank x) →
    (∀ st, stampOpt = some st → ∀ t, env.files n = some t → t.stamp = st) →
    ∃ s', checkFile env fuel n stampOpt pending s = .ok s' := by
  intro fuel
  induction fuel with
  | zero => intro n _ _ _ h; omega
  | succ fuel ih =>
      intro n so pending s hf hi hr hp hst
      have h1 : n ∉ pending := fun h => by have := hp n h; omega
      simp only [checkFile, if_neg h1, if_neg (hl.free n hr)]
      obtain ⟨t, ht⟩ := hl.readable n hr
      cases hfind : s.find n with
      | some st' =>
          cases so with
          | none => exact ⟨s, rfl⟩
          | some st =>
              obtain ⟨t', h2, h3⟩ := hi.find_some hfind
              have h4 := (hi.files _ h2).1
              have h5 := hst st rfl t' h4
              refine ⟨s, ?_⟩
              simp [← h5, ← h3]
      | none =>
          have hrd : readFor env n so = .ok t := by
            unfold readFor
            cases so with
            | none => simp [ht]
            | some st => simp [ha, ht, hst st rfl t ht]
          simp only [hrd]
          obtain ⟨s1, h2⟩ := foldNeeds_total (env := env) (roots := roots) (pending := n :: pending)
            (n := n) (chk := fun m st => checkFile env fuel m (some st) (n :: pending)) t.mentions s
            (fun m hm a b hia hab => (checkFile_ok fuel m.1 (some m.2) (n :: pending) a b hia
              (.step hr ht hm) hab).1)
            (fun m hm a hia => by
              have hlt := hl.acyclic n t m hr ht hm
              refine ih m.1 (some m.2) (n :: pending) a (by omega) hia (.step hr ht hm) ?_ ?_
              · intro x hx
                rw [List.mem_cons] at hx
                rcases hx with rfl | hx
                · exact hlt
                · have := hp x hx; omega
              · intro st hst' t' ht'
                cases hst'
                exact hl.stamps n t m t' hr ht hm ht') hi
          rw [h2]
          exact ⟨_, rfl⟩

theorem checkFiles_total {env : Env} {roots : List Name} {rank : Name → Nat} {fuel : Nat}
    (hl : Linkable env roots rank) (ha : env.autolink = true)
    (hf : ∀ n ∈ roots, rank n < fuel) : ∀ (ns : List Name) (s : P1), s.Inv env →
    (∀ n ∈ ns, n ∈ roots) → ∃ s', checkFiles env fuel ns s = .ok s' := by
  intro ns
  induction ns with
  | nil => intro s _ _; exact ⟨s, rfl⟩
  | cons n ns ih =>
      intro s hi hr
      have hn := hr n (List.mem_cons_self ..)
      obtain ⟨s1, h1⟩ := checkFile_total hl ha fuel n none [] s (hf n hn) hi (.root hn) (by simp)
        (by simp)
      have h2 := (checkFile_ok fuel n none [] s s1 hi (.root hn : Reach env roots n) h1).1
      obtain ⟨s2, h3⟩ := ih s1 h2.inv (fun x hx => hr x (List.mem_cons_of_mem _ hx))
      exact ⟨s2, by simp only [checkFiles, h1]; exact h3⟩

/-! ## The recursion is bounded by the number of files -/

theorem rename_fuel {n m : Name} {r : Except Err P1} (h : rename n m r = .error .fuel) :
    r = .error .fuel := by
  cases r with
  | ok x => simp [rename] at h
  | error e => cases e <;> simp [rename] at h ⊢

theorem foldNeeds_fuel {n : Name} {chk : Name → Nat → P1 → Except Err P1} :
    ∀ (ms : List (Name × Nat)) (s : P1), (∀ m st s, chk m st s ≠ .error .fuel) →
    foldNeeds chk n ms s ≠ .error .fuel := by
  intro ms
  induction ms with
  | nil => intro s _; simp [foldNeeds]
  | cons m ms ih =>
      intro s hc
      simp only [foldNeeds]
      cases hr : rename n m.1 (chk m.1 m.2 s) with
      | error e =>
          intro h
          simp only [Except.error.injEq] at h
          subst h
          exact hc _ _ _ (rename_fuel hr)
      | ok s1 => exact ih s1 hc

theorem readFor_fuel {env : Env} {n : Name} {so : Option Nat} : readFor env n so ≠ .error .fuel := by
  unfold readFor
  cases so with
  | none => cases env.files n <;> simp
  | some st =>
      simp only
      split
      · cases env.files n with
        | none => simp
        | some t => simp only; split <;> simp
      · simp

theorem checkFile_fuel {env : Env} {dom : List Name}
    (hd : ∀ n t, env.files n = some t → n ∈ dom) : ∀ (fuel : Nat) (n : Name)
    (stampOpt : Option Nat) (pending : List Name) (s : P1), pending.Nodup →
    (∀ x ∈ pending, x ∈ dom) → dom.length < fuel + pending.length →
    checkFile env fuel n stampOpt pending s ≠ .error .fuel := by
  intro fuel
  induction fuel with
  | zero =>
      intro n so pending s hn hs hlen
      have := (List.subperm_of_subset hn hs).length_le
      omega
  | succ fuel ih =>
      intro n so pending s hn hs hlen
      simp only [checkFile]
      split
      · simp
      next hp =>
      split
      · simp
      · cases s.find n with
        | some st' =>
            cases so with
            | none => simp
            | some st => simp only; split <;> simp
        | none =>
            simp only
            cases hrd : readFor env n so with
            | error e =>
                intro h
                simp only [Except.error.injEq] at h
                subst h
                exact readFor_fuel hrd
            | ok t =>
                simp only
                have hf := (readFor_ok hrd).1
                have := foldNeeds_fuel (n := n)
                  (chk := fun m st => checkFile env fuel m (some st) (n :: pending)) t.mentions s
                  (fun m st a => ih m (some st) (n :: pending) a (List.nodup_cons.2 ⟨hp, hn⟩)
                    (by
                      intro x hx
                      rw [List.mem_cons] at hx
                      rcases hx with rfl | hx
                      · exact hd _ t hf
                      · exact hs x hx)
                    (by simp only [List.length_cons]; omega))
                cases hfn : foldNeeds (fun m st => checkFile env fuel m (some st) (n :: pending)) n
                    t.mentions s with
                | error e =>
                    rw [hfn] at this
                    simpa using this
                | ok s1 => simp

theorem checkFiles_fuel {env : Env} {dom : List Name} {fuel : Nat}
    (hd : ∀ n t, env.files n = some t → n ∈ dom) (hf : dom.length < fuel) :
    ∀ (ns : List Name) (s : P1), checkFiles env fuel ns s ≠ .error .fuel := by
  intro ns
  induction ns with
  | nil => intro s; simp [checkFiles]
  | cons n ns ih =>
      intro s
      simp only [checkFiles]
      cases hc : checkFile env fuel n none [] s with
      | error e =>
          intro h
          simp only [Except.error.injEq] at h
          subst h
          exact checkFile_fuel hd fuel n none [] s List.nodup_nil (by simp) (by simpa using hf) hc
      | ok s1 => exact ih s1

end Mosml.Link
