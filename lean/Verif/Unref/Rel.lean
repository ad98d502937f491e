import Verif.Unref.Spec

/-!
# Two runs that differ by one block

A run that keeps a value in a block at `a0` is compared with one that keeps it
in a slot.
-/

namespace Mosml.Unref

open List (Forall₂)

/-- `e'` is `e` with the uses of the block in slot `i` replaced by uses of the
slot (`sp = some i`), or `e` itself (`sp = none`).  The nodes that `e` has are
in `V`. -/
inductive Tr (sp : Option Int) (V : Nat → Prop) : Lam → Lam → Prop
  | var {v} : sp ≠ some v → Tr sp V (.var v) (.var v)
  | assign {v a a'} : sp ≠ some v → Tr sp V a a' → Tr sp V (.assign v a) (.assign v a')
  | const {z} : Tr sp V (.const z) (.const z)
  | apply {f f' args args'} : Tr sp V f f' → Forall₂ (Tr sp V) args args' →
      Tr sp V (.apply f args) (.apply f' args')
  | lett {args args' b b'} : Forall₂ (Tr sp V) args args' → Tr sp V b b' →
      Tr sp V (.lett args b) (.lett args' b')
  | letrec {args args' b b'} : Forall₂ (Tr sp V) args args' → Tr sp V b b' →
      Tr sp V (.letrec args b) (.letrec args' b')
  | get {i} : sp = some i → Tr sp V (.prim (.field 0) [.var i]) (.var i)
  | set {i a a'} : sp = some i → Tr sp V a a' →
      Tr sp V (.prim (.setfield 0) [.var i, a]) (.assign i a')
  | prim {p args args'} : Forall₂ (Tr sp V) args args' → Tr sp V (.prim p args) (.prim p args')
  | statichandle {a a' b b'} : Tr sp V a a' → Tr sp V b b' →
      Tr sp V (.statichandle a b) (.statichandle a' b')
  | staticfail : Tr sp V .staticfail .staticfail
  | handle {a a' b b'} : Tr sp V a a' → Tr sp V b b' → Tr sp V (.handle a b) (.handle a' b')
  | cond {c c' a a' b b'} : Tr sp V c c' → Tr sp V a a' → Tr sp V b b' →
      Tr sp V (.cond c a b) (.cond c' a' b')
  | seq {a a' b b'} : Tr sp V a a' → Tr sp V b b' → Tr sp V (.seq a b) (.seq a' b')
  | while {a a' b b'} : Tr sp V a a' → Tr sp V b b' → Tr sp V (.while a b) (.while a' b')
  | andalso {a a' b b'} : Tr sp V a a' → Tr sp V b b' → Tr sp V (.andalso a b) (.andalso a' b')
  | orelse {a a' b b'} : Tr sp V a a' → Tr sp V b b' → Tr sp V (.orelse a b) (.orelse a' b')
  | case {a a' ks acts acts'} : Tr sp V a a' → Forall₂ (Tr sp V) acts acts' →
      Tr sp V (.case a ks acts) (.case a' ks acts')
  | switch {a a' ks acts acts'} : Tr sp V a a' → Forall₂ (Tr sp V) acts acts' →
      Tr sp V (.switch a ks acts) (.switch a' ks acts')
  | unspec : Tr sp V .unspec .unspec
  | shared {j} : V j → Tr sp V (.shared j) (.shared j)

mutual
/-- The nodes of a term satisfy `P`, the slots it assigns `Q`. -/
def Lam.Ok (P : Nat → Prop) (Q : Int → Prop) : Lam → Prop
  | .var _ => True
  | .assign v a => Q v ∧ a.Ok P Q
  | .const _ => True
  | .apply f args => f.Ok P Q ∧ OkL P Q args
  | .lett args b => OkL P Q args ∧ b.Ok P Q
  | .letrec args b => OkL P Q args ∧ b.Ok P Q
  | .prim _ args => OkL P Q args
  | .statichandle a b => a.Ok P Q ∧ b.Ok P Q
  | .staticfail => True
  | .handle a b => a.Ok P Q ∧ b.Ok P Q
  | .cond c a b => c.Ok P Q ∧ a.Ok P Q ∧ b.Ok P Q
  | .seq a b => a.Ok P Q ∧ b.Ok P Q
  | .while a b => a.Ok P Q ∧ b.Ok P Q
  | .andalso a b => a.Ok P Q ∧ b.Ok P Q
  | .orelse a b => a.Ok P Q ∧ b.Ok P Q
  | .case a _ acts => a.Ok P Q ∧ OkL P Q acts
  | .switch a _ acts => a.Ok P Q ∧ OkL P Q acts
  | .unspec => True
  | .shared j => P j
def OkL (P : Nat → Prop) (Q : Int → Prop) : List Lam → Prop
  | [] => True
  | e :: es => e.Ok P Q ∧ OkL P Q es
end

mutual
theorem Tr.refl {V Q} : ∀ e : Lam, e.Ok V Q → Tr none V e e
  | .var _, _ => .var (by simp)
  | .assign _ a, h => by simp only [Lam.Ok] at h; exact .assign (by simp) (Tr.refl a h.2)
  | .const _, _ => .const
  | .apply f args, h => by simp only [Lam.Ok] at h; exact .apply (Tr.refl f h.1) (Tr.reflL args h.2)
  | .lett args b, h => by simp only [Lam.Ok] at h; exact .lett (Tr.reflL args h.1) (Tr.refl b h.2)
  | .letrec args b, h => by
      simp only [Lam.Ok] at h; exact .letrec (Tr.reflL args h.1) (Tr.refl b h.2)
  | .prim _ args, h => by simp only [Lam.Ok] at h; exact .prim (Tr.reflL args h)
  | .statichandle a b, h => by
      simp only [Lam.Ok] at h; exact .statichandle (Tr.refl a h.1) (Tr.refl b h.2)
  | .staticfail, _ => .staticfail
  | .handle a b, h => by simp only [Lam.Ok] at h; exact .handle (Tr.refl a h.1) (Tr.refl b h.2)
  | .cond c a b, h => by
      simp only [Lam.Ok] at h; exact .cond (Tr.refl c h.1) (Tr.refl a h.2.1) (Tr.refl b h.2.2)
  | .seq a b, h => by simp only [Lam.Ok] at h; exact .seq (Tr.refl a h.1) (Tr.refl b h.2)
  | .while a b, h => by simp only [Lam.Ok] at h; exact .while (Tr.refl a h.1) (Tr.refl b h.2)
  | .andalso a b, h => by simp only [Lam.Ok] at h; exact .andalso (Tr.refl a h.1) (Tr.refl b h.2)
  | .orelse a b, h => by simp only [Lam.Ok] at h; exact .orelse (Tr.refl a h.1) (Tr.refl b h.2)
  | .case a _ acts, h => by simp only [Lam.Ok] at h; exact .case (Tr.refl a h.1) (Tr.reflL acts h.2)
  | .switch a _ acts, h => by
      simp only [Lam.Ok] at h; exact .switch (Tr.refl a h.1) (Tr.reflL acts h.2)
  | .unspec, _ => .unspec
  | .shared _, h => by simp only [Lam.Ok] at h; exact .shared h
theorem Tr.reflL {V Q} : ∀ es : List Lam, OkL V Q es → Forall₂ (Tr none V) es es
  | [], _ => .nil
  | e :: es, h => by simp only [OkL] at h; exact .cons (Tr.refl e h.1) (Tr.reflL es h.2)
end

mutual
theorem Lam.ok_mono {P P' : Nat → Prop} {Q Q' : Int → Prop} (hP : ∀ j, P j → P' j)
    (hQ : ∀ v, Q v → Q' v) : ∀ e : Lam, e.Ok P Q → e.Ok P' Q'
  | .var _, _ => by simp only [Lam.Ok]
  | .assign _ a, h => by
      simp only [Lam.Ok] at h ⊢; exact ⟨hQ _ h.1, Lam.ok_mono hP hQ a h.2⟩
  | .const _, _ => by simp only [Lam.Ok]
  | .apply f args, h => by
      simp only [Lam.Ok] at h ⊢; exact ⟨Lam.ok_mono hP hQ f h.1, okL_mono hP hQ args h.2⟩
  | .lett args b, h => by
      simp only [Lam.Ok] at h ⊢; exact ⟨okL_mono hP hQ args h.1, Lam.ok_mono hP hQ b h.2⟩
  | .letrec args b, h => by
      simp only [Lam.Ok] at h ⊢; exact ⟨okL_mono hP hQ args h.1, Lam.ok_mono hP hQ b h.2⟩
  | .prim _ args, h => by simp only [Lam.Ok] at h ⊢; exact okL_mono hP hQ args h
  | .statichandle a b, h => by
      simp only [Lam.Ok] at h ⊢; exact ⟨Lam.ok_mono hP hQ a h.1, Lam.ok_mono hP hQ b h.2⟩
  | .staticfail, _ => by simp only [Lam.Ok]
  | .handle a b, h => by
      simp only [Lam.Ok] at h ⊢; exact ⟨Lam.ok_mono hP hQ a h.1, Lam.ok_mono hP hQ b h.2⟩
  | .cond c a b, h => by
      simp only [Lam.Ok] at h ⊢
      exact ⟨Lam.ok_mono hP hQ c h.1, Lam.ok_mono hP hQ a h.2.1, Lam.ok_mono hP hQ b h.2.2⟩
  | .seq a b, h => by
      simp only [Lam.Ok] at h ⊢; exact ⟨Lam.ok_mono hP hQ a h.1, Lam.ok_mono hP hQ b h.2⟩
  | .while a b, h => by
      simp only [Lam.Ok] at h ⊢; exact ⟨Lam.ok_mono hP hQ a h.1, Lam.ok_mono hP hQ b h.2⟩
  | .andalso a b, h => by
      simp only [Lam.Ok] at h ⊢; exact ⟨Lam.ok_mono hP hQ a h.1, Lam.ok_mono hP hQ b h.2⟩
  | .orelse a b, h => by
      simp only [Lam.Ok] at h ⊢; exact ⟨Lam.ok_mono hP hQ a h.1, Lam.ok_mono hP hQ b h.2⟩
  | .case a _ acts, h => by
      simp only [Lam.Ok] at h ⊢; exact ⟨Lam.ok_mono hP hQ a h.1, okL_mono hP hQ acts h.2⟩
  | .switch a _ acts, h => by
      simp only [Lam.Ok] at h ⊢; exact ⟨Lam.ok_mono hP hQ a h.1, okL_mono hP hQ acts h.2⟩
  | .unspec, _ => by simp only [Lam.Ok]
  | .shared _, h => by simp only [Lam.Ok] at h ⊢; exact hP _ h
theorem okL_mono {P P' : Nat → Prop} {Q Q' : Int → Prop} (hP : ∀ j, P j → P' j)
    (hQ : ∀ v, Q v → Q' v) : ∀ es : List Lam, OkL P Q es → OkL P' Q' es
  | [], _ => by simp only [OkL]
  | e :: es, h => by
      simp only [OkL] at h ⊢; exact ⟨Lam.ok_mono hP hQ e h.1, okL_mono hP hQ es h.2⟩
end

mutual
theorem Lam.ok_true : ∀ e : Lam, e.Ok (fun _ => True) (fun _ => True)
  | .var _ => by simp only [Lam.Ok]
  | .assign _ a => by simp only [Lam.Ok]; exact ⟨trivial, a.ok_true⟩
  | .const _ => by simp only [Lam.Ok]
  | .apply f args => by simp only [Lam.Ok]; exact ⟨f.ok_true, okL_true args⟩
  | .lett args b => by simp only [Lam.Ok]; exact ⟨okL_true args, b.ok_true⟩
  | .letrec args b => by simp only [Lam.Ok]; exact ⟨okL_true args, b.ok_true⟩
  | .prim _ args => by simp only [Lam.Ok]; exact okL_true args
  | .statichandle a b => by simp only [Lam.Ok]; exact ⟨a.ok_true, b.ok_true⟩
  | .staticfail => by simp only [Lam.Ok]
  | .handle a b => by simp only [Lam.Ok]; exact ⟨a.ok_true, b.ok_true⟩
  | .cond c a b => by simp only [Lam.Ok]; exact ⟨c.ok_true, a.ok_true, b.ok_true⟩
  | .seq a b => by simp only [Lam.Ok]; exact ⟨a.ok_true, b.ok_true⟩
  | .while a b => by simp only [Lam.Ok]; exact ⟨a.ok_true, b.ok_true⟩
  | .andalso a b => by simp only [Lam.Ok]; exact ⟨a.ok_true, b.ok_true⟩
  | .orelse a b => by simp only [Lam.Ok]; exact ⟨a.ok_true, b.ok_true⟩
  | .case a _ acts => by simp only [Lam.Ok]; exact ⟨a.ok_true, okL_true acts⟩
  | .switch a _ acts => by simp only [Lam.Ok]; exact ⟨a.ok_true, okL_true acts⟩
  | .unspec => by simp only [Lam.Ok]
  | .shared _ => by simp only [Lam.Ok]
theorem okL_true : ∀ es : List Lam, OkL (fun _ => True) (fun _ => True) es
  | [] => by simp only [OkL]
  | e :: es => by simp only [OkL]; exact ⟨e.ok_true, okL_true es⟩
end

/-! ### The number of blocks never falls -/

def KM (ev : Ev) : Prop := ∀ s r s1, ev s = some (r, s1) → s.k ≤ s1.k

theorem KM.andThen {ev : Ev} {f : Val → Ev} (h : KM ev) (hf : ∀ v, KM (f v)) :
    KM fun s => andThen (ev s) f := by
  intro s r s1 h1
  simp only [Unref.andThen] at h1
  split at h1
  · rename_i v s2 he
    exact Nat.le_trans (h _ _ _ he) (hf _ _ _ _ h1)
  · exact h _ _ _ h1

def KMs (ev : St → Option (Ress × St)) : Prop := ∀ s r s1, ev s = some (r, s1) → s.k ≤ s1.k

theorem KMs.andThens {ev : St → Option (Ress × St)} {f : List Val → Ev} (h : KMs ev)
    (hf : ∀ v, KM (f v)) : KM fun s => andThens (ev s) f := by
  intro s r s1 h1
  simp only [Unref.andThens] at h1
  split at h1
  · rename_i v s2 he
    exact Nat.le_trans (h _ _ _ he) (hf _ _ _ _ h1)
  · rename_i r2 s2 he
    cases h1
    exact h _ _ _ he
  · cases h1

theorem km_evalLR {ev : Lam → Ev} (h : ∀ e, KM (ev e)) : ∀ es, KMs (evalLR ev es)
  | [], s, r, s1, h1 => by cases h1; exact Nat.le_refl _
  | e :: es, s, r, s1, h1 => by
    simp only [evalLR] at h1
    split at h1
    · rename_i v s2 he
      have h2 := h _ _ _ _ he
      split at h1
      · rename_i vs s3 hes
        cases h1
        exact Nat.le_trans h2 (km_evalLR h es _ _ _ hes)
      · exact Nat.le_trans h2 (km_evalLR h es _ _ _ h1)
    · rename_i r2 s2 _ he
      cases h1
      exact h _ _ _ _ he
    · cases h1

theorem km_evalRL {ev : Lam → Ev} (h : ∀ e, KM (ev e)) : ∀ es, KMs (evalRL ev es)
  | [], s, r, s1, h1 => by cases h1; exact Nat.le_refl _
  | e :: es, s, r, s1, h1 => by
    simp only [evalRL] at h1
    split at h1
    · rename_i vs s2 hes
      have h2 := km_evalRL h es _ _ _ hes
      split at h1
      · rename_i v s3 he
        cases h1
        exact Nat.le_trans h2 (h _ _ _ _ he)
      · rename_i r2 s3 _ he
        cases h1
        exact Nat.le_trans h2 (h _ _ _ _ he)
      · cases h1
    · exact km_evalRL h es _ _ _ h1

theorem km_evalLets {ev : Nat → Lam → Ev} (h : ∀ d e, KM (ev d e)) :
    ∀ es d, KMs (evalLets ev d es)
  | [], d, s, r, s1, h1 => by cases h1; exact Nat.le_refl _
  | e :: es, d, s, r, s1, h1 => by
    simp only [evalLets] at h1
    split at h1
    · rename_i v s2 he
      exact Nat.le_trans (h _ _ _ _ _ he) (km_evalLets h es _ (s2.set d v) _ _ h1)
    · rename_i r2 s2 _ he
      cases h1
      exact h _ _ _ _ _ he
    · cases h1

theorem km_fills {ev : Lam → Ev} (h : ∀ e, KM (ev e)) : ∀ es d, KMs (fills ev d es)
  | [], d, s, r, s1, h1 => by cases h1; exact Nat.le_refl _
  | e :: es, d, s, r, s1, h1 => by
    rw [fills.eq_def] at h1
    split at h1
    · cases h1; exact Nat.le_refl _
    · rename_i lbl fre es2 heq
      cases heq
      split at h1
      · rename_i vs s2 hes
        have h2 := km_evalLR h _ _ _ _ hes
        split at h1
        · have h3 := km_fills h _ _ _ _ _ h1
          exact Nat.le_trans h2 h3
        · cases h1
      · exact km_evalLR h _ _ _ _ h1
    · cases h1

theorem km_dummies (al : Nat → Nat) : ∀ (es : List Lam) d s, s.k ≤ (dummies al d es s).k
  | [], _, _ => Nat.le_refl _
  | _ :: es, d, s => by
    simp only [dummies]
    exact Nat.le_trans (Nat.le_succ _)
      (km_dummies al es (d + 1) ((s.alloc al (.clos 0 [])).set d (.addr (al s.k))))

theorem km_primSem (al : Nat → Nat) (p : Prim) (vs : List Val) : KM (primSem al p vs) := by
  intro s r s1 h
  rw [primSem.eq_def] at h
  split at h
  · cases h; exact Nat.le_succ _
  · cases h; exact Nat.le_succ _
  · split at h
    · simp only [Option.map_eq_some_iff] at h
      obtain ⟨_, _, h⟩ := h
      cases h; exact Nat.le_refl _
    · cases h
  · split at h
    · simp only [Option.map_eq_some_iff] at h
      obtain ⟨_, _, h⟩ := h
      cases h; exact Nat.le_refl _
    · cases h
  · cases h; exact Nat.le_refl _
  · cases h; exact Nat.le_refl _
  · cases h; exact Nat.le_refl _
  · cases h

theorem km_orFail {f : Lam → Ev} (h : ∀ e, KM (f e)) : ∀ o, KM (orFail f o)
  | some e => fun s r s1 h1 => h e s r s1 h1
  | none => fun s r s1 h1 => by cases h1; exact Nat.le_refl _

theorem km_eval (F : Nat → Option Fn) (al : Nat → Nat) : ∀ n N d e, KM (eval F al n N d e)
  | 0, N, d, e => fun s r s1 h => by cases h
  | n + 1, N, d, e => by
    have ih := km_eval F al n
    intro s r s1 h
    cases e <;> simp only [eval] at h
    case var x =>
      simp only [Option.map_eq_some_iff] at h
      obtain ⟨_, _, h⟩ := h
      cases h; exact Nat.le_refl _
    case assign x a =>
      refine KM.andThen (ih N d a) (fun v => ?_) s r s1 h
      intro s r s1 h; cases h; exact Nat.le_refl _
    case const => cases h; exact Nat.le_refl _
    case apply f args =>
      refine KMs.andThens (km_evalRL (ih N d) args) (fun vs => ?_) s r s1 h
      refine KM.andThen (ih N d f) (fun g => ?_)
      intro s r s1 h
      dsimp only at h
      split at h
      · split at h
        · split at h
          · split_ifs at h
            split at h
            · rename_i he
              cases h
              have h2 := ih _ _ _ _ _ _ he
              exact h2
            · cases h
          · cases h
        · cases h
      · cases h
    case lett args b =>
      exact KMs.andThens (km_evalLets (ih N) args d) (fun vs => ih _ _ _) s r s1 h
    case letrec args b =>
      refine Nat.le_trans (km_dummies al args d s) ?_
      exact KMs.andThens (km_fills (ih N _) args d) (fun vs => ih _ _ _) _ r s1 h
    case prim p args =>
      exact KMs.andThens (km_evalLR (ih N d) args) (fun vs => km_primSem al p vs) s r s1 h
    case statichandle a b =>
      split at h
      · rename_i s2 he
        exact Nat.le_trans (ih _ _ _ _ _ _ he) (ih _ _ _ _ _ _ h)
      · exact ih _ _ _ _ _ _ h
    case staticfail => cases h; exact Nat.le_refl _
    case handle a b =>
      split at h
      · rename_i v s2 he
        exact Nat.le_trans (ih _ _ _ _ _ _ he) (ih _ _ _ (s2.set d v) _ _ h)
      · exact ih _ _ _ _ _ _ h
    case cond c a b =>
      refine KM.andThen (ih N d c) (fun v => ?_) s r s1 h
      intro s r s1 h
      dsimp only at h
      split at h
      · exact ih _ _ _ _ _ _ h
      · exact ih _ _ _ _ _ _ h
      · cases h
    case seq a b => exact KM.andThen (ih N d a) (fun v => ih N d b) s r s1 h
    case «while» c b =>
      refine KM.andThen (ih N d c) (fun v => ?_) s r s1 h
      intro s r s1 h
      dsimp only at h
      split at h
      · exact KM.andThen (ih N d b) (fun v => ih N d _) s r s1 h
      · cases h; exact Nat.le_refl _
      · cases h
    case andalso a b =>
      refine KM.andThen (ih N d a) (fun v => ?_) s r s1 h
      intro s r s1 h
      dsimp only at h
      split at h
      · exact ih _ _ _ _ _ _ h
      · cases h; exact Nat.le_refl _
      · cases h
    case orelse a b =>
      refine KM.andThen (ih N d a) (fun v => ?_) s r s1 h
      intro s r s1 h
      dsimp only at h
      split at h
      · cases h; exact Nat.le_refl _
      · exact ih _ _ _ _ _ _ h
      · cases h
    case case a ks acts =>
      refine KM.andThen (ih N d a) (fun v => ?_) s r s1 h
      intro s r s1 h
      dsimp only at h
      split at h
      · exact km_orFail (ih N d) _ _ _ _ h
      · cases h
    case switch a ks acts =>
      refine KM.andThen (ih N d a) (fun v => ?_) s r s1 h
      intro s r s1 h
      dsimp only at h
      split at h
      · exact km_orFail (ih N d) _ _ _ _ h
      · cases h
    case unspec => cases h
    case shared j => exact ih _ _ _ _ _ _ h

end Mosml.Unref
