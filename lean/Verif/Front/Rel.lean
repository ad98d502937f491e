import Verif.Front.Conv

/-! Facts about related values, environments and states, and about sorting fields. -/

namespace Mosml.Front

/-! ## Constants, conditions, primitives -/

mutual
theorem Const.rel : ∀ c : Const, VRel c.toS c.toL
  | .int _ => by rw [Const.toS, Const.toL]; exact .int
  | .str _ => by rw [Const.toS, Const.toL]; exact .str
  | .block _ cs => by rw [Const.toS, Const.toL]; exact .block (Const.rels cs)
theorem Const.rels : ∀ cs : List Const, List.Forall₂ VRel (Const.toSs cs) (Const.toLs cs)
  | [] => by rw [Const.toSs, Const.toLs]; exact .nil
  | c :: cs => by rw [Const.toSs, Const.toLs]; exact .cons c.rel (Const.rels cs)
end

theorem VRel.truth {v w} (h : VRel v w) : struth v = ltruth w := by
  cases h with
  | @block t vs ws h => cases h <;> rcases t with _ | t <;> rfl
  | _ => rfl

theorem VRel.unit : VRel sDom.unit lDom.unit := .block .nil

theorem VRel.bool (b : Bool) : VRel (sDom.bool b) (lDom.bool b) := .block .nil

theorem VRel.overflow : VRel sDom.overflow lDom.overflow :=
  .block (.cons .str (.cons .unit .nil))

theorem VRel.getInt {v w} (h : VRel v w) : sDom.getInt v = lDom.getInt w := by
  cases h <;> rfl

theorem VRel.getStr {v w} (h : VRel v w) : sDom.getStr v = lDom.getStr w := by
  cases h <;> rfl

theorem VRel.getLoc {v w} (h : VRel v w) : sDom.getLoc v = lDom.getLoc w := by
  cases h <;> rfl

theorem forall₂_set {vs ws} (h : List.Forall₂ VRel vs ws) {v w} (hv : VRel v w) (i : Nat) :
    List.Forall₂ VRel (vs.set i v) (ws.set i w) := by
  induction h generalizing i with
  | nil => exact .nil
  | cons h t ih =>
    cases i with
    | zero => exact .cons hv t
    | succ i => exact .cons h (ih i)

theorem forall₂_get {vs ws} (h : List.Forall₂ VRel vs ws) {i : Nat} {v} (hv : vs[i]? = some v) :
    ∃ w, ws[i]? = some w ∧ VRel v w := by
  induction h generalizing i with
  | nil => simp at hv
  | cons h t ih =>
    cases i with
    | zero => simp at hv; subst hv; exact ⟨_, by simp, h⟩
    | succ i => simp at hv; obtain ⟨w, hw, r⟩ := ih hv; exact ⟨w, by simpa using hw, r⟩

theorem forall₂_append {α β : Type} {R : α → β → Prop} {a b c d} (h : List.Forall₂ R a b)
    (h' : List.Forall₂ R c d) : List.Forall₂ R (a ++ c) (b ++ d) := by
  induction h with
  | nil => exact h'
  | cons h _ ih => exact .cons h ih

theorem sem1_rel {k v w st lst r st'} (h : sem1 sDom k v st = some (r, st')) (hv : VRel v w)
    (hs : StRel st lst) :
    ∃ r' lst', sem1 lDom k w lst = some (r', lst') ∧ RRel r r' ∧ StRel st' lst' := by
  cases k with
  | ref =>
    simp [sem1] at h
    obtain ⟨rfl, rfl⟩ := h
    refine ⟨_, _, rfl, ?_, ⟨forall₂_append hs.cells (.cons hv .nil), hs.out⟩⟩
    rw [hs.cells.length_eq]
    exact .val .loc
  | deref =>
    simp only [sem1] at h ⊢
    rw [← hv.getLoc]
    split at h
    · simp at h
      obtain ⟨u, hu, rfl, rfl⟩ := h
      obtain ⟨x, hx, rx⟩ := forall₂_get hs.cells hu
      exact ⟨_, _, by simp [hx], .val rx, hs⟩
    · simp at h
  | print =>
    simp only [sem1] at h ⊢
    rw [← hv.getStr]
    split at h
    · simp at h
      obtain ⟨rfl, rfl⟩ := h
      exact ⟨_, _, rfl, .val .unit, ⟨hs.cells, by simp [hs.out]⟩⟩
    · simp at h

theorem sem2_rel {k v w x y st lst r st'} (h : sem2 sDom k v x st = some (r, st')) (hv : VRel v w)
    (hx : VRel x y) (hs : StRel st lst) :
    ∃ r' lst', sem2 lDom k w y lst = some (r', lst') ∧ RRel r r' ∧ StRel st' lst' := by
  cases k with
  | add =>
    simp only [sem2] at h ⊢
    rw [← hv.getInt, ← hx.getInt]
    split at h
    · simp only [Option.some.injEq, Prod.mk.injEq] at h
      obtain ⟨rfl, rfl⟩ := h
      refine ⟨_, _, rfl, ?_, hs⟩
      split
      · exact .val .int
      · exact .exn .overflow
    · simp at h
  | eq =>
    simp only [sem2] at h ⊢
    rw [← hv.getInt, ← hx.getInt]
    split at h
    · simp only [Option.some.injEq, Prod.mk.injEq] at h
      obtain ⟨rfl, rfl⟩ := h
      exact ⟨_, _, rfl, .val (.bool _), hs⟩
    · simp at h
  | assign =>
    simp only [sem2] at h ⊢
    rw [← hv.getLoc, ← hs.cells.length_eq]
    split at h
    · rename_i l _
      by_cases hl : l < st.cells.length
      · rw [if_pos hl] at h
        simp only [Option.some.injEq, Prod.mk.injEq] at h
        obtain ⟨rfl, rfl⟩ := h
        exact ⟨_, ⟨lst.cells.set l y, lst.out⟩, by simp only [hl, if_true], .val .unit,
          ⟨forall₂_set hs.cells hx _, hs.out⟩⟩
      · rw [if_neg hl] at h
        simp at h
    · simp at h

/-! ## Environments -/

theorem EnvRel.push {ρ rho env} (h : EnvRel ρ rho env) (w : LVal) : EnvRel ρ rho (w :: env) := by
  refine ⟨fun y pos hy => ⟨by have := (h.dom y pos hy).1; simp; omega, (h.dom y pos hy).2⟩, ?_⟩
  intro y pos v u hy hv hu
  have := (h.dom y pos hy).1
  refine h.val y pos v u hy hv ?_
  have e : (w :: env).length - 1 - pos = (env.length - 1 - pos) + 1 := by simp; omega
  rw [e] at hu
  simpa using hu

theorem EnvRel.pushes {ρ rho env} (h : EnvRel ρ rho env) (ws : List LVal) :
    EnvRel ρ rho (ws ++ env) := by
  induction ws with
  | nil => exact h
  | cons w ws ih => exact ih.push w

theorem EnvRel.bind {ρ rho env x v w} (h : EnvRel ρ rho env) (hv : VRel v w) :
    EnvRel ((x, v) :: ρ) ((x, env.length) :: rho) (w :: env) := by
  have h' := h.push w
  refine ⟨fun y pos hy => ?_, fun y pos u z hy hu hz => ?_⟩
  · by_cases e : y = x
    · simp [look, e] at hy ⊢; omega
    · simp only [look, e, if_false] at hy ⊢
      exact h'.dom y pos hy
  · by_cases e : y = x
    · simp only [look, e, if_true, Option.some.injEq] at hy hu
      subst hy; subst hu
      simp at hz
      subst hz
      exact hv
    · simp only [look, e, if_false] at hy hu
      exact h'.val y pos u z hy hu hz

/-- Binding several variables. -/
def bindS (ρ : List (Name × SVal)) : List Name → List SVal → List (Name × SVal)
  | x :: xs, v :: vs => bindS ((x, v) :: ρ) xs vs
  | _, _ => ρ

theorem EnvRel.bindAll {xs : List Name} {vs ws ρ rho env} (h : EnvRel ρ rho env)
    (hv : List.Forall₂ VRel vs ws) (hl : xs.length = vs.length) :
    EnvRel (bindS ρ xs vs) (bindAll rho env.length xs) (ws.reverse ++ env) := by
  induction xs generalizing vs ws ρ rho env with
  | nil =>
    cases vs with
    | nil => cases hv; exact h
    | cons => simp at hl
  | cons x xs ih =>
    cases hv with
    | nil => simp at hl
    | cons hv hvs =>
      rename_i v w vs ws
      have := ih (h.bind (x := x) hv) hvs (by simpa using hl)
      simpa [bindS, Front.bindAll] using this

theorem look_bindAll {rho d xs y} :
    (look (bindAll rho d xs) y).isSome ↔ y ∈ xs ∨ (look rho y).isSome := by
  induction xs generalizing rho d with
  | nil => simp [bindAll]
  | cons x xs ih =>
    rw [bindAll, ih]
    by_cases e : y = x
    · simp [look, e]
    · simp [look, e]

theorem EnvRel.access {ρ rho env x v} (h : EnvRel ρ rho env) (hx : (look rho x).isSome)
    (hv : look ρ x = some v) :
    ∃ w, Quiet env (access rho env.length x) w ∧ VRel v w := by
  obtain ⟨pos, hp⟩ := Option.isSome_iff_exists.1 hx
  have := (h.dom x pos hp).1
  obtain ⟨w, hw⟩ : ∃ w, env[env.length - 1 - pos]? = some w := by
    refine ⟨env[env.length - 1 - pos]'(by omega), ?_⟩
    exact List.getElem?_eq_getElem _
  refine ⟨w, fun st => ?_, h.val x pos v w hp hv hw⟩
  simp only [Front.access, hp]
  exact .var hw

theorem Good.mono {D D' e} (h : Good D e) (hd : ∀ y, D y → D' y) : Good D' e := by
  induction h generalizing D' with
  | const => exact .const
  | var h => exact .var (hd _ h)
  | prim1 => exact .prim1
  | prim2 => exact .prim2
  | con => exact .con
  | fn _ ih => exact .fn (ih fun y => by rintro (h | h | h) <;> simp [h, hd])
  | app _ _ of oa hk i1 i2 => exact .app (i1 hd) (i2 hd) of oa hk
  | tuple _ o ih => exact .tuple (fun e he => ih e he hd) o
  | record _ o hl hn ih => exact .record (fun e he => ih e he hd) o hl hn
  | par _ ih => exact .par (ih hd)
  | lett _ _ i1 i2 => exact .lett (i1 hd) (i2 fun y => by rintro (h | h) <;> simp [h, hd])
  | andalso _ _ i1 i2 => exact .andalso (i1 hd) (i2 hd)
  | orelse _ _ i1 i2 => exact .orelse (i1 hd) (i2 hd)
  | cond _ _ _ i1 i2 i3 => exact .cond (i1 hd) (i2 hd) (i3 hd)
  | seq _ _ i1 i2 => exact .seq (i1 hd) (i2 hd)
  | whil _ _ i1 i2 => exact .whil (i1 hd) (i2 hd)
  | raise _ ih => exact .raise (ih hd)
  | handle _ _ i1 i2 => exact .handle (i1 hd) (i2 fun y => by rintro (h | h) <;> simp [h, hd])

/-- The variables in scope. -/
def Scope (rho : Rho) : Name → Prop := fun y => (look rho y).isSome

theorem Good.bind {rho x e d} (h : Good (fun y => y = x ∨ Scope rho y) e) :
    Good (Scope ((x, d) :: rho)) e :=
  h.mono fun y hy => by
    by_cases e : y = x
    · simp [Scope, look, e]
    · simpa [Scope, look, e] using hy

theorem Good.bindAll {rho x xs e d} (h : Good (fun y => y = x ∨ y ∈ xs ∨ Scope rho y) e) :
    Good (Scope (bindAll rho d (x :: xs))) e :=
  h.mono fun y hy => by
    rw [Scope, look_bindAll]
    simpa [Scope, or_assoc] using hy

/-! ## Sizes and applications -/

theorem esize_pos (e : Exp) : 1 ≤ esize e := by
  cases e <;> simp only [esize] <;> omega

theorem esize_mem {es : List Exp} {e} (h : e ∈ es) : esize e ≤ esizes es := by
  induction es with
  | nil => simp at h
  | cons a es ih =>
    rw [esizes]
    rcases List.mem_cons.1 h with rfl | h
    · omega
    · have := ih h; omega

theorem normApp_size (f : Exp) (args : List Exp) :
    esize (normApp f args).1 ≤ esize f ∧
    ∀ e ∈ (normApp f args).2, e ∈ args ∨ esize e ≤ esize f := by
  fun_induction normApp f args with
  | case1 args e ih =>
    rw [esize]
    exact ⟨by omega, fun e he => (ih.2 e he).imp id (by omega)⟩
  | case2 args e1 e2 ih =>
    rw [esize]
    refine ⟨by omega, fun e he => ?_⟩
    rcases ih.2 e he with h | h
    · rcases List.mem_cons.1 h with rfl | h
      · right; omega
      · exact .inl h
    · right; omega
  | case3 args f _ _ => exact ⟨le_refl _, fun e he => .inl he⟩

theorem normApp_good {D f args} (hf : Good D f) (ha : ∀ e ∈ args, Good D e ∧ argOk e)
    (of : argOk f) :
    Good D (normApp f args).1 ∧ argOk (normApp f args).1 ∧
    ∀ e ∈ (normApp f args).2, Good D e ∧ argOk e := by
  fun_induction normApp f args with
  | case1 args e ih =>
    cases hf with
    | par h =>
      refine ih h ha ?_
      simpa [argOk, isSafe, noWhile] using of
  | case2 args e1 e2 ih =>
    cases hf with
    | app h1 h2 o1 o2 _ =>
      refine ih h1 ?_ o1
      intro e he
      rcases List.mem_cons.1 he with rfl | he
      · exact ⟨h2, o2⟩
      · exact ha e he
  | case3 args f _ _ => exact ⟨hf, of, ha⟩

/-! ## Fields in the order of their labels -/

theorem insertField_perm {α : Type} (f : Nat × α) (l) : (insertField f l).Perm (f :: l) := by
  induction l with
  | nil => exact .refl _
  | cons g l ih =>
    rw [insertField]
    split
    · exact .refl _
    · exact (ih.cons g).trans (.swap f g l)

theorem foldl_insertField_perm {α : Type} (l acc : List (Nat × α)) :
    (l.foldl (fun acc f => insertField f acc) acc).Perm (l ++ acc) := by
  induction l generalizing acc with
  | nil => exact .refl _
  | cons f l ih =>
    refine (ih _).trans ?_
    refine ((insertField_perm f acc).append_left l).trans ?_
    exact List.perm_middle

theorem sortRow_perm {α : Type} (l : List (Nat × α)) : (sortRow l).Perm l := by
  simpa [sortRow] using foldl_insertField_perm l []

theorem insertField_sorted {α : Type} (f : Nat × α) {l : List (Nat × α)}
    (h : l.Pairwise (fun a b => a.1 < b.1)) (hf : ∀ g ∈ l, g.1 ≠ f.1) :
    (insertField f l).Pairwise (fun a b => a.1 < b.1) := by
  induction l with
  | nil => simp [insertField]
  | cons g l ih =>
    rw [List.pairwise_cons] at h
    rw [insertField]
    split
    · rename_i hlt
      rw [List.pairwise_cons, List.pairwise_cons]
      refine ⟨?_, h⟩
      intro x hx
      rcases List.mem_cons.1 hx with rfl | hx
      · exact hlt
      · exact hlt.trans (h.1 x hx)
    · rename_i hlt
      rw [List.pairwise_cons]
      refine ⟨?_, ih h.2 fun x hx => hf x (by simp [hx])⟩
      intro x hx
      have := (insertField_perm f l).mem_iff.1 hx
      rcases List.mem_cons.1 this with rfl | hx
      · have := hf g (by simp); omega
      · exact h.1 x hx

theorem foldl_insertField_sorted {α : Type} (l acc : List (Nat × α))
    (h : acc.Pairwise (fun a b => a.1 < b.1)) (hn : ((l ++ acc).map (·.1)).Nodup) :
    (l.foldl (fun acc f => insertField f acc) acc).Pairwise (fun a b => a.1 < b.1) := by
  induction l generalizing acc with
  | nil => exact h
  | cons f l ih =>
    have hp : (l ++ insertField f acc).Perm (f :: l ++ acc) :=
      ((insertField_perm f acc).append_left l).trans List.perm_middle
    refine ih _ (insertField_sorted f h ?_) ?_
    · intro g hg e
      simp only [List.cons_append, List.map_cons, List.nodup_cons] at hn
      exact hn.1 (List.mem_map.2 ⟨g, by simp [hg], e⟩)
    · exact ((hp.map (·.1)).nodup_iff).2 hn

theorem sortRow_sorted {α : Type} (l : List (Nat × α)) (hn : (l.map (·.1)).Nodup) :
    (sortRow l).Pairwise (fun a b => a.1 < b.1) :=
  foldl_insertField_sorted l [] .nil (by simpa using hn)

theorem sortRow_map {α β : Type} (g : α → β) (l : List (Nat × α)) :
    sortRow (l.map fun x => (x.1, g x.2)) = (sortRow l).map fun x => (x.1, g x.2) := by
  have hi : ∀ (f : Nat × α) l, insertField (f.1, g f.2) (l.map fun x => (x.1, g x.2)) =
      (insertField f l).map fun x => (x.1, g x.2) := by
    intro f l
    induction l with
    | nil => rfl
    | cons a l ih =>
      simp only [List.map_cons, insertField]
      split
      · rfl
      · simp [ih]
  have : ∀ acc, List.foldl (fun acc f => insertField f acc) (acc.map fun x => (x.1, g x.2))
      (l.map fun x => (x.1, g x.2)) =
      (l.foldl (fun acc f => insertField f acc) acc).map fun x => (x.1, g x.2) := by
    induction l with
    | nil => intro acc; rfl
    | cons f l ih =>
      intro acc
      simp only [List.map_cons, List.foldl_cons]
      rw [hi, ih]
  simpa [sortRow] using this []

theorem zip_map_right' {α β : Type} (g : α → β) (labs : List Nat) (l : List α) :
    labs.zip (l.map g) = (labs.zip l).map fun x => (x.1, g x.2) := by
  induction labs generalizing l with
  | nil => simp
  | cons a labs ih =>
    cases l with
    | nil => simp
    | cons b l => simp [ih]

/-- Sorting commutes with changing the contents. -/
theorem sortRow_zip_map {α β : Type} (g : α → β) (labs : List Nat) (l : List α) :
    (sortRow (labs.zip (l.map g))).map (·.2) = ((sortRow (labs.zip l)).map (·.2)).map g := by
  rw [zip_map_right', sortRow_map]
  simp [List.map_map, Function.comp_def]

theorem map_fst_zip' {α : Type} (labs : List Nat) (l : List α) (h : labs.length = l.length) :
    (labs.zip l).map (·.1) = labs := by
  induction labs generalizing l with
  | nil => simp
  | cons a labs ih =>
    cases l with
    | nil => simp at h
    | cons b l => simp [ih l (by simpa using h)]

theorem map_snd_zip' {α : Type} (labs : List Nat) (l : List α) (h : labs.length = l.length) :
    (labs.zip l).map (·.2) = l := by
  induction labs generalizing l with
  | nil => cases l with
    | nil => rfl
    | cons => simp at h
  | cons a labs ih =>
    cases l with
    | nil => simp at h
    | cons b l => simp [ih l (by simpa using h)]

theorem sortRow_eq_byLabel {labs : List Nat} {vs : List SVal} (hl : labs.length = vs.length)
    (hn : labs.Nodup) : (sortRow (labs.zip vs)).map (·.2) = byLabel labs vs := by
  rw [byLabel]
  congr 1
  have hn' : ((labs.zip vs).map (·.1)).Nodup := by rw [map_fst_zip' _ _ hl]; exact hn
  set l := labs.zip vs with hl'
  have hp : (sortRow l).Perm (l.insertionSort fun a b => a.1 ≤ b.1) :=
    (sortRow_perm l).trans (List.perm_insertionSort _ l).symm
  have h1 := sortRow_sorted l hn'
  have h2 : (l.insertionSort fun a b => a.1 ≤ b.1).Pairwise (fun a b => a.1 < b.1) := by
    have hs : (l.insertionSort fun a b => a.1 ≤ b.1).Pairwise (fun a b => a.1 ≤ b.1) := by
      have : Std.Total (fun (a b : Nat × SVal) => a.1 ≤ b.1) := ⟨fun a b => Nat.le_total _ _⟩
      have : IsTrans (Nat × SVal) (fun a b => a.1 ≤ b.1) := ⟨fun a b c => Nat.le_trans⟩
      exact List.pairwise_insertionSort (r := fun (a b : Nat × SVal) => a.1 ≤ b.1) l
    have hn2 : ((l.insertionSort fun a b => a.1 ≤ b.1).map (·.1)).Nodup :=
      (((List.perm_insertionSort _ l).map (·.1)).nodup_iff).2 hn'
    have hn3 : (l.insertionSort fun a b => a.1 ≤ b.1).Pairwise (fun a b => a.1 ≠ b.1) := by
      simpa [List.Nodup, List.pairwise_map] using hn2
    exact (hs.and hn3).imp fun h => lt_of_le_of_ne h.1 h.2
  exact hp.eq_of_pairwise (fun a b _ _ h h' => by omega) h1 h2

theorem forall₂_sortRow {labs : List Nat} {vs : List SVal} {ws : List LVal}
    (h : List.Forall₂ VRel vs ws) :
    List.Forall₂ VRel ((sortRow (labs.zip vs)).map (·.2)) ((sortRow (labs.zip ws)).map (·.2)) := by
  -- sort the list of pairs of related values
  have hp : ∃ ps : List {p : SVal × LVal // VRel p.1 p.2},
      vs = ps.map (·.1.1) ∧ ws = ps.map (·.1.2) := by
    induction h with
    | nil => exact ⟨[], rfl, rfl⟩
    | cons h _ ih =>
      obtain ⟨ps, e1, e2⟩ := ih
      exact ⟨⟨(_, _), h⟩ :: ps, by simp [e1], by simp [e2]⟩
  obtain ⟨ps, rfl, rfl⟩ := hp
  rw [sortRow_zip_map, sortRow_zip_map]
  induction (sortRow (labs.zip ps)).map (·.2) with
  | nil => exact .nil
  | cons p l ih => exact .cons p.2 ih

/-- The list of sorted things is a permutation of the list. -/
theorem sortRow_zip_perm {α : Type} {labs : List Nat} {l : List α} (h : labs.length = l.length) :
    ((sortRow (labs.zip l)).map (·.2)).Perm l := by
  have := (sortRow_perm (labs.zip l)).map (·.2)
  rwa [map_snd_zip' _ _ h] at this

end Mosml.Front
