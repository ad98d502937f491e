import Verif.Zam.Rel
import Mathlib.Data.List.Forall2

/-!
# Values, heaps and frames
-/

namespace Mosml.Zam

/-- `W` tells which function each address of the heap stands for. -/
inductive VRel (W : List Val) : Val → MVal → Prop
  | int {z} : VRel W (.int z) (.int z)
  | str {s} : VRel W (.str s) (.str s)
  | block {t vs ms} : vs.length = ms.length →
      (∀ (i : Nat) v m, vs[i]? = some v → ms[i]? = some m → VRel W v m) →
      VRel W (.block t vs) (.block t ms)
  | clos {env b a} : W[a]? = some (.clos env b) → VRel W (.clos env b) (.addr a)
  | rc {fs i env a} : W[a]? = some (.rc fs i env) → VRel W (.rc fs i env) (.addr a)

abbrev VRels (W : List Val) : List Val → List MVal → Prop := List.Forall₂ (VRel W)

theorem getElem?_prefix {α} {W W' : List α} (h : W <+: W') {a : Nat} {v : α} (hv : W[a]? = some v) :
    W'[a]? = some v := by
  obtain ⟨Y, rfl⟩ := h
  have ha : a < W.length := by
    by_contra hh
    rw [List.getElem?_eq_none (by omega)] at hv
    cases hv
  rw [List.getElem?_append_left ha]
  exact hv

theorem VRel.mono {W W' v m} (hW : W <+: W') (h : VRel W v m) : VRel W' v m := by
  induction h with
  | int => exact .int
  | str => exact .str
  | block h1 _ ih => exact .block h1 ih
  | clos h1 => exact .clos (getElem?_prefix hW h1)
  | rc h1 => exact .rc (getElem?_prefix hW h1)

theorem VRels.mono {W W' vs ms} (hW : W <+: W') (h : VRels W vs ms) : VRels W' vs ms :=
  h.imp (fun _ _ => VRel.mono hW)

theorem vrel_block {W t vs ms} (h : VRels W vs ms) : VRel W (.block t vs) (.block t ms) := by
  refine .block h.length_eq ?_
  intro i v m hv hm
  have := List.Forall₂.get h (i := i) (by
      by_contra hh; rw [List.getElem?_eq_none (by omega)] at hv; cases hv) (by
      by_contra hh; rw [List.getElem?_eq_none (by omega)] at hm; cases hm)
  rw [List.getElem?_eq_some_iff] at hv hm
  obtain ⟨_, rfl⟩ := hv
  obtain ⟨_, rfl⟩ := hm
  simpa using this

theorem vrel_bool (W b) : VRel W (vbool b) (mbool b) := by
  unfold vbool mbool
  exact vrel_block .nil

theorem vrel_unit (W) : VRel W vunit munit := vrel_block .nil

theorem vrel_overflow (W) : VRel W voverflow moverflow := by
  exact vrel_block (.cons .str (.cons (vrel_unit W) .nil))

mutual
theorem vrel_const (W) : ∀ c : Const, VRel W c.toV c.toM
  | .int z => .int
  | .str s => .str
  | .block t l => by
    rw [Const.toV, Const.toM]
    exact vrel_block (vrel_consts W l)
theorem vrel_consts (W) : ∀ cs : List Const, VRels W (Const.toVs cs) (Const.toMs cs)
  | [] => by rw [Const.toVs, Const.toMs]; exact .nil
  | c :: cs => by rw [Const.toVs, Const.toMs]; exact .cons (vrel_const W c) (vrel_consts W cs)
end

theorem VRel.agrees {W v m} (h : VRel W v m) : Agrees v m := by
  induction h with
  | int => exact .int
  | str => exact .str
  | @block t vs ms h1 _ ih =>
    refine .block ?_
    rw [List.forall₂_iff_get]
    refine ⟨h1, ?_⟩
    intro i hi hi'
    exact ih i _ _ (by simp [hi]) (by simp [hi'])
  | clos _ => exact .clos
  | rc _ => exact .rc

theorem vrel_truth {W v m b} (h : VRel W v m) (ht : truth v = some b) :
    ∃ t, tagOf m = some t ∧ (t != 0) = b := by
  cases h with
  | block h1 h2 =>
    simp only [truth, Option.some.injEq] at ht
    exact ⟨_, rfl, ht⟩
  | _ => cases ht

theorem vrel_closure {W v m p} (h : VRel W v m) (ha : asClos v = some p) :
    ∃ a, m = .addr a ∧ W[a]? = some v := by
  cases h with
  | int => cases ha
  | str => cases ha
  | block => cases ha
  | clos h => exact ⟨_, rfl, h⟩
  | rc h => exact ⟨_, rfl, h⟩

/-- `o` is the closure of the lifted function `f`, for the body `b` in `env`. -/
structure FunObj (L : Nat → Option Code) (T : List Func) (W : List Val) (f : Func)
    (env : List Val) (b : Lam) (o : Obj) : Prop where
  mem : f ∈ T
  code : L f.lbl = some o.code
  nargs : f.nargs = nest b + 1
  lifts : Lifts T env.length f.fv f.nargs false (strip b) f.body
  neg : ∀ id ∈ f.fv, id < 0
  fields : ∀ (j : Nat) id, f.fv[j]? = some id →
    ∃ v x, env[(-1 - id).toNat]? = some v ∧ o.fields[j]? = some x ∧ VRel W v x

/-- `o` is the closure made of `fo`, the closure of `f`, and the arguments
`args`. -/
structure PapObj (L : Nat → Option Code) (T : List Func) (W : List Val) (h : List Obj)
    (f : Func) (env : List Val) (b b' : Lam) (fa : Nat) (fo : Obj) (args : List Val)
    (ms : List MVal) (o : Obj) : Prop where
  fn : FunObj L T W f env b fo
  heap : h[fa]? = some fo
  many : 1 < f.nargs
  code : o.code = .restart :: fo.code
  fields : o.fields = .addr fa :: ms
  rel : VRels W args ms
  nest : nest b' + 1 + args.length = f.nargs
  strip : strip b' = strip b
  some : 0 < args.length

def ObjOk (L : Nat → Option Code) (T : List Func) (W : List Val) (h : List Obj) (v : Val) (o : Obj) :
    Prop :=
  (∃ f env b, asClos v = some (env, b) ∧ FunObj L T W f env b o) ∨
  (∃ f env b b' fa fo args ms, v = .clos (args.reverse ++ env) b' ∧
    PapObj L T W h f env b b' fa fo args ms o)

theorem FunObj.mono {L T W W' f env b o} (hW : W <+: W') (h : FunObj L T W f env b o) :
    FunObj L T W' f env b o :=
  { h with
    fields := fun j id hj => by
      obtain ⟨v, x, h1, h2, h3⟩ := h.fields j id hj
      exact ⟨v, x, h1, h2, h3.mono hW⟩ }

theorem ObjOk.mono {L T W W' h h' v o} (hW : W <+: W') (hh : h <+: h') (ho : ObjOk L T W h v o) :
    ObjOk L T W' h' v o := by
  rcases ho with ⟨f, env, b, h1, h2⟩ | ⟨f, env, b, b', fa, fo, args, ms, h1, h2⟩
  · exact .inl ⟨f, env, b, h1, h2.mono hW⟩
  · exact .inr ⟨f, env, b, b', fa, fo, args, ms, h1,
      { h2 with fn := h2.fn.mono hW, heap := getElem?_prefix hh h2.heap, rel := h2.rel.mono hW }⟩

structure HOk (L : Nat → Option Code) (T : List Func) (W : List Val) (h : List Obj) : Prop where
  len : W.length = h.length
  obj : ∀ (a : Nat) v o, W[a]? = some v → h[a]? = some o → ObjOk L T W h v o

theorem HOk.get {L T W h} {a : Nat} {v} (hO : HOk L T W h) (hv : W[a]? = some v) :
    ∃ o, h[a]? = some o ∧ ObjOk L T W h v o := by
  have ha : a < h.length := by
    rw [← hO.len]
    by_contra hh
    rw [List.getElem?_eq_none (by omega)] at hv
    cases hv
  exact ⟨h[a], by simp [ha], hO.obj a v _ hv (by simp [ha])⟩

theorem HOk.snoc {L T W h v o} (hO : HOk L T W h) (ho : ObjOk L T (W ++ [v]) (h ++ [o]) v o) :
    HOk L T (W ++ [v]) (h ++ [o]) := by
  refine ⟨by simp [hO.len], ?_⟩
  intro a v' o' hv ho'
  rcases Nat.lt_or_ge a W.length with ha | ha
  · rw [List.getElem?_append_left ha] at hv
    rw [List.getElem?_append_left (by rw [← hO.len]; exact ha)] at ho'
    exact (hO.obj a v' o' hv ho').mono (List.prefix_append _ _) (List.prefix_append _ _)
  · rw [List.getElem?_append_right ha] at hv
    rw [List.getElem?_append_right (by rw [← hO.len]; exact ha)] at ho'
    rw [← hO.len] at ho'
    cases hh : a - W.length with
    | zero =>
      rw [hh] at hv ho'
      cases hv; cases ho'
      exact ho
    | succ i => rw [hh] at hv; cases hv

/-! ## Frames -/

/-- What stays the same while an expression is evaluated: where static failure
goes and whether it may happen, the size and the content of the stack, the
environment, the number of extra arguments and the trap. -/
structure Fr where
  sfb : Bool
  sf : Sf
  sz : Nat
  env : MVal
  S : List Slot
  extra : Nat
  trap : Nat

def Fr.push (F : Fr) (X : List Slot) : Fr :=
  { F with sz := F.sz + X.length, S := X ++ F.S }

abbrev Fr.st (F : Fr) (C : Code) (acc : MVal) (h : List Obj) : State :=
  ⟨C, acc, F.env, F.S, F.extra, F.trap, h⟩

theorem Fr.push_nil (F : Fr) : F.push [] = F := rfl

theorem Fr.push_push (F : Fr) (X Y : List Slot) : (F.push X).push Y = F.push (Y ++ X) := by
  unfold Fr.push
  simp only [Fr.mk.injEq, List.length_append, List.append_assoc, true_and, and_true]
  omega

/-- The variables in scope are where the code generator thinks they are. -/
structure EnvRel (W : List Val) (h : List Obj) (ce : CEnv) (d : Nat) (ρ : List Val) (F : Fr) :
    Prop where
  loc : ∀ (i : Nat) v, i < d → ρ[i]? = some v →
    ∃ z x, ce.va (d - 1 - i) = some z ∧ 1 ≤ z ∧ z ≤ F.sz ∧ F.S[F.sz - z]? = some (.v x) ∧ VRel W v x
  cap : ∀ id : Int, id < 0 → id ∈ ce.fv →
    ∃ j v x a o, findFv id 0 ce.fv = .envacc j ∧ F.env = .addr a ∧ h[a]? = some o ∧
      o.fields[j]? = some x ∧ ρ[((d : Int) - 1 - id).toNat]? = some v ∧ VRel W v x

theorem EnvRel.mono {W W' h h' ce d ρ F} (hW : W <+: W') (hh : h <+: h')
    (hE : EnvRel W h ce d ρ F) : EnvRel W' h' ce d ρ F := by
  constructor
  · intro i v hi hv
    obtain ⟨z, x, h1, h2, h3, h4, h5⟩ := hE.loc i v hi hv
    exact ⟨z, x, h1, h2, h3, h4, h5.mono hW⟩
  · intro id hid hm
    obtain ⟨j, v, x, a, o, h1, h2, h3, h4, h5, h6⟩ := hE.cap id hid hm
    exact ⟨j, v, x, a, o, h1, h2, getElem?_prefix hh h3, h4, h5, h6.mono hW⟩

theorem EnvRel.push {W h ce d ρ F} (hE : EnvRel W h ce d ρ F) (X : List Slot) :
    EnvRel W h ce d ρ (F.push X) := by
  constructor
  · intro i v hi hv
    obtain ⟨z, x, h1, h2, h3, h4, h5⟩ := hE.loc i v hi hv
    refine ⟨z, x, h1, h2, ?_, ?_, h5⟩
    · simp only [Fr.push]; omega
    · simp only [Fr.push]
      rw [List.getElem?_append_right (by omega)]
      rw [show F.sz + X.length - z - X.length = F.sz - z by omega]
      exact h4
  · exact hE.cap

theorem EnvRel.bind {W h ce d ρ F v x} (hE : EnvRel W h ce d ρ F) (hv : VRel W v x) :
    EnvRel W h (bind ce d (F.sz + 1)) (d + 1) (v :: ρ) (F.push [.v x]) := by
  constructor
  · intro i w hi hw
    cases i with
    | zero =>
      cases hw
      refine ⟨F.sz + 1, x, ?_, by omega, by simp [Fr.push], by simp [Fr.push], hv⟩
      simp [Zam.bind]
    | succ i =>
      simp only [List.getElem?_cons_succ] at hw
      obtain ⟨z, y, h1, h2, h3, h4, h5⟩ := hE.loc i w (by omega) hw
      refine ⟨z, y, ?_, h2, ?_, ?_, h5⟩
      · simp only [Zam.bind]
        rw [if_neg (by omega), show d + 1 - 1 - (i + 1) = d - 1 - i by omega]
        exact h1
      · simp only [Fr.push]; omega
      · simp only [Fr.push, List.length_singleton]
        rw [show F.sz + 1 - z = (F.sz - z) + 1 by omega]
        exact h4
  · intro id hid hm
    obtain ⟨j, w, y, a, o, h1, h2, h3, h4, h5, h6⟩ := hE.cap id hid hm
    refine ⟨j, w, y, a, o, h1, h2, h3, h4, ?_, h6⟩
    rw [show (((d + 1 : Nat) : Int) - 1 - id).toNat = ((d : Int) - 1 - id).toNat + 1 by omega]
    exact h5

theorem bindMany_fv (ce d sz n) : (bindMany ce d sz n).fv = ce.fv := by
  induction n generalizing ce d sz with
  | zero => rfl
  | succ n ih => rw [bindMany, ih]; rfl

theorem EnvRel.bindMany {W h vs xs} (hv : VRels W vs xs) : ∀ {ce d ρ F}, EnvRel W h ce d ρ F →
    EnvRel W h (bindMany ce d F.sz vs.length) (d + vs.length) (vs.reverse ++ ρ)
      (F.push (xs.reverse.map .v)) := by
  induction hv with
  | nil => intro ce d ρ F hE; exact hE
  | @cons v x vs xs h1 h2 ih =>
    intro ce d ρ F hE
    have := ih (hE.bind h1)
    rw [Fr.push_push] at this
    simp only [List.reverse_cons, List.map_append, List.map_cons, List.map_nil, List.append_assoc,
      List.singleton_append, List.length_cons]
    rw [show d + (vs.length + 1) = d + 1 + vs.length by omega]
    exact this

/-! ## Reading variables -/

/-- The code for the variable `id` loads `x`. -/
def Reads (ce : CEnv) (F : Fr) (h : List Obj) (id : Int) (x : MVal) : Prop :=
  ∀ L X C acc, step L ((F.push X).st (findEnv ce (F.sz + X.length) id :: C) acc h) =
    .next ((F.push X).st C x h)

theorem EnvRel.reads {W h ce} {d : Nat} {ρ F} {id : Int} {v} (hE : EnvRel W h ce d ρ F) (hlt : id < d)
    (hv : ρ[((d : Int) - 1 - id).toNat]? = some v) (hm : id < 0 → id ∈ ce.fv) :
    ∃ x, VRel W v x ∧ Reads ce F h id x := by
  rcases lt_or_ge id 0 with hid | hid
  · obtain ⟨j, w, x, a, o, h1, h2, h3, h4, h5, h6⟩ := hE.cap id hid (hm hid)
    rw [h5] at hv
    cases hv
    refine ⟨x, h6, ?_⟩
    intro L X C acc
    simp only [findEnv, if_pos hid, h1, step, Fr.push, h2, h3, h4]
  · obtain ⟨i, hi⟩ : ∃ i : Nat, i = (((d : Int) - 1 - id).toNat) := ⟨_, rfl⟩
    rw [← hi] at hv
    obtain ⟨z, x, h1, h2, h3, h4, h5⟩ := hE.loc i v (by omega) hv
    refine ⟨x, h5, ?_⟩
    intro L X C acc
    have e1 : id.toNat = d - 1 - i := by omega
    simp only [findEnv, if_neg (by omega : ¬ id < 0), e1, h1, step, Fr.push]
    rw [List.getElem?_append_right (by omega), show F.sz + X.length - z - X.length = F.sz - z by omega,
      h4]

theorem halts_loads {L ce F h} {ids : List Int} {xs : List MVal}
    (hr : List.Forall₂ (Reads ce F h) ids xs) : ∀ {x0 xt C fin acc sf dp k sz}, xs = x0 :: xt →
    sz = F.sz + ids.length - 1 →
    Halts L ((F.push (xt.map .v)).st C x0 h) fin →
    Halts L (F.st (compRL ce sf sz dp (ids.map .var) C k).1 acc h) fin := by
  induction hr with
  | nil => intro x0 xt C fin acc sf dp k sz hx; cases hx
  | @cons id x ids xs h1 h2 ih =>
    intro x0 xt C fin acc sf dp k sz hx hsz hh
    cases hx
    cases ids with
    | nil =>
      cases h2
      simp only [List.map_cons, List.map_nil, compRL, compexp]
      have := h1 L [] C acc
      simp only [List.length_singleton, Nat.add_sub_cancel] at hsz
      subst hsz
      exact .next this hh
    | cons id2 ids =>
      cases h2 with
      | @cons _ x2 _ xs2 h3 h4 =>
      simp only [List.map_cons]
      rw [compRL.eq_3 _ _ _ _ _ _ _ _ (by simp)]
      simp only [List.map_cons] at ih
      simp only [compexp]
      refine ih rfl ?_ ?_
      · simp only [List.length_cons] at hsz ⊢; omega
      · refine .next (t := (F.push ((x2 :: xs2).map .v)).st _ _ h) ?_
          (.next (h1 L ((x2 :: xs2).map .v) C x2) hh)
        simp only [step, Fr.push, List.map_cons, List.cons_append, List.length_cons]
        have : sz = F.sz + ((xs2.map Slot.v).length + 1) := by
          have := h4.length_eq
          simp only [List.length_cons, List.length_map] at hsz ⊢
          omega
        rw [this]

theorem takeVals_append (xs : List MVal) (S : List Slot) :
    takeVals xs.length (xs.map .v ++ S) = some xs := by
  induction xs with
  | nil => rfl
  | cons x xs ih => simp [takeVals, ih]

/-- Building a closure. -/
theorem halts_closure {L ce F h ids xs lbl c} (hr : List.Forall₂ (Reads ce F h) ids xs)
    (hl : L lbl = some c) {C fin acc sf dp k sz} (hsz : sz = F.sz + ids.length - 1)
    (hh : Halts L (F.st C (.addr h.length) (h ++ [⟨c, xs⟩])) fin) :
    Halts L (F.st (compRL ce sf sz dp (ids.map .var) (.closure lbl ids.length :: C) k).1 acc h) fin := by
  cases hr with
  | nil =>
    simp only [List.map_nil, compRL, List.length_nil]
    refine .next (t := F.st C (.addr h.length) (h ++ [⟨c, []⟩])) ?_ hh
    simp [step, hl, takeVals]
  | @cons id x ids xs h1 h2 =>
    refine halts_loads (.cons h1 h2) rfl hsz (.next ?_ hh)
    have e1 : takeVals (ids.length + 1) (.v x :: (xs.map Slot.v ++ F.S)) = some (x :: xs) := by
      have := takeVals_append (x :: xs) F.S
      rwa [List.length_cons, ← h2.length_eq] at this
    simp only [step, hl, Fr.push, List.length_cons]
    rw [if_pos (by omega), e1]
    simp only [List.drop_succ_cons]
    rw [List.drop_left' (by simp [h2.length_eq])]

/-- Building a closure that has itself as its first field. -/
theorem halts_closurerec {L ce F h ids xs lbl c} (hr : List.Forall₂ (Reads ce F h) ids xs)
    (hl : L lbl = some c) {C fin acc sf dp k sz} (hsz : sz = F.sz + ids.length - 1)
    (hh : Halts L (F.st C (.addr h.length) (h ++ [⟨c, .addr h.length :: xs⟩])) fin) :
    Halts L (F.st (compRL ce sf sz dp (ids.map .var) (.closurerec lbl (ids.length + 1) :: C) k).1
      acc h) fin := by
  cases hr with
  | nil =>
    simp only [List.map_nil, compRL, List.length_nil]
    refine .next (t := F.st C (.addr h.length) (h ++ [⟨c, [.addr h.length]⟩])) ?_ hh
    simp [step, hl, takeVals]
  | @cons id x ids xs h1 h2 =>
    refine halts_loads (.cons h1 h2) rfl hsz (.next ?_ hh)
    have e1 : takeVals (ids.length + 1) (.v x :: (xs.map Slot.v ++ F.S)) = some (x :: xs) := by
      have := takeVals_append (x :: xs) F.S
      rwa [List.length_cons, ← h2.length_eq] at this
    simp only [step, hl, Fr.push, List.length_cons, Nat.add_sub_cancel]
    rw [if_pos (by omega), e1]
    simp only [List.drop_succ_cons]
    rw [List.drop_left' (by simp [h2.length_eq])]

end Mosml.Zam
