import Verif.Front.Spec

/-! Rules for results of terms of the intermediate language. -/

namespace Mosml.Front

def ConvLR (env : List LVal) (ls : List Lam) (st : St LVal) (r : Ress LVal) (st' : St LVal) :
    Prop := ∃ m, ∀ k, m ≤ k → evalLR (lev k env) ls st = some (r, st')

def ConvRL (env : List LVal) (ls : List Lam) (st : St LVal) (r : Ress LVal) (st' : St LVal) :
    Prop := ∃ m, ∀ k, m ≤ k → evalRL (lev k env) ls st = some (r, st')

def ConvLets (env : List LVal) (ls : List Lam) (st : St LVal) (r : Ress LVal) (st' : St LVal) :
    Prop := ∃ m, ∀ k, m ≤ k → evalLets (lev k) env ls st = some (r, st')

def ConvApp (f : LVal) (vs : List LVal) (st : St LVal) (r : Res LVal) (st' : St LVal) :
    Prop := ∃ m, ∀ k, m ≤ k → applyL (lev k) f vs st = some (r, st')

variable {env : List LVal} {st st1 st2 st3 : St LVal}

theorem ConvLR.nil : ConvLR env [] st (.vals []) st := ⟨0, fun _ _ => rfl⟩

theorem ConvLR.cons {l ls v vs} (h1 : Conv env l st (.val v) st1)
    (h2 : ConvLR env ls st1 (.vals vs) st2) : ConvLR env (l :: ls) st (.vals (v :: vs)) st2 := by
  obtain ⟨m1, h1⟩ := h1
  obtain ⟨m2, h2⟩ := h2
  refine ⟨m1 + m2, fun k hk => ?_⟩
  simp [evalLR, h1 k (by omega), h2 k (by omega)]

theorem ConvLR.stop {l ls x} (h1 : Conv env l st (.exn x) st1) :
    ConvLR env (l :: ls) st (.stop x) st1 := by
  obtain ⟨m1, h1⟩ := h1
  refine ⟨m1, fun k hk => ?_⟩
  simp [evalLR, h1 k (by omega)]

theorem ConvLR.later {l ls v x} (h1 : Conv env l st (.val v) st1)
    (h2 : ConvLR env ls st1 (.stop x) st2) : ConvLR env (l :: ls) st (.stop x) st2 := by
  obtain ⟨m1, h1⟩ := h1
  obtain ⟨m2, h2⟩ := h2
  refine ⟨m1 + m2, fun k hk => ?_⟩
  simp [evalLR, h1 k (by omega), h2 k (by omega)]

theorem ConvRL.nil : ConvRL env [] st (.vals []) st := ⟨0, fun _ _ => rfl⟩

theorem ConvRL.cons {l ls v vs} (h2 : ConvRL env ls st (.vals vs) st1)
    (h1 : Conv env l st1 (.val v) st2) : ConvRL env (l :: ls) st (.vals (v :: vs)) st2 := by
  obtain ⟨m1, h1⟩ := h1
  obtain ⟨m2, h2⟩ := h2
  refine ⟨m1 + m2, fun k hk => ?_⟩
  simp [evalRL, h1 k (by omega), h2 k (by omega)]

theorem ConvRL.stop {l ls vs x} (h2 : ConvRL env ls st (.vals vs) st1)
    (h1 : Conv env l st1 (.exn x) st2) : ConvRL env (l :: ls) st (.stop x) st2 := by
  obtain ⟨m1, h1⟩ := h1
  obtain ⟨m2, h2⟩ := h2
  refine ⟨m1 + m2, fun k hk => ?_⟩
  simp [evalRL, h1 k (by omega), h2 k (by omega)]

theorem ConvRL.later {l ls x} (h2 : ConvRL env ls st (.stop x) st1) :
    ConvRL env (l :: ls) st (.stop x) st1 := by
  obtain ⟨m2, h2⟩ := h2
  refine ⟨m2, fun k hk => ?_⟩
  simp [evalRL, h2 k (by omega)]

theorem ConvLets.nil : ConvLets env [] st (.vals env) st := ⟨0, fun _ _ => rfl⟩

theorem ConvLets.cons {l ls v r} (h1 : Conv env l st (.val v) st1)
    (h2 : ConvLets (v :: env) ls st1 r st2) : ConvLets env (l :: ls) st r st2 := by
  obtain ⟨m1, h1⟩ := h1
  obtain ⟨m2, h2⟩ := h2
  refine ⟨m1 + m2, fun k hk => ?_⟩
  simp [evalLets, h1 k (by omega), h2 k (by omega)]

theorem ConvLets.stop {l ls x} (h1 : Conv env l st (.exn x) st1) :
    ConvLets env (l :: ls) st (.stop x) st1 := by
  obtain ⟨m1, h1⟩ := h1
  refine ⟨m1, fun k hk => ?_⟩
  simp [evalLets, h1 k (by omega)]

theorem ConvApp.nil {f} : ConvApp f [] st (.val f) st := ⟨0, fun _ _ => rfl⟩

theorem ConvApp.cons {env' b v vs g r} (h1 : Conv (v :: env') b st (.val g) st1)
    (h2 : ConvApp g vs st1 r st2) : ConvApp (.clos env' b) (v :: vs) st r st2 := by
  obtain ⟨m1, h1⟩ := h1
  obtain ⟨m2, h2⟩ := h2
  refine ⟨m1 + m2, fun k hk => ?_⟩
  simp [applyL, h1 k (by omega), h2 k (by omega)]

theorem ConvApp.stop {env' b v vs x} (h1 : Conv (v :: env') b st (.exn x) st1) :
    ConvApp (.clos env' b) (v :: vs) st (.exn x) st1 := by
  obtain ⟨m1, h1⟩ := h1
  refine ⟨m1, fun k hk => ?_⟩
  simp [applyL, h1 k (by omega)]

/-- From a rule at each bound. -/
theorem Conv.intro {l r} (m : Nat) (h : ∀ k, m ≤ k → lev (k + 1) env l st = some (r, st1)) :
    Conv env l st r st1 := by
  refine ⟨m + 1, fun k hk => ?_⟩
  obtain ⟨k', rfl⟩ : ∃ k', k = k' + 1 := ⟨k - 1, by omega⟩
  exact h k' (by omega)

theorem Conv.var {i v} (h : env[i]? = some v) : Conv env (.var i) st (.val v) st :=
  .intro 0 fun k _ => by simp [lev, h]

theorem Conv.const {c} : Conv env (.const c) st (.val c.toL) st :=
  .intro 0 fun k _ => by simp [lev]

theorem Conv.fn {b} : Conv env (.fn b) st (.val (.clos env b)) st :=
  .intro 0 fun k _ => by simp [lev]

theorem Conv.apply {f args vs g r} (h1 : ConvRL env args st (.vals vs) st1)
    (h2 : Conv env f st1 (.val g) st2) (h3 : ConvApp g vs st2 r st3) :
    Conv env (.apply f args) st r st3 := by
  obtain ⟨m1, h1⟩ := h1
  obtain ⟨m2, h2⟩ := h2
  obtain ⟨m3, h3⟩ := h3
  exact .intro (m1 + m2 + m3) fun k hk => by
    simp [lev, h1 k (by omega), h2 k (by omega), h3 k (by omega)]

theorem Conv.apply_stop {f args x} (h1 : ConvRL env args st (.stop x) st1) :
    Conv env (.apply f args) st (.exn x) st1 := by
  obtain ⟨m1, h1⟩ := h1
  exact .intro m1 fun k hk => by simp [lev, h1 k (by omega)]

theorem Conv.apply_fn {f args vs x} (h1 : ConvRL env args st (.vals vs) st1)
    (h2 : Conv env f st1 (.exn x) st2) : Conv env (.apply f args) st (.exn x) st2 := by
  obtain ⟨m1, h1⟩ := h1
  obtain ⟨m2, h2⟩ := h2
  exact .intro (m1 + m2) fun k hk => by simp [lev, h1 k (by omega), h2 k (by omega)]

theorem Conv.lett {args b env' r} (h1 : ConvLets env args st (.vals env') st1)
    (h2 : Conv env' b st1 r st2) : Conv env (.lett args b) st r st2 := by
  obtain ⟨m1, h1⟩ := h1
  obtain ⟨m2, h2⟩ := h2
  exact .intro (m1 + m2) fun k hk => by simp [lev, h1 k (by omega), h2 k (by omega)]

theorem Conv.lett_stop {args b x} (h1 : ConvLets env args st (.stop x) st1) :
    Conv env (.lett args b) st (.exn x) st1 := by
  obtain ⟨m1, h1⟩ := h1
  exact .intro m1 fun k hk => by simp [lev, h1 k (by omega)]

theorem Conv.prim {p args vs r} (h1 : ConvLR env args st (.vals vs) st1)
    (h2 : primSem p vs st1 = some (r, st2)) : Conv env (.prim p args) st r st2 := by
  obtain ⟨m1, h1⟩ := h1
  exact .intro m1 fun k hk => by simp [lev, h1 k (by omega), h2]

theorem Conv.prim_stop {p args x} (h1 : ConvLR env args st (.stop x) st1) :
    Conv env (.prim p args) st (.exn x) st1 := by
  obtain ⟨m1, h1⟩ := h1
  exact .intro m1 fun k hk => by simp [lev, h1 k (by omega)]

theorem Conv.handle {a b v r} (h1 : Conv env a st (.exn v) st1)
    (h2 : Conv (v :: env) b st1 r st2) : Conv env (.handle a b) st r st2 := by
  obtain ⟨m1, h1⟩ := h1
  obtain ⟨m2, h2⟩ := h2
  exact .intro (m1 + m2) fun k hk => by simp [lev, h1 k (by omega), h2 k (by omega)]

theorem Conv.handle_val {a b v} (h1 : Conv env a st (.val v) st1) :
    Conv env (.handle a b) st (.val v) st1 := by
  obtain ⟨m1, h1⟩ := h1
  exact .intro m1 fun k hk => by simp [lev, h1 k (by omega)]

theorem Conv.cond {c a b v r} (h1 : Conv env c st (.val v) st1)
    (h2 : Conv env (if ltruth v then a else b) st1 r st2) : Conv env (.cond c a b) st r st2 := by
  obtain ⟨m1, h1⟩ := h1
  obtain ⟨m2, h2⟩ := h2
  refine .intro (m1 + m2) fun k hk => ?_
  have := h2 k (by omega)
  simp only [lev, h1 k (by omega), thenDo_val]
  split <;> simp_all

theorem Conv.cond_stop {c a b x} (h1 : Conv env c st (.exn x) st1) :
    Conv env (.cond c a b) st (.exn x) st1 := by
  obtain ⟨m1, h1⟩ := h1
  exact .intro m1 fun k hk => by simp [lev, h1 k (by omega)]

theorem Conv.seq {a b v r} (h1 : Conv env a st (.val v) st1)
    (h2 : Conv env b st1 r st2) : Conv env (.seq a b) st r st2 := by
  obtain ⟨m1, h1⟩ := h1
  obtain ⟨m2, h2⟩ := h2
  exact .intro (m1 + m2) fun k hk => by simp [lev, h1 k (by omega), h2 k (by omega)]

theorem Conv.seq_stop {a b x} (h1 : Conv env a st (.exn x) st1) :
    Conv env (.seq a b) st (.exn x) st1 := by
  obtain ⟨m1, h1⟩ := h1
  exact .intro m1 fun k hk => by simp [lev, h1 k (by omega)]

theorem Conv.andalso_true {a b v r} (h1 : Conv env a st (.val v) st1) (hv : ltruth v = true)
    (h2 : Conv env b st1 r st2) : Conv env (.andalso a b) st r st2 := by
  obtain ⟨m1, h1⟩ := h1
  obtain ⟨m2, h2⟩ := h2
  exact .intro (m1 + m2) fun k hk => by simp [lev, h1 k (by omega), h2 k (by omega), hv]

theorem Conv.andalso_false {a b v} (h1 : Conv env a st (.val v) st1) (hv : ltruth v = false) :
    Conv env (.andalso a b) st (.val v) st1 := by
  obtain ⟨m1, h1⟩ := h1
  exact .intro m1 fun k hk => by simp [lev, h1 k (by omega), hv]

theorem Conv.andalso_stop {a b x} (h1 : Conv env a st (.exn x) st1) :
    Conv env (.andalso a b) st (.exn x) st1 := by
  obtain ⟨m1, h1⟩ := h1
  exact .intro m1 fun k hk => by simp [lev, h1 k (by omega)]

theorem Conv.orelse_false {a b v r} (h1 : Conv env a st (.val v) st1) (hv : ltruth v = false)
    (h2 : Conv env b st1 r st2) : Conv env (.orelse a b) st r st2 := by
  obtain ⟨m1, h1⟩ := h1
  obtain ⟨m2, h2⟩ := h2
  exact .intro (m1 + m2) fun k hk => by simp [lev, h1 k (by omega), h2 k (by omega), hv]

theorem Conv.orelse_true {a b v} (h1 : Conv env a st (.val v) st1) (hv : ltruth v = true) :
    Conv env (.orelse a b) st (.val v) st1 := by
  obtain ⟨m1, h1⟩ := h1
  exact .intro m1 fun k hk => by simp [lev, h1 k (by omega), hv]

theorem Conv.orelse_stop {a b x} (h1 : Conv env a st (.exn x) st1) :
    Conv env (.orelse a b) st (.exn x) st1 := by
  obtain ⟨m1, h1⟩ := h1
  exact .intro m1 fun k hk => by simp [lev, h1 k (by omega)]

theorem Conv.whil_end {c a v} (h1 : Conv env c st (.val v) st1) (hv : ltruth v = false) :
    Conv env (.whil c a) st (.val lDom.unit) st1 := by
  obtain ⟨m1, h1⟩ := h1
  exact .intro m1 fun k hk => by simp [lev, h1 k (by omega), hv]

theorem Conv.whil_next {c a v w r} (h1 : Conv env c st (.val v) st1) (hv : ltruth v = true)
    (h2 : Conv env a st1 (.val w) st2) (h3 : Conv env (.whil c a) st2 r st3) :
    Conv env (.whil c a) st r st3 := by
  obtain ⟨m1, h1⟩ := h1
  obtain ⟨m2, h2⟩ := h2
  obtain ⟨m3, h3⟩ := h3
  exact .intro (m1 + m2 + m3) fun k hk => by
    simp [lev, h1 k (by omega), hv, h2 k (by omega), h3 k (by omega)]

theorem Conv.whil_body {c a v x} (h1 : Conv env c st (.val v) st1) (hv : ltruth v = true)
    (h2 : Conv env a st1 (.exn x) st2) : Conv env (.whil c a) st (.exn x) st2 := by
  obtain ⟨m1, h1⟩ := h1
  obtain ⟨m2, h2⟩ := h2
  exact .intro (m1 + m2) fun k hk => by
    simp [lev, h1 k (by omega), hv, h2 k (by omega)]

theorem Conv.whil_stop {c a x} (h1 : Conv env c st (.exn x) st1) :
    Conv env (.whil c a) st (.exn x) st1 := by
  obtain ⟨m1, h1⟩ := h1
  exact .intro m1 fun k hk => by simp [lev, h1 k (by omega)]

/-- A result is unique. -/
theorem Conv.det {l r r'} (h1 : Conv env l st r st1) (h2 : Conv env l st r' st2) :
    r = r' ∧ st1 = st2 := by
  obtain ⟨m1, h1⟩ := h1
  obtain ⟨m2, h2⟩ := h2
  have a := h1 (m1 + m2) (by omega)
  have b := h2 (m1 + m2) (by omega)
  rw [a] at b
  simpa using b

/-! ## Terms without effects -/

/-- A term whose result is `v` in every state, which it does not change. -/
def Quiet (env : List LVal) (l : Lam) (v : LVal) : Prop := ∀ st, Conv env l st (.val v) st

theorem Quiet.lr {ls vs} (h : List.Forall₂ (Quiet env) ls vs) (st) :
    ConvLR env ls st (.vals vs) st := by
  induction h with
  | nil => exact .nil
  | cons h _ ih => exact .cons (h st) ih

theorem Quiet.rl {ls vs} (h : List.Forall₂ (Quiet env) ls vs) (st) :
    ConvRL env ls st (.vals vs) st := by
  induction h with
  | nil => exact .nil
  | cons h _ ih => exact .cons ih (h st)

/-- A list of terms of which at most one, `none`, is not quiet. -/
structure Slots (env : List LVal) (ls : List (Lam × Option LVal)) (l : Lam) : Prop where
  quiet : ∀ x ∈ ls, ∀ v, x.2 = some v → Quiet env x.1 v
  act : ∀ x ∈ ls, x.2 = none → x.1 = l
  one : (ls.filter (fun x => x.2.isNone)).length = 1

/-- A list of quiet terms. -/
theorem Slots.allQuiet {ls : List (Lam × Option LVal)}
    (quiet : ∀ x ∈ ls, ∀ v, x.2 = some v → Quiet env x.1 v)
    (h : (ls.filter (fun x => x.2.isNone)).length = 0) (w : LVal) :
    List.Forall₂ (Quiet env) (ls.map (·.1)) (ls.map fun x => x.2.getD w) := by
  induction ls with
  | nil => simp
  | cons x ls ih =>
    obtain ⟨a, b⟩ := x
    cases b with
    | none => simp at h
    | some b =>
      refine .cons (quiet (a, some b) (by simp) b rfl) (ih (fun y hy => quiet y (by simp [hy])) ?_)
      simpa using h

theorem Slots.tail {x ls l} (h : Slots env (x :: ls) l) {v} (hx : x.2 = some v) :
    Slots env ls l := by
  refine ⟨fun y hy => h.quiet y (by simp [hy]), fun y hy => h.act y (by simp [hy]), ?_⟩
  have := h.one
  simpa [List.filter_cons, hx] using this

theorem Slots.tail_none {x ls l} (h : Slots env (x :: ls) l) (hx : x.2 = none) :
    (ls.filter (fun x => x.2.isNone)).length = 0 := by
  have := h.one
  simpa [List.filter_cons, hx] using this

theorem Slots.perm {ls ls' l} (h : Slots env ls l) (hp : ls'.Perm ls) : Slots env ls' l := by
  refine ⟨fun y hy => h.quiet y (hp.mem_iff.1 hy), fun y hy => h.act y (hp.mem_iff.1 hy), ?_⟩
  rw [← h.one]
  exact (hp.filter _).length_eq

theorem Slots.rl {ls l w} (h : Slots env ls l) (hl : Conv env l st (.val w) st1) :
    ConvRL env (ls.map (·.1)) st (.vals (ls.map fun x => x.2.getD w)) st1 := by
  induction ls with
  | nil => have := h.one; simp at this
  | cons x ls ih =>
    rcases hx : x.2 with _ | v
    · have q := Slots.allQuiet (fun y hy => h.quiet y (by simp [hy])) (h.tail_none hx) w
      have e := h.act x (by simp) hx
      simp only [List.map_cons, e, hx, Option.getD_none]
      exact .cons (Quiet.rl q st) hl
    · simp only [List.map_cons, hx, Option.getD_some]
      exact .cons (ih (h.tail hx)) (h.quiet x (by simp) v hx st1)

theorem Slots.rl_stop {ls l w} (h : Slots env ls l) (hl : Conv env l st (.exn w) st1) :
    ConvRL env (ls.map (·.1)) st (.stop w) st1 := by
  induction ls with
  | nil => have := h.one; simp at this
  | cons x ls ih =>
    rcases hx : x.2 with _ | v
    · have q := Slots.allQuiet (fun y hy => h.quiet y (by simp [hy])) (h.tail_none hx) w
      have e := h.act x (by simp) hx
      simp only [List.map_cons, e]
      exact .stop (Quiet.rl q st) hl
    · simp only [List.map_cons]
      exact .later (ih (h.tail hx))

theorem Slots.lr {ls l w} (h : Slots env ls l) (hl : Conv env l st (.val w) st1) :
    ConvLR env (ls.map (·.1)) st (.vals (ls.map fun x => x.2.getD w)) st1 := by
  induction ls with
  | nil => have := h.one; simp at this
  | cons x ls ih =>
    rcases hx : x.2 with _ | v
    · have q := Slots.allQuiet (fun y hy => h.quiet y (by simp [hy])) (h.tail_none hx) w
      have e := h.act x (by simp) hx
      simp only [List.map_cons, e, hx, Option.getD_none]
      exact .cons hl (Quiet.lr q st1)
    · simp only [List.map_cons, hx, Option.getD_some]
      exact .cons (h.quiet x (by simp) v hx st) (ih (h.tail hx))

theorem Slots.lr_stop {ls l w} (h : Slots env ls l) (hl : Conv env l st (.exn w) st1) :
    ConvLR env (ls.map (·.1)) st (.stop w) st1 := by
  induction ls with
  | nil => have := h.one; simp at this
  | cons x ls ih =>
    rcases hx : x.2 with _ | v
    · have e := h.act x (by simp) hx
      simp only [List.map_cons, e]
      exact .stop hl
    · simp only [List.map_cons]
      exact .later (h.quiet x (by simp) v hx st) (ih (h.tail hx))

end Mosml.Front
