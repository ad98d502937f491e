import Verif.Front.Correct

/-! The order in which the translation evaluates the parts of an application, and the order
of the language. -/

namespace Mosml.Front

/-! ## The language's order -/

theorem chk_sml (n : Nat) : ∀ strict ρ e st x, chk strict n ρ e st = some x →
    sev .sml n ρ e st = some x := by
  induction n with
  | zero => intro strict ρ e st x h; simp [chk] at h
  | succ n ih =>
    intro strict ρ e st x h
    have ih' := ih false
    cases e with
    | const | prim1 | prim2 | con | fn => exact h
    | var y => exact h
    | app f a =>
      rw [chk] at h
      rw [sev]
      simp only [if_true]
      refine thenDo_mono h (ih _ _ _ _) fun v st y hy =>
        thenDo_mono hy (ih' _ _ _) fun v' st y hy => ?_
      split_ifs at hy
      exact sapply_mono ih' hy
    | tuple es =>
      rw [chk] at h
      rw [sev]
      exact thenAll_mono h (fun _ => evalLR_mono (fun e _ => ih' ρ e)) fun _ _ _ => id
    | record labs es =>
      rw [chk] at h
      rw [sev]
      exact thenAll_mono h (fun _ => evalLR_mono (fun e _ => ih' ρ e)) fun _ _ _ => id
    | par e => exact ih _ _ _ _ _ h
    | lett y e b =>
      rw [chk] at h
      rw [sev]
      exact thenDo_mono h (ih' _ _ _) (fun v st y hy => ih' _ _ _ _ hy)
    | andalso a b =>
      rw [chk] at h
      rw [sev]
      exact thenDo_mono h (ih' _ _ _) fun v st y hy => ite_mono (ih' _ _ _) (fun _ => id) hy
    | orelse a b =>
      rw [chk] at h
      rw [sev]
      exact thenDo_mono h (ih' _ _ _) fun v st y hy => ite_mono (fun _ => id) (ih' _ _ _) hy
    | cond c a b =>
      rw [chk] at h
      rw [sev]
      exact thenDo_mono h (ih' _ _ _) fun v st y hy => ite_mono (ih' _ _ _) (ih' _ _ _) hy
    | seq a b =>
      rw [chk] at h
      rw [sev]
      exact thenDo_mono h (ih' _ _ _) (fun v st y hy => ih' _ _ _ _ hy)
    | whil c a =>
      rw [chk] at h
      rw [sev]
      exact thenDo_mono h (ih' _ _ _) fun v st y hy => ite_mono (fun z hz =>
        thenDo_mono hz (ih' _ _ _) (fun v st y hy => ih' _ _ _ _ hy)) (fun _ => id) hy
    | raise e =>
      rw [chk] at h
      rw [sev]
      exact thenDo_mono h (ih' _ _ _) (fun v st y hy => hy)
    | handle e y b =>
      rw [chk] at h
      rw [sev]
      rcases hl : chk false n ρ e st with _ | ⟨r, st'⟩
      · rw [hl] at h; simp at h
      · rw [hl] at h
        rw [ih' _ _ _ _ hl]
        cases r with
        | val v => exact h
        | exn v => exact ih' _ _ _ _ h

/-! ## The order of the translation -/

/-- The value that all large bounds give. -/
def Lim {α : Type} (f : Nat → Option α) (x : α) : Prop := ∃ m, ∀ k, m ≤ k → f k = some x

theorem Lim.of_some {α : Type} {x : α} : Lim (fun _ => some x) x := ⟨0, fun _ _ => rfl⟩

theorem Lim.const {α : Type} {o : Option α} {x : α} (h : o = some x) : Lim (fun _ => o) x :=
  ⟨0, fun _ _ => h⟩

theorem Lim.succ {α : Type} {f : Nat → Option α} {x : α} (h : Lim (fun k => f (k + 1)) x) :
    Lim f x := by
  obtain ⟨m, h⟩ := h
  refine ⟨m + 1, fun k hk => ?_⟩
  obtain ⟨k', rfl⟩ : ∃ k', k = k' + 1 := ⟨k - 1, by omega⟩
  exact h k' (by omega)

theorem lim_sev {o ρ e st x} {n : Nat} (h : sev o n ρ e st = some x) :
    Lim (fun k => sev o k ρ e st) x := ⟨n, fun _ hk => sev_mono hk h⟩

theorem lim_thenDo {a : Option (Res SVal × St SVal)}
    {f : SVal → St SVal → Option (Res SVal × St SVal)} {A : Nat → Option (Res SVal × St SVal)}
    {F : Nat → SVal → St SVal → Option (Res SVal × St SVal)} {x}
    (h : thenDo a f = some x) (hA : ∀ y, a = some y → Lim A y)
    (hF : ∀ v st y, f v st = some y → Lim (fun k => F k v st) y) :
    Lim (fun k => thenDo (A k) (F k)) x := by
  rcases a with _ | ⟨r, st⟩
  · simp at h
  · obtain ⟨m1, h1⟩ := hA _ rfl
    cases r with
    | val v =>
      obtain ⟨m2, h2⟩ := hF v st x (by simpa using h)
      exact ⟨m1 + m2, fun k hk => by simp [h1 k (by omega), h2 k (by omega)]⟩
    | exn v => exact ⟨m1, fun k hk => by simp only [h1 k hk]; exact h⟩

theorem lim_thenAll {a : Option (Ress SVal × St SVal)}
    {f : List SVal → St SVal → Option (Res SVal × St SVal)}
    {A : Nat → Option (Ress SVal × St SVal)}
    {F : Nat → List SVal → St SVal → Option (Res SVal × St SVal)} {x}
    (h : thenAll a f = some x) (hA : ∀ y, a = some y → Lim A y)
    (hF : ∀ v st y, f v st = some y → Lim (fun k => F k v st) y) :
    Lim (fun k => thenAll (A k) (F k)) x := by
  rcases a with _ | ⟨r, st⟩
  · simp at h
  · obtain ⟨m1, h1⟩ := hA _ rfl
    cases r with
    | vals v =>
      obtain ⟨m2, h2⟩ := hF v st x (by simpa using h)
      exact ⟨m1 + m2, fun k hk => by simp [h1 k (by omega), h2 k (by omega)]⟩
    | stop v => exact ⟨m1, fun k hk => by simp only [h1 k hk]; exact h⟩

theorem lim_evalLR {E V S : Type} {f : E → S → Option (Res V × S)}
    {F : Nat → E → S → Option (Res V × S)} {es : List E}
    (hF : ∀ e ∈ es, ∀ st y, f e st = some y → Lim (fun k => F k e st) y) {st x}
    (h : evalLR f es st = some x) : Lim (fun k => evalLR (F k) es st) x := by
  induction es generalizing st x with
  | nil => exact .const h
  | cons e es ih =>
    obtain ⟨rs, st'⟩ := x
    rcases evalLR_cons h with ⟨x, h1, rfl⟩ | ⟨v, st1, rs', h1, h2, h3⟩
    · obtain ⟨m1, g1⟩ := hF e (by simp) _ _ h1
      exact ⟨m1, fun k hk => by simp only [evalLR, g1 k hk]⟩
    · obtain ⟨m1, g1⟩ := hF e (by simp) _ _ h1
      obtain ⟨m2, g2⟩ := ih (fun e he => hF e (by simp [he])) h2
      refine ⟨m1 + m2, fun k hk => ?_⟩
      simp only [evalLR, g1 k (by omega), g2 k (by omega)]
      rcases h3 with ⟨vs, rfl, rfl⟩ | ⟨x, rfl, rfl⟩ <;> rfl

theorem lim_ite {c : Bool} {a b : Option (Res SVal × St SVal)}
    {A B : Nat → Option (Res SVal × St SVal)} {x}
    (ha : ∀ y, a = some y → Lim A y) (hb : ∀ y, b = some y → Lim B y)
    (h : (if c then a else b) = some x) : Lim (fun k => if c then A k else B k) x := by
  cases c
  · exact hb _ h
  · exact ha _ h

theorem lim_sapply {f : Ev} {F : Nat → Ev}
    (hF : ∀ ρ e st y, f ρ e st = some y → Lim (fun k => F k ρ e st) y) {g v st x}
    (h : sapply f g v st = some x) : Lim (fun k => sapply (F k) g v st) x := by
  cases g with
  | clos ρ y xs b =>
    cases xs with
    | nil => exact hF _ _ _ _ h
    | cons => exact .const h
  | _ => exact .const h

/-! ### Expressions without effect -/

def PureOK (o : Order) (ρ : List (Name × SVal)) (e : Exp) : Prop :=
  ∀ v, pureVal ρ e = some v → ∀ st, Lim (fun k => sev o k ρ e st) (.val v, st)

theorem pure_lim (o : Order) (ρ : List (Name × SVal)) (e : Exp) : PureOK o ρ e := by
  apply Exp.rec (motive_1 := fun e => PureOK o ρ e)
    (motive_2 := fun es => ∀ vs, pureVals ρ es = some vs → ∀ st,
      Lim (fun k => evalLR (sev o k ρ) es st) (.vals vs, st))
  case const => intro c v h st; cases h; exact .succ (.const rfl)
  case prim1 => intro c v h st; cases h; exact .succ (.const rfl)
  case prim2 => intro c v h st; cases h; exact .succ (.const rfl)
  case con => intro c v h st; cases h; exact .succ (.const rfl)
  case fn => intro x xs b _ v h st; cases h; exact .succ (.const rfl)
  case var =>
    intro x v h st
    rw [pureVal] at h
    exact .succ (.const (by simp [sev, h]))
  case app => intro f a _ _ v h; simp [pureVal] at h
  case lett => intro x e b _ _ v h; simp [pureVal] at h
  case whil => intro c a _ _ v h; simp [pureVal] at h
  case raise => intro e _ v h; simp [pureVal] at h
  case handle => intro e x b _ _ v h; simp [pureVal] at h
  case tuple =>
    intro es ih v h st
    simp only [pureVal, Option.map_eq_some_iff] at h
    obtain ⟨vs, h1, rfl⟩ := h
    refine .succ ?_
    obtain ⟨m, h2⟩ := ih vs h1 st
    exact ⟨m, fun k hk => by simp [sev, h2 k hk]⟩
  case record =>
    intro labs es ih v h st
    simp only [pureVal, Option.map_eq_some_iff] at h
    obtain ⟨vs, h1, rfl⟩ := h
    refine .succ ?_
    obtain ⟨m, h2⟩ := ih vs h1 st
    exact ⟨m, fun k hk => by simp [sev, h2 k hk]⟩
  case par =>
    intro e ih v h st
    rw [pureVal] at h
    exact .succ (ih v h st)
  case andalso =>
    intro a b iha ihb v h st
    simp only [pureVal] at h
    split at h
    · rename_i u hu
      obtain ⟨m, h2⟩ := iha u hu st
      refine .succ ?_
      split_ifs at h with hc
      · obtain ⟨m', h3⟩ := ihb v h st
        exact ⟨m + m', fun k hk => by simp [sev, h2 k (by omega), h3 k (by omega), hc]⟩
      · cases h
        exact ⟨m, fun k hk => by simp [sev, h2 k hk, hc]⟩
    · simp at h
  case orelse =>
    intro a b iha ihb v h st
    simp only [pureVal] at h
    split at h
    · rename_i u hu
      obtain ⟨m, h2⟩ := iha u hu st
      refine .succ ?_
      split_ifs at h with hc
      · cases h
        exact ⟨m, fun k hk => by simp [sev, h2 k hk, hc]⟩
      · obtain ⟨m', h3⟩ := ihb v h st
        exact ⟨m + m', fun k hk => by simp [sev, h2 k (by omega), h3 k (by omega), hc]⟩
    · simp at h
  case cond =>
    intro c a b ihc iha ihb v h st
    simp only [pureVal] at h
    split at h
    · rename_i u hu
      obtain ⟨m, h2⟩ := ihc u hu st
      refine .succ ?_
      split_ifs at h with hc
      · obtain ⟨m', h3⟩ := iha v h st
        exact ⟨m + m', fun k hk => by simp [sev, h2 k (by omega), h3 k (by omega), hc]⟩
      · obtain ⟨m', h3⟩ := ihb v h st
        exact ⟨m + m', fun k hk => by simp [sev, h2 k (by omega), h3 k (by omega), hc]⟩
    · simp at h
  case seq =>
    intro a b iha ihb v h st
    simp only [pureVal] at h
    split at h
    · rename_i u hu
      obtain ⟨m, h2⟩ := iha u hu st
      obtain ⟨m', h3⟩ := ihb v h st
      refine .succ ⟨m + m', fun k hk => by simp [sev, h2 k (by omega), h3 k (by omega)]⟩
    · simp at h
  case nil =>
    intro vs h st
    rw [pureVals] at h; cases h
    exact .const rfl
  case cons =>
    intro e es ihe ihes vs h st
    simp only [pureVals] at h
    split at h
    · rename_i v vs' h1 h2
      cases h
      obtain ⟨m, h3⟩ := ihe v h1 st
      obtain ⟨m', h4⟩ := ihes vs' h2 st
      exact ⟨m + m', fun k hk => by simp [evalLR, h3 k (by omega), h4 k (by omega)]⟩
    · simp at h

/-- The value is the one found by evaluation. -/
theorem pure_chk {ρ e v strict n st r st'} (hp : pureVal ρ e = some v)
    (h : chk strict n ρ e st = some (r, st')) : r = .val v ∧ st' = st := by
  obtain ⟨m, h1⟩ := pure_lim .sml ρ e v hp st
  have h2 := sev_mono (Nat.le_add_right n m) (chk_sml n _ _ _ _ _ h)
  have h1 := h1 _ (Nat.le_add_left m n)
  simp only at h1
  rw [h1] at h2
  cases h2
  exact ⟨rfl, rfl⟩

/-! ### Applications -/

theorem normApp_append (f : Exp) (as bs : List Exp) :
    normApp f (as ++ bs) = ((normApp f as).1, (normApp f as).2 ++ bs) := by
  fun_induction normApp f as with
  | case1 args e ih => rw [normApp]; exact ih
  | case2 args e1 e2 ih => rw [normApp, ← List.cons_append]; exact ih
  | case3 f args h1 h2 =>
    rw [normApp]
    · exact h1
    · exact h2

/-- How an application came to its result, when the function and all arguments are
evaluated before the first call. -/
inductive Spine (strict : Bool) (ρ : List (Name × SVal)) (h : Exp) (as : List Exp) (st : St SVal) :
    Res SVal → St SVal → Prop
  | head {x st1} (h1 : Lim (fun k => sev .grouped k ρ h st) (.exn x, st1)) :
      Spine strict ρ h as st (.exn x) st1
  | arg {g x st1 st2} (h1 : Lim (fun k => sev .grouped k ρ h st) (.val g, st1))
      (h2 : Lim (fun k => evalLR (sev .grouped k ρ) as st1) (.stop x, st2)) :
      Spine strict ρ h as st (.exn x) st2
  | call {g vs r st1 st2 st3} (h1 : Lim (fun k => sev .grouped k ρ h st) (.val g, st1))
      (h2 : Lim (fun k => evalLR (sev .grouped k ρ) as st1) (.vals vs, st2))
      (h3 : Lim (fun k => sapplyAll (sapply (sev .grouped k)) g vs st2) (r, st3))
      (h4 : strict = true → st3 = st2 ∧ ∃ v, r = .val v ∧
        ∀ st, Lim (fun k => sapplyAll (sapply (sev .grouped k)) g vs st) (.val v, st)) :
      Spine strict ρ h as st r st3

theorem Lim.snoc {ρ as a st vs st1 r st2}
    (h1 : Lim (fun k => evalLR (sev .grouped k ρ) as st) (.vals vs, st1))
    (h2 : Lim (fun k => sev .grouped k ρ a st1) (r, st2)) :
    (∀ v, r = .val v →
      Lim (fun k => evalLR (sev .grouped k ρ) (as ++ [a]) st) (.vals (vs ++ [v]), st2)) ∧
    (∀ x, r = .exn x →
      Lim (fun k => evalLR (sev .grouped k ρ) (as ++ [a]) st) (.stop x, st2)) := by
  obtain ⟨m1, h1⟩ := h1
  obtain ⟨m2, h2⟩ := h2
  refine ⟨fun v e => ⟨m1 + m2, fun k hk => ?_⟩, fun x e => ⟨m1 + m2, fun k hk => ?_⟩⟩
  · subst e
    exact (evalLR_append (h1 k (by omega)) (bs := [a]) (rs := .vals [v]) (st' := st2)
      (by simp [evalLR, h2 k (by omega)])).1 _ rfl
  · subst e
    exact (evalLR_append (h1 k (by omega)) (bs := [a]) (rs := .stop x) (st' := st2)
      (by simp [evalLR, h2 k (by omega)])).2 _ rfl

theorem sapplyAll_snoc {ap : SVal → SVal → St SVal → Option (Res SVal × St SVal)} {g vs v st} :
    sapplyAll ap g (vs ++ [v]) st = thenDo (sapplyAll ap g vs st) fun g st => ap g v st := by
  induction vs generalizing g st with
  | nil => simp [applyAll_one, sapplyAll]
  | cons w vs ih =>
    rw [List.cons_append, sapplyAll, sapplyAll]
    rcases ap g w st with _ | ⟨_ | _, _⟩ <;> simp [ih]

theorem Lim.snocApp {g vs v st g' st1 x}
    (h1 : Lim (fun k => sapplyAll (sapply (sev .grouped k)) g vs st) (.val g', st1))
    (h2 : Lim (fun k => sapply (sev .grouped k) g' v st1) x) :
    Lim (fun k => sapplyAll (sapply (sev .grouped k)) g (vs ++ [v]) st) x := by
  obtain ⟨m1, h1⟩ := h1
  obtain ⟨m2, h2⟩ := h2
  exact ⟨m1 + m2, fun k hk => by
    have a := h1 k (by omega)
    simp only at a ⊢
    rw [sapplyAll_snoc, a]; exact h2 k (by omega)⟩

theorem Lim.snocApp_stop {g vs v st y st1}
    (h1 : Lim (fun k => sapplyAll (sapply (sev .grouped k)) g vs st) (.exn y, st1)) :
    Lim (fun k => sapplyAll (sapply (sev .grouped k)) g (vs ++ [v]) st) (.exn y, st1) := by
  obtain ⟨m1, h1⟩ := h1
  exact ⟨m1, fun k hk => by
    have a := h1 k (by omega)
    simp only at a ⊢
    rw [sapplyAll_snoc, a]; rfl⟩

/-- The claim for `chk`. -/
def Agree (n : Nat) : Prop := ∀ strict ρ e st x, chk strict n ρ e st = some x →
  Lim (fun k => sev .grouped k ρ e st) x

theorem isPartial_apply {g v} (h : isPartial g = true) : ∃ u, ∀ ev st,
    sapply ev g v st = some (.val u, st) := by
  cases g with
  | clos ρ x xs b =>
    cases xs with
    | nil => simp [isPartial] at h
    | cons y ys => exact ⟨_, fun _ _ => rfl⟩
  | _ => simp [isPartial] at h

/-- An expression that is not an application is its own head. -/
theorem spine_self {strict ρ e st r st'} (h : Lim (fun k => sev .grouped k ρ e st) (r, st')) :
    Spine strict ρ e [] st r st' := by
  cases r with
  | val v => exact .call h (.const rfl) (.const rfl) fun _ => ⟨rfl, v, rfl, fun st => .const rfl⟩
  | exn x => exact .head h

theorem spine_app {k : Nat} (agk : Agree k) {strict ρ f a st r st'}
    (ihk : ∀ strict r st', chk strict k ρ f st = some (r, st') →
      Spine strict ρ (normApp f []).1 (normApp f []).2 st r st')
    (h : chk strict (k + 1) ρ (.app f a) st = some (r, st')) :
    Spine strict ρ (normApp (.app f a) []).1 (normApp (.app f a) []).2 st r st' := by
  rw [normApp, show [a] = [] ++ [a] from rfl, normApp_append]
  simp only
  rw [chk] at h
  rcases thenDo_some h with ⟨g, st1, e1, e2⟩ | ⟨x, e1, rfl⟩
  · have sp := ihk _ _ _ e1
    cases sp with
    | call h1 h2 h3 h4 =>
      cases hp : pureVal ρ a with
      | none =>
        rw [hp] at h4
        simp only [Option.isNone_none, Bool.or_true, forall_const] at h4
        obtain ⟨rfl, v, e3, h5⟩ := h4
        cases e3
        rcases thenDo_some e2 with ⟨u, st2, e3, e4⟩ | ⟨x, e3, rfl⟩
        · have h6 := (h2.snoc (agk _ _ _ _ _ e3)).1 u rfl
          split_ifs at e4 with hc
          refine .call h1 h6 ((h5 st2).snocApp (lim_sapply (agk false) e4)) fun hs => ?_
          simp only [hs, Bool.true_and, Bool.not_eq_true', Bool.not_eq_false] at hc
          obtain ⟨w, hw⟩ := isPartial_apply (v := u) hc
          rw [hw] at e4
          cases e4
          exact ⟨rfl, w, rfl, fun st => (h5 st).snocApp ⟨0, fun k _ => hw _ _⟩⟩
        · exact .arg h1 ((h2.snoc (agk _ _ _ _ _ e3)).2 x rfl)
      | some pv =>
        rcases thenDo_some e2 with ⟨u, st2, e3, e4⟩ | ⟨x, e3, rfl⟩
        · obtain ⟨e5, rfl⟩ := pure_chk hp e3
          cases e5
          have h6 := (h2.snoc (pure_lim .grouped ρ a pv hp _)).1 pv rfl
          split_ifs at e4 with hc
          refine .call h1 h6 (h3.snocApp (lim_sapply (agk false) e4)) fun hs => ?_
          simp only [hs, Bool.true_and, Bool.not_eq_true', Bool.not_eq_false] at hc
          obtain ⟨rfl, v, e6, h7⟩ := h4 (by simp [hs])
          cases e6
          obtain ⟨w, hw⟩ := isPartial_apply (v := pv) hc
          rw [hw] at e4
          cases e4
          exact ⟨rfl, w, rfl, fun st => (h7 st).snocApp ⟨0, fun k _ => hw _ _⟩⟩
        · cases (pure_chk hp e3).1
  · have sp := ihk _ _ _ e1
    cases sp with
    | head h1 => exact .head h1
    | arg h1 h2 =>
      refine .arg h1 ?_
      obtain ⟨m, h2⟩ := h2
      exact ⟨m, fun k hk => evalLR_append_stop (h2 k hk)⟩
    | call h1 h2 h3 h4 =>
      cases hp : pureVal ρ a with
      | none =>
        rw [hp] at h4
        simp only [Option.isNone_none, Bool.or_true, forall_const] at h4
        obtain ⟨_, v, e3, _⟩ := h4
        cases e3
      | some pv =>
        refine .call h1 ((h2.snoc (pure_lim .grouped ρ a pv hp _)).1 pv rfl) h3.snocApp_stop
          fun hs => ?_
        obtain ⟨_, v, e6, _⟩ := h4 (by simp [hs])
        cases e6

theorem agree_spine {n : Nat} (ih : ∀ k, k ≤ n → Agree k) (k : Nat) (hk : k ≤ n)
    : ∀ strict ρ e st r st', chk strict k ρ e st = some (r, st') →
      Spine strict ρ (normApp e []).1 (normApp e []).2 st r st' := by
  induction k with
  | zero => intro strict ρ e st r st' h; simp [chk] at h
  | succ k ihk =>
    intro strict ρ e st r st' h
    have ag := ih (k + 1) hk
    have self : (∀ f a, e ≠ .app f a) → (∀ f, e ≠ .par f) →
        Spine strict ρ (normApp e []).1 (normApp e []).2 st r st' := by
      intro h1 h2
      rw [normApp]
      · exact spine_self (ag _ _ _ _ _ h)
      · exact h2
      · exact h1
    cases e with
    | app f a =>
      exact spine_app (ih k (by omega)) (fun s r st' => ihk (by omega) s ρ f st r st') h
    | par e =>
      rw [normApp]
      rw [chk] at h
      exact ihk (by omega) _ _ _ _ _ _ h
    | _ => exact self (by simp) (by simp)

theorem Spine.lim {strict ρ f a st r st'}
    (h : Spine strict ρ (normApp f [a]).1 (normApp f [a]).2 st r st') :
    Lim (fun k => sev .grouped k ρ (.app f a) st) (r, st') := by
  refine .succ ?_
  cases h with
  | head h1 =>
    obtain ⟨m, h1⟩ := h1
    exact ⟨m, fun k hk => by simp [sev, h1 k hk]⟩
  | arg h1 h2 =>
    obtain ⟨m, h1⟩ := h1
    obtain ⟨m2, h2⟩ := h2
    exact ⟨m + m2, fun k hk => by simp [sev, h1 k (by omega), h2 k (by omega)]⟩
  | call h1 h2 h3 =>
    obtain ⟨m, h1⟩ := h1
    obtain ⟨m2, h2⟩ := h2
    obtain ⟨m3, h3⟩ := h3
    exact ⟨m + m2 + m3, fun k hk => by
      simp [sev, h1 k (by omega), h2 k (by omega), h3 k (by omega)]⟩

theorem agree_step {n : Nat} (ih : ∀ k, k ≤ n → Agree k) : Agree (n + 1) := by
  have ihn := ih n (le_refl _)
  have ih' := ihn false
  intro strict ρ e st x h
  cases e with
  | const | prim1 | prim2 | con | fn => exact .succ (.const h)
  | var y => exact .succ (.const h)
  | app f a =>
    obtain ⟨r, st'⟩ := x
    have := spine_app ihn (fun s r st' => agree_spine ih n (le_refl _) s ρ f st r st') h
    rw [normApp] at this
    exact this.lim
  | tuple es =>
    rw [chk] at h
    exact .succ (lim_thenAll h (fun _ => lim_evalLR (fun e _ => ih' ρ e)) fun _ _ _ => .const)
  | record labs es =>
    rw [chk] at h
    exact .succ (lim_thenAll h (fun _ => lim_evalLR (fun e _ => ih' ρ e)) fun _ _ _ => .const)
  | par e => exact .succ (ihn _ _ _ _ _ h)
  | lett y e b =>
    rw [chk] at h
    exact .succ (lim_thenDo h (ih' _ _ _) (fun v st y hy => ih' _ _ _ _ hy))
  | andalso a b =>
    rw [chk] at h
    exact .succ (lim_thenDo h (ih' _ _ _) fun v st y hy =>
      lim_ite (ih' _ _ _) (fun _ => .const) hy)
  | orelse a b =>
    rw [chk] at h
    exact .succ (lim_thenDo h (ih' _ _ _) fun v st y hy =>
      lim_ite (fun _ => .const) (ih' _ _ _) hy)
  | cond c a b =>
    rw [chk] at h
    exact .succ (lim_thenDo h (ih' _ _ _) fun v st y hy => lim_ite (ih' _ _ _) (ih' _ _ _) hy)
  | seq a b =>
    rw [chk] at h
    exact .succ (lim_thenDo h (ih' _ _ _) (fun v st y hy => ih' _ _ _ _ hy))
  | whil c a =>
    rw [chk] at h
    exact .succ (lim_thenDo h (ih' _ _ _) fun v st y hy => lim_ite (fun z hz =>
      lim_thenDo hz (ih' _ _ _) (fun v st y hy => ih' _ _ _ _ hy)) (fun _ => .const) hy)
  | raise e =>
    rw [chk] at h
    exact .succ (lim_thenDo h (ih' _ _ _) (fun v st y hy => .const hy))
  | handle e y b =>
    rw [chk] at h
    refine .succ ?_
    rcases hl : chk false n ρ e st with _ | ⟨r, st'⟩
    · rw [hl] at h; simp at h
    · rw [hl] at h
      obtain ⟨m, h1⟩ := ih' _ _ _ _ hl
      cases r with
      | val v => exact ⟨m, fun k hk => by simp only [sev, h1 k hk]; exact h⟩
      | exn v =>
        obtain ⟨m2, h2⟩ := ih' _ _ _ _ h
        exact ⟨m + m2, fun k hk => by simp only [sev, h1 k (by omega)]; exact h2 k (by omega)⟩

theorem agree (n : Nat) : ∀ k, k ≤ n → Agree k := by
  induction n with
  | zero => intro k hk; obtain rfl : k = 0 := by omega
            intro strict ρ e st x h; simp [chk] at h
  | succ n ih =>
    intro k hk
    rcases Nat.lt_or_ge n k with h | h
    · obtain rfl : k = n + 1 := by omega
      exact agree_step ih
    · exact ih k h

end Mosml.Front
