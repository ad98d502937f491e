import Verif.Zam.Spec

/-!
# Evaluation with pending arguments

The machine keeps arguments that a function does not take at once on the stack
and hands them to the result of a tail call.  `evalS n env e xs` is the result
of `e` applied to `xs`, computed in this way.  It gives what `eval` gives.
-/

namespace Mosml.Zam

/-- A value meets the pending arguments. -/
def retL (ev : List Val → Lam → List Val → Option Res) (v : Val) : List Val → Option Res
  | [] => some (.val v)
  | x :: xs =>
    match asClos v with
    | some (env, b) =>
      (match ev (x :: env) b xs with
       | some .fail => none
       | r => r)
    | none => none

/-- A result meets the pending arguments. -/
def resL (ev : List Val → Lam → List Val → Option Res) (r : Option Res) (xs : List Val) :
    Option Res :=
  match r with
  | some (.val v) => retL ev v xs
  | r => r

/-- `Pidentity` makes no code: what is behind it meets the pending arguments. -/
def idOf : Lam → Option Lam
  | .prim .identity [e] => some e
  | .lett [a] (.prim .identity [.var 0]) => some a
  | _ => none

def evalB (ev : List Val → Lam → List Val → Option Res) (env : List Val) (e : Lam) (xs : List Val) :
    Option Res :=
  match e with
  | .var i => resL ev ((lookup env i).map .val) xs
  | .const c => retL ev c.toV xs
  | .fn b => retL ev (.clos env b) xs
  | .apply f args =>
    (match evalRL (fun e => ev env e []) args with
     | some (.vals vs) =>
       (match ev env f [] with
        | some (.val g) => retL ev g (vs ++ xs)
        | r => r)
     | some (.stop r) => some r
     | none => none)
  | .lett args body =>
    (match evalLets (fun env e => ev env e []) env args with
     | some (.vals env') => ev env' body xs
     | some (.stop r) => some r
     | none => none)
  | .letrec fs body =>
    if fs.all isFn then ev (recEnv fs env) body xs else none
  | .prim p args =>
    (match evalLR (fun e => ev env e []) args with
     | some (.vals vs) => resL ev (primSem p vs) xs
     | some (.stop r) => some r
     | none => none)
  | .staticfail => some .fail
  | .statichandle a b =>
    (match ev env a xs with
     | some .fail => ev env b xs
     | r => r)
  | .handle a b =>
    (match ev env a [] with
     | some (.exn v) => ev (v :: env) b xs
     | r => resL ev r xs)
  | .cond c a b =>
    (match ev env c [] with
     | some (.val v) =>
       (match truth v with
        | some true => ev env a xs
        | some false => ev env b xs
        | none => none)
     | r => r)
  | .seq a b =>
    (match ev env a [] with
     | some (.val _) => ev env b xs
     | r => r)
  | .andalso a b =>
    (match ev env a [] with
     | some (.val v) =>
       (match truth v with
        | some true => ev env b xs
        | some false => retL ev v xs
        | none => none)
     | r => r)
  | .orelse a b =>
    (match ev env a [] with
     | some (.val v) =>
       (match truth v with
        | some true => retL ev v xs
        | some false => ev env b xs
        | none => none)
     | r => r)

def evalS : Nat → List Val → Lam → List Val → Option Res
  | 0, _, _, _ => none
  | n + 1, env, e, xs =>
    match idOf e with
    | some a => evalS n env a xs
    | none => evalB (evalS n) env e xs

/-! ## More fuel -/

abbrev Le (f g : List Val → Lam → List Val → Option Res) : Prop :=
  ∀ env e xs r, f env e xs = some r → g env e xs = some r

theorem retL_mono {f g} (h : Le f g) {v xs r} : retL f v xs = some r → retL g v xs = some r := by
  cases xs with
  | nil => exact id
  | cons x xs =>
    simp only [retL]
    cases asClos v with
    | none => exact id
    | some p =>
      obtain ⟨env, b⟩ := p
      simp only
      cases hf : f (x :: env) b xs with
      | none => intro hh; cases hh
      | some r' => rw [h _ _ _ _ hf]; exact id

theorem resL_mono {f g} (h : Le f g) {q xs r} : resL f q xs = some r → resL g q xs = some r := by
  unfold resL
  split
  · exact retL_mono h
  · exact id

theorem evalLR_mono {f g : Lam → Option Res} (h : ∀ e r, f e = some r → g e = some r) :
    ∀ es r, evalLR f es = some r → evalLR g es = some r := by
  intro es
  induction es with
  | nil => exact fun r h => h
  | cons e es ih =>
    intro r
    simp only [evalLR]
    cases hf : f e with
    | none => intro hh; cases hh
    | some q =>
      rw [h _ _ hf]
      cases q with
      | val v =>
        simp only
        cases he : evalLR f es with
        | none => intro hh; cases hh
        | some q => rw [ih _ he]; exact id
      | exn v => exact id
      | fail => exact id

theorem evalRL_mono {f g : Lam → Option Res} (h : ∀ e r, f e = some r → g e = some r) :
    ∀ es r, evalRL f es = some r → evalRL g es = some r := by
  intro es
  induction es with
  | nil => exact fun r h => h
  | cons e es ih =>
    intro r
    simp only [evalRL]
    cases he : evalRL f es with
    | none => intro hh; cases hh
    | some q =>
      rw [ih _ he]
      cases q with
      | vals vs =>
        simp only
        cases hf : f e with
        | none => intro hh; cases hh
        | some q => rw [h _ _ hf]; exact id
      | stop r => exact id

theorem evalLets_mono {f g : List Val → Lam → Option Res}
    (h : ∀ env e r, f env e = some r → g env e = some r) :
    ∀ es env r, evalLets f env es = some r → evalLets g env es = some r := by
  intro es
  induction es with
  | nil => exact fun env r h => h
  | cons e es ih =>
    intro env r
    simp only [evalLets]
    cases hf : f env e with
    | none => intro hh; cases hh
    | some q =>
      rw [h _ _ _ hf]
      cases q with
      | val v => exact ih _ _
      | exn v => exact id
      | fail => exact id

theorem evalS_mono : ∀ {n m}, n ≤ m → Le (evalS n) (evalS m) := by
  intro n
  induction n with
  | zero => intro m _ env e xs r h; cases h
  | succ n ih' =>
    intro m hm env e xs r h
    obtain ⟨m, rfl⟩ : ∃ m', m = m' + 1 := ⟨m - 1, by omega⟩
    have ih := ih' (by omega : n ≤ m)
    clear hm ih'
    have hLR := evalLR_mono (f := fun e => evalS n env e []) (g := fun e => evalS m env e [])
      (fun e r => ih env e [] r)
    have hRL := evalRL_mono (f := fun e => evalS n env e []) (g := fun e => evalS m env e [])
      (fun e r => ih env e [] r)
    have hL := evalLets_mono (f := fun env e => evalS n env e [])
      (g := fun env e => evalS m env e []) (fun env e r => ih env e [] r)
    simp only [evalS] at h ⊢
    cases hid : idOf e with
    | some a => rw [hid] at h; exact ih _ _ _ _ h
    | none =>
    rw [hid] at h
    clear hid
    simp only at h ⊢
    cases e with
    | var i => simp only [evalB] at h ⊢; exact resL_mono ih h
    | const c => simp only [evalB] at h ⊢; exact retL_mono ih h
    | fn b => simp only [evalB] at h ⊢; exact retL_mono ih h
    | apply f args =>
      simp only [evalB] at h ⊢
      cases h1 : evalRL (fun e => evalS n env e []) args with
      | none => rw [h1] at h; cases h
      | some q =>
        rw [h1] at h
        rw [hRL _ _ h1]
        cases q with
        | stop q => exact h
        | vals vs =>
          simp only at h ⊢
          cases h2 : evalS n env f [] with
          | none => rw [h2] at h; cases h
          | some q =>
            rw [h2] at h
            rw [ih _ _ _ _ h2]
            cases q with
            | val g => exact retL_mono ih h
            | exn v => exact h
            | fail => exact h
    | lett args body =>
      simp only [evalB] at h ⊢
      cases h1 : evalLets (fun env e => evalS n env e []) env args with
      | none => rw [h1] at h; cases h
      | some q =>
        rw [h1] at h
        rw [hL _ _ _ h1]
        cases q with
        | stop q => exact h
        | vals vs => exact ih _ _ _ _ h
    | letrec fs body =>
      simp only [evalB] at h ⊢
      split
      · rename_i hh
        rw [if_pos hh] at h
        exact ih _ _ _ _ h
      · rename_i hh
        rw [if_neg hh] at h
        exact h
    | prim p args =>
      simp only [evalB] at h ⊢
      cases h1 : evalLR (fun e => evalS n env e []) args with
      | none => rw [h1] at h; cases h
      | some q =>
        rw [h1] at h
        rw [hLR _ _ h1]
        cases q with
        | stop q => exact h
        | vals vs => exact resL_mono ih h
    | staticfail => exact h
    | statichandle a b =>
      simp only [evalB] at h ⊢
      cases h1 : evalS n env a xs with
      | none => rw [h1] at h; cases h
      | some q =>
        rw [h1] at h
        rw [ih _ _ _ _ h1]
        cases q with
        | val v => exact h
        | exn v => exact h
        | fail => exact ih _ _ _ _ h
    | handle a b =>
      simp only [evalB] at h ⊢
      cases h1 : evalS n env a [] with
      | none => rw [h1] at h; cases h
      | some q =>
        rw [h1] at h
        rw [ih _ _ _ _ h1]
        cases q with
        | val v => exact retL_mono ih h
        | exn v => exact ih _ _ _ _ h
        | fail => exact h
    | cond c a b =>
      simp only [evalB] at h ⊢
      cases h1 : evalS n env c [] with
      | none => rw [h1] at h; cases h
      | some q =>
        rw [h1] at h
        rw [ih _ _ _ _ h1]
        cases q with
        | val v =>
          simp only at h ⊢
          cases h2 : truth v with
          | none => rw [h2] at h; cases h
          | some t =>
            rw [h2] at h
            cases t <;> exact ih _ _ _ _ h
        | exn v => exact h
        | fail => exact h
    | seq a b =>
      simp only [evalB] at h ⊢
      cases h1 : evalS n env a [] with
      | none => rw [h1] at h; cases h
      | some q =>
        rw [h1] at h
        rw [ih _ _ _ _ h1]
        cases q with
        | val v => exact ih _ _ _ _ h
        | exn v => exact h
        | fail => exact h
    | andalso a b =>
      simp only [evalB] at h ⊢
      cases h1 : evalS n env a [] with
      | none => rw [h1] at h; cases h
      | some q =>
        rw [h1] at h
        rw [ih _ _ _ _ h1]
        cases q with
        | val v =>
          simp only at h ⊢
          cases h2 : truth v with
          | none => rw [h2] at h; cases h
          | some t =>
            rw [h2] at h
            cases t
            · exact retL_mono ih h
            · exact ih _ _ _ _ h
        | exn v => exact h
        | fail => exact h
    | orelse a b =>
      simp only [evalB] at h ⊢
      cases h1 : evalS n env a [] with
      | none => rw [h1] at h; cases h
      | some q =>
        rw [h1] at h
        rw [ih _ _ _ _ h1]
        cases q with
        | val v =>
          simp only at h ⊢
          cases h2 : truth v with
          | none => rw [h2] at h; cases h
          | some t =>
            rw [h2] at h
            cases t
            · exact ih _ _ _ _ h
            · exact retL_mono ih h
        | exn v => exact h
        | fail => exact h

/-! ## The two semantics agree -/

theorem evalRL_pend {f : Lam → Option Res} {env : List Val}
    (h : ∀ e r, f e = some r → ∃ k, evalS k env e [] = some r) :
    ∀ es r, evalRL f es = some r → ∃ k, evalRL (fun e => evalS k env e []) es = some r := by
  intro es
  induction es with
  | nil => exact fun r h => ⟨0, h⟩
  | cons e es ih =>
    intro r hr
    simp only [evalRL] at hr ⊢
    cases he : evalRL f es with
    | none => rw [he] at hr; cases hr
    | some q =>
      obtain ⟨k1, hk1⟩ := ih _ he
      rw [he] at hr
      cases q with
      | stop q => exact ⟨k1, by rw [hk1]; exact hr⟩
      | vals vs =>
        simp only at hr
        cases hf : f e with
        | none => rw [hf] at hr; cases hr
        | some q =>
          obtain ⟨k2, hk2⟩ := h _ _ hf
          refine ⟨k1 + k2, ?_⟩
          rw [evalRL_mono (fun e r => evalS_mono (by omega : k1 ≤ k1 + k2) env e [] r) _ _ hk1]
          simp only
          rw [evalS_mono (by omega : k2 ≤ k1 + k2) _ _ _ _ hk2]
          rw [hf] at hr
          exact hr

theorem evalLR_pend {f : Lam → Option Res} {env : List Val}
    (h : ∀ e r, f e = some r → ∃ k, evalS k env e [] = some r) :
    ∀ es r, evalLR f es = some r → ∃ k, evalLR (fun e => evalS k env e []) es = some r := by
  intro es
  induction es with
  | nil => exact fun r h => ⟨0, h⟩
  | cons e es ih =>
    intro r hr
    simp only [evalLR] at hr ⊢
    cases hf : f e with
    | none => rw [hf] at hr; cases hr
    | some q =>
      obtain ⟨k2, hk2⟩ := h _ _ hf
      rw [hf] at hr
      cases q with
      | exn v => exact ⟨k2, by rw [hk2]; exact hr⟩
      | fail => exact ⟨k2, by rw [hk2]; exact hr⟩
      | val v =>
        simp only at hr
        cases he : evalLR f es with
        | none => rw [he] at hr; cases hr
        | some q =>
          obtain ⟨k1, hk1⟩ := ih _ he
          refine ⟨k1 + k2, ?_⟩
          rw [evalS_mono (by omega : k2 ≤ k1 + k2) _ _ _ _ hk2]
          simp only
          rw [evalLR_mono (fun e r => evalS_mono (by omega : k1 ≤ k1 + k2) env e [] r) _ _ hk1]
          rw [he] at hr
          exact hr

theorem evalLets_pend {f : List Val → Lam → Option Res}
    (h : ∀ env e r, f env e = some r → ∃ k, evalS k env e [] = some r) :
    ∀ es env r, evalLets f env es = some r →
      ∃ k, evalLets (fun env e => evalS k env e []) env es = some r := by
  intro es
  induction es with
  | nil => exact fun env r h => ⟨0, h⟩
  | cons e es ih =>
    intro env r hr
    simp only [evalLets] at hr ⊢
    cases hf : f env e with
    | none => rw [hf] at hr; cases hr
    | some q =>
      obtain ⟨k2, hk2⟩ := h _ _ _ hf
      rw [hf] at hr
      cases q with
      | exn v => exact ⟨k2, by rw [hk2]; exact hr⟩
      | fail => exact ⟨k2, by rw [hk2]; exact hr⟩
      | val v =>
        simp only at hr
        obtain ⟨k1, hk1⟩ := ih _ _ hr
        refine ⟨k1 + k2, ?_⟩
        rw [evalS_mono (by omega : k2 ≤ k1 + k2) _ _ _ _ hk2]
        simp only
        exact evalLets_mono (fun env e r => evalS_mono (by omega : k1 ≤ k1 + k2) env e [] r) _ _ _ hk1

/-- The result of `e`, known by `eval`, against pending arguments. -/
def Pend (q : Res) (xs : List Val) (w : Res) : Prop :=
  match q with
  | .val v => ∃ m, retL (evalS m) v xs = some w
  | q => w = q

theorem pend_nil (q : Res) : Pend q [] q := by
  cases q with
  | val v => exact ⟨0, rfl⟩
  | exn v => rfl
  | fail => rfl

theorem pend_resL {q xs w} (h : Pend q xs w) : ∃ m, resL (evalS m) (some q) xs = some w := by
  cases q with
  | val v => exact h
  | exn v => cases h; exact ⟨0, rfl⟩
  | fail => cases h; exact ⟨0, rfl⟩

theorem pend_stop {r xs w} (hp : Pend r xs w) (hr : ∀ v, r ≠ .val v) : w = r := by
  cases r with
  | val v => exact absurd rfl (hr v)
  | exn v => exact hp
  | fail => exact hp

theorem evalRL_stop {f : Lam → Option Res} : ∀ {es r}, evalRL f es = some (.stop r) →
    ∀ v, r ≠ .val v := by
  intro es
  induction es with
  | nil => intro r h; cases h
  | cons e es ih =>
    intro r h
    simp only [evalRL] at h
    cases he : evalRL f es with
    | none => rw [he] at h; cases h
    | some q =>
      rw [he] at h
      cases q with
      | stop q => exact ih (he.trans h)
      | vals vs =>
        simp only at h
        cases hf : f e with
        | none => rw [hf] at h; cases h
        | some q =>
          rw [hf] at h
          cases q <;> cases h <;> intro v hv <;> cases hv

theorem evalLR_stop {f : Lam → Option Res} : ∀ {es r}, evalLR f es = some (.stop r) →
    ∀ v, r ≠ .val v := by
  intro es
  induction es with
  | nil => intro r h; cases h
  | cons e es ih =>
    intro r h
    simp only [evalLR] at h
    cases hf : f e with
    | none => rw [hf] at h; cases h
    | some q =>
      rw [hf] at h
      cases q with
      | val v =>
        simp only at h
        cases he : evalLR f es with
        | none => rw [he] at h; cases h
        | some q =>
          rw [he] at h
          cases q with
          | vals vs => cases h
          | stop q => exact ih (he.trans h)
      | exn v => cases h; intro v hv; cases hv
      | fail => cases h; intro v hv; cases hv

theorem evalLets_stop {f : List Val → Lam → Option Res} :
    ∀ {es env r}, evalLets f env es = some (.stop r) → ∀ v, r ≠ .val v := by
  intro es
  induction es with
  | nil => intro env r h; cases h
  | cons e es ih =>
    intro env r h
    simp only [evalLets] at h
    cases hf : f env e with
    | none => rw [hf] at h; cases h
    | some q =>
      rw [hf] at h
      cases q with
      | val v => exact ih h
      | exn v => cases h; intro v hv; cases hv
      | fail => cases h; intro v hv; cases hv

theorem applyL_pend {n : Nat}
    (ih : ∀ env e q, eval n env e = some q → ∀ xs w, Pend q xs w → ∃ k, evalS k env e xs = some w) :
    ∀ vs g q, applyL (eval n) g vs = some q → ∀ xs w, Pend q xs w → w ≠ .fail →
      ∃ k, retL (evalS k) g (vs ++ xs) = some w := by
  intro vs
  induction vs with
  | nil =>
    intro g q h xs w hp hw
    cases h
    exact hp
  | cons x vs ihv =>
    intro g q h xs w hp hw
    simp only [applyL] at h
    simp only [List.cons_append, retL]
    cases ha : asClos g with
    | none => rw [ha] at h; cases h
    | some p =>
      obtain ⟨env, b⟩ := p
      rw [ha] at h
      simp only at h ⊢
      cases he : eval n (x :: env) b with
      | none => rw [he] at h; cases h
      | some u =>
        rw [he] at h
        cases u with
        | val u =>
          obtain ⟨k1, hk1⟩ := ihv _ _ h xs w hp hw
          obtain ⟨k2, hk2⟩ := ih _ _ _ he (vs ++ xs) w ⟨k1, hk1⟩
          refine ⟨k2, ?_⟩
          rw [hk2]
          cases w with
          | fail => exact absurd rfl hw
          | val v => rfl
          | exn v => rfl
        | exn v =>
          cases h
          cases hp
          obtain ⟨k2, hk2⟩ := ih _ _ _ he (vs ++ xs) _ rfl
          exact ⟨k2, by rw [hk2]⟩
        | fail => cases h

theorem retL_ne_fail {ev g xs} : retL ev g xs ≠ some .fail := by
  cases xs with
  | nil => intro h; cases h
  | cons x xs =>
    simp only [retL]
    cases asClos g with
    | none => intro h; cases h
    | some p =>
      simp only
      split
      · intro h; cases h
      · rename_i hh; exact hh

theorem applyL_ne_fail {ev : List Val → Lam → Option Res} :
    ∀ vs g, applyL ev g vs ≠ some .fail := by
  intro vs
  induction vs with
  | nil => intro g h; cases h
  | cons x vs ih =>
    intro g h
    simp only [applyL] at h
    split at h
    · split at h
      · exact ih _ h
      · cases h
      · cases h
    · cases h

theorem pend_ne_fail {q xs w} (hp : Pend q xs w) (hq : q ≠ .fail) : w ≠ .fail := by
  intro hw
  subst hw
  cases q with
  | val v => obtain ⟨m, hm⟩ := hp; exact retL_ne_fail hm
  | exn v => cases hp
  | fail => exact hq rfl

theorem evalB_pend {n : Nat}
    (ih : ∀ env e q, eval n env e = some q → ∀ xs w, Pend q xs w → ∃ k, evalS k env e xs = some w) :
    ∀ env e q, eval (n + 1) env e = some q → ∀ xs w, Pend q xs w →
    ∃ k, evalB (evalS k) env e xs = some w := by
    intro env e q h xs w hp
    have ihn : ∀ env e r, eval n env e = some r → ∃ k, evalS k env e [] = some r :=
      fun env e r h => ih env e r h [] r (pend_nil r)
    cases e with
    | var i =>
      obtain ⟨m, hm⟩ := pend_resL hp
      refine ⟨m, ?_⟩
      simp only [eval, evalB] at h ⊢
      rw [h]
      exact hm
    | const c =>
      cases h
      obtain ⟨m, hm⟩ := hp
      exact ⟨m, hm⟩
    | fn b =>
      cases h
      obtain ⟨m, hm⟩ := hp
      exact ⟨m, hm⟩
    | apply f args =>
      simp only [eval] at h
      cases h1 : evalRL (eval n env) args with
      | none => rw [h1] at h; cases h
      | some u =>
        rw [h1] at h
        obtain ⟨k1, hk1⟩ := evalRL_pend (env := env) (ihn env) _ _ h1
        cases u with
        | stop r =>
          cases h
          have := pend_stop hp (evalRL_stop h1)
          subst this
          exact ⟨k1, by simp only [evalB]; rw [hk1]⟩
        | vals vs =>
          simp only at h
          cases h2 : eval n env f with
          | none => rw [h2] at h; cases h
          | some u =>
            rw [h2] at h
            obtain ⟨k2, hk2⟩ := ihn _ _ _ h2
            cases u with
            | val g =>
              have hw : w ≠ .fail := by
                refine pend_ne_fail hp ?_
                intro hq
                subst hq
                exact applyL_ne_fail _ _ h
              obtain ⟨k3, hk3⟩ := applyL_pend ih vs g q h xs w hp hw
              refine ⟨k1 + k2 + k3, ?_⟩
              simp only [evalB]
              rw [evalRL_mono (fun e r => evalS_mono (by omega : k1 ≤ k1 + k2 + k3) env e [] r) _ _ hk1]
              simp only
              rw [evalS_mono (by omega : k2 ≤ k1 + k2 + k3) _ _ _ _ hk2]
              exact retL_mono (evalS_mono (by omega : k3 ≤ k1 + k2 + k3)) hk3
            | exn v =>
              cases h; cases hp
              refine ⟨k1 + k2, ?_⟩
              simp only [evalB]
              rw [evalRL_mono (fun e r => evalS_mono (by omega : k1 ≤ k1 + k2) env e [] r) _ _ hk1]
              simp only
              rw [evalS_mono (by omega : k2 ≤ k1 + k2) _ _ _ _ hk2]
            | fail =>
              cases h; cases hp
              refine ⟨k1 + k2, ?_⟩
              simp only [evalB]
              rw [evalRL_mono (fun e r => evalS_mono (by omega : k1 ≤ k1 + k2) env e [] r) _ _ hk1]
              simp only
              rw [evalS_mono (by omega : k2 ≤ k1 + k2) _ _ _ _ hk2]
    | lett args body =>
      simp only [eval] at h
      cases h1 : evalLets (eval n) env args with
      | none => rw [h1] at h; cases h
      | some u =>
        rw [h1] at h
        obtain ⟨k1, hk1⟩ := evalLets_pend ihn _ _ _ h1
        cases u with
        | stop r =>
          cases h
          have := pend_stop hp (evalLets_stop h1)
          subst this
          exact ⟨k1, by simp only [evalB]; rw [hk1]⟩
        | vals vs =>
          obtain ⟨k2, hk2⟩ := ih _ _ _ h xs w hp
          refine ⟨k1 + k2, ?_⟩
          simp only [evalB]
          rw [evalLets_mono (fun env e r => evalS_mono (by omega : k1 ≤ k1 + k2) env e [] r) _ _ _ hk1]
          exact evalS_mono (by omega : k2 ≤ k1 + k2) _ _ _ _ hk2
    | letrec fs body =>
      simp only [eval] at h
      split at h
      · rename_i hf
        obtain ⟨k, hk⟩ := ih _ _ _ h xs w hp
        exact ⟨k, by simp only [evalB]; rw [if_pos hf]; exact hk⟩
      · cases h
    | prim p args =>
      simp only [eval] at h
      cases h1 : evalLR (eval n env) args with
      | none => rw [h1] at h; cases h
      | some u =>
        rw [h1] at h
        obtain ⟨k1, hk1⟩ := evalLR_pend (env := env) (ihn env) _ _ h1
        cases u with
        | stop r =>
          cases h
          have := pend_stop hp (evalLR_stop h1)
          subst this
          exact ⟨k1, by simp only [evalB]; rw [hk1]⟩
        | vals vs =>
          obtain ⟨m, hm⟩ := pend_resL hp
          refine ⟨k1 + m, ?_⟩
          simp only [evalB]
          rw [evalLR_mono (fun e r => evalS_mono (by omega : k1 ≤ k1 + m) env e [] r) _ _ hk1]
          simp only at h ⊢
          rw [h]
          exact resL_mono (evalS_mono (by omega : m ≤ k1 + m)) hm
    | staticfail => cases h; cases hp; exact ⟨0, rfl⟩
    | statichandle a b =>
      simp only [eval] at h
      cases h1 : eval n env a with
      | none => rw [h1] at h; cases h
      | some u =>
        rw [h1] at h
        cases u with
        | fail =>
          obtain ⟨k1, hk1⟩ := ih _ _ _ h1 xs .fail rfl
          obtain ⟨k2, hk2⟩ := ih _ _ _ h xs w hp
          refine ⟨k1 + k2, ?_⟩
          simp only [evalB]
          rw [evalS_mono (by omega : k1 ≤ k1 + k2) _ _ _ _ hk1]
          exact evalS_mono (by omega : k2 ≤ k1 + k2) _ _ _ _ hk2
        | val v =>
          cases h
          have hw := pend_ne_fail hp (by intro hh; cases hh)
          obtain ⟨k1, hk1⟩ := ih _ _ _ h1 xs w hp
          refine ⟨k1, ?_⟩
          simp only [evalB]
          rw [hk1]
          cases w with
          | fail => exact absurd rfl hw
          | val v => rfl
          | exn v => rfl
        | exn v =>
          cases h; cases hp
          obtain ⟨k1, hk1⟩ := ih _ _ _ h1 xs _ rfl
          exact ⟨k1, by simp only [evalB]; rw [hk1]⟩
    | handle a b =>
      simp only [eval] at h
      cases h1 : eval n env a with
      | none => rw [h1] at h; cases h
      | some u =>
        rw [h1] at h
        obtain ⟨k1, hk1⟩ := ihn _ _ _ h1
        cases u with
        | exn v =>
          obtain ⟨k2, hk2⟩ := ih _ _ _ h xs w hp
          refine ⟨k1 + k2, ?_⟩
          simp only [evalB]
          rw [evalS_mono (by omega : k1 ≤ k1 + k2) _ _ _ _ hk1]
          exact evalS_mono (by omega : k2 ≤ k1 + k2) _ _ _ _ hk2
        | val v =>
          cases h
          obtain ⟨m, hm⟩ := hp
          refine ⟨k1 + m, ?_⟩
          simp only [evalB]
          rw [evalS_mono (by omega : k1 ≤ k1 + m) _ _ _ _ hk1]
          exact retL_mono (evalS_mono (by omega : m ≤ k1 + m)) hm
        | fail =>
          cases h; cases hp
          exact ⟨k1, by simp only [evalB]; rw [hk1]; rfl⟩
    | cond c a b =>
      simp only [eval] at h
      cases h1 : eval n env c with
      | none => rw [h1] at h; cases h
      | some u =>
        rw [h1] at h
        obtain ⟨k1, hk1⟩ := ihn _ _ _ h1
        cases u with
        | val v =>
          simp only at h
          cases h2 : truth v with
          | none => rw [h2] at h; cases h
          | some t =>
            rw [h2] at h
            cases t
            all_goals
              obtain ⟨k2, hk2⟩ := ih _ _ _ h xs w hp
              refine ⟨k1 + k2, ?_⟩
              simp only [evalB]
              rw [evalS_mono (by omega : k1 ≤ k1 + k2) _ _ _ _ hk1]
              simp only
              rw [h2]
              exact evalS_mono (by omega : k2 ≤ k1 + k2) _ _ _ _ hk2
        | exn v => cases h; cases hp; exact ⟨k1, by simp only [evalB]; rw [hk1]⟩
        | fail => cases h; cases hp; exact ⟨k1, by simp only [evalB]; rw [hk1]⟩
    | seq a b =>
      simp only [eval] at h
      cases h1 : eval n env a with
      | none => rw [h1] at h; cases h
      | some u =>
        rw [h1] at h
        obtain ⟨k1, hk1⟩ := ihn _ _ _ h1
        cases u with
        | val v =>
          obtain ⟨k2, hk2⟩ := ih _ _ _ h xs w hp
          refine ⟨k1 + k2, ?_⟩
          simp only [evalB]
          rw [evalS_mono (by omega : k1 ≤ k1 + k2) _ _ _ _ hk1]
          exact evalS_mono (by omega : k2 ≤ k1 + k2) _ _ _ _ hk2
        | exn v => cases h; cases hp; exact ⟨k1, by simp only [evalB]; rw [hk1]⟩
        | fail => cases h; cases hp; exact ⟨k1, by simp only [evalB]; rw [hk1]⟩
    | andalso a b =>
      simp only [eval] at h
      cases h1 : eval n env a with
      | none => rw [h1] at h; cases h
      | some u =>
        rw [h1] at h
        obtain ⟨k1, hk1⟩ := ihn _ _ _ h1
        cases u with
        | val v =>
          simp only at h
          cases h2 : truth v with
          | none => rw [h2] at h; cases h
          | some t =>
            rw [h2] at h
            cases t
            · cases h
              obtain ⟨m, hm⟩ := hp
              refine ⟨k1 + m, ?_⟩
              simp only [evalB]
              rw [evalS_mono (by omega : k1 ≤ k1 + m) _ _ _ _ hk1]
              simp only
              rw [h2]
              exact retL_mono (evalS_mono (by omega : m ≤ k1 + m)) hm
            · obtain ⟨k2, hk2⟩ := ih _ _ _ h xs w hp
              refine ⟨k1 + k2, ?_⟩
              simp only [evalB]
              rw [evalS_mono (by omega : k1 ≤ k1 + k2) _ _ _ _ hk1]
              simp only
              rw [h2]
              exact evalS_mono (by omega : k2 ≤ k1 + k2) _ _ _ _ hk2
        | exn v => cases h; cases hp; exact ⟨k1, by simp only [evalB]; rw [hk1]⟩
        | fail => cases h; cases hp; exact ⟨k1, by simp only [evalB]; rw [hk1]⟩
    | orelse a b =>
      simp only [eval] at h
      cases h1 : eval n env a with
      | none => rw [h1] at h; cases h
      | some u =>
        rw [h1] at h
        obtain ⟨k1, hk1⟩ := ihn _ _ _ h1
        cases u with
        | val v =>
          simp only at h
          cases h2 : truth v with
          | none => rw [h2] at h; cases h
          | some t =>
            rw [h2] at h
            cases t
            · obtain ⟨k2, hk2⟩ := ih _ _ _ h xs w hp
              refine ⟨k1 + k2, ?_⟩
              simp only [evalB]
              rw [evalS_mono (by omega : k1 ≤ k1 + k2) _ _ _ _ hk1]
              simp only
              rw [h2]
              exact evalS_mono (by omega : k2 ≤ k1 + k2) _ _ _ _ hk2
            · cases h
              obtain ⟨m, hm⟩ := hp
              refine ⟨k1 + m, ?_⟩
              simp only [evalB]
              rw [evalS_mono (by omega : k1 ≤ k1 + m) _ _ _ _ hk1]
              simp only
              rw [h2]
              exact retL_mono (evalS_mono (by omega : m ≤ k1 + m)) hm
        | exn v => cases h; cases hp; exact ⟨k1, by simp only [evalB]; rw [hk1]⟩
        | fail => cases h; cases hp; exact ⟨k1, by simp only [evalB]; rw [hk1]⟩

theorem idOf_eval {n env e a q} (hid : idOf e = some a) (h : eval (n + 1) env e = some q) :
    eval n env a = some q := by
  unfold idOf at hid
  split at hid
  · cases hid
    simp only [eval, evalLR] at h
    cases h1 : eval n env a with
    | none => rw [h1] at h; cases h
    | some u =>
      rw [h1] at h
      cases u with
      | val v => simpa [primSem] using h
      | exn v => simpa using h
      | fail => simpa using h
  · cases hid
    simp only [eval, evalLets] at h
    cases h1 : eval n env a with
    | none => rw [h1] at h; cases h
    | some u =>
      rw [h1] at h
      cases u with
      | val v =>
        simp only at h
        match n with
        | 0 => cases h
        | 1 => simp only [eval, evalLR] at h; cases h
        | n + 2 =>
          simp only [eval, evalLR, lookup] at h
          simpa [primSem] using h
      | exn v => simpa using h
      | fail => simpa using h
  · cases hid

theorem eval_pend : ∀ n env e q, eval n env e = some q → ∀ xs w, Pend q xs w →
    ∃ k, evalS k env e xs = some w := by
  intro n
  induction n with
  | zero => intro env e q h; cases h
  | succ n ih =>
    intro env e q h xs w hp
    cases hid : idOf e with
    | some a =>
      obtain ⟨k, hk⟩ := ih _ _ _ (idOf_eval hid h) xs w hp
      exact ⟨k + 1, by simp only [evalS, hid]; exact hk⟩
    | none =>
      obtain ⟨k, hk⟩ := evalB_pend ih _ _ _ h xs w hp
      exact ⟨k + 1, by simp only [evalS, hid]; exact hk⟩

/-- The two semantics agree. -/
theorem eval_evalS {n env e q} (h : eval n env e = some q) : ∃ k, evalS k env e [] = some q :=
  eval_pend n env e q h [] q (pend_nil q)

end Mosml.Zam
