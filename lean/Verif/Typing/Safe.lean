import Verif.Typing.Spec

/-!
# Programs typed by `Typ` do not go wrong
-/

namespace Mosml.Typing

/-- `VT Sg v t`: the value has the type, when the references have the types `Sg`. -/
inductive VT (Sg : List GTy) : Val → GTy → Prop
  | int (z) : VT Sg (.int z) gInt
  | bool (b) : VT Sg (.bool b) gBool
  | con0 (k a) : conArgG a k = none → VT Sg (.con0 k) (conResG a k)
  | con (k a b v) : conArgG a k = some b → VT Sg v b → VT Sg (.con k v) (conResG a k)
  | conf (k a b) : conArgG a k = some b → VT Sg (.conf k) (.arrow b (conResG a k))
  | prim (p a) : VT Sg (.prim p) (primG a p)
  | loc (n a) : Sg[n]? = some a → VT Sg (.loc n) (gRef a)
  | rcd (vs f) (w : Nat → Val) : (∀ l t, f l = some t → vlook l vs = some (w l)) →
      (∀ l t, f l = some t → VT Sg (w l) t) → VT Sg (.rcd vs) (.rcd f)
  | clos (env rs G a b) (w : Nat → Val) : (∀ x P, look x G = some P → vlook x env = some (w x)) →
      (∀ x P t, look x G = some P → P t → VT Sg (w x) t) → rs.isRules = true →
      Typ G rs (.arrow a b) →
      VT Sg (.clos env rs) (.arrow a b)
  | rclos (env f rs G a b) (w : Nat → Val) :
      (∀ x P, look x G = some P → vlook x env = some (w x)) →
      (∀ x P t, look x G = some P → P t → VT Sg (w x) t) →
      rs.isRules = true → Typ ((f, fun t => t = .arrow a b) :: G) rs (.arrow a b) →
      VT Sg (.rclos env f rs) (.arrow a b)
  | nil : VT Sg .nil .nil
  | bind (l v vs t ts) : VT Sg v t → VT Sg vs ts → VT Sg (.bind l v vs) (.cons t ts)

def EnvOk (Sg : List GTy) (env : Val) (G : Ctx) : Prop :=
  ∀ x P, look x G = some P → ∃ v, vlook x env = some v ∧ ∀ t, P t → VT Sg v t

theorem EnvOk.choose {Sg : List GTy} {env : Val} {G : Ctx} (h : EnvOk Sg env G) :
    ∃ w : Nat → Val, (∀ x P, look x G = some P → vlook x env = some (w x)) ∧
      (∀ x P t, look x G = some P → P t → VT Sg (w x) t) := by
  refine ⟨fun x => (vlook x env).getD .nil, ?_, ?_⟩
  · intro x P hx
    obtain ⟨v, hv, -⟩ := h x P hx
    simp [hv]
  · intro x P t hx ht
    obtain ⟨v, hv, hP⟩ := h x P hx
    simp only [hv, Option.getD_some]
    exact hP t ht

theorem VT.clos' {Sg : List GTy} {env : Val} {G : Ctx} {rs : Exp} {a b : GTy}
    (h : EnvOk Sg env G) (hr : rs.isRules = true) (ht : Typ G rs (.arrow a b)) : VT Sg (.clos env rs) (.arrow a b) := by
  obtain ⟨w, h1, h2⟩ := h.choose
  exact .clos env rs G a b w h1 h2 hr ht

theorem VT.rclos' {Sg : List GTy} {env : Val} {f : Nat} {G : Ctx} {rs : Exp} {a b : GTy}
    (h : EnvOk Sg env G) (hr : rs.isRules = true) (ht : Typ ((f, fun t => t = .arrow a b) :: G) rs (.arrow a b)) :
    VT Sg (.rclos env f rs) (.arrow a b) := by
  obtain ⟨w, h1, h2⟩ := h.choose
  exact .rclos env f rs G a b w h1 h2 hr ht

theorem VT.mono {Sg Sg' : List GTy} (hp : Sg <+: Sg') {v : Val} {t : GTy} (h : VT Sg v t) :
    VT Sg' v t := by
  induction h with
  | int z => exact .int z
  | bool b => exact .bool b
  | con0 k a h => exact .con0 k a h
  | con k a b v h _ ih => exact .con k a b v h ih
  | conf k a b h => exact .conf k a b h
  | prim p a => exact .prim p a
  | loc n a h =>
    obtain ⟨l, rfl⟩ := hp
    exact .loc n a (by
      rw [List.getElem?_append_left (List.getElem?_eq_some_iff.1 h).1]; exact h)
  | rcd vs f w h1 _ ih => exact .rcd vs f w h1 ih
  | clos env rs G a b w h1 _ hr h3 ih => exact .clos env rs G a b w h1 ih hr h3
  | rclos env f rs G a b w h1 _ hr h3 ih => exact .rclos env f rs G a b w h1 ih hr h3
  | nil => exact .nil
  | bind l v vs t ts _ _ ih1 ih2 => exact .bind l v vs t ts ih1 ih2

theorem EnvOk.mono {Sg Sg' : List GTy} (hp : Sg <+: Sg') {env : Val} {G : Ctx}
    (h : EnvOk Sg env G) : EnvOk Sg' env G := by
  intro x P hx
  obtain ⟨v, hv, hP⟩ := h x P hx
  exact ⟨v, hv, fun t ht => (hP t ht).mono hp⟩

theorem EnvOk.bind {Sg : List GTy} {env : Val} {G : Ctx} (h : EnvOk Sg env G) (x : Nat)
    {v : Val} {P : GTy → Prop} (hv : ∀ t, P t → VT Sg v t) :
    EnvOk Sg (.bind x v env) ((x, P) :: G) := by
  intro y Q hy
  simp only [look] at hy
  simp only [vlook]
  split
  · next e =>
    rw [if_pos e] at hy
    obtain rfl := Option.some.inj hy
    exact ⟨v, rfl, hv⟩
  · next e =>
    rw [if_neg e] at hy
    exact h y Q hy

def StOk (Sg : List GTy) (st : List Val) : Prop :=
  st.length = Sg.length ∧ ∀ (n : Nat) v t, st[n]? = some v → Sg[n]? = some t → VT Sg v t

def vlabels : Val → List Nat
  | .bind l _ r => l :: vlabels r
  | _ => []

theorem chain_look {Sg : List GTy} {l : Nat} {t : GTy} : ∀ (L : List Nat) (vs : Val) (ts : GTy),
    VT Sg vs ts → L <+: vlabels vs → zipLook L ts l = some t →
      ∃ v, vlook l vs = some v ∧ VT Sg v t
  | [], vs, ts, _, _, h => by simp [zipLook] at h
  | x :: L, vs, ts, hv, hp, h => by
    cases ts with
    | cons u us =>
      cases vs with
      | bind y v r =>
        cases hv with
        | bind _ _ _ _ _ h1 h2 =>
        simp only [vlabels, List.cons_prefix_cons] at hp
        obtain ⟨rfl, hp⟩ := hp
        simp only [zipLook] at h
        simp only [vlook]
        by_cases e : l = x
        · subst e
          rw [if_pos rfl] at h
          rw [if_pos rfl]
          exact ⟨v, rfl, Option.some.inj h ▸ h1⟩
        · rw [if_neg e] at h
          rw [if_neg (Ne.symm e)]
          exact chain_look L r us h2 hp h
      | _ => simp [vlabels] at hp
    | _ => simp [zipLook] at h


theorem gcon_inj {c d : Nat} {a b : GTy} (h : GTy.con c a = .con d b) : c = d := by
  cases h; rfl

/-- A value of a datatype. -/
theorem VT.data_inv {Sg : List GTy} {v : Val} {t : GTy} (h : VT Sg v t) (k : Con) (a : GTy)
    (ht : t = conResG a k) :
    (∃ j, v = .con0 j ∧ sameData k j = true ∧ conArgG a j = none) ∨
    (∃ j w b, v = .con j w ∧ sameData k j = true ∧ conArgG a j = some b ∧ VT Sg w b) := by
  cases h with
  | con0 j b hb =>
    left
    refine ⟨j, rfl, ?_⟩
    cases k <;> cases j <;> simp [conResG, gOpt, gList, conArgG, sameData] at ht hb ⊢
  | con j b c w hb hw =>
    right
    refine ⟨j, w, c, rfl, ?_⟩
    cases k <;> cases j <;> simp [conResG, gOpt, gList, conArgG, sameData] at ht hb ⊢ <;>
      subst ht <;> simp_all
  | prim p b => cases k <;> cases p <;> simp [conResG, gOpt, gList, primG] at ht
  | _ => cases k <;> simp_all [conResG, gOpt, gList, gInt, gBool, gRef]

/-- Matching is safe and yields an environment of the right types. -/
theorem pmatch_ok {p : Pat} {t : GTy} {D D' : List (Nat × GTy)} (h : PTyp p t D D') :
    ∀ {Sg : List GTy} {v env : Val} {G : Ctx}, EnvOk Sg env (monoG D ++ G) → VT Sg v t →
      match pmatch p v env with
      | .ok env' => EnvOk Sg env' (monoG D' ++ G)
      | .no => True
      | .wrong => False := by
  induction h with
  | var x t D _ =>
    intro Sg v env G he hv
    exact he.bind x (fun u hu => hu ▸ hv)
  | wild t D => intro Sg v env G he hv; exact he
  | int z D =>
    intro Sg v env G he hv
    generalize ht : gInt = t at hv
    cases hv with
    | int y => by_cases e : z = y <;> simp [pmatch, e, he]
    | con0 k a _ => cases k <;> simp [gInt, conResG, gOpt, gList] at ht
    | con k a b v _ _ => cases k <;> simp [gInt, conResG, gOpt, gList] at ht
    | prim p a => cases p <;> simp [gInt, primG] at ht
    | _ => simp_all [gInt, gBool, gRef]
  | bool b D =>
    intro Sg v env G he hv
    generalize ht : gBool = t at hv
    cases hv with
    | bool y => by_cases e : b = y <;> simp [pmatch, e, he]
    | con0 k a _ => cases k <;> simp [gBool, conResG, gOpt, gList] at ht
    | con k a b v _ _ => cases k <;> simp [gBool, conResG, gOpt, gList] at ht
    | prim p a => cases p <;> simp [gBool, primG] at ht
    | _ => simp_all [gInt, gBool, gRef]
  | as x p t D D' _ _ ih =>
    intro Sg v env G he hv
    simp only [pmatch]
    exact ih (he.bind x (fun u hu => hu ▸ hv)) hv
  | con0 k a D hk =>
    intro Sg v env G he hv
    rcases hv.data_inv k a rfl with ⟨j, rfl, hs, -⟩ | ⟨j, w, b, rfl, hs, -⟩
    · by_cases e : k = j
      · simp only [pmatch, e]
        have : sameData j j = true := e ▸ hs
        simp [this, he]
      · simp [pmatch, hs, e]
    · simp only [pmatch, hs, if_true]
  | con k a b p D D' hk _ ih =>
    intro Sg v env G he hv
    rcases hv.data_inv k a rfl with ⟨j, rfl, hs, -⟩ | ⟨j, w, c, rfl, hs, hj, hw⟩
    · simp only [pmatch, hs, if_true]
    · simp only [pmatch, hs, if_true]
      by_cases e : k = j
      · subst e
        rw [hk] at hj
        obtain rfl := Option.some.inj hj
        rw [if_pos rfl]
        exact ih he hw
      · rw [if_neg e]; trivial
  | rcd fs dots f D D' _ _ _ _ ih =>
    intro Sg v env G he hv
    generalize ht : GTy.rcd f = t at hv
    cases hv with
    | rcd vs g w h1 h2 =>
      simp only [pmatch]
      exact ih he (ht ▸ .rcd vs g w h1 h2)
    | con0 k a _ => cases k <;> simp [conResG, gOpt, gList] at ht
    | con k a b v _ _ => cases k <;> simp [conResG, gOpt, gList] at ht
    | prim p a => cases p <;> simp [primG] at ht
    | _ => simp_all [gInt, gBool, gRef]
  | fnil f D =>
    intro Sg v env G he hv
    generalize ht : GTy.rcd f = t at hv
    cases hv with
    | rcd vs g w h1 h2 => exact he
    | con0 k a _ => cases k <;> simp [conResG, gOpt, gList] at ht
    | con k a b v _ _ => cases k <;> simp [conResG, gOpt, gList] at ht
    | prim p a => cases p <;> simp [primG] at ht
    | _ => simp_all [gInt, gBool, gRef]
  | fcons l p r f t D D' D'' hl _ _ ih1 ih2 =>
    intro Sg v env G he hv
    generalize ht : GTy.rcd f = t' at hv
    cases hv with
    | rcd vs g w h1 h2 =>
      cases ht
      simp only [pmatch, h1 l t hl]
      have := ih1 he (h2 l t hl)
      revert this
      cases pmatch p (w l) env with
      | ok env' => exact fun this => ih2 this (.rcd vs f w h1 h2)
      | no => exact fun _ => trivial
      | wrong => exact fun h => h
    | con0 k a _ => cases k <;> simp [conResG, gOpt, gList] at ht
    | con k a b v _ _ => cases k <;> simp [conResG, gOpt, gList] at ht
    | prim p a => cases p <;> simp [primG] at ht
    | _ => simp_all [gInt, gBool, gRef]

/-- What evaluation of an expression of a type may end in. -/
def OutOk (Sg : List GTy) (o : Out) (t : GTy) : Prop :=
  match o with
  | .val v st => ∃ Sg', Sg <+: Sg' ∧ StOk Sg' st ∧ VT Sg' v t
  | .wrong => False
  | _ => True

theorem OutOk.then {Sg : List GTy} {o : Out} {t u : GTy} {f : Val → List Val → Out}
    (h : OutOk Sg o t)
    (hf : ∀ v st Sg', Sg <+: Sg' → StOk Sg' st → VT Sg' v t → OutOk Sg' (f v st) u) :
    OutOk Sg (o.then f) u := by
  cases o with
  | val v st =>
    obtain ⟨Sg', hp, hs, hv⟩ := h
    have := hf v st Sg' hp hs hv
    simp only [Out.then]
    revert this
    cases f v st with
    | val w st' =>
      rintro ⟨Sg'', hp', hs', hw⟩
      exact ⟨Sg'', hp.trans hp', hs', hw⟩
    | _ => exact fun h => h
  | wrong => exact h
  | _ => trivial

/-- Evaluation of an expression that is not expansive creates and changes no reference. -/
theorem eval_pure : ∀ (n : Nat) (env : Val) (e : Exp) (st : List Val) (v : Val) (st' : List Val),
    isExpansive e = false → eval n env e st = .val v st' → st' = st := by
  intro n
  induction n with
  | zero => intro env e st v st' _ h; simp [eval] at h
  | succ n ih =>
    intro env e st v st' he h
    cases e with
    | int z => simp [eval] at h; exact h.2.symm
    | bool z => simp [eval] at h; exact h.2.symm
    | var x =>
      simp only [eval] at h
      cases hx : vlook x env with
      | none => simp [hx] at h
      | some w => simp [hx] at h; exact h.2.symm
    | prim z => simp [eval] at h; exact h.2.symm
    | con z => simp [eval] at h; exact h.2.symm
    | fn z => simp [eval] at h; exact h.2.symm
    | app f a =>
      cases f with
      | con k =>
        simp only [isExpansive] at he
        simp only [eval] at h
        cases n with
        | zero => simp [eval, Out.then] at h
        | succ n =>
          have hc : eval (n + 1) env (.con k) st
              = .val (if k.unary then .conf k else .con0 k) st := rfl
          rw [hc] at h
          simp only [Out.then] at h
          cases ha : eval (n + 1) env a st with
          | val w st1 =>
            have e1 := ih env a st w st1 he ha
            simp only [ha] at h
            cases k <;> simp [apply, Con.unary] at h <;> rw [← h.2, e1]
          | _ => simp [ha] at h
      | _ => simp [isExpansive] at he
    | rcd fs =>
      simp only [isExpansive] at he
      simp only [eval, Out.then] at h
      cases ha : eval n env fs st with
      | val w st1 =>
        have e1 := ih env fs st w st1 he ha
        simp only [ha] at h
        simp at h
        rw [← h.2, e1]
      | _ => simp [ha] at h
    | fnil => simp [eval] at h; exact h.2.symm
    | fcons l e r =>
      simp only [isExpansive, Bool.or_eq_false_iff] at he
      simp only [eval, Out.then] at h
      cases ha : eval n env e st with
      | val w st1 =>
        have e1 := ih env e st w st1 he.1 ha
        simp only [ha] at h
        cases hb : eval n env r st1 with
        | val w2 st2 =>
          have e2 := ih env r st1 w2 st2 he.2 hb
          simp only [hb] at h
          simp at h
          rw [← h.2, e2, e1]
        | _ => simp [hb] at h
      | _ => simp [ha] at h
    | _ => simp [isExpansive] at he

/-- The fields of the value of a chain of fields. -/
theorem eval_labels : ∀ (n : Nat) (env : Val) (e : Exp) (st : List Val) (v : Val)
    (st' : List Val), eval n env e st = .val v st' → e.labels <+: vlabels v := by
  intro n
  induction n with
  | zero => intro env e st v st' h; simp [eval] at h
  | succ n ih =>
    intro env e st v st' h
    cases e with
    | fcons l e r =>
      simp only [eval, Out.then] at h
      cases ha : eval n env e st with
      | val w st1 =>
        simp only [ha] at h
        cases hb : eval n env r st1 with
        | val w2 st2 =>
          simp only [hb] at h
          simp at h
          rw [← h.1]
          simp only [Exp.labels, vlabels, List.cons_prefix_cons, true_and]
          exact ih env r st1 w2 st2 hb
        | _ => simp [hb] at h
      | _ => simp [ha] at h
    | _ => exact List.nil_prefix

theorem VT.rcd_inv {Sg : List GTy} {v : Val} {f : Nat → Option GTy} (h : VT Sg v (.rcd f)) :
    ∃ vs, v = .rcd vs ∧ ∀ l t, f l = some t → ∃ w, vlook l vs = some w ∧ VT Sg w t := by
  generalize ht : GTy.rcd f = t at h
  cases h with
  | rcd vs g w h1 h2 =>
    cases ht
    exact ⟨vs, rfl, fun l t hl => ⟨w l, h1 l t hl, h2 l t hl⟩⟩
  | con0 k a _ => cases k <;> simp [conResG, gOpt, gList] at ht
  | con k a b v _ _ => cases k <;> simp [conResG, gOpt, gList] at ht
  | prim p a => cases p <;> simp [primG] at ht
  | _ => simp_all [gInt, gBool, gRef]

theorem VT.ref_inv {Sg : List GTy} {v : Val} {a : GTy} (h : VT Sg v (gRef a)) :
    ∃ n : Nat, v = .loc n ∧ Sg[n]? = some a := by
  generalize ht : gRef a = t at h
  cases h with
  | loc n b hb =>
    simp [gRef] at ht
    subst ht
    exact ⟨n, rfl, hb⟩
  | con0 k a _ => cases k <;> simp [conResG, gOpt, gList, gRef] at ht
  | con k a b v _ _ => cases k <;> simp [conResG, gOpt, gList, gRef] at ht
  | prim p a => cases p <;> simp [primG, gRef] at ht
  | _ => simp_all [gInt, gBool, gRef]

theorem VT.int_inv {Sg : List GTy} {v : Val} (h : VT Sg v gInt) : ∃ z, v = .int z := by
  generalize ht : gInt = t at h
  cases h with
  | int z => exact ⟨z, rfl⟩
  | con0 k a _ => cases k <;> simp [conResG, gOpt, gList, gInt] at ht
  | con k a b v _ _ => cases k <;> simp [conResG, gOpt, gList, gInt] at ht
  | prim p a => cases p <;> simp [primG, gInt] at ht
  | _ => simp_all [gInt, gBool, gRef]

theorem VT.bool_inv {Sg : List GTy} {v : Val} (h : VT Sg v gBool) : ∃ b, v = .bool b := by
  generalize ht : gBool = t at h
  cases h with
  | bool z => exact ⟨z, rfl⟩
  | con0 k a _ => cases k <;> simp [conResG, gOpt, gList, gBool] at ht
  | con k a b v _ _ => cases k <;> simp [conResG, gOpt, gList, gBool] at ht
  | prim p a => cases p <;> simp [primG, gBool] at ht
  | _ => simp_all [gInt, gBool, gRef]

theorem tryRules_ok {ev : Val → Exp → List Val → Out}
    (hev : ∀ env e st G t Sg, Typ G e t → EnvOk Sg env G → StOk Sg st → OutOk Sg (ev env e st) t)
    {Sg : List GTy} {env v : Val} {st : List Val} {G : Ctx} {a b : GTy}
    (he : EnvOk Sg env G) (hs : StOk Sg st) (hv : VT Sg v a) :
    ∀ rs : Exp, rs.isRules = true → Typ G rs (.arrow a b) →
      OutOk Sg (tryRules ev env rs v st) b := by
  intro rs
  induction rs with
  | rnil => intro _ _; trivial
  | rule p e rest _ ih =>
    intro hr ht
    simp only [Exp.isRules] at hr
    generalize htt : GTy.arrow a b = t at ht
    cases ht with
    | rule _ _ _ _ a' b' D hp hb hrest =>
      cases htt
      simp only [tryRules]
      have := pmatch_ok hp (G := G) (Sg := Sg) (env := env) (v := v) he hv
      revert this
      cases pmatch p v env with
      | ok env' => exact fun h => hev env' e st _ b Sg hb h hs
      | no => exact fun _ => ih hr hrest
      | wrong => exact fun h => h
  | _ => intro hr; simp [Exp.isRules] at hr

theorem StOk.set {Sg : List GTy} {st : List Val} {n : Nat} {w : Val} {t : GTy} (h : StOk Sg st)
    (hn : Sg[n]? = some t) (hw : VT Sg w t) : StOk Sg (st.set n w) := by
  refine ⟨by simpa using h.1, ?_⟩
  intro i v u hi hu
  rw [List.getElem?_set] at hi
  split at hi
  · next e =>
    subst e
    split at hi
    · rw [hn] at hu
      obtain rfl := Option.some.inj hu
      obtain rfl := Option.some.inj hi
      exact hw
    · simp at hi
  · exact h.2 i v u hi hu

theorem StOk.push {Sg : List GTy} {st : List Val} {w : Val} {t : GTy} (h : StOk Sg st)
    (hw : VT Sg w t) : StOk (Sg ++ [t]) (st ++ [w]) := by
  refine ⟨by simp [h.1], ?_⟩
  intro i v u hi hu
  have hp : Sg <+: Sg ++ [t] := List.prefix_append _ _
  by_cases e : i < st.length
  · rw [List.getElem?_append_left e] at hi
    rw [List.getElem?_append_left (h.1 ▸ e)] at hu
    exact (h.2 i v u hi hu).mono hp
  · rw [List.getElem?_append_right (by omega)] at hi
    rw [List.getElem?_append_right (by have := h.1; omega)] at hu
    have e1 := (List.getElem?_eq_some_iff.1 hi).1
    simp at e1
    have e2 : i - st.length = 0 := by omega
    have e3 : i - Sg.length = 0 := by have := h.1; omega
    rw [e2] at hi
    rw [e3] at hu
    simp at hi hu
    subst hi
    subst hu
    exact hw.mono hp

theorem apply_ok {ev : Val → Exp → List Val → Out}
    (hev : ∀ env e st G t Sg, Typ G e t → EnvOk Sg env G → StOk Sg st → OutOk Sg (ev env e st) t)
    {Sg : List GTy} {f v : Val} {st : List Val} {a b : GTy}
    (hs : StOk Sg st) (hf : VT Sg f (.arrow a b)) (hv : VT Sg v a) :
    OutOk Sg (apply ev f v st) b := by
  generalize ht : GTy.arrow a b = t at hf
  cases hf with
  | clos env rs G a' b' w h1 h2 hr htr =>
    cases ht
    exact tryRules_ok hev (fun x P hx => ⟨w x, h1 x P hx, fun t ht => h2 x P t hx ht⟩) hs hv rs hr
      htr
  | rclos env g rs G a' b' w h1 h2 hr htr =>
    cases ht
    have he : EnvOk Sg env G := fun x P hx => ⟨w x, h1 x P hx, fun t ht => h2 x P t hx ht⟩
    exact tryRules_ok hev (he.bind g (fun u hu => hu ▸ VT.rclos env g rs G a b w h1 h2 hr htr))
      hs hv rs hr htr
  | conf k c d hd =>
    cases ht
    exact ⟨Sg, List.prefix_rfl, hs, .con k c a v hd hv⟩
  | con0 k a _ => cases k <;> simp [conResG, gOpt, gList] at ht
  | con k a b v _ _ => cases k <;> simp [conResG, gOpt, gList] at ht
  | prim p c =>
    cases p with
    | ref =>
      simp only [primG, GTy.arrow.injEq] at ht
      obtain ⟨rfl, rfl⟩ := ht
      refine ⟨Sg ++ [a], List.prefix_append _ _, hs.push hv, .loc _ _ ?_⟩
      rw [hs.1]
      simp
    | deref =>
      simp only [primG, GTy.arrow.injEq] at ht
      obtain ⟨rfl, rfl⟩ := ht
      obtain ⟨n, rfl, hn⟩ := hv.ref_inv
      simp only [apply]
      have e1 := (List.getElem?_eq_some_iff.1 hn).1
      rw [← hs.1] at e1
      simp only [List.getElem?_eq_getElem e1]
      exact ⟨Sg, List.prefix_rfl, hs, hs.2 n _ _ (List.getElem?_eq_getElem e1) hn⟩
    | assign =>
      simp only [primG, GTy.arrow.injEq] at ht
      obtain ⟨rfl, rfl⟩ := ht
      obtain ⟨vs, rfl, hvs⟩ := hv.rcd_inv
      obtain ⟨w1, e1, hw1⟩ := hvs 1 (gRef c) (by simp)
      obtain ⟨w2, e2, hw2⟩ := hvs 2 c (by simp)
      obtain ⟨n, rfl, hn⟩ := hw1.ref_inv
      have en := (List.getElem?_eq_some_iff.1 hn).1
      rw [← hs.1] at en
      simp only [apply, e1, e2, if_pos en]
      exact ⟨Sg, List.prefix_rfl, hs.set hn hw2, .rcd _ _ (fun _ => .nil) (by simp) (by simp)⟩
    | add =>
      simp only [primG, GTy.arrow.injEq] at ht
      obtain ⟨rfl, rfl⟩ := ht
      obtain ⟨vs, rfl, hvs⟩ := hv.rcd_inv
      obtain ⟨w1, e1, hw1⟩ := hvs 1 gInt (by simp)
      obtain ⟨w2, e2, hw2⟩ := hvs 2 gInt (by simp)
      obtain ⟨z1, rfl⟩ := hw1.int_inv
      obtain ⟨z2, rfl⟩ := hw2.int_inv
      simp only [apply, e1, e2]
      exact ⟨Sg, List.prefix_rfl, hs, .int _⟩
  | _ => simp_all [gInt, gBool, gRef]

/-- Evaluation of a typed expression does not go wrong, and a value it yields has the type. -/
theorem eval_ok : ∀ (n : Nat) (env : Val) (e : Exp) (st : List Val) (G : Ctx) (t : GTy)
    (Sg : List GTy), Typ G e t → EnvOk Sg env G → StOk Sg st → OutOk Sg (eval n env e st) t := by
  intro n
  induction n with
  | zero => intros; trivial
  | succ n ih =>
    intro env e st G t Sg ht he hs
    cases ht with
    | int _ z => exact ⟨Sg, List.prefix_rfl, hs, .int z⟩
    | bool _ z => exact ⟨Sg, List.prefix_rfl, hs, .bool z⟩
    | var _ x P _ hx hP =>
      obtain ⟨v, hv, h⟩ := he x P hx
      simp only [eval, hv]
      exact ⟨Sg, List.prefix_rfl, hs, h t hP⟩
    | prim _ p a => exact ⟨Sg, List.prefix_rfl, hs, .prim p a⟩
    | con _ k a =>
      refine ⟨Sg, List.prefix_rfl, hs, ?_⟩
      cases k with
      | none => exact .con0 .none a rfl
      | some => exact .conf .some a a rfl
      | nil => exact .con0 .nil a rfl
      | cons => exact .conf .cons a _ rfl
    | fn _ rs a b hr h => exact ⟨Sg, List.prefix_rfl, hs, .clos' he hr h⟩
    | rnil => trivial
    | rule => trivial
    | app _ f a t u hf ha =>
      simp only [eval]
      refine (ih env f st G _ Sg hf he hs).then fun vf st1 Sg1 hp1 hs1 hvf => ?_
      refine (ih env a st1 G _ Sg1 ha (he.mono hp1) hs1).then fun va st2 Sg2 hp2 hs2 hva => ?_
      exact apply_ok ih hs2 (hvf.mono hp2) hva
    | rcd _ fs ts _ hfs =>
      simp only [eval]
      have h0 := ih env fs st G _ Sg hfs he hs
      cases hv : eval n env fs st with
      | val v st1 =>
        rw [hv] at h0
        obtain ⟨Sg1, hp1, hs1, hvt⟩ := h0
        have hl := eval_labels n env fs st v st1 hv
        simp only [Out.then]
        refine ⟨Sg1, hp1, hs1, .rcd v _ (fun l => (vlook l v).getD .nil) ?_ ?_⟩
        · intro l t ht
          obtain ⟨w, hw, -⟩ := chain_look _ v ts hvt hl ht
          simp [hw]
        · intro l t ht
          obtain ⟨w, hw, hwt⟩ := chain_look _ v ts hvt hl ht
          simpa [hw] using hwt
      | wrong => rw [hv] at h0; exact h0
      | _ => trivial
    | fnil => exact ⟨Sg, List.prefix_rfl, hs, .nil⟩
    | fcons _ l e r t ts h1 h2 =>
      simp only [eval]
      refine (ih env e st G _ Sg h1 he hs).then fun v st1 Sg1 hp1 hs1 hv => ?_
      refine (ih env r st1 G _ Sg1 h2 (he.mono hp1) hs1).then fun vs st2 Sg2 hp2 hs2 hvs => ?_
      exact ⟨Sg2, List.prefix_rfl, hs2, .bind l v vs t ts (hv.mono hp2) hvs⟩
    | ite _ c a b _ hc ha hb =>
      simp only [eval]
      refine (ih env c st G _ Sg hc he hs).then fun v st1 Sg1 hp1 hs1 hv => ?_
      obtain ⟨z, rfl⟩ := hv.bool_inv
      cases z
      · exact ih env b st1 G t Sg1 hb (he.mono hp1) hs1
      · exact ih env a st1 G t Sg1 ha (he.mono hp1) hs1
    | letv _ x e b _ P hne hall hexp hb =>
      simp only [eval]
      obtain ⟨u, hu⟩ := hne
      have h0 := ih env e st G u Sg (hall u hu) he hs
      cases hv : eval n env e st with
      | val v st1 =>
        have hev : ∃ Sg1, Sg <+: Sg1 ∧ StOk Sg1 st1 ∧ ∀ w, P w → VT Sg1 v w := by
          by_cases hx : isExpansive e = true
          · rw [hv] at h0
            obtain ⟨Sg1, hp1, hs1, hvt⟩ := h0
            exact ⟨Sg1, hp1, hs1, fun w hw => hexp hx u w hu hw ▸ hvt⟩
          · have e1 := eval_pure n env e st v st1 (by simpa using hx) hv
            subst e1
            refine ⟨Sg, List.prefix_rfl, hs, fun w hw => ?_⟩
            have h1 := ih env e st1 G w Sg (hall w hw) he hs
            rw [hv] at h1
            obtain ⟨Sg1, hp1, hs1, hvt⟩ := h1
            have : Sg = Sg1 := hp1.eq_of_length (by rw [← hs.1, ← hs1.1])
            exact this ▸ hvt
        obtain ⟨Sg1, hp1, hs1, hvt⟩ := hev
        simp only [Out.then]
        have := ih (.bind x v env) b st1 _ t Sg1 hb ((he.mono hp1).bind x hvt) hs1
        revert this
        cases eval n (.bind x v env) b st1 with
        | val w st2 =>
          rintro ⟨Sg2, hp2, h⟩
          exact ⟨Sg2, hp1.trans hp2, h⟩
        | _ => exact fun h => h
      | wrong => rw [hv] at h0; exact h0
      | _ => trivial
    | letf _ f rs b _ P hr hne hall hb =>
      simp only [eval]
      refine ih _ b st _ t Sg hb (he.bind f ?_) hs
      rintro w ⟨u, v, hP, rfl⟩
      exact .rclos' he hr (hall u v hP)

/-- A program that has a type does not go wrong. -/
theorem typ_safe {e : Exp} {t : GTy} (h : Typ [] e t) : ¬ GoesWrong e := by
  rintro ⟨n, hn⟩
  have := eval_ok n .nil e [] [] t [] h (by intro x P hx; simp [look] at hx)
    ⟨rfl, by intro n v t hn; simp at hn⟩
  rw [hn] at this
  exact this

end Mosml.Typing
