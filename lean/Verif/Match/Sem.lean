import Verif.Match.Desc

/-!
C50: the dag that `makedag` builds decides for the first rule that matches.
-/
namespace Mosml.Match

mutual
/-- the accesses to exception names in a pattern -/
def Names (P : Acc → Prop) : Pat → Prop
  | .cons _ p => Names P p
  | .exnil a => P a
  | .excons a p => P a ∧ Names P p
  | .exname a => P a
  | .ref p => Names P p
  | .tup ps => NamesAll P ps
  | .vec ps => NamesAll P ps
  | .par p => Names P p
  | .typed p => Names P p
  | .layered _ p => Names P p
  | _ => True
def NamesAll (P : Acc → Prop) : List Pat → Prop
  | [] => True
  | p :: ps => Names P p ∧ NamesAll P ps
end

/-- the pattern matches -/
def mm (nm : Acc → Nat) (p : Pat) (v : V) : Bool := (matchV nm p v).isSome
def mms (nm : Acc → Nat) (ps : List Pat) (vs : List V) : Bool := (matchVs nm ps vs).isSome

theorem mms_nil (nm) : mms nm [] [] = true := rfl

theorem mms_cons (nm p ps v vs) : mms nm (p :: ps) (v :: vs) = (mm nm p v && mms nm ps vs) := by
  unfold mms mm
  rw [matchVs]
  cases matchV nm p v <;> cases matchVs nm ps vs <;> rfl

theorem fitsAll_intro {nm p ps v vs} (h : Fits nm p v) (h' : FitsAll nm ps vs) : FitsAll nm (p :: ps) (v :: vs) := by
  cases p with
  | exname a =>
    cases v with
    | name n => rw [FitsAll]; exact fun _ => h'
    | _ => simp [Fits] at h
  | _ => simp only [FitsAll]; exact ⟨h, h'⟩

theorem fitsAll_elim {nm p ps v vs} (h : FitsAll nm (p :: ps) (v :: vs)) : Fits nm p v ∧ ((∀ a, p = .exname a → mm nm p v = true) → FitsAll nm ps vs) := by
  cases p with
  | exname a =>
    cases v with
    | name n =>
      rw [FitsAll] at h
      refine ⟨by rw [Fits]; trivial, fun hm => h ?_⟩
      have := hm a rfl
      unfold mm at this
      rw [matchV] at this
      split at this
      · assumption
      · simp at this
    | _ => simp [FitsAll, Fits] at h
  | _ => simp only [FitsAll] at h; exact ⟨h.1, fun _ => h.2⟩

theorem simplify_names {P p} (h : Names P p) : Names P (simplifyPat p) := by
  fun_induction simplifyPat p <;> simp_all [Names, NamesAll]

theorem simplify_cost (p : Pat) : cost (simplifyPat p) = cost p := by
  fun_induction simplifyPat p <;> simp_all [cost, costs] <;> omega

theorem fits_ref {nm p v} (h : Fits nm (.ref p) v) : ∃ t w, v = .tup t [w] ∧ Fits nm p w := by
  unfold Fits at h
  split at h <;> simp_all

theorem fits_exnil {nm a v} (h : Fits nm (.exnil a) v) : ∃ t n w, v = .tup t [.name n, w] := by
  unfold Fits at h
  split at h <;> simp_all

theorem fits_excons {nm a p v} (h : Fits nm (.excons a p) v) : ∃ t n w, v = .tup t [.name n, w] ∧ (nm a = n → Fits nm p w) := by
  unfold Fits at h
  split at h <;> simp_all

theorem fits_one {nm p v} (h : Fits nm p v) : FitsAll nm [p] [v] := fitsAll_intro h (by simp [FitsAll])

theorem simplify_fits {nm p v} (h : Fits nm p v) : Fits nm (simplifyPat p) v := by
  fun_induction simplifyPat p generalizing v with
  | case1 x => simp [Fits]
  | case2 p =>
    obtain ⟨t, w, rfl, hp⟩ := fits_ref h
    simp only [Fits]
    exact ⟨rfl, fits_one hp⟩
  | case3 p ih => simp only [Fits] at h; exact ih h
  | case4 p ih => simp only [Fits] at h; exact ih h
  | case5 x p ih => simp only [Fits] at h; exact ih h
  | case6 a =>
    obtain ⟨t, n, w, rfl⟩ := fits_exnil h
    simp only [Fits, FitsAll]
    exact ⟨rfl, fun _ => ⟨trivial, trivial⟩⟩
  | case7 a p =>
    obtain ⟨t, n, w, rfl, hp⟩ := fits_excons h
    simp only [Fits]
    refine ⟨rfl, ?_⟩
    simp only [FitsAll]
    exact fun e => fits_one (hp e)
  | case8 p => exact h

theorem simplify_mm {nm p v} (h : Fits nm p v) : mm nm (simplifyPat p) v = mm nm p v := by
  fun_induction simplifyPat p generalizing v with
  | case1 x => simp [mm, matchV]
  | case2 p =>
    obtain ⟨t, w, rfl, hp⟩ := fits_ref h
    simp only [mm, matchV, matchVs]
    cases matchV nm _ _ <;> rfl
  | case3 p ih => simp only [Fits] at h; rw [ih h]; simp [mm, matchV]
  | case4 p ih => simp only [Fits] at h; rw [ih h]; simp [mm, matchV]
  | case5 x p ih => simp only [Fits] at h; rw [ih h]; simp [mm, matchV]
  | case6 a =>
    obtain ⟨t, n, w, rfl⟩ := fits_exnil h
    simp only [mm, matchV, matchVs]
    split <;> rfl
  | case7 a p =>
    obtain ⟨t, n, w, rfl, hp⟩ := fits_excons h
    simp only [mm, matchV, matchVs]
    split
    · cases matchV nm _ _ <;> rfl
    · rfl
  | case8 p => rfl

/-! ### contexts -/

/-- the context describes what is around the value `v` inside of `top`; `work` is what is still to do in each block, for the components `rests` -/
inductive Ctx (nm : Acc → Nat) (top : V) : V → Context → Work → List (List V) → Prop where
  | nil : Ctx nm top top [] [] []
  | cons {v u c args dv ps os ds vs ctx work rests} : HeadIs nm c u → kids u = dv.reverse ++ v :: vs → DescAll nm args dv → DescAll nm ds vs →
      ps.length = vs.length → os.length = vs.length → Ctx nm top u ctx work rests → Ctx nm top v ((c, args) :: ctx) ((ps, os, ds) :: work) (vs :: rests)

/-- the same for `succeed` -/
inductive Succ (nm : Acc → Nat) (top : V) : Context → Work → List (List V) → Prop where
  | done {ctx} : Succ nm top ctx [] []
  | pop {ctx work rests} : Succ nm top ctx work rests → Succ nm top ctx (([], [], []) :: work) ([] :: rests)
  | next {ctx p ps o os d ds v vs work rests} : Desc nm d v → Ctx nm top v ctx ((ps, os, ds) :: work) (vs :: rests) →
      Succ nm top ctx ((p :: ps, o :: os, d :: ds) :: work) ((v :: vs) :: rests)

theorem apply_succ {nm top v ctx work rests} (h : Ctx nm top v ctx work rests) {dsc} (hd : Desc nm dsc v) : Succ nm top (apply ctx dsc) work rests := by
  induction h generalizing dsc with
  | nil => exact .done
  | @cons v u c args dv ps os ds vs ctx work rests hh hk ha hds hps hos hc ih =>
    have har := head_arity hh
    rw [hk] at har
    simp only [List.length_append, List.length_reverse, List.length_cons] at har
    have hal := ha.length
    rw [apply]
    split
    · rename_i hlen
      have hvs : vs = [] := List.length_eq_zero_iff.1 (by omega)
      subst hvs
      have e1 : ps = [] := List.length_eq_zero_iff.1 hps
      have e2 : os = [] := List.length_eq_zero_iff.1 hos
      have e3 : ds = [] := List.length_eq_zero_iff.1 hds.length
      subst e1 e2 e3
      refine .pop (ih ?_)
      rw [Desc]
      refine ⟨hh, ?_⟩
      rw [hk, List.reverse_cons]
      exact ha.reverse.append ⟨hd, trivial⟩
    · rename_i hlen
      cases vs with
      | nil => simp at har; omega
      | cons v' vs =>
        cases ps with
        | nil => simp at hps
        | cons p ps =>
          cases os with
          | nil => simp at hos
          | cons o os =>
            cases ds with
            | nil => simp [DescAll] at hds
            | cons d ds =>
              rw [DescAll] at hds
              refine .next hds.1 (.cons (dv := v :: dv) hh ?_ ⟨hd, ha⟩ hds.2 (by simpa using hps) (by simpa using hos) hc)
              rw [hk]; simp

theorem builddsc_desc {nm top v ctx work rests} (h : Ctx nm top v ctx work rests) {dsc} (hd : Desc nm dsc v) : ∃ D, builddsc ctx dsc work = some D ∧ Desc nm D top := by
  induction h generalizing dsc with
  | nil => exact ⟨dsc, by rw [builddsc], hd⟩
  | @cons v u c args dv ps os ds vs ctx work rests hh hk ha hds hps hos hc ih =>
    rw [builddsc]
    refine ih ?_
    rw [Desc]
    refine ⟨hh, ?_⟩
    rw [hk]
    exact ha.reverse.append ⟨hd, hds⟩

/-! ### the work -/

section
variable (γ : Nat → R) (ρ : List R) (nm : Acc → Nat)

/-- the access gives the value -/
def ObjOk (o : Acc) (v : V) : Prop := ∃ r, evalAcc γ ρ o = some r ∧ RepAs r v

def NameOk (a : Acc) : Prop := evalAcc γ ρ a = some (.name (nm a))

structure FrameOk (ps : List Pat) (os : List Acc) (vs : List V) : Prop where
  len : ps.length = vs.length
  fits : FitsAll nm ps vs
  names : NamesAll (NameOk γ ρ nm) ps
  objs : List.Forall₂ (ObjOk γ ρ) os vs

def WorkOk (work : Work) (rests : List (List V)) : Prop := List.Forall₂ (fun f vs => FrameOk γ ρ nm f.1 f.2.1 vs) work rests

/-- all the rest matches -/
def mwork : Work → List (List V) → Bool
  | [], _ => true
  | f :: w, vs :: r => mms nm f.1 vs && mwork w r
  | _, _ => false

/-- the leaf for the values -/
def sel (failure : Nat) (vs : List V) : List Rule → Nat
  | [] => failure
  | r :: rest => if mms nm r.1 vs then r.2 else sel failure vs rest
end

theorem mktest_sem {γ ρ nm top v ctx work rests N0 S T pcon obj0 dsc} {failk conequal : Termd → M} (hctx : Ctx nm top v ctx work rests) (hd : Desc nm dsc v) (hf : ConFits pcon v)
    (ho : ObjOk γ ρ obj0 v) (hn : ∀ a, pcon = .eexn a → NameOk γ ρ nm a)
    (hbf : ∀ d g n g', N0 <+: g.nodes → failk d g = some (n, g') → g.nodes <+: g'.nodes)
    (hbc : ∀ d g n g', N0 <+: g.nodes → conequal d g = some (n, g') → g.nodes <+: g'.nodes)
    (hfail : ∀ d g n g', Desc nm d top → N0 <+: g.nodes → failk d g = some (n, g') → Leads γ ρ g'.nodes n S)
    (hc : HeadIs nm pcon v → ∀ d, Desc nm d v → ∀ g n g', N0 <+: g.nodes → conequal d g = some (n, g') → Leads γ ρ g'.nodes n T)
    {g n g'} (hp : N0 <+: g.nodes) (h : mktest failk conequal pcon (testAcc obj0 pcon) dsc ctx work g = some (n, g')) :
    (HeadIs nm pcon v → Leads γ ρ g'.nodes n T) ∧ (¬ HeadIs nm pcon v → Leads γ ρ g'.nodes n S) := by
  unfold mktest at h
  cases hs : staticmatch pcon dsc with
  | yes =>
    rw [hs] at h
    have hh := static_yes hd hf hs
    exact ⟨fun _ => hc hh _ hd _ _ _ hp h, fun x => (x hh).elim⟩
  | no =>
    rw [hs] at h
    have hh := static_no hd hs
    obtain ⟨D, hb, hD⟩ := builddsc_desc hctx hd
    simp only [hb, Option.bind_some] at h
    exact ⟨fun x => (hh x).elim, fun _ => hfail _ _ _ _ hD hp h⟩
  | maybe =>
    rw [hs] at h
    simp only at h
    cases h1 : conequal (.pos pcon (bots (arity pcon))) g with
    | none => rw [h1] at h; simp at h
    | some x =>
      obtain ⟨t, g1⟩ := x
      rw [h1] at h
      cases hb : builddsc ctx (addneg dsc pcon) work with
      | none => rw [hb] at h; simp at h
      | some d =>
        rw [hb] at h
        simp only [Option.bind_some] at h
        cases h2 : failk d g1 with
        | none => rw [h2] at h; simp at h
        | some y =>
          obtain ⟨e, g2⟩ := y
          rw [h2] at h
          simp only [Option.bind_some, Option.some.injEq] at h
          have p1 := hbc _ _ _ _ hp h1
          have p2 := hbf _ _ _ _ (hp.trans p1) h2
          obtain ⟨r, hev, hr⟩ := ho
          obtain ⟨b, hb1, hb2⟩ := test_ok (γ := γ) (ρ := ρ) (nm := nm) hev hr hf (fun tg sp ar e => by subst e; exact maybe_span hd hf hs) (fun a e => hn a e)
          constructor
          · intro hh
            have := unique_leads (t := t) (e := e) (g := g2) (m := T) hb1 (by
              rw [hb2.2 hh]; exact (hc hh _ (desc_pos hh) _ _ _ hp h1).mono p2)
            rw [h] at this
            exact this
          · intro hh
            obtain ⟨D, hb', hD⟩ := builddsc_desc hctx (desc_addneg hd hf hs hh)
            rw [hb] at hb'
            cases hb'
            have := unique_leads (t := t) (e := e) (g := g2) (m := S) hb1 (by
              have : b = false := by rw [← Bool.not_eq_true]; exact fun x => hh (hb2.1 x)
              rw [this]; exact hfail _ _ _ _ hD (hp.trans p1) h2)
            rw [h] at this
            exact this

end Mosml.Match
