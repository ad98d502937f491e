import Verif.Match.Sem

/-!
C50: the dag that `makedag` builds decides for the first rule that matches (main induction).
-/
namespace Mosml.Match

/-! ### accesses to components -/

theorem evalAcc_field {γ ρ i a t fs} (h : evalAcc γ ρ a = some (.block t fs)) : evalAcc γ ρ (.field i a) = fs[i]? := by
  rw [evalAcc, h]

theorem split_ok {γ ρ obj t vs} (h : evalAcc γ ρ obj = some (.block t (reps vs))) : List.Forall₂ (ObjOk γ ρ) (splitPath vs.length obj) vs := by
  rw [List.forall₂_iff_get]
  refine ⟨by simp [splitPath], fun i h1 h2 => ?_⟩
  have e : (splitPath vs.length obj).get ⟨i, h1⟩ = .field i obj := by simp [splitPath]
  rw [e]
  refine ⟨rep (vs.get ⟨i, h2⟩), ?_, .inl rfl⟩
  rw [evalAcc_field h, reps_eq_map, List.getElem?_map, List.getElem?_eq_getElem h2]
  rfl

theorem tup_block {γ ρ obj t vs} (h : ObjOk γ ρ obj (.tup t vs)) : ∃ t', evalAcc γ ρ obj = some (.block t' (reps vs)) := by
  obtain ⟨r, he, hr⟩ := h
  rcases hr with rfl | ⟨t1, vs1, t', e, rfl⟩
  · exact ⟨t, by rw [he, rep]⟩
  · cases e; exact ⟨t', he⟩

theorem vec_block {γ ρ obj vs} (h : ObjOk γ ρ obj (.vec vs)) : ∃ t', evalAcc γ ρ obj = some (.block t' (reps vs)) := by
  obtain ⟨r, he, hr⟩ := h
  rcases hr with rfl | ⟨t1, vs1, t', e, rfl⟩
  · exact ⟨0, by rw [he, rep]⟩
  · cases e

theorem arg_ok {γ ρ obj d t t' w} (h : ObjOk γ ρ obj (.con1 d t w)) (ht : t < d.length) (ht' : d[t]? ≠ some .nullary) (ha : ArgOk d t w) (hi : (infoOf d t').tag = t) :
    ObjOk γ ρ (argAccess (infoOf d t') obj) w := by
  obtain ⟨r, he, hr⟩ := h
  have e : t' = t := by unfold infoOf at hi; split at hi <;> exact hi
  subst e
  rcases hr with rfl | ⟨t1, vs1, t', e, rfl⟩
  swap
  · cases e
  rw [rep] at he
  unfold conR at he
  unfold argAccess infoOf
  cases hd : d[t']? with
  | none => rw [List.getElem?_eq_none_iff] at hd; omega
  | some c =>
    cases c with
    | nullary => exact (ht' hd).elim
    | unary =>
      rw [hd] at he
      simp only at he
      by_cases h1 : d.length = 1
      · rw [if_pos h1] at he
        simp only [h1]
        exact ⟨_, he, .inl rfl⟩
      · rw [if_neg h1] at he
        simp only [Bool.false_or, beq_iff_eq, h1, if_false]
        exact ⟨_, by rw [evalAcc_field he]; rfl, .inl rfl⟩
    | greedy n =>
      obtain ⟨vs, rfl, hn⟩ := ha n hd
      rw [hd] at he
      exact ⟨_, he, .inr ⟨0, vs, t', rfl, rfl⟩⟩

theorem mm_excl {nm p v} (h : ∀ a, p ≠ .exname a) : ∀ a, p = Pat.exname a → mm nm p v = true := fun a e => (h a e).elim

theorem infoOf_tag (d : Decl) (t : Nat) : (infoOf d t).tag = t := by unfold infoOf; split <;> rfl
theorem infoOf_span (d : Decl) (t : Nat) : (infoOf d t).span = d.length := by unfold infoOf; split <;> rfl

theorem mms_length {nm ps vs} (h : mms nm ps vs = true) : ps.length = vs.length := by
  induction ps generalizing vs with
  | nil => cases vs with
    | nil => rfl
    | cons v vs => simp [mms, matchVs] at h
  | cons p ps ih => cases vs with
    | nil => simp [mms, matchVs] at h
    | cons v vs =>
      rw [mms_cons, Bool.and_eq_true] at h
      simp [ih h.2]

theorem finish2 {γ ρ N n a b rhs S} {B : Bool} {H : Prop} (h : a = true → H) (h' : H → a = b) (h1 : H → Leads γ ρ N n (if b && B then rhs else S))
    (h2 : ¬ H → Leads γ ρ N n S) : Leads γ ρ N n (if a && B then rhs else S) := by
  by_cases hh : H
  · rw [h' hh]; exact h1 hh
  · have : a = false := by rw [← Bool.not_eq_true]; exact fun x => hh (h x)
    rw [this]; simpa using h2 hh

theorem finish {γ ρ N n a rhs S} {B : Bool} {H : Prop} (h : a = true ↔ H) (h1 : H → Leads γ ρ N n (if B then rhs else S)) (h2 : ¬ H → Leads γ ρ N n S) :
    Leads γ ρ N n (if a && B then rhs else S) :=
  finish2 (b := true) h.1 (fun x => h.2 x) (by simpa using h1) h2

theorem scon_fits {nm c v} (hfs : Fits nm (.scon c) v) : ConFits (.scon c) v := by
  cases v with
  | scon c' => simp only [Fits] at hfs; exact hfs
  | other n => cases c <;> first | (simp [Fits] at hfs; done) | trivial
  | _ => simp [Fits] at hfs

theorem scon_mm {nm c v} : mm nm (.scon c) v = true ↔ HeadIs nm (.scon c) v := by
  cases v <;> simp [mm, matchV, HeadIs]

theorem ex_fits {nm a v} (hfs : Fits nm (.exname a) v) : ConFits (.eexn a) v := by
  cases v <;> first | (simp [Fits] at hfs; done) | trivial

theorem ex_mm {nm a v} : mm nm (.exname a) v = true ↔ HeadIs nm (.eexn a) v := by
  cases v <;> simp [mm, matchV, HeadIs]

theorem nil_fits {nm ci v} (hfs : Fits nm (.nil ci) v) : ConFits (conOf ci 0) v := by
  cases v with
  | con0 d t =>
    simp only [Fits] at hfs
    obtain ⟨⟨t', h1, h2, rfl⟩, h3⟩ := hfs
    exact ⟨⟨by rw [infoOf_tag]; exact h1, infoOf_span _ _, by rw [infoOf_tag, arOf, if_pos h2]⟩, h3⟩
  | con1 d t w =>
    simp only [Fits] at hfs
    obtain ⟨⟨t', h1, h2, rfl⟩, h3⟩ := hfs
    exact ⟨⟨by rw [infoOf_tag]; exact h1, infoOf_span _ _, by rw [infoOf_tag, arOf, if_pos h2]⟩, h3⟩
  | _ => simp [Fits] at hfs

theorem nil_mm {nm ci v} (hfs : Fits nm (.nil ci) v) : mm nm (.nil ci) v = true ↔ HeadIs nm (conOf ci 0) v := by
  cases v with
  | con0 d t =>
    simp only [Fits] at hfs
    obtain ⟨⟨t', h1, h2, rfl⟩, h3⟩ := hfs
    simp only [mm, matchV, conOf, infoOf, h2, HeadIs]
    split <;> simp_all
  | con1 d t w => simp [mm, matchV, HeadIs, conOf]
  | _ => simp [Fits] at hfs

theorem cons_fits {nm ci p' v} (hfs : Fits nm (.cons ci p') v) : ConFits (conOf ci 1) v := by
  cases v with
  | con0 d t =>
    simp only [Fits] at hfs
    obtain ⟨⟨t', h1, h2, rfl⟩, h3⟩ := hfs
    exact ⟨⟨by rw [infoOf_tag]; exact h1, infoOf_span _ _, by rw [infoOf_tag, arOf, if_neg h2]⟩, h3⟩
  | con1 d t w =>
    simp only [Fits] at hfs
    obtain ⟨⟨t', h1, h2, rfl⟩, h3, h4, h5, -⟩ := hfs
    exact ⟨⟨by rw [infoOf_tag]; exact h1, infoOf_span _ _, by rw [infoOf_tag, arOf, if_neg h2]⟩, h3, h4, h5⟩
  | _ => simp [Fits] at hfs

theorem cons_mm {nm ci p' v} (hfs : Fits nm (.cons ci p') v) : (mm nm (.cons ci p') v = true → HeadIs nm (conOf ci 1) v) ∧
    (HeadIs nm (conOf ci 1) v → mm nm (.cons ci p') v = mms nm [p'] (kids v)) := by
  cases v with
  | con0 d t => simp [mm, matchV, HeadIs, conOf]
  | con1 d t w =>
    simp only [Fits] at hfs
    obtain ⟨⟨t', h1, h2, rfl⟩, h3, h4, h5, -⟩ := hfs
    simp only [kids, mms_cons, mms_nil, Bool.and_true]
    simp only [mm, matchV, conOf, infoOf_tag, infoOf_span, HeadIs]
    by_cases e : t' = t
    · simp [e]
    · simp [e]
  | _ => simp [Fits] at hfs

theorem cons_frame {γ ρ nm ci p' v obj} (hfs : Fits nm (.cons ci p') v) (hns : Names (NameOk γ ρ nm) (.cons ci p')) (ho : ObjOk γ ρ obj v) :
    HeadIs nm (conOf ci 1) v → FrameOk γ ρ nm [p'] [argAccess ci obj] (kids v) := by
  intro hh
  cases v with
  | con0 d t => simp [conOf, HeadIs] at hh
  | con1 d t w =>
    simp only [Fits] at hfs
    obtain ⟨⟨t', h1, h2, rfl⟩, h3, h4, h5, h6⟩ := hfs
    have htag : (infoOf d t').tag = t := hh.1
    exact ⟨rfl, fits_one (h6 htag), ⟨hns, trivial⟩, .cons (arg_ok ho h3 h4 h5 htag) .nil⟩
  | _ => simp [Fits] at hfs

section
variable {γ : Nat → R} {ρ : List R} {nm : Acc → Nat} {vs : List V} {failure : Nat} {objs1 : List Acc} {N0 : List Dec}

def LeafAt (N0 : List Dec) (k : Nat) : Prop := ∃ d, N0[k]? = some d ∧ isLeaf d = true

theorem LeafAt.lt {k} (h : LeafAt N0 k) : k < N0.length := by
  obtain ⟨d, hd, -⟩ := h; exact (List.getElem?_eq_some_iff.1 hd).1

theorem LeafAt.leads {k N} (h : LeafAt N0 k) (hp : N0 <+: N) : Leads γ ρ N k k := by
  obtain ⟨d, hd, hl⟩ := h; exact .leaf (get_prefix hp hd) hl

theorem main (hfl : LeafAt N0 failure) (fuel : Nat) :
    (∀ dsc rules g n g', Desc nm dsc (.tup 0 vs) → (∀ r ∈ rules, FrameOk γ ρ nm r.1 objs1 vs) → (∀ r ∈ rules, LeafAt N0 r.2) → N0 <+: g.nodes →
      fail failure objs1 (.tup vs.length) fuel dsc rules g = some (n, g') → Leads γ ρ g'.nodes n (sel nm failure vs rules)) ∧
    (∀ ctx work rests rhs rules g n g', Succ nm (.tup 0 vs) ctx work rests → WorkOk γ ρ nm work rests → LeafAt N0 rhs →
      (∀ r ∈ rules, FrameOk γ ρ nm r.1 objs1 vs) → (∀ r ∈ rules, LeafAt N0 r.2) → N0 <+: g.nodes →
      succeed failure objs1 (.tup vs.length) fuel ctx work rhs rules g = some (n, g') →
      Leads γ ρ g'.nodes n (if mwork nm work rests then rhs else sel nm failure vs rules)) ∧
    (∀ p obj dsc v ctx work rests rhs rules g n g', Ctx nm (.tup 0 vs) v ctx work rests → Desc nm dsc v → Fits nm p v → Names (NameOk γ ρ nm) p → ObjOk γ ρ obj v →
      ((∀ a, p = .exname a → mm nm p v = true) → WorkOk γ ρ nm work rests) → LeafAt N0 rhs →
      (∀ r ∈ rules, FrameOk γ ρ nm r.1 objs1 vs) → (∀ r ∈ rules, LeafAt N0 r.2) → N0 <+: g.nodes →
      mtch failure objs1 (.tup vs.length) fuel p obj dsc ctx work rhs rules g = some (n, g') →
      Leads γ ρ g'.nodes n (if mm nm p v && mwork nm work rests then rhs else sel nm failure vs rules)) := by
  induction fuel with
  | zero => refine ⟨?_, ?_, ?_⟩ <;> intros <;> simp_all [fail, succeed, mtch]
  | succ fuel ih =>
    obtain ⟨ih1, ih2, ih3⟩ := ih
    refine ⟨?_, ?_, ?_⟩
    · intro dsc rules g n g' hd hok hl hp h
      cases rules with
      | nil => rw [fail] at h; cases h; exact hfl.leads hp
      | cons r rules =>
        obtain ⟨ps, rhs⟩ := r
        cases dsc with
        | neg cs => rw [fail] at h; simp at h
        | pos c dscs =>
          rw [fail] at h
          rw [Desc] at hd
          have hda : DescAll nm dscs vs := hd.2
          have f1 := hok _ List.mem_cons_self
          have hsucc : Succ nm (.tup 0 vs) [(.tup vs.length, [])] [(ps, objs1, dscs)] [vs] := by
            have l1 := f1.len
            have l2 := f1.objs.length_eq
            simp only at l1
            cases vs with
            | nil =>
              have e1 : ps = [] := List.length_eq_zero_iff.1 l1
              have e2 : objs1 = [] := List.length_eq_zero_iff.1 l2
              have e3 : dscs = [] := List.length_eq_zero_iff.1 hda.length
              subst e1 e2 e3
              exact .pop .done
            | cons v vs =>
              obtain ⟨d, ds, rfl⟩ : ∃ d ds, dscs = d :: ds := by cases dscs with
                | nil => simp [DescAll] at hda
                | cons d ds => exact ⟨d, ds, rfl⟩
              obtain ⟨p, ps, rfl⟩ : ∃ p ps', ps = p :: ps' := by cases ps with
                | nil => simp at l1
                | cons p ps => exact ⟨p, ps, rfl⟩
              obtain ⟨o, os, rfl⟩ : ∃ o os, objs1 = o :: os := by cases objs1 with
                | nil => simp at l2
                | cons p ps => exact ⟨p, ps, rfl⟩
              rw [DescAll] at hda
              exact .next hda.1 (.cons (dv := []) (u := .tup 0 (v :: vs)) rfl rfl trivial hda.2 (by simpa using l1) (by simpa using l2) .nil)
          have := ih2 _ _ [vs] _ _ _ _ _ hsucc (.cons f1 .nil) (hl _ List.mem_cons_self) (fun r h => hok r (List.mem_cons_of_mem _ h))
            (fun r h => hl r (List.mem_cons_of_mem _ h)) hp h
          simp only [mwork, Bool.and_true] at this
          rw [sel]
          exact this
    · intro ctx work rests rhs rules g n g' hs hw hrhs hok hl hp h
      cases hs with
      | done =>
        rw [succeed] at h
        cases h
        simp only [mwork, if_true]
        exact hrhs.leads hp
      | pop hs =>
        rw [succeed] at h
        cases hw with
        | cons _ hw =>
          have := ih2 _ _ _ _ _ _ _ _ hs hw hrhs hok hl hp h
          simp only [mwork, mms_nil, Bool.true_and]
          exact this
      | next hd hc =>
        rw [succeed] at h
        cases hw with
        | cons f1 hw =>
          obtain ⟨l, f, nms, os⟩ := f1
          simp only at l f nms os
          obtain ⟨hf1, hf2⟩ := fitsAll_elim f
          rw [NamesAll] at nms
          cases os with
          | cons o1 o2 =>
            have := ih3 _ _ _ _ _ _ _ _ _ _ _ _ hc hd hf1 nms.1 o1 (fun e => .cons ⟨by simpa using l, hf2 e, nms.2, o2⟩ hw) hrhs hok hl hp h
            simp only [mwork, mms_cons] at this ⊢
            rw [Bool.and_assoc]
            exact this
    · intro p obj dsc v ctx work rests rhs rules g n g' hc hd hf hnm ho hw hrhs hok hl hp h
      rw [mtch] at h
      simp only at h
      have hbf : ∀ d g n g', N0 <+: g.nodes → fail failure objs1 (.tup vs.length) fuel d rules g = some (n, g') → g.nodes <+: g'.nodes :=
        fun d g n g' hp h => ((build_all failure objs1 (.tup vs.length) N0.length fuel).1 d rules g n g' hfl.lt (fun r hr => (hl r hr).lt) hp.length_le h).pre
      have hbs : ∀ ctx work g n g', N0 <+: g.nodes → succeed failure objs1 (.tup vs.length) fuel ctx work rhs rules g = some (n, g') → g.nodes <+: g'.nodes :=
        fun ctx work g n g' hp h =>
          ((build_all failure objs1 (.tup vs.length) N0.length fuel).2.1 ctx work rhs rules g n g' hfl.lt hrhs.lt (fun r hr => (hl r hr).lt) hp.length_le h).pre
      have hfail : ∀ d g n g', Desc nm d (.tup 0 vs) → N0 <+: g.nodes → fail failure objs1 (.tup vs.length) fuel d rules g = some (n, g') →
          Leads γ ρ g'.nodes n (sel nm failure vs rules) := fun d g n g' hD hp h => ih1 _ _ _ _ _ hD hok hl hp h
      have hleaf : WorkOk γ ρ nm work rests → ∀ d, Desc nm d v → ∀ g n g', N0 <+: g.nodes → succeed failure objs1 (.tup vs.length) fuel (apply ctx d) work rhs rules g = some (n, g') →
          Leads γ ρ g'.nodes n (if mwork nm work rests then rhs else sel nm failure vs rules) :=
        fun hw d hd g n g' hp h => ih2 _ _ _ _ _ _ _ _ (apply_succ hc hd) hw hrhs hok hl hp h
      -- the components of a block
      have hblock : ∀ c ps os, HeadIs nm c v → ps ≠ [] → FrameOk γ ρ nm ps os (kids v) → WorkOk γ ρ nm work rests → ∀ dk, DescAll nm dk (kids v) → ∀ g n g', N0 <+: g.nodes →
          succeed failure objs1 (.tup vs.length) fuel ((c, []) :: ctx) ((ps, os, dk) :: work) rhs rules g = some (n, g') →
          Leads γ ρ g'.nodes n (if mms nm ps (kids v) && mwork nm work rests then rhs else sel nm failure vs rules) := by
        intro c ps os hh hne fo hw dk hdk g n g' hp h
        have hsucc : Succ nm (.tup 0 vs) ((c, []) :: ctx) ((ps, os, dk) :: work) (kids v :: rests) := by
          have l1 := fo.len
          have l2 := fo.objs.length_eq
          have l3 := hdk.length
          generalize hk : kids v = ks at *
          cases ks with
          | nil => exact (hne (List.length_eq_zero_iff.1 l1)).elim
          | cons k ks =>
            obtain ⟨d, ds, rfl⟩ : ∃ d ds, dk = d :: ds := by cases dk with
              | nil => simp at l3
              | cons d ds => exact ⟨d, ds, rfl⟩
            obtain ⟨p, ps, rfl⟩ : ∃ p ps', ps = p :: ps' := by cases ps with
              | nil => simp at l1
              | cons p ps => exact ⟨p, ps, rfl⟩
            obtain ⟨o, os, rfl⟩ : ∃ o os', os = o :: os' := by cases os with
              | nil => simp at l2
              | cons p ps => exact ⟨p, ps, rfl⟩
            rw [DescAll] at hdk
            exact .next hdk.1 (.cons (dv := []) hh hk trivial hdk.2 (by simpa using l1) (by simpa using l2) hc)
        exact ih2 _ _ _ _ _ _ _ _ hsucc (.cons fo hw) hrhs hok hl hp h
      have hmm := simplify_mm hf
      have hfs := simplify_fits hf
      have hns := simplify_names hnm
      rw [← hmm]
      have hwk : (∀ a, p = .exname a → mm nm p v = true) → WorkOk γ ρ nm work rests := hw
      have hpe : (∀ a, simplifyPat p ≠ .exname a) → WorkOk γ ρ nm work rests := fun hx => hw (fun a e => by subst e; exact (hx a (by rw [simplifyPat] <;> simp)).elim)
      generalize hq : simplifyPat p = q at h hfs hns hpe hmm ⊢
      cases q with
      | scon c =>
        have hcf := scon_fits hfs
        have hiff := scon_mm (nm := nm) (c := c) (v := v)
        obtain ⟨h1, h2⟩ := mktest_sem hc hd hcf ho (by simp) hbf (fun d g n g' hp h => hbs _ _ _ _ _ hp h) hfail
          (fun _ d hd => hleaf (hpe (by simp)) d hd) hp h
        exact finish hiff h1 h2
      | var x => simp at h
      | wild =>
        simp only [mm, matchV, Option.isSome_some, Bool.true_and]
        exact hleaf (hpe (by simp)) _ hd _ _ _ hp h
      | nil ci =>
        have hcf := nil_fits hfs
        have hiff := nil_mm hfs
        obtain ⟨h1, h2⟩ := mktest_sem hc hd hcf ho (by simp [conOf]) hbf (fun d g n g' hp h => hbs _ _ _ _ _ hp h) hfail
          (fun _ d hd => hleaf (hpe (by simp)) d hd) hp h
        exact finish hiff h1 h2
      | cons ci p' =>
        have hcf := cons_fits hfs
        have hiff := cons_mm hfs
        have hfo := cons_frame hfs hns ho
        obtain ⟨h1, h2⟩ := mktest_sem hc hd hcf ho (by simp [conOf]) hbf (fun d g n g' hp h => hbs _ _ _ _ _ hp h) hfail
          (fun hh d hd' => hblock _ _ _ hh (by simp) (hfo hh) (hpe (by simp)) _ (getsargs_desc hd (by rw [← head_arity hh]; rfl))) hp h
        exact finish2 hiff.1 hiff.2 h1 h2
      | exnil a => simp at h
      | excons a p' => simp at h
      | exname a =>
        have hcf := ex_fits hfs
        have hiff := ex_mm (nm := nm) (a := a) (v := v)
        obtain ⟨h1, h2⟩ := mktest_sem hc hd hcf ho (fun b e => by cases e; exact hns) hbf (fun d g n g' hp h => hbs _ _ _ _ _ hp h) hfail
          (fun hh d hd => hleaf (hw (fun _ _ => by rw [← hmm]; exact hiff.2 hh)) d hd) hp h
        exact finish hiff h1 h2
      | ref p' => simp at h
      | tup ps =>
        obtain ⟨t, ws, rfl⟩ : ∃ t ws, v = .tup t ws := by
          cases v with
          | tup t ws => exact ⟨t, ws, rfl⟩
          | _ => simp [Fits] at hfs
        simp only [Fits] at hfs
        have hmv : mm nm (.tup ps) (.tup t ws) = mms nm ps ws := by simp only [mm, mms, matchV]
        rw [hmv]
        cases ps with
        | nil =>
          have : ws = [] := List.length_eq_zero_iff.1 hfs.1.symm
          subst this
          simp only [mms_nil, Bool.true_and]
          exact hleaf (hpe (by simp)) _ hd _ _ _ hp h
        | cons p1 ps =>
          simp only at h
          obtain ⟨t', hev⟩ := tup_block ho
          refine hblock _ _ _ ?_ (by simp) ⟨hfs.1, hfs.2, hns, ?_⟩ (hpe (by simp)) _ (getsargs_desc hd hfs.1) _ _ _ hp h
          · exact hfs.1.symm
          · rw [hfs.1]; exact split_ok hev
      | vec ps =>
        obtain ⟨ws, rfl⟩ : ∃ ws, v = .vec ws := by
          cases v with
          | vec ws => exact ⟨ws, rfl⟩
          | _ => simp [Fits] at hfs
        simp only [Fits] at hfs
        have hmv : mm nm (.vec ps) (.vec ws) = mms nm ps ws := by simp only [mm, mms, matchV]
        have hmh : mm nm (.vec ps) (.vec ws) = true → HeadIs nm (.vec ps.length) (.vec ws) := by
          rw [hmv]; exact fun h => (mms_length h).symm
        obtain ⟨t', hev⟩ := vec_block ho
        cases ps with
        | nil =>
          simp only at h
          obtain ⟨h1, h2⟩ := mktest_sem (obj0 := obj) (pcon := .vec 0) hc hd (by simp [ConFits]) ho (by simp) hbf (fun d g n g' hp h => hbs _ _ _ _ _ hp h) hfail
            (fun _ d hd => hleaf (hpe (by simp)) d hd) hp h
          refine finish ⟨hmh, fun hh => ?_⟩ h1 h2
          have : ws = [] := List.length_eq_zero_iff.1 hh
          subst this
          rfl
        | cons p1 ps =>
          simp only at h
          obtain ⟨h1, h2⟩ := mktest_sem (obj0 := obj) (pcon := .vec (p1 :: ps).length) hc hd (by simp [ConFits]) ho (by simp) hbf (fun d g n g' hp h => hbs _ _ _ _ _ hp h) hfail
            (fun hh d hd' => hblock _ _ _ hh (by simp) ⟨hh.symm, hfs hh.symm, hns, by rw [show (p1 :: ps).length = ws.length from hh.symm]; exact split_ok hev⟩ (hpe (by simp)) _
              (getsargs_desc hd hh.symm)) hp h
          exact finish2 hmh (fun _ => hmv) h1 h2
      | par p' => simp at h
      | typed p' => simp at h
      | layered x p' => simp at h
end

end Mosml.Match
