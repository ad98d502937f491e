import Verif.Typing.Complete

/-!
# Elaboration finds typings
-/

namespace Mosml.Typing

/-- A later state with an extended solution. -/
structure Goes (n : Nat) (S S' : St) (G G' : Asg) : Prop where
  later : Later n S S'
  sol : SolG S' G'
  agree : ∀ v, v < S.tv.length → G' v = G v

theorem Goes.trans {n : Nat} {S S' S'' : St} {G G' G'' : Asg} (h : Goes n S S' G G')
    (h' : Goes n S' S'' G' G'') : Goes n S S'' G G'' :=
  ⟨h.later.trans h'.later, h'.sol, fun v hv => by
    rw [h'.agree v (Nat.lt_of_lt_of_le hv h.later.len), h.agree v hv]⟩

theorem Goes.refl {n : Nat} {S : St} {G : Asg} (h : Cx S) (hG : SolG S G) : Goes n S S G G :=
  ⟨.refl h, hG, fun _ _ => rfl⟩

theorem Goes.cx {n : Nat} {S S' : St} {G G' : Asg} (h : Goes n S S' G G') : Cx S' := h.later.cx

theorem Goes.bnd {n : Nat} {S S' : St} {G G' : Asg} (h : Goes n S S' G G') {t : Ty}
    (ht : Bnd S t) : Bnd S' t := Bnd.later h.later ht

theorem Goes.tm {n : Nat} {S S' : St} {G G' : Asg} (h : Goes n S S' G G') {t : Ty}
    (ht : Bnd S t) : tm G' t = tm G t := tm_congr fun v hv => h.agree v (ht v hv)

theorem isRow_freshN : ∀ (c : Nat) (S : St) (l : Nat), (∀ v, S.isRow v = false) →
    ∀ v, (S.freshN l c).isRow v = false
  | 0, _, _, h, v => h v
  | c + 1, S, l, h, v => by
    refine isRow_freshN c _ l ?_ v
    intro v
    simp only [St.isRow, St.fresh]
    have := h v
    simp only [St.isRow] at this
    by_cases hv : v < S.tv.length
    · rw [List.getElem?_append_left hv]
      exact this
    · rw [List.getElem?_append_right (by omega)]
      cases hq : v - S.tv.length with
      | zero => simp
      | succ q => simp

theorem dots_freshN : ∀ (c : Nat) (S : St) (l : Nat), (S.freshN l c).dots = S.dots
  | 0, _, _ => rfl
  | c + 1, S, l => dots_freshN c (S.fresh l false) l

theorem freshN_goes {S : St} (hS : Cx S) {G G' : Asg} (hG : SolG S G) (l c n : Nat) (hn : n ≤ l)
    (ha : ∀ v, v < S.tv.length → G' v = G v) : Goes n S (S.freshN l c) G G' := by
  obtain ⟨h1, h2, h3, h4⟩ := freshN_spec c S l
  refine ⟨⟨⟨hS.wf.of_img h1, by rw [h1]; exact hS.cl, ?_, isRow_freshN c S l hS.row⟩, by omega, ?_, ?_,
    dots_freshN c S l⟩, ?_, ha⟩
  · intro v hv w hw
    rw [h1] at hw
    rw [h2] at hv ⊢
    by_cases h : v < S.tv.length
    · have := hS.bd v h w hw
      omega
    · rw [img_ge (by omega)] at hw
      simp only [Ty.fv, List.mem_singleton] at hw
      omega
  · intro G1 h v
    rw [← h1]
    exact h v
  · intro m hm G1 G2 _ _ h w hw hi hl
    rw [h2] at hw
    by_cases hw' : w < S.tv.length
    · rw [h3 w hw'] at hl
      rw [h1] at hi
      exact h w hw' hi hl
    · rw [h4 w (by omega) hw] at hl
      omega
  · intro v
    rw [h1]
    by_cases hv : v < S.tv.length
    · rw [ha v hv, hG v]
      exact (tm_congr fun w hw => ha w (hS.bd v hv w hw)).symm
    · rw [img_ge (by omega)]
      rfl

/-- Elaboration succeeds. -/
def EOk (n : Nat) (S : St) (G : Asg) (f : Nat → Res St) : Prop :=
  ∃ S' G', (∃ k0, ∀ k, k0 ≤ k → f k = .ok S') ∧ Goes n S S' G G'

theorem EOk.bind {n : Nat} {S : St} {G : Asg} {f : Nat → Res St} {h : Nat → St → Res St}
    (hf : EOk n S G f) (hh : ∀ S1 G1, Goes n S S1 G G1 → EOk n S1 G1 fun k => h k S1) :
    EOk n S G fun k => f k >>= h k := by
  obtain ⟨S1, G1, ⟨k1, h1⟩, g1⟩ := hf
  obtain ⟨S2, G2, ⟨k2, h2⟩, g2⟩ := hh S1 G1 g1
  refine ⟨S2, G2, ⟨max k1 k2, fun k hk => ?_⟩, g1.trans g2⟩
  show (f k >>= h k) = _
  rw [h1 k (by omega)]
  exact h2 k (by omega)

theorem EOk.after {n : Nat} {S S1 : St} {G G1 : Asg} {f : Nat → Res St} (hg : Goes n S S1 G G1)
    (h : EOk n S1 G1 f) : EOk n S G f := by
  obtain ⟨S2, G2, h2, g2⟩ := h
  exact ⟨S2, G2, h2, hg.trans g2⟩

theorem EOk.unify {n : Nat} {S : St} {G : Asg} (hS : Cx S) (hG : SolG S G) {a b : Ty}
    (ha : Cl a false) (hb : Cl b false) (ba : Bnd S a) (bb : Bnd S b) (e : tm G a = tm G b) :
    EOk n S G fun k => unify k S a b := by
  obtain ⟨S', h, L, G'⟩ := unify_all n G (tm G b) S a b hS hG ha hb ba bb e rfl
  exact ⟨S', G, h, L, G', fun _ _ => rfl⟩

/-! ## Patterns -/

def semD (G : Asg) (PE : List (Nat × Ty)) : List (Nat × GTy) := PE.map fun p => (p.1, tm G p.2)

def PEok (S : St) (PE : List (Nat × Ty)) : Prop := ∀ q ∈ PE, Cl q.2 false ∧ Bnd S q.2

theorem Goes.semD {n : Nat} {S S' : St} {G G' : Asg} (h : Goes n S S' G G')
    {PE : List (Nat × Ty)} (hp : PEok S PE) : semD G' PE = semD G PE :=
  List.map_congr_left fun q hq => by rw [h.tm (hp q hq).2]

theorem Goes.peok {n : Nat} {S S' : St} {G G' : Asg} (h : Goes n S S' G G')
    {PE : List (Nat × Ty)} (hp : PEok S PE) : PEok S' PE :=
  fun q hq => ⟨(hp q hq).1, h.bnd (hp q hq).2⟩

def POk (n : Nat) (S : St) (G : Asg) (f : Nat → Res (St × List (Nat × Ty)))
    (D : List (Nat × GTy)) : Prop :=
  ∃ S' PE G', (∃ k0, ∀ k, k0 ≤ k → f k = .ok (S', PE)) ∧ Goes n S S' G G' ∧ PEok S' PE ∧
    D = semD G' PE

theorem POk.bind {n : Nat} {S : St} {G : Asg} {f : Nat → Res St}
    {h : Nat → St → Res (St × List (Nat × Ty))} {D : List (Nat × GTy)}
    (hf : EOk n S G f) (hh : ∀ S1 G1, Goes n S S1 G G1 → POk n S1 G1 (fun k => h k S1) D) :
    POk n S G (fun k => f k >>= h k) D := by
  obtain ⟨S1, G1, ⟨k1, h1⟩, g1⟩ := hf
  obtain ⟨S2, PE, G2, ⟨k2, h2⟩, g2, h3⟩ := hh S1 G1 g1
  refine ⟨S2, PE, G2, ⟨max k1 k2, fun k hk => ?_⟩, g1.trans g2, h3⟩
  show (f k >>= h k) = _
  rw [h1 k (by omega)]
  exact h2 k (by omega)

theorem POk.after {n : Nat} {S S1 : St} {G G1 : Asg} {f : Nat → Res (St × List (Nat × Ty))}
    {D : List (Nat × GTy)} (hg : Goes n S S1 G G1)
    (h : POk n S1 G1 f D) : POk n S G f D := by
  obtain ⟨S2, PE, G2, h2, g2, h3⟩ := h
  exact ⟨S2, PE, G2, h2, hg.trans g2, h3⟩

theorem look_semD {G : Asg} {x : Nat} {PE : List (Nat × Ty)} (h : look x (semD G PE) = none) :
    (look x PE).isSome = false := by
  rw [semD, look_map (tm G)] at h
  simpa using h

theorem tm_conTy (G : Asg) (a : Nat) (c : Con) : tm G (conTy (.var a) c) = conG (G a) c :=
  sem_conTy (gm G) (.var a) c

theorem tm_primTy (G : Asg) (a : Nat) (p : Prim) : tm G (primTy (.var a) p) = primG (G a) p :=
  sem_primTy (gm G) (.var a) p

theorem cl_conTy (a : Nat) (c : Con) : Cl (conTy (.var a) c) false := by
  cases c <;> simp [conTy, conArg, conRes, tOpt, tList, tPair, Cl, HeadLt]

theorem cl_primTy (a : Nat) (p : Prim) : Cl (primTy (.var a) p) false := by
  cases p <;> simp [primTy, tRef, tUnit, tInt, tPair, Cl, HeadLt]

theorem ins_cl {l : Nat} {t : Ty} (ht : Cl t false) : ∀ {r : Ty}, Cl r true →
    l ∉ r.fields.map Prod.fst →
    Cl (ins l t r) true ∧ ∀ x, x < l → HeadLt x r → HeadLt x (ins l t r)
  | .nil, _, _ => ⟨⟨rfl, ht, trivial, trivial⟩, fun _ h _ => h⟩
  | .field l' t' r, h, hl => by
    obtain ⟨-, h1, h2, h3⟩ := h
    simp only [Ty.fields, List.map_cons, List.mem_cons, not_or] at hl
    simp only [ins]
    split
    · exact ⟨⟨rfl, ht, ⟨rfl, h1, h2, h3⟩, by simp only [HeadLt]; omega⟩, fun _ h _ => h⟩
    · have ih := ins_cl ht h2 hl.2
      exact ⟨⟨rfl, h1, ih.1, ih.2 l' (by omega) h3⟩, fun _ _ h => h⟩
  | .var _, h, _ => by simp [Cl] at h
  | .arrow _ _, h, _ => by simp [Cl] at h
  | .con _ _, h, _ => by simp [Cl] at h
  | .rcd _, h, _ => by simp [Cl] at h
  | .cons _ _, h, _ => by simp [Cl] at h

theorem mem_ins_fields {l x : Nat} {t : Ty} : ∀ {r : Ty}, x ∈ (ins l t r).fields.map Prod.fst →
    x = l ∨ x ∈ r.fields.map Prod.fst
  | .field l' t' r, h => by
    simp only [ins] at h
    split at h
    · simpa [Ty.fields] using h
    · simp only [Ty.fields, List.map_cons, List.mem_cons] at h ⊢
      rcases h with h | h
      · exact .inr (.inl h)
      · rcases mem_ins_fields h with h | h
        · exact .inl h
        · exact .inr (.inr h)
  | .nil, h | .var _, h | .arrow _ _, h | .con _ _, h | .rcd _, h | .cons _ _, h => by
    simp only [ins, Ty.fields, List.map_cons, List.map_nil, List.mem_cons, List.not_mem_nil,
      or_false] at h
    exact .inl h

theorem mkRow_cl : ∀ (ls : List Nat) (m : Nat), ls.Nodup → Cl (mkRow .nil ls m) true ∧
    ∀ x ∈ (mkRow .nil ls m).fields.map Prod.fst, x ∈ ls
  | [], _, _ => ⟨trivial, by simp [mkRow, Ty.fields]⟩
  | l :: ls, m, h => by
    rw [List.nodup_cons] at h
    have ih := mkRow_cl ls (m + 1) h.2
    refine ⟨(ins_cl (t := .var m) rfl ih.1 fun hl => h.1 (ih.2 l hl)).1, fun x hx => ?_⟩
    rcases mem_ins_fields hx with rfl | hx
    · simp
    · exact List.mem_cons_of_mem _ (ih.2 x hx)

theorem vars_cl : ∀ (k m : Nat), Cl (vars m k) false
  | 0, _ => trivial
  | k + 1, m => ⟨rfl, rfl, vars_cl k (m + 1)⟩

theorem zip_mem {f : Row} {x : Nat} : ∀ {ls : List Nat} {ts : GTy}, Fits f ls ts → x ∈ ls →
    zipLook ls ts x = f x
  | l :: ls, .cons t ts, hf, hx => by
    obtain ⟨h1, h2⟩ := hf
    simp only [zipLook]
    split
    · next e => rw [e, h1]
    · next e =>
      simp only [List.mem_cons, e, false_or] at hx
      exact zip_mem h2 hx
  | [], _, _, h => by simp at h
  | _ :: _, .arrow _ _, h, _ | _ :: _, .con _ _, h, _ | _ :: _, .rcd _, h, _
  | _ :: _, .nil, h, _ => by simp [Fits] at h

theorem zip_not {x : Nat} : ∀ {ls : List Nat} {ts : GTy}, x ∉ ls → zipLook ls ts x = none
  | [], _, _ => rfl
  | l :: ls, .cons t ts, h => by
    simp only [List.mem_cons, not_or] at h
    simp only [zipLook, if_neg h.1]
    exact zip_not h.2
  | _ :: _, .arrow _ _, _ | _ :: _, .con _ _, _ | _ :: _, .rcd _, _
  | _ :: _, .nil, _ => rfl

theorem fits_zip {f : Row} {ls : List Nat} {ts : GTy} (h : Fits f ls ts)
    (hn : ∀ l, l ∉ ls → f l = none) : zipLook ls ts = f := by
  funext x
  by_cases hx : x ∈ ls
  · exact zip_mem h hx
  · rw [hn x hx, zip_not hx]

theorem fits_vars {f : Row} {G : Asg} : ∀ (ls : List Nat) (a : Nat),
    (∀ i l, ls[i]? = some l → f l = some (G (a + i))) → Fits f ls (tm G (vars a ls.length))
  | [], _, _ => trivial
  | l :: ls, a, h => by
    refine ⟨h 0 l rfl, fits_vars ls (a + 1) fun i l hl => ?_⟩
    have := h (i + 1) l hl
    rwa [show a + 1 + i = a + (i + 1) by omega]

theorem rm_mkRow (G : Asg) (ls : List Nat) (m : Nat) :
    rm G (mkRow .nil ls m) = zipLook ls (tm G (vars m ls.length)) := zipLook_mkRow (gm G) ls m

theorem bnd_mkRow {S : St} {ls : List Nat} {m : Nat} (h : m + ls.length ≤ S.tv.length) :
    Bnd S (.rcd (mkRow .nil ls m)) := by
  intro v hv
  rcases mkRow_fv hv with hv | hv
  · simp [Ty.fv] at hv
  · omega

theorem bnd_vars {S : St} {k m : Nat} (h : m + k ≤ S.tv.length) : Bnd S (vars m k) := by
  intro v hv
  have := vars_fv hv
  omega

theorem bnd_var {S : St} {v : Nat} (h : v < S.tv.length) : Bnd S (.var v) := by
  intro w hw
  simp only [Ty.fv, List.mem_singleton] at hw
  omega

theorem bnd_arrow {S : St} {a b : Ty} (ha : Bnd S a) (hb : Bnd S b) : Bnd S (.arrow a b) := by
  intro w hw
  simp only [Ty.fv, List.mem_append] at hw
  rcases hw with hw | hw
  · exact ha w hw
  · exact hb w hw

theorem len_freshN (S : St) (l c : Nat) : (S.freshN l c).tv.length = S.tv.length + c :=
  (freshN_spec c S l).2.1

theorem legal_fields : ∀ {p : Pat}, p.legal true = true → p.isFields = true
  | .fnil, _ => rfl
  | .fcons l p r, h => by
    simp only [Pat.legal, Bool.and_eq_true] at h
    exact legal_fields (p := r) h.2
  | .var _, h | .wild, h | .int _, h | .bool _, h | .as _ _, h | .con0 _, h | .con _ _, h
  | .rcd _ _, h => by simp [Pat.legal] at h

theorem ptyp_labels {f : Row} : ∀ {p : Pat} {D D' : List (Nat × GTy)}, p.isFields = true →
    PTyp p (.rcd f) D D' → ∀ l ∈ p.labels, ∃ t, f l = some t
  | .fnil, _, _, _, _, l, hl => by simp [Pat.labels] at hl
  | .fcons x p r, D, D', hp, h, l, hl => by
    cases h with
    | fcons _ _ _ _ t _ D1 _ h1 h2 h3 =>
      simp only [Pat.labels, List.mem_cons] at hl
      rcases hl with rfl | hl
      · exact ⟨t, h1⟩
      · exact ptyp_labels (p := r) hp h3 l hl
  | .var _, _, _, h, _, _, _ | .wild, _, _, h, _, _, _ | .int _, _, _, h, _, _, _
  | .bool _, _, _, h, _, _, _ | .as _ _, _, _, h, _, _, _ | .con0 _, _, _, h, _, _, _
  | .con _ _, _, _, h, _, _, _ | .rcd _ _, _, _, h, _, _, _ => by simp [Pat.isFields] at h

/-- At what a pattern is elaborated. -/
def PShape (c : Bool) (p : Pat) (G : Asg) (t : Ty) (T : GTy) : Prop :=
  if c then ∃ f a, T = .rcd f ∧ t = vars a p.labels.length ∧ Fits f p.labels (tm G t)
  else T = tm G t

theorem elabPat_all (n : Nat) : ∀ (p : Pat) (c : Bool), p.legal c = true → ∀ (t : Ty) (S : St)
    (PE : List (Nat × Ty)) (G : Asg) (T : GTy) (D : List (Nat × GTy)), Cx S → SolG S G →
    Cl t false → Bnd S t → PEok S PE → PShape c p G t T → PTyp p T (semD G PE) D →
    POk n S G (fun k => elabPat k n p t S PE) D := by
  intro p
  induction p with
  | var x =>
    intro c hc t S PE G T D hS hG ct bt hP hT hp
    have hc : c = false := by simpa [Pat.legal] using hc
    subst hc
    obtain rfl : T = tm G t := hT
    cases hp with
    | var _ _ _ hx =>
      refine ⟨S, (x, t) :: PE, G, ⟨0, fun k _ => ?_⟩, .refl hS hG, ?_, rfl⟩
      · simp [elabPat, look_semD hx]
      · intro q hq
        simp only [List.mem_cons] at hq
        rcases hq with rfl | hq
        · exact ⟨ct, bt⟩
        · exact hP q hq
  | wild =>
    intro c hc t S PE G T D hS hG ct bt hP hT hp
    cases hp
    exact ⟨S, PE, G, ⟨0, fun k _ => by simp [elabPat]⟩, .refl hS hG, hP, rfl⟩
  | int z =>
    intro c hc t S PE G T D hS hG ct bt hP hT hp
    have hc : c = false := by simpa [Pat.legal] using hc
    subst hc
    obtain hT : T = tm G t := hT
    cases hp
    simp only [elabPat]
    refine POk.bind (EOk.unify hS hG ⟨rfl, trivial⟩ ct (by intro v hv; simp [Ty.fv, tInt] at hv) bt hT)
      fun S1 G1 g1 => ?_
    exact ⟨S1, PE, G1, ⟨0, fun k _ => rfl⟩, .refl g1.cx g1.sol, g1.peok hP, (g1.semD hP).symm⟩
  | bool z =>
    intro c hc t S PE G T D hS hG ct bt hP hT hp
    have hc : c = false := by simpa [Pat.legal] using hc
    subst hc
    obtain hT : T = tm G t := hT
    cases hp
    simp only [elabPat]
    refine POk.bind (EOk.unify hS hG ⟨rfl, trivial⟩ ct (by intro v hv; simp [Ty.fv, tBool] at hv) bt hT)
      fun S1 G1 g1 => ?_
    exact ⟨S1, PE, G1, ⟨0, fun k _ => rfl⟩, .refl g1.cx g1.sol, g1.peok hP, (g1.semD hP).symm⟩
  | as x p ih =>
    intro c hc t S PE G T D hS hG ct bt hP hT hp
    simp only [Pat.legal, Bool.and_eq_true, Bool.not_eq_true'] at hc
    obtain ⟨rfl, hc⟩ := hc
    obtain rfl : T = tm G t := hT
    cases hp with
    | as _ _ _ _ _ hx hp =>
      simp only [elabPat, look_semD hx, Bool.false_eq_true, if_false]
      refine ih false hc t S ((x, t) :: PE) G _ D hS hG ct bt ?_ rfl hp
      intro q hq
      simp only [List.mem_cons] at hq
      rcases hq with rfl | hq
      · exact ⟨ct, bt⟩
      · exact hP q hq
  | con0 k =>
    intro c hc t S PE G T D hS hG ct bt hP hT hp
    have hc : c = false := by simpa [Pat.legal] using hc
    subst hc
    obtain hT : T = tm G t := hT
    cases hp with
    | con0 _ a _ hk =>
      have g0 : Goes n S (S.fresh n false) G (fun v => if v = S.tv.length then a else G v) :=
        freshN_goes hS hG n 1 n (Nat.le_refl _) fun v hv => if_neg (by omega)
      have hn : (conArg (.var S.tv.length) k).isSome = false := by
        cases k <;> simp [conArg, conArgG] at hk ⊢
      simp only [elabPat, hn, Bool.false_eq_true, if_false]
      refine POk.after g0 (POk.bind (EOk.unify g0.cx g0.sol (cl_conTy _ _) ct ?_ (g0.bnd bt) ?_)
        fun S1 G1 g1 => ?_)
      · intro v hv
        rw [fv_conTy hv, len_fresh]
        omega
      · rw [g0.tm bt, tm_conTy, ← hT]
        simp [conG, hk]
      · have g := g0.trans g1
        exact ⟨S1, PE, G1, ⟨0, fun k _ => rfl⟩, .refl g1.cx g1.sol, g.peok hP, (g.semD hP).symm⟩
  | con k p ih =>
    intro c hc t S PE G T D hS hG ct bt hP hT hp
    simp only [Pat.legal, Bool.and_eq_true, Bool.not_eq_true'] at hc
    obtain ⟨rfl, hc⟩ := hc
    obtain hT : T = tm G t := hT
    cases hp with
    | con _ a b _ _ _ hk hp =>
      have g0 : Goes n S (S.freshN n 3) G (fun v => if v = S.tv.length then a else
          if v = S.tv.length + 1 then b else if v = S.tv.length + 2 then conResG a k else G v) :=
        freshN_goes hS hG n 3 n (Nat.le_refl _) fun v hv => by
          rw [if_neg (by omega), if_neg (by omega), if_neg (by omega)]
      have hl := len_freshN S n 3
      show POk n S G (fun k' => (unify k' (S.freshN n 3) (conTy (.var S.tv.length) k)
        (.arrow (.var (S.tv.length + 1)) (.var (S.tv.length + 2))) >>= fun S' =>
          unify k' S' (.var (S.tv.length + 2)) t >>= fun S' =>
            elabPat k' n p (.var (S.tv.length + 1)) S' PE)) D
      have b1 : Bnd (S.freshN n 3) (.var (S.tv.length + 1)) := bnd_var (by omega)
      have b2 : Bnd (S.freshN n 3) (.var (S.tv.length + 2)) := bnd_var (by omega)
      refine POk.after g0 (POk.bind (EOk.unify g0.cx g0.sol (cl_conTy _ _) ⟨rfl, rfl, rfl⟩ ?_
        (bnd_arrow b1 b2) ?_) fun S1 G1 g1 => POk.bind (EOk.unify g1.cx g1.sol rfl ct
          (g1.bnd b2) (g1.bnd (g0.bnd bt)) ?_) fun S2 G2 g2 => ?_)
      · intro v hv
        rw [fv_conTy hv, hl]
        omega
      · rw [tm_conTy]
        simp [conG, hk, tm, sem, gm]
      · rw [g1.tm b2, g1.tm (g0.bnd bt), g0.tm bt, ← hT]
        simp [tm, sem, gm]
      · have g12 := g1.trans g2
        have g := g0.trans g12
        refine ih false hc _ S2 PE G2 b D g2.cx g2.sol rfl (g12.bnd b1) (g.peok hP) ?_
          (by rw [g.semD hP]; exact hp)
        show b = tm G2 _
        rw [g12.tm b1]
        simp [tm, sem, gm]
  | rcd fs dots ih =>
    intro c hc t S PE G T D hS hG ct bt hP hT hp
    simp only [Pat.legal, Bool.and_eq_true, Bool.not_eq_true'] at hc
    obtain ⟨⟨rfl, rfl⟩, hc⟩ := hc
    obtain hT : T = tm G t := hT
    cases hp with
    | rcd _ _ f _ _ hf hnd hex hp =>
      have g0 : Goes n S (S.freshN n fs.labels.length) G (fun v => if v < S.tv.length then G v else
          (f (fs.labels[v - S.tv.length]?.getD 0)).getD .nil) :=
        freshN_goes hS hG n _ n (Nat.le_refl _) fun v hv => if_pos hv
      have hl := len_freshN S n fs.labels.length
      have hlab := ptyp_labels hf hp
      have hfit := fits_vars (f := f) (G := fun v => if v < S.tv.length then G v else
          (f (fs.labels[v - S.tv.length]?.getD 0)).getD .nil) fs.labels S.tv.length (by
        intro i l hi
        obtain ⟨u, hu⟩ := hlab l (List.mem_of_getElem? hi)
        rw [if_neg (by omega), show S.tv.length + i - S.tv.length = i by omega, hi]
        simp [hu])
      simp only [elabPat, hnd, hf, not_true, if_false, Bool.false_eq_true]
      refine POk.after g0 (POk.bind (EOk.unify g0.cx g0.sol ⟨rfl, (mkRow_cl _ _ hnd).1⟩ ct
        (bnd_mkRow (by omega)) (g0.bnd bt) ?_) fun S1 G1 g1 => ?_)
      · rw [g0.tm bt, ← hT]
        show GTy.rcd (rm _ _) = _
        rw [rm_mkRow, fits_zip hfit (hex rfl)]
      · have g := g0.trans g1
        have bv : Bnd (S.freshN n fs.labels.length) (vars S.tv.length fs.labels.length) :=
          bnd_vars (by omega)
        refine ih true hc _ S1 PE G1 (.rcd f) D g1.cx g1.sol (vars_cl _ _) (g1.bnd bv) (g.peok hP)
          ?_ (by rw [g.semD hP]; exact hp)
        refine ⟨f, S.tv.length, rfl, rfl, ?_⟩
        rw [g1.tm bv]
        exact hfit
  | fnil =>
    intro c hc t S PE G T D hS hG ct bt hP hT hp
    have hc : c = true := by simpa [Pat.legal] using hc
    subst hc
    obtain ⟨f, a, rfl, rfl, hf⟩ := hT
    cases hp
    exact ⟨S, PE, G, ⟨0, fun k _ => by simp [elabPat, Pat.labels, vars]⟩, .refl hS hG, hP, rfl⟩
  | fcons l p r ihp ihr =>
    intro c hc t S PE G T D hS hG ct bt hP hT hp
    simp only [Pat.legal, Bool.and_eq_true] at hc
    obtain ⟨⟨rfl, hc1⟩, hc2⟩ := hc
    obtain ⟨f, a, rfl, rfl, hf⟩ := hT
    cases hp with
    | fcons _ _ _ _ u _ D1 _ h1 h2 h3 =>
      obtain ⟨hf1, hf2⟩ := hf
      simp only [Pat.labels, List.length_cons, vars, elabPat] at *
      obtain rfl : u = tm G (.var a) := by
        rw [h1] at hf1
        exact Option.some.inj hf1
      obtain ⟨S1, PE1, G1, ⟨k1, e1⟩, g1, hP1, rfl⟩ := ihp false hc1 (.var a) S PE G _ D1 hS hG rfl
        (fun v hv => bt v (by simp only [Ty.fv, List.mem_append] at *; exact .inl hv)) hP rfl h2
      have bv : Bnd S (vars (a + 1) r.labels.length) :=
        fun v hv => bt v (by simp only [Ty.fv, List.mem_append] at *; exact .inr hv)
      obtain ⟨S2, PE2, G2, ⟨k2, e2⟩, g2, hP2, rfl⟩ := ihr true hc2 (vars (a + 1) r.labels.length) S1
        PE1 G1 (.rcd f) D g1.cx g1.sol (vars_cl _ _) (g1.bnd bv) hP1
        ⟨f, a + 1, rfl, rfl, by rw [g1.tm bv]; exact hf2⟩ h3
      refine ⟨S2, PE2, G2, ⟨max k1 k2, fun k hk => ?_⟩, g1.trans g2, hP2, rfl⟩
      simp only at e1 e2 ⊢
      rw [e1 k (by omega)]
      exact e2 k (by omega)

/-! ## Environments -/

def EnvB (S : St) (E : Env) : Prop :=
  ∀ p ∈ E, Cl p.2.body false ∧ ∀ v ∈ p.2.body.fv, v ∉ p.2.ps → v < S.tv.length

theorem EnvB.goes {n : Nat} {S S' : St} {G G' : Asg} {E : Env} (h : EnvB S E)
    (g : Goes n S S' G G') : EnvB S' E :=
  fun p hp => ⟨(h p hp).1, fun v hv hn => Nat.lt_of_lt_of_le ((h p hp).2 v hv hn) g.later.len⟩

/-- The types of a scheme. -/
def schG (G : Asg) (sc : Scheme) : GTy → Prop :=
  fun t => ∃ G0 : Asg, (∀ v, v ∉ sc.ps → G0 v = G v) ∧ t = tm G0 sc.body

/-- The environment has all the types of the context. -/
def CtxLe (G : Asg) (C : Ctx) (E : Env) : Prop :=
  ∀ x P, look x C = some P → ∃ sc, look x E = some sc ∧ ∀ t, P t → schG G sc t

theorem schG_agree {S : St} {G G' : Asg} {sc : Scheme}
    (hb : ∀ v ∈ sc.body.fv, v ∉ sc.ps → v < S.tv.length)
    (ha : ∀ v, v < S.tv.length → G' v = G v) {t : GTy} (h : schG G sc t) : schG G' sc t := by
  obtain ⟨G0, h0, rfl⟩ := h
  refine ⟨fun v => if v ∈ sc.ps then G0 v else G' v, fun v hv => if_neg hv, ?_⟩
  refine tm_congr fun v hv => ?_
  by_cases hp : v ∈ sc.ps
  · rw [if_pos hp]
  · rw [if_neg hp, h0 v hp, ha v (hb v hv hp)]

theorem CtxLe.agree {S : St} {G G' : Asg} {C : Ctx} {E : Env} (h : CtxLe G C E) (hE : EnvB S E)
    (ha : ∀ v, v < S.tv.length → G' v = G v) : CtxLe G' C E := by
  intro x P hx
  obtain ⟨sc, hsc, hP⟩ := h x P hx
  exact ⟨sc, hsc, fun t ht => schG_agree (hE _ (mem_look hsc)).2 ha (hP t ht)⟩

theorem CtxLe.cons {G : Asg} {C : Ctx} {E : Env} (h : CtxLe G C E) {x : Nat} {P : GTy → Prop}
    {sc : Scheme} (hp : ∀ t, P t → schG G sc t) : CtxLe G ((x, P) :: C) ((x, sc) :: E) := by
  intro y Q hy
  simp only [look] at hy ⊢
  by_cases e : x = y
  · subst e
    simp only [if_true, Option.some.injEq] at hy
    subst hy
    exact ⟨sc, by simp, hp⟩
  · rw [if_neg e] at hy
    rw [if_neg e]
    exact h y Q hy

theorem schG_mono (G : Asg) (t : Ty) : schG G ⟨[], t⟩ (tm G t) := ⟨G, fun _ _ => rfl, rfl⟩

theorem CtxLe.mono {G : Asg} {C : Ctx} {E : Env} (h : CtxLe G C E) : ∀ (PE : List (Nat × Ty)),
    CtxLe G (monoG (semD G PE) ++ C) (Typing.mono PE ++ E)
  | [] => h
  | (x, t) :: PE => by
    refine CtxLe.cons (P := fun u => u = tm G t) (sc := ⟨[], t⟩) (CtxLe.mono h PE) ?_
    rintro u rfl
    exact schG_mono G t

theorem EnvB.mono {S : St} {E : Env} (h : EnvB S E) {PE : List (Nat × Ty)} (hP : PEok S PE) :
    EnvB S (Typing.mono PE ++ E) := by
  intro p hp
  simp only [List.mem_append, Typing.mono, List.mem_map] at hp
  rcases hp with ⟨q, hq, rfl⟩ | hp
  · exact ⟨(hP q hq).1, fun v hv _ => (hP q hq).2 v hv⟩
  · exact h p hp

theorem EnvB.cons {S : St} {E : Env} (h : EnvB S E) {x : Nat} {sc : Scheme}
    (hc : Cl sc.body false) (hb : ∀ v ∈ sc.body.fv, v ∉ sc.ps → v < S.tv.length) :
    EnvB S ((x, sc) :: E) := by
  intro p hp
  simp only [List.mem_cons] at hp
  rcases hp with rfl | hp
  · exact ⟨hc, hb⟩
  · exact h p hp

theorem inst_at {ps : List Nat} {m v : Nat} (h : v ∈ ps) :
    ∃ i, ps[i]? = some v ∧ inst ps m v = .var (m + i) := by
  cases hx : ps.idxOf? v with
  | none => exact absurd h (List.idxOf?_eq_none_iff.1 hx)
  | some i =>
    refine ⟨i, ?_, by simp [inst, hx]⟩
    obtain ⟨h1, h2, -⟩ := List.findIdx?_eq_some_iff_getElem.1 hx
    rw [List.getElem?_eq_getElem h1]
    simpa using h2

theorem inst_cl (ps : List Nat) (m v : Nat) : Cl (inst ps m v) false := by
  simp only [inst]
  split <;> rfl

theorem specialize_all {n : Nat} {S : St} {G : Asg} (hS : Cx S) (hG : SolG S G) {sc : Scheme}
    (hb : ∀ v ∈ sc.body.fv, v ∉ sc.ps → v < S.tv.length) (hc : Cl sc.body false) {t : GTy}
    (h : schG G sc t) : ∃ G', Goes n S (specialize S n sc).1 G G' ∧
      Cl (specialize S n sc).2 false ∧ Bnd (specialize S n sc).1 (specialize S n sc).2 ∧
      tm G' (specialize S n sc).2 = t := by
  obtain ⟨G0, h0, rfl⟩ := h
  have hl := len_freshN S n sc.ps.length
  have g := freshN_goes (G' := fun v => if v < S.tv.length then G v else
    G0 (sc.ps[v - S.tv.length]?.getD 0)) hS hG n sc.ps.length n (Nat.le_refl _)
    fun v hv => if_pos hv
  refine ⟨_, g, (subst_cl (inst_cl _ _) _ _ hc).1, ?_, ?_⟩
  · intro w hw
    simp only [specialize] at hw ⊢
    rw [mem_fv_subst] at hw
    obtain ⟨v, hv, hw⟩ := hw
    by_cases e : v ∈ sc.ps
    · obtain ⟨i, hi, e⟩ := inst_mem (m := S.tv.length) e
      rw [e] at hw
      simp only [Ty.fv, List.mem_singleton] at hw
      omega
    · rw [inst_not e] at hw
      simp only [Ty.fv, List.mem_singleton] at hw
      subst hw
      have := hb w hv e
      omega
  · simp only [specialize]
    rw [tm_subst (inst_cl _ _)]
    refine tm_congr fun v hv => ?_
    by_cases e : v ∈ sc.ps
    · obtain ⟨i, hi, e⟩ := inst_at (m := S.tv.length) e
      rw [e]
      show (if S.tv.length + i < S.tv.length then _ else _) = _
      rw [if_neg (by omega), show S.tv.length + i - S.tv.length = i by omega, hi]
      rfl
    · rw [inst_not e]
      show (if v < S.tv.length then _ else _) = _
      rw [if_pos (hb v hv e), h0 v e]

/-- Generalization has every type that the variable has in a solution that agrees with the
given one on the variables of low level. -/
theorem generalize_all {n : Nat} {S : St} {G : Asg} (hS : Cx S) (hG : SolG S G) {ex : Bool}
    {t : Ty} (ct : Cl t false) (bt : Bnd S t) {S' : St} {sc : Scheme}
    (h : generalize S n ex t = (S', sc)) :
    Goes n S S' G G ∧ Cl sc.body false ∧ (∀ v ∈ sc.body.fv, v ∉ sc.ps → v < S'.tv.length) ∧
      schG G sc (tm G t) ∧
      (ex = false → ∀ G1, SolG S G1 → (∀ w, w < S.tv.length → S.img w = .var w → S.lvl w ≤ n →
        G1 w = G w) → schG G sc (tm G1 t)) := by
  have bu := hS.app_bnd bt
  have cu := hS.app ct
  cases ex with
  | true =>
    simp only [generalize, if_true, Prod.mk.injEq] at h
    obtain ⟨rfl, rfl⟩ := h
    refine ⟨⟨⟨⟨hS.wf.of_img (img_prune _ _ _), by rw [img_prune]; exact hS.cl,
      by rw [img_prune, len_prune]; exact hS.bd, ?_⟩, by rw [len_prune], ?_, ?_, rfl⟩, ?_,
      fun _ _ => rfl⟩, cu, ?_, ?_, by simp⟩
    · intro v
      have := hS.row v
      simp only [St.isRow, St.prune, List.getElem?_mapIdx] at this ⊢
      cases hq : S.tv[v]? with
      | none => rfl
      | some e =>
        rw [hq] at this
        simp only [Option.map_some]
        split <;> exact this
    · intro G1 h1 v
      rw [← img_prune S n]
      exact h1 v
    · intro m hm G1 G2 _ _ hv w hw hi hl
      rw [len_prune] at hw
      rw [img_prune] at hi
      rw [lvl_prune] at hl
      split at hl
      · omega
      · exact hv w hw hi hl
    · intro v
      rw [img_prune]
      exact hG v
    · intro v hv _
      rw [len_prune]
      exact bu v hv
    · rw [← tm_app hS hG]
      exact schG_mono G (S.app t)
  | false =>
    simp only [generalize, Bool.false_eq_true, if_false, Prod.mk.injEq] at h
    obtain ⟨rfl, rfl⟩ := h
    have key : ∀ G1, SolG S G1 → (∀ w, w < S.tv.length → S.img w = .var w → S.lvl w ≤ n →
        G1 w = G w) → schG G ⟨(List.range (S.above n (S.app t).fv).length).map (S.tv.length + ·),
          (S.app t).subst (inst (S.above n (S.app t).fv) S.tv.length)⟩ (tm G1 t) := by
      intro G1 h1 hlow
      refine ⟨fun v => if v < S.tv.length then G v else
        if v < S.tv.length + (S.above n (S.app t).fv).length then
          G1 ((S.above n (S.app t).fv)[v - S.tv.length]?.getD 0) else G v, ?_, ?_⟩
      · intro v hv
        simp only [List.mem_map, List.mem_range, not_exists, not_and] at hv
        beta_reduce
        by_cases h1 : v < S.tv.length
        · rw [if_pos h1]
        · rw [if_neg h1, if_neg]
          intro h2
          exact hv (v - S.tv.length) (by omega) (by omega)
      · rw [tm_subst (inst_cl _ _), ← tm_app hS h1]
        refine tm_congr fun v hv => ?_
        have hb := bu v hv
        by_cases e : v ∈ S.above n (S.app t).fv
        · obtain ⟨i, hi, e⟩ := inst_at (m := S.tv.length) e
          have hil : i < (S.above n (S.app t).fv).length :=
            (List.getElem?_eq_some_iff.1 hi).1
          rw [e]
          show _ = (if S.tv.length + i < S.tv.length then _ else _)
          rw [if_neg (by omega), if_pos (by omega),
            show S.tv.length + i - S.tv.length = i by omega, hi]
          rfl
        · rw [inst_not e]
          show _ = (if v < S.tv.length then _ else _)
          rw [if_pos hb]
          refine hlow v hb (app_unbound hS.wf hv) ?_
          by_contra hl
          apply e
          simp only [St.above, List.mem_dedup, List.mem_filter, hv, hS.row v, true_and]
          simp
          omega
    refine ⟨freshN_goes hS hG (n + 1) _ n (by omega) fun _ _ => rfl,
      (subst_cl (inst_cl _ _) _ _ cu).1, ?_, key G hG fun _ _ _ _ => rfl, fun _ => key⟩
    intro w hw hn
    simp only at hw hn ⊢
    rw [len_freshN]
    rw [mem_fv_subst] at hw
    obtain ⟨v, hv, hw⟩ := hw
    by_cases e : v ∈ S.above n (S.app t).fv
    · obtain ⟨i, hi, e⟩ := inst_mem (m := S.tv.length) e
      rw [e] at hw
      simp only [Ty.fv, List.mem_singleton] at hw
      omega
    · rw [inst_not e] at hw
      simp only [Ty.fv, List.mem_singleton] at hw
      subst hw
      have := bu w hv
      omega

/-! ## Expressions -/

theorem Goes.mono {n n' : Nat} {S S' : St} {G G' : Asg} (h : Goes n S S' G G') (hn : n' ≤ n) :
    Goes n' S S' G G' := ⟨h.later.mono hn, h.sol, h.agree⟩

theorem EOk.mono {n n' : Nat} {S : St} {G : Asg} {f : Nat → Res St} (h : EOk n S G f)
    (hn : n' ≤ n) : EOk n' S G f := by
  obtain ⟨S', G', h1, g⟩ := h
  exact ⟨S', G', h1, g.mono hn⟩

theorem legal_rules : ∀ {e : Exp}, e.legal .rules = true → e.isRules = true
  | .rnil, _ => rfl
  | .rule p e r, h => by
    simp only [Exp.legal, Bool.and_eq_true] at h
    exact legal_rules (e := r) h.2
  | .int _, h | .bool _, h | .var _, h | .prim _, h | .con _, h | .fn _, h | .app _ _, h
  | .rcd _, h | .ite _ _ _, h | .letv _ _ _, h | .letf _ _ _, h | .fnil, h | .fcons _ _ _, h => by
    simp [Exp.legal] at h

/-- The types of a chain of fields. -/
def GTy.nth : GTy → Nat → GTy
  | .cons t _, 0 => t
  | .cons _ ts, i + 1 => ts.nth i
  | _, _ => .nil

theorem typ_fields : ∀ {e : Exp} {C : Ctx} {T : GTy} {G : Asg} {a : Nat}, e.legal .fields = true →
    Typ C e T → (∀ i, i < e.labels.length → G (a + i) = T.nth i) → tm G (vars a e.labels.length) = T
  | .fnil, C, T, G, a, _, h, _ => by
    cases h
    rfl
  | .fcons l e r, C, T, G, a, hl, h, hG => by
    simp only [Exp.legal, Bool.and_eq_true] at hl
    cases h with
    | fcons _ _ _ _ t ts h1 h2 =>
      have e1 := hG 0 (by simp [Exp.labels])
      have e2 := typ_fields (e := r) (a := a + 1) (G := G) hl.2 h2 (fun i hi => by
        have := hG (i + 1) (by simp [Exp.labels, hi])
        rwa [show a + 1 + i = a + (i + 1) by omega])
      simp only [Exp.labels, List.length_cons, vars, tm, sem] at *
      rw [e2]
      simp only [gm]
      rw [show G a = t from e1]
  | .int _, _, _, _, _, h, _, _ | .bool _, _, _, _, _, h, _, _ | .var _, _, _, _, _, h, _, _
  | .prim _, _, _, _, _, h, _, _ | .con _, _, _, _, _, h, _, _ | .fn _, _, _, _, _, h, _, _
  | .app _ _, _, _, _, _, h, _, _
  | .rcd _, _, _, _, _, h, _, _ | .ite _ _ _, _, _, _, _, h, _, _ | .letv _ _ _, _, _, _, _, h, _, _
  | .letf _ _ _, _, _, _, _, h, _, _ | .rnil, _, _, _, _, h, _, _
  | .rule _ _ _, _, _, _, _, h, _, _ => by
    simp [Exp.legal] at h

/-- At what an expression or a chain is elaborated. -/
def EShape : Kind → Exp → Ty → Prop
  | .exp, _, _ => True
  | .rules, _, t => ∃ a b, t = .arrow (.var a) (.var b)
  | .fields, e, t => ∃ a, t = vars a e.labels.length

theorem EOk.unique {n : Nat} {S : St} {G G' : Asg} {f : Nat → Res St} {S1 : St} {k1 : Nat}
    (h1 : ∀ k, k1 ≤ k → f k = .ok S1) (h : EOk n S G' f) :
    ∃ G1, Goes n S S1 G' G1 := by
  obtain ⟨S2, G2, ⟨k2, h2⟩, g2⟩ := h
  have a := h1 (max k1 k2) (by omega)
  rw [h2 (max k1 k2) (by omega)] at a
  obtain rfl := Except.ok.inj a
  exact ⟨G2, g2⟩

theorem elabExp_all : ∀ (e : Exp) (κ : Kind), e.legal κ = true → ∀ (n : Nat) (E : Env) (t : Ty)
    (S : St) (G : Asg) (C : Ctx), Cx S → SolG S G → Cl t false → Bnd S t → EnvB S E → CtxLe G C E →
    EShape κ e t → Typ C e (tm G t) → EOk n S G fun k => elabExp k e n E t S := by
  intro e
  induction e with
  | int z =>
    intro κ hκ n E t S G C hS hG ct bt hE hC hs hT
    generalize hT' : tm G t = T at hT
    cases hT
    exact EOk.unify hS hG ⟨rfl, trivial⟩ ct (by intro v hv; simp [Ty.fv, tInt] at hv) bt hT'.symm
  | bool z =>
    intro κ hκ n E t S G C hS hG ct bt hE hC hs hT
    generalize hT' : tm G t = T at hT
    cases hT
    exact EOk.unify hS hG ⟨rfl, trivial⟩ ct (by intro v hv; simp [Ty.fv, tBool] at hv) bt hT'.symm
  | var x =>
    intro κ hκ n E t S G C hS hG ct bt hE hC hs hT
    generalize hT' : tm G t = T at hT
    cases hT with
    | var _ _ P _ hx hP =>
      obtain ⟨sc, hsc, hle⟩ := hC x P hx
      have hb := hE _ (mem_look hsc)
      obtain ⟨G1, g1, c1, b1, e1⟩ := specialize_all (n := n) hS hG hb.2 hb.1 (hle _ hP)
      simp only [elabExp, hsc]
      exact EOk.after g1 (EOk.unify g1.cx g1.sol c1 ct b1 (g1.bnd bt)
        (by rw [e1, g1.tm bt, hT']))
  | prim p =>
    intro κ hκ n E t S G C hS hG ct bt hE hC hs hT
    generalize hT' : tm G t = T at hT
    cases hT with
    | prim _ _ a =>
      have g0 : Goes n S (S.fresh n false) G (fun v => if v = S.tv.length then a else G v) :=
        freshN_goes hS hG n 1 n (Nat.le_refl _) fun v hv => if_neg (by omega)
      simp only [elabExp]
      refine EOk.after g0 (EOk.unify g0.cx g0.sol (cl_primTy _ _) ct ?_ (g0.bnd bt) ?_)
      · intro v hv
        rw [fv_primTy hv, len_fresh]
        omega
      · rw [g0.tm bt, tm_primTy, hT']
        simp
  | con p =>
    intro κ hκ n E t S G C hS hG ct bt hE hC hs hT
    generalize hT' : tm G t = T at hT
    cases hT with
    | con _ _ a =>
      have g0 : Goes n S (S.fresh n false) G (fun v => if v = S.tv.length then a else G v) :=
        freshN_goes hS hG n 1 n (Nat.le_refl _) fun v hv => if_neg (by omega)
      simp only [elabExp]
      refine EOk.after g0 (EOk.unify g0.cx g0.sol (cl_conTy _ _) ct ?_ (g0.bnd bt) ?_)
      · intro v hv
        rw [fv_conTy hv, len_fresh]
        omega
      · rw [g0.tm bt, tm_conTy, hT']
        simp
  | fn rs ih =>
    intro κ hκ n E t S G C hS hG ct bt hE hC hs hT
    simp only [Exp.legal, Bool.and_eq_true] at hκ
    generalize hT' : tm G t = T at hT
    cases hT with
    | fn _ _ a b hr hrs =>
      have g0 := freshN_goes (G' := fun v => if v = S.tv.length then a else
        if v = S.tv.length + 1 then b else G v) hS hG n 2 n (Nat.le_refl _) fun v hv => by
          rw [if_neg (by omega), if_neg (by omega)]
      have hl := len_freshN S n 2
      have ba : Bnd (S.freshN n 2) (.arrow (.var S.tv.length) (.var (S.tv.length + 1))) :=
        bnd_arrow (bnd_var (by omega)) (bnd_var (by omega))
      have ea : tm (fun v => if v = S.tv.length then a else if v = S.tv.length + 1 then b else G v)
          (.arrow (.var S.tv.length) (.var (S.tv.length + 1))) = .arrow a b := by
        simp [tm, sem, gm]
      simp only [elabExp, hr, not_true, if_false]
      refine EOk.after g0 (EOk.bind (EOk.unify g0.cx g0.sol ⟨rfl, rfl, rfl⟩ ct ba (g0.bnd bt) ?_)
        fun S1 G1 g1 => ?_)
      · rw [g0.tm bt, hT', ea]
      · have g := g0.trans g1
        refine ih .rules hκ.2 n E _ S1 G1 C g1.cx g1.sol ⟨rfl, rfl, rfl⟩ (g1.bnd ba) (hE.goes g)
          (hC.agree hE g.agree) ⟨_, _, rfl⟩ ?_
        rw [g1.tm ba, ea]
        exact hrs
  | app f a ihf iha =>
    intro κ hκ n E t S G C hS hG ct bt hE hC hs hT
    simp only [Exp.legal, Bool.and_eq_true] at hκ
    generalize hT' : tm G t = T at hT
    cases hT with
    | app _ _ _ u _ h1 h2 =>
      have g0 : Goes n S (S.fresh n false) G
          (fun v => if v = S.tv.length then .arrow u T else G v) :=
        freshN_goes hS hG n 1 n (Nat.le_refl _) fun v hv => if_neg (by omega)
      have bv : Bnd (S.fresh n false) (.var S.tv.length) := bnd_var (by rw [len_fresh]; omega)
      simp only [elabExp]
      refine EOk.after g0 (EOk.bind (ihf .exp hκ.1.2 n E _ _ _ C g0.cx g0.sol rfl bv (hE.goes g0)
        (hC.agree hE g0.agree) trivial ?_) fun S1 G1 g1 => ?_)
      · simpa [tm, sem, gm] using h1
      · have e1 : G1 S.tv.length = .arrow u T := by
          have := g1.tm bv
          simpa [tm, sem, gm] using this
        have g01 := g0.trans g1
        have hl := len_freshN S1 n 2
        have g2 := freshN_goes (G' := fun v => if v = S1.tv.length then u else
          if v = S1.tv.length + 1 then T else G1 v) g1.cx g1.sol n 2 n (Nat.le_refl _)
          fun v hv => by rw [if_neg (by omega), if_neg (by omega)]
        have b1 : Bnd (S1.freshN n 2) (.var S1.tv.length) := bnd_var (by omega)
        have b2 : Bnd (S1.freshN n 2) (.var (S1.tv.length + 1)) := bnd_var (by omega)
        have g02 := g01.trans g2
        refine EOk.after g2 (EOk.bind (EOk.unify g2.cx g2.sol rfl ⟨rfl, rfl, rfl⟩
          (g2.bnd (g1.bnd bv)) (bnd_arrow b1 b2) ?_) fun S3 G3 g3 =>
          EOk.bind (EOk.unify g3.cx g3.sol rfl ct (g3.bnd b2) (g3.bnd (g02.bnd bt)) ?_)
          fun S4 G4 g4 => ?_)
        · rw [g2.tm (g1.bnd bv)]
          simp [tm, sem, gm, e1]
        · rw [g3.tm b2, g3.tm (g02.bnd bt), g02.tm bt, hT']
          simp [tm, sem, gm]
        · have g := g02.trans (g3.trans g4)
          refine iha .exp hκ.2 n E _ S4 G4 C g4.cx g4.sol rfl (g4.bnd (g3.bnd b1)) (hE.goes g)
            (hC.agree hE g.agree) trivial ?_
          rw [g4.tm (g3.bnd b1), g3.tm b1]
          simpa [tm, sem, gm] using h2
  | rcd fs ih =>
    intro κ hκ n E t S G C hS hG ct bt hE hC hs hT
    simp only [Exp.legal, Bool.and_eq_true] at hκ
    generalize hT' : tm G t = T at hT
    cases hT with
    | rcd _ _ ts hnd hfs =>
      have g0 := freshN_goes (G' := fun v => if v < S.tv.length then G v else
        ts.nth (v - S.tv.length)) hS hG n fs.labels.length n (Nat.le_refl _)
        fun v hv => if_pos hv
      have hl := len_freshN S n fs.labels.length
      have ev := typ_fields (G := fun v => if v < S.tv.length then G v else
        ts.nth (v - S.tv.length)) (a := S.tv.length) hκ.2 hfs (fun i hi => by
          rw [if_neg (by omega), show S.tv.length + i - S.tv.length = i by omega])
      have bv : Bnd (S.freshN n fs.labels.length) (vars S.tv.length fs.labels.length) :=
        bnd_vars (by omega)
      simp only [elabExp, hnd, not_true, if_false]
      refine EOk.after g0 (EOk.bind (EOk.unify g0.cx g0.sol ⟨rfl, (mkRow_cl _ _ hnd).1⟩ ct
        (bnd_mkRow (by omega)) (g0.bnd bt) ?_) fun S1 G1 g1 => ?_)
      · rw [g0.tm bt, hT']
        show GTy.rcd (rm _ _) = _
        rw [rm_mkRow, ev]
      · have g := g0.trans g1
        refine ih .fields hκ.2 n E _ S1 G1 C g1.cx g1.sol (vars_cl _ _) (g1.bnd bv) (hE.goes g)
          (hC.agree hE g.agree) ⟨_, rfl⟩ ?_
        rw [g1.tm bv, ev]
        exact hfs
  | ite c a b ihc iha ihb =>
    intro κ hκ n E t S G C hS hG ct bt hE hC hs hT
    simp only [Exp.legal, Bool.and_eq_true] at hκ
    generalize hT' : tm G t = T at hT
    cases hT with
    | ite _ _ _ _ _ h1 h2 h3 =>
      simp only [elabExp]
      refine EOk.bind (ihc .exp hκ.1.1.2 n E tBool S G C hS hG ⟨rfl, trivial⟩
        (by intro v hv; simp [Ty.fv, tBool] at hv) hE hC trivial h1) fun S1 G1 g1 =>
        EOk.bind (iha .exp hκ.1.2 n E t S1 G1 C g1.cx g1.sol ct (g1.bnd bt) (hE.goes g1)
          (hC.agree hE g1.agree) trivial (by rw [g1.tm bt, hT']; exact h2)) fun S2 G2 g2 => ?_
      have g := g1.trans g2
      exact ihb .exp hκ.2 n E t S2 G2 C g2.cx g2.sol ct (g.bnd bt) (hE.goes g)
          (hC.agree hE g.agree) trivial (by rw [g.tm bt, hT']; exact h3)
  | letv x e b ihe ihb =>
    intro κ hκ n E t S G C hS hG ct bt hE hC hs hT
    simp only [Exp.legal, Bool.and_eq_true] at hκ
    generalize hT' : tm G t = T at hT
    cases hT with
    | letv _ _ _ _ _ P hex he hsing hb =>
      obtain ⟨u0, hu0⟩ := hex
      have bv : Bnd (S.fresh (n + 1) false) (.var S.tv.length) :=
        bnd_var (by rw [len_fresh]; omega)
      have g0 : ∀ u, Goes (n + 1) S (S.fresh (n + 1) false) G
          (fun v => if v = S.tv.length then u else G v) := fun u =>
        freshN_goes hS hG (n + 1) 1 (n + 1) (Nat.le_refl _) fun v hv => if_neg (by omega)
      have all : ∀ u, P u → EOk (n + 1) (S.fresh (n + 1) false)
          (fun v => if v = S.tv.length then u else G v)
          fun k => elabExp k e (n + 1) E (.var S.tv.length) (S.fresh (n + 1) false) := by
        intro u hu
        refine ihe .exp hκ.1.2 (n + 1) E _ _ _ C (g0 u).cx (g0 u).sol rfl bv (hE.goes (g0 u))
          (hC.agree hE (g0 u).agree) trivial ?_
        simpa [tm, sem, gm] using he u hu
      obtain ⟨S1, G1, ⟨k1, h1⟩, g1⟩ := all u0 hu0
      have gs1 := ((g0 u0).trans g1).mono (Nat.le_succ n)
      generalize hgen : generalize S1 n (isExpansive e) (.var S.tv.length) = Q
      obtain ⟨S2, sc⟩ := Q
      obtain ⟨g2, c2, b2, m2, p2⟩ := generalize_all (t := .var S.tv.length) g1.cx g1.sol rfl
        (g1.bnd bv) hgen
      have gs2 := gs1.trans g2
      have e0 : tm G1 (.var S.tv.length) = u0 := by
        rw [g1.tm bv]
        simp [tm, sem, gm]
      have cov : ∀ u, P u → schG G1 sc u := by
        intro u hu
        cases hx : isExpansive e with
        | true => rw [hsing hx u u0 hu hu0, ← e0]; exact m2
        | false =>
          obtain ⟨G3, g3⟩ := EOk.unique (G := G) h1 (all u hu)
          have e3 : tm G3 (.var S.tv.length) = u := by
            rw [g3.tm bv]
            simp [tm, sem, gm]
          rw [← e3]
          refine p2 hx G3 g3.sol ?_
          refine g1.later.det n (by omega) G3 G1 g3.sol g1.sol ?_
          intro v hv hi hlv
          rw [len_fresh] at hv
          by_cases hv' : v = S.tv.length
          · subst hv'
            rw [lvl_fresh_new] at hlv
            omega
          · rw [g3.agree v (by rw [len_fresh]; omega), g1.agree v (by rw [len_fresh]; omega)]
            simp [hv']
      obtain ⟨S3, G3, ⟨k3, h3⟩, g3⟩ := ihb .exp hκ.2 (n + 1) ((x, sc) :: E) t S2 G1 ((x, P) :: C)
        g2.cx g2.sol ct (gs2.bnd bt) ((hE.goes gs2).cons c2 b2)
        ((hC.agree hE gs2.agree).cons cov) trivial (by rw [gs2.tm bt, hT']; exact hb)
      refine ⟨S3, G3, ⟨max k1 k3, fun k hk => ?_⟩, gs2.trans (g3.mono (Nat.le_succ n))⟩
      simp only [elabExp]
      simp only at h1 h3
      rw [h1 k (by omega)]
      show (match generalize S1 n (isExpansive e) (.var S.tv.length) with
        | (S, sc) => elabExp k b (n + 1) ((x, sc) :: E) t S) = _
      rw [hgen]
      exact h3 k (by omega)
  | letf f rs b ihr ihb =>
    intro κ hκ n E t S G C hS hG ct bt hE hC hs hT
    simp only [Exp.legal, Bool.and_eq_true] at hκ
    generalize hT' : tm G t = T at hT
    cases hT with
    | letf _ _ _ _ _ P hr hex he hb =>
      obtain ⟨u0, v0, hu0⟩ := hex
      have hl := len_freshN S (n + 1) 3
      have bv : Bnd (S.freshN (n + 1) 3) (.var S.tv.length) := bnd_var (by omega)
      have ba : Bnd (S.freshN (n + 1) 3)
          (.arrow (.var (S.tv.length + 1)) (.var (S.tv.length + 2))) :=
        bnd_arrow (bnd_var (by omega)) (bnd_var (by omega))
      have g0 : ∀ u v, Goes (n + 1) S (S.freshN (n + 1) 3) G
          (fun w => if w = S.tv.length then .arrow u v else if w = S.tv.length + 1 then u else
            if w = S.tv.length + 2 then v else G w) := fun u v =>
        freshN_goes hS hG (n + 1) 3 (n + 1) (Nat.le_refl _) fun v hv => by
          rw [if_neg (by omega), if_neg (by omega), if_neg (by omega)]
      have all : ∀ u v, P u v → EOk (n + 1) (S.freshN (n + 1) 3)
          (fun w => if w = S.tv.length then .arrow u v else if w = S.tv.length + 1 then u else
            if w = S.tv.length + 2 then v else G w)
          fun k => unify k (S.freshN (n + 1) 3)
            (.arrow (.var (S.tv.length + 1)) (.var (S.tv.length + 2))) (.var S.tv.length) >>=
            fun S' => elabExp k rs (n + 1) ((f, ⟨[], .var S.tv.length⟩) :: E)
              (.arrow (.var (S.tv.length + 1)) (.var (S.tv.length + 2))) S' := by
        intro u v huv
        refine EOk.bind (EOk.unify (g0 u v).cx (g0 u v).sol ⟨rfl, rfl, rfl⟩ rfl ba bv ?_)
          fun S1 G1 g1 => ?_
        · simp [tm, sem, gm]
        · have g := (g0 u v).trans g1
          have ev : tm G1 (.var S.tv.length) = .arrow u v := by
            rw [g1.tm bv]
            simp [tm, sem, gm]
          refine ihr .rules hκ.1.2 (n + 1) _ _ S1 G1 ((f, fun w => w = .arrow u v) :: C) g1.cx g1.sol
            ⟨rfl, rfl, rfl⟩ (g1.bnd ba) ((hE.goes g).cons rfl fun w hw _ => g1.bnd bv w hw)
            ((hC.agree hE g.agree).cons ?_) ⟨_, _, rfl⟩ ?_
          · rintro w rfl
            rw [← ev]
            exact schG_mono G1 _
          · rw [g1.tm ba]
            simpa [tm, sem, gm] using he u v huv
      obtain ⟨S1, G1, ⟨k1, h1⟩, g1⟩ := all u0 v0 hu0
      have gs1 := ((g0 u0 v0).trans g1).mono (Nat.le_succ n)
      generalize hgen : generalize S1 n false (.var S.tv.length) = Q
      obtain ⟨S2, sc⟩ := Q
      obtain ⟨g2, c2, b2, m2, p2⟩ := generalize_all (t := .var S.tv.length) g1.cx g1.sol rfl
        (g1.bnd bv) hgen
      have gs2 := gs1.trans g2
      have cov : ∀ w, (∃ u v, P u v ∧ w = GTy.arrow u v) → schG G1 sc w := by
        rintro w ⟨u, v, huv, rfl⟩
        obtain ⟨G3, g3⟩ := EOk.unique (G := G) h1 (all u v huv)
        have e3 : tm G3 (.var S.tv.length) = .arrow u v := by
          rw [g3.tm bv]
          simp [tm, sem, gm]
        rw [← e3]
        refine p2 rfl G3 g3.sol ?_
        refine g1.later.det n (by omega) G3 G1 g3.sol g1.sol ?_
        intro w hw hi hlv
        by_cases hw' : w < S.tv.length
        · rw [g3.agree w hw, g1.agree w hw]
          rw [if_neg (by omega), if_neg (by omega), if_neg (by omega), if_neg (by omega),
            if_neg (by omega), if_neg (by omega)]
        · rw [(freshN_spec 3 S (n + 1)).2.2.2 w (by omega) (by omega)] at hlv
          omega
      obtain ⟨S3, G3, ⟨k3, h3⟩, g3⟩ := ihb .exp hκ.2 (n + 1) ((f, sc) :: E) t S2 G1 _
        g2.cx g2.sol ct (gs2.bnd bt) ((hE.goes gs2).cons c2 b2)
        ((hC.agree hE gs2.agree).cons cov) trivial (by rw [gs2.tm bt, hT']; exact hb)
      refine ⟨S3, G3, ⟨max k1 k3, fun k hk => ?_⟩, gs2.trans (g3.mono (Nat.le_succ n))⟩
      simp only [elabExp, hr, not_true, if_false]
      have h1' := h1 k (by omega)
      simp only at h1' h3
      obtain ⟨S0, hu, hrs⟩ := bind_ok h1'
      rw [hu]
      show (elabExp k rs (n + 1) ((f, ⟨[], .var S.tv.length⟩) :: E)
        (.arrow (.var (S.tv.length + 1)) (.var (S.tv.length + 2))) S0 >>= fun S1 =>
          match generalize S1 n false (.var S.tv.length) with
          | (S, sc) => elabExp k b (n + 1) ((f, sc) :: E) t S) = _
      rw [hrs]
      show (match generalize S1 n false (.var S.tv.length) with
        | (S, sc) => elabExp k b (n + 1) ((f, sc) :: E) t S) = _
      rw [hgen]
      exact h3 k (by omega)
  | rnil =>
    intro κ hκ n E t S G C hS hG ct bt hE hC hs hT
    have hκ : κ = .rules := by simpa [Exp.legal] using hκ
    subst hκ
    obtain ⟨a, b, rfl⟩ := hs
    exact ⟨S, G, ⟨0, fun k _ => by simp [elabExp]⟩, .refl hS hG⟩
  | rule p e rest ihe ihr =>
    intro κ hκ n E t S G C hS hG ct bt hE hC hs hT
    simp only [Exp.legal, Bool.and_eq_true, decide_eq_true_eq] at hκ
    obtain ⟨⟨⟨rfl, hp⟩, he⟩, hr⟩ := hκ
    obtain ⟨a, b, rfl⟩ := hs
    have ba : Bnd S (.var a) := fun v hv => bt v (by simp only [Ty.fv, List.mem_append] at *; exact .inl hv)
    have bb : Bnd S (.var b) := fun v hv => bt v (by simp only [Ty.fv, List.mem_append] at *; exact .inr hv)
    cases hT with
    | rule _ _ _ _ _ _ D h1 h2 h3 =>
      obtain ⟨S1, PE, G1, ⟨k1, e1⟩, g1, hP, rfl⟩ := elabPat_all n p false hp (.var a) S [] G _ D hS hG
        rfl ba (by intro q hq; simp at hq) rfl h1
      obtain ⟨S2, G2, ⟨k2, e2⟩, g2⟩ := ihe .exp he n (mono PE ++ E) (.var b) S1 G1
        (monoG (semD G1 PE) ++ C) g1.cx g1.sol rfl (g1.bnd bb) ((hE.goes g1).mono hP)
        ((hC.agree hE g1.agree).mono PE) trivial (by rw [g1.tm bb]; exact h2)
      have g := g1.trans g2
      obtain ⟨S3, G3, ⟨k3, e3⟩, g3⟩ := ihr .rules hr n E (.arrow (.var a) (.var b)) S2 G2 C g2.cx
        g2.sol ct (g.bnd bt) (hE.goes g) (hC.agree hE g.agree) ⟨_, _, rfl⟩
        (by rw [g.tm bt]; exact h3)
      refine ⟨S3, G3, ⟨max k1 (max k2 k3), fun k hk => ?_⟩, g.trans g3⟩
      simp only [elabExp]
      simp only at e1 e2 e3
      rw [e1 k (by omega)]
      show (elabExp k e n (mono PE ++ E) (.var b) S1 >>= fun S2 =>
        elabExp k rest n E (.arrow (.var a) (.var b)) S2) = _
      rw [e2 k (by omega)]
      exact e3 k (by omega)
  | fnil =>
    intro κ hκ n E t S G C hS hG ct bt hE hC hs hT
    have hκ : κ = .fields := by simpa [Exp.legal] using hκ
    subst hκ
    obtain ⟨a, rfl⟩ := hs
    exact ⟨S, G, ⟨0, fun k _ => by simp [elabExp, Exp.labels, vars]⟩, .refl hS hG⟩
  | fcons l e r ihe ihr =>
    intro κ hκ n E t S G C hS hG ct bt hE hC hs hT
    simp only [Exp.legal, Bool.and_eq_true, decide_eq_true_eq] at hκ
    obtain ⟨⟨rfl, he⟩, hr⟩ := hκ
    obtain ⟨a, rfl⟩ := hs
    simp only [Exp.labels, List.length_cons, vars] at *
    have ba : Bnd S (.var a) := fun v hv => bt v (by simp only [Ty.fv, List.mem_append] at *; exact .inl hv)
    have bb : Bnd S (vars (a + 1) r.labels.length) :=
      fun v hv => bt v (by simp only [Ty.fv, List.mem_append] at *; exact .inr hv)
    cases hT with
    | fcons _ _ _ _ _ _ h1 h2 =>
      simp only [elabExp]
      refine EOk.bind (ihe .exp he n E (.var a) S G C hS hG rfl ba hE hC trivial h1)
        fun S1 G1 g1 => ?_
      exact ihr .fields hr n E _ S1 G1 C g1.cx g1.sol (vars_cl _ _) (g1.bnd bb) (hE.goes g1)
        (hC.agree hE g1.agree) ⟨_, rfl⟩ (by rw [g1.tm bb]; exact h2)

theorem Cx_nil : Cx (⟨[], []⟩ : St) :=
  ⟨WF_nil, fun v => by simp [St.img, Cl], fun v hv => by simp at hv, fun v => by simp [St.isRow]⟩

/-- The type checker accepts legal programs without `...`, and finds all their types. -/
theorem check_all {e : Exp} (hl : e.legal .exp = true) {T : GTy} (hT : Typ [] e T) :
    ∃ S, (∃ k0, ∀ k, k0 ≤ k → check k e = .ok S) ∧
      ∀ T, Typ [] e T → ∃ g, Sol S g ∧ (g 0).1 = T := by
  have all : ∀ T, Typ [] e T → EOk 1 ((⟨[], []⟩ : St).fresh 1 false) (fun _ => T)
      fun k => elabExp k e 1 [] (.var 0) ((⟨[], []⟩ : St).fresh 1 false) := by
    intro T hT
    have g0 : Goes 1 ⟨[], []⟩ ((⟨[], []⟩ : St).fresh 1 false) (fun _ => T) (fun _ => T) :=
      freshN_goes Cx_nil (fun v => by simp [St.img, tm, sem, gm]) 1 1 1 (Nat.le_refl _)
        fun _ _ => rfl
    exact elabExp_all e .exp hl 1 [] (.var 0) _ _ [] g0.cx g0.sol rfl
      (bnd_var (by rw [len_fresh]; simp)) (by intro p hp; simp at hp)
      (by intro x P hx; simp [look] at hx) trivial hT
  obtain ⟨S, G, ⟨k0, h⟩, g⟩ := all T hT
  refine ⟨S, ⟨k0, fun k hk => ?_⟩, fun T' hT' => ?_⟩
  · have := h k hk
    simp only at this
    simp only [check, this]
    have hd : S.dots = [] := g.later.dots
    show (if S.resolved = true then _ else _) = _
    rw [if_pos (by simp [St.resolved, hd])]
  · obtain ⟨G', g'⟩ := EOk.unique (G := G) h (all T' hT')
    exact ⟨gm G', g'.sol.sol g'.cx, g'.agree 0 (by simp [len_fresh])⟩

/-! ## More fuel -/

/-- The second result is the first unless that is for lack of fuel. -/
def Ref {α : Type} (r r' : Res α) : Prop := r = .error .fuel ∨ r' = r

theorem Ref.rfl' {α : Type} (r : Res α) : Ref r r := .inr rfl

theorem Ref.bind {α β : Type} {r r' : Res α} {f f' : α → Res β} (h : Ref r r')
    (hf : ∀ x, Ref (f x) (f' x)) : Ref (r >>= f) (r' >>= f') := by
  rcases h with rfl | rfl
  · exact .inl rfl
  · cases r' with
    | error x => exact .inr rfl
    | ok x => exact hf x

theorem unifyRec_fuel {u u' : St → Ty → Ty → Res St} (hu : ∀ S a b, Ref (u S a b) (u' S a b)) :
    ∀ (N : Nat) (S : St) (fs1 : List (Nat × Ty)) (r1 : Ty) (fs2 : List (Nat × Ty)) (r2 : Ty),
      Ref (unifyRec u N S fs1 r1 fs2 r2) (unifyRec u' N S fs1 r1 fs2 r2)
  | 0, S, [], r1, [], r2 => .inr rfl
  | _ + 1, S, [], r1, [], r2 => .inr rfl
  | 0, S, _ :: _, r1, _, r2 => .inr rfl
  | 0, S, [], r1, _ :: _, r2 => .inr rfl
  | N + 1, S, (l1, t1) :: fs1, r1, [], r2 => by
    simp only [unifyRec]
    exact .bind (.rfl' _) fun _ => .bind (hu _ _ _) fun _ => unifyRec_fuel hu N _ _ _ _ _
  | N + 1, S, [], r1, (l2, t2) :: fs2, r2 => by
    simp only [unifyRec]
    exact .bind (.rfl' _) fun _ => .bind (hu _ _ _) fun _ => unifyRec_fuel hu N _ _ _ _ _
  | N + 1, S, (l1, t1) :: fs1, r1, (l2, t2) :: fs2, r2 => by
    simp only [unifyRec]
    split
    · exact .bind (.rfl' _) fun _ => .bind (hu _ _ _) fun _ => unifyRec_fuel hu N _ _ _ _ _
    · split
      · exact .bind (.rfl' _) fun _ => .bind (hu _ _ _) fun _ => unifyRec_fuel hu N _ _ _ _ _
      · exact .bind (hu _ _ _) fun _ => unifyRec_fuel hu N _ _ _ _ _

theorem unify_fuel : ∀ (k : Nat) (S : St) (a b : Ty), Ref (unify k S a b) (unify (k + 1) S a b)
  | 0, _, _, _ => .inl rfl
  | k + 1, S, a, b => by
    have ih := unify_fuel k
    rw [unify, unify]
    generalize S.app a = A
    generalize S.app b = B
    cases A <;> cases B <;> first
      | exact .inr rfl
      | exact .bind (ih _ _ _) fun _ => ih _ _ _
      | exact unifyRec_fuel ih _ _ _ _ _ _
      | (simp only; split
         · exact ih _ _ _
         · exact .inr rfl)

theorem elabPat_fuel (k n : Nat) : ∀ (p : Pat) (t : Ty) (S : St) (PE : List (Nat × Ty)),
    Ref (elabPat k n p t S PE) (elabPat (k + 1) n p t S PE) := by
  have hu := unify_fuel k
  intro p
  induction p with
  | var x => intro t S PE; exact .inr rfl
  | wild => intro t S PE; exact .inr rfl
  | int z =>
    intro t S PE
    simp only [elabPat]
    exact .bind (hu _ _ _) fun _ => .rfl' _
  | bool z =>
    intro t S PE
    simp only [elabPat]
    exact .bind (hu _ _ _) fun _ => .rfl' _
  | as x p ih =>
    intro t S PE
    simp only [elabPat]
    split
    · exact .inr rfl
    · exact ih _ _ _
  | con0 c =>
    intro t S PE
    simp only [elabPat]
    split
    · exact .inr rfl
    · exact .bind (hu _ _ _) fun _ => .rfl' _
  | con c p ih =>
    intro t S PE
    simp only [elabPat]
    exact .bind (hu _ _ _) fun _ => .bind (hu _ _ _) fun _ => ih _ _ _
  | rcd fs dots ih =>
    intro t S PE
    simp only [elabPat]
    split
    · exact .inr rfl
    · split
      · exact .inr rfl
      · split
        · exact .bind (hu _ _ _) fun _ => ih _ _ _
        · exact .bind (hu _ _ _) fun _ => ih _ _ _
  | fnil => intro t S PE; cases t <;> exact .inr rfl
  | fcons l p r ihp ihr =>
    intro t S PE
    cases t <;> first
      | exact .inr rfl
      | (simp only [elabPat]; exact .bind (ihp _ _ _) fun _ => ihr _ _ _)

theorem elabExp_fuel (k : Nat) : ∀ (e : Exp) (n : Nat) (E : Env) (t : Ty) (S : St),
    Ref (elabExp k e n E t S) (elabExp (k + 1) e n E t S) := by
  have hu := unify_fuel k
  intro e
  induction e with
  | int z => intro n E t S; exact hu _ _ _
  | bool z => intro n E t S; exact hu _ _ _
  | var x =>
    intro n E t S
    simp only [elabExp]
    split
    · exact .inr rfl
    · exact hu _ _ _
  | prim p => intro n E t S; exact hu _ _ _
  | con p => intro n E t S; exact hu _ _ _
  | fn rs ih =>
    intro n E t S
    simp only [elabExp]
    split
    · exact .inr rfl
    · exact .bind (hu _ _ _) fun _ => ih _ _ _ _
  | app f a ihf iha =>
    intro n E t S
    simp only [elabExp]
    exact .bind (ihf _ _ _ _) fun _ => .bind (hu _ _ _) fun _ => .bind (hu _ _ _) fun _ =>
      iha _ _ _ _
  | rcd fs ih =>
    intro n E t S
    simp only [elabExp]
    split
    · exact .inr rfl
    · exact .bind (hu _ _ _) fun _ => ih _ _ _ _
  | ite c a b ihc iha ihb =>
    intro n E t S
    simp only [elabExp]
    exact .bind (ihc _ _ _ _) fun _ => .bind (iha _ _ _ _) fun _ => ihb _ _ _ _
  | letv x e b ihe ihb =>
    intro n E t S
    simp only [elabExp]
    exact .bind (ihe _ _ _ _) fun _ => ihb _ _ _ _
  | letf f rs b ihr ihb =>
    intro n E t S
    simp only [elabExp]
    split
    · exact .inr rfl
    · exact .bind (hu _ _ _) fun _ => .bind (ihr _ _ _ _) fun _ => ihb _ _ _ _
  | rnil => intro n E t S; cases t <;> exact .inr rfl
  | rule p e rest ihe ihr =>
    intro n E t S
    cases t <;> first
      | exact .inr rfl
      | (simp only [elabExp]
         exact .bind (elabPat_fuel k n _ _ _ _) fun _ => .bind (ihe _ _ _ _) fun _ => ihr _ _ _ _)
  | fnil => intro n E t S; cases t <;> exact .inr rfl
  | fcons l e r ihe ihr =>
    intro n E t S
    cases t <;> first
      | exact .inr rfl
      | (simp only [elabExp]; exact .bind (ihe _ _ _ _) fun _ => ihr _ _ _ _)

theorem check_fuel (k : Nat) (e : Exp) : Ref (check k e) (check (k + 1) e) :=
  .bind (elabExp_fuel k e _ _ _ _) fun _ => .rfl' _

/-- With more fuel the result is the same. -/
theorem check_mono {k k' : Nat} (h : k ≤ k') (e : Exp) : Ref (check k e) (check k' e) := by
  induction h with
  | refl => exact .rfl' _
  | step h ih =>
    rcases ih with ih | ih
    · exact .inl ih
    · rename_i m
      rcases check_fuel m e with h' | h'
      · exact .inl (ih ▸ h')
      · exact .inr (h'.trans ih)

end Mosml.Typing
