import Verif.Zam.Prims

/-!
# Making closures
-/

namespace Mosml.Zam

/-- What `Lifts` says of a function. -/
structure FnOk (T : List Func) (m : Nat) (fv : List Int) (d : Nat) (b : Lam) (f : Func) : Prop where
  mem : f ∈ T
  nargs : f.nargs = nest b + 1
  lifts : Lifts T (m + d) f.fv f.nargs false (strip b) f.body
  neg : ∀ id ∈ f.fv, id < 0 ∧ -((m + d : Nat) : Int) ≤ id
  sorted : f.fv.Pairwise (· > ·)
  sub : ∀ id ∈ f.fv, (d : Int) + id < 0 → (d : Int) + id ∈ fv

/-- The closure of a lifted function. -/
def clo (d : Nat) (f : Func) : Lam :=
  .prim (.closure f.lbl f.fv.length) (f.fv.map fun id => .var ((d : Int) + id))

theorem lifts_fn {T m fv d sf b e'} (h : Lifts T m fv d sf (.fn b) e') :
    ∃ f, e' = clo d f ∧ FnOk T m fv d b f := by
  cases h with
  | @fn _ _ _ _ _ f h1 h2 h3 h4 h5 h6 => exact ⟨f, rfl, h1, h2, h3, h4, h5, h6⟩

/-- The fields of a closure. -/
abbrev Fields (W ρ : List Val) (ids : List Int) (xs : List MVal) : Prop :=
  List.Forall₂ (fun id x => ∃ v, ρ[(-1 - id : Int).toNat]? = some v ∧ VRel W v x) ids xs

theorem reads_list {W h ce} {d : Nat} {ρ F} (hE : EnvRel W h ce d ρ F) : ∀ ids : List Int,
    (∀ id ∈ ids, id < 0 ∧ -(ρ.length : Int) ≤ id ∧ ((d : Int) + id < 0 → (d : Int) + id ∈ ce.fv)) →
    ∃ xs, List.Forall₂ (Reads ce F h) (ids.map fun id => (d : Int) + id) xs ∧ Fields W ρ ids xs := by
  intro ids
  induction ids with
  | nil => intro _; exact ⟨[], .nil, .nil⟩
  | cons id ids ih =>
    intro hi
    obtain ⟨xs, h1, h2⟩ := ih (fun id h => hi id (by simp [h]))
    obtain ⟨a1, a2, a3⟩ := hi id (by simp)
    have hlt : (-1 - id).toNat < ρ.length := by omega
    obtain ⟨x, hx, hr⟩ := hE.reads (id := (d : Int) + id) (v := ρ[(-1 - id).toNat]) (by omega)
      (by rw [show ((d : Int) - 1 - ((d : Int) + id)).toNat = (-1 - id).toNat by omega]; simp [hlt]) a3
    exact ⟨x :: xs, .cons hr h1, .cons ⟨_, by simp [hlt], hx⟩ h2⟩

theorem reads_bind {ce F h} {n : Nat} {z id x} (hn : id ≠ (n : Int)) (hr : Reads ce F h id x) :
    Reads (bind ce n z) F h id x := by
  intro L X C acc
  have : findEnv (bind ce n z) (F.sz + X.length) id = findEnv ce (F.sz + X.length) id := by
    unfold findEnv
    split
    · rfl
    · rename_i h0
      simp only [bind]
      rw [if_neg (by omega)]
  rw [this]
  exact hr L X C acc

theorem fields_get {W ρ ids xs} (h : Fields W ρ ids xs) (j : Nat) (id : Int) (hj : ids[j]? = some id) :
    ∃ v x, ρ[(-1 - id : Int).toNat]? = some v ∧ xs[j]? = some x ∧ VRel W v x := by
  have h1 : j < ids.length := by
    by_contra hh; rw [List.getElem?_eq_none (by omega)] at hj; cases hj
  have h2 : j < xs.length := by rw [← h.length_eq]; exact h1
  have := List.Forall₂.get h h1 h2
  rw [List.getElem?_eq_getElem h1] at hj
  cases hj
  obtain ⟨v, hv, hx⟩ := this
  exact ⟨v, xs[j], hv, by simp [h2], hx⟩

theorem funObj {L T m fv d b f ρ W c xs v} (hf : FnOk T m fv d b f) (hρ : ρ.length = m + d)
    (hl : L f.lbl = some c) (hx : Fields W ρ f.fv xs) (hv : asClos v = some (ρ, b)) (h) :
    ObjOk L T W h v ⟨c, xs⟩ :=
  .inl ⟨f, ρ, b, hv, hf.mem, hl, hf.nargs, by rw [hρ]; exact hf.lifts,
    fun id hi => (hf.neg id hi).1, fun j id hj => fields_get hx j id hj⟩

theorem Fields.mono {W W' ρ ids xs} (hW : W <+: W') (h : Fields W ρ ids xs) : Fields W' ρ ids xs :=
  h.imp (fun _ _ ⟨v, h1, h2⟩ => ⟨v, h1, h2.mono hW⟩)

/-- A function. -/
theorem simFn {L T n} (hP : Prog L T) (hE : EnterAt L T n) {m fv d ρ} {ce : CEnv} {F : Fr} {sf}
    (hfv : ce.fv = fv) (hρ : ρ.length = m + d) {b e' xs r W h acc C k tgt}
    (hL : Lifts T m fv d sf (.fn b) e') (hr : retL (evalS n) (.clos ρ b) xs = some r)
    (hF : FOk L W h ce d ρ F) (hO : HOk L T W h) (hm : Mode C F W xs tgt) :
    Concl L T W h F tgt (F.st (compexp ce F.sf F.sz d e' C k).1 acc h) r := by
  obtain ⟨f, rfl, hf⟩ := lifts_fn hL
  obtain ⟨C0, k0, hcode, _⟩ := hP f hf.mem
  generalize (if f.nargs > 1 then _ else _) = c at hcode
  obtain ⟨ys, h1, h2⟩ := reads_list hF.env f.fv (fun id hi =>
    ⟨(hf.neg id hi).1, by rw [hρ]; exact (hf.neg id hi).2, by rw [hfv]; exact hf.sub id hi⟩)
  have hO' : HOk L T (W ++ [.clos ρ b]) (h ++ [⟨c, ys⟩]) :=
    hO.snoc (funObj hf hρ hcode (h2.mono (List.prefix_append _ _)) rfl _)
  have hv : VRel (W ++ [.clos ρ b]) (.clos ρ b) (.addr h.length) :=
    .clos (by rw [← hO.len]; simp)
  refine ((leaf hE hv hO' (hm.mono (List.prefix_append _ _)) hr).start ?_).base
    (List.prefix_append _ _) (List.prefix_append _ _)
  intro fin hf'
  rw [compexp.eq_def]
  unfold clo
  dsimp only
  have := halts_closure (sf := F.sf) (dp := d) (k := k) (acc := acc)
    (sz := F.sz + (f.fv.map fun id => (d : Int) + id).length - 1) h1 hcode rfl hf'
  simpa only [List.map_map, Function.comp_def, List.length_map] using this

/-- A single recursive function. -/
theorem simOne {L T} (hP : Prog L T) {m fv d ρ} {ce : CEnv} {F : Fr}
    (hfv : ce.fv = fv) (hρ : ρ.length = m + d) {b f W h C k}
    (hf : FnOk T m fv (d + 1) b f) (hF : FOk L W h ce d ρ F) (hO : HOk L T W h) :
    ∃ W' h' x, W <+: W' ∧ h <+: h' ∧ HOk L T W' h' ∧ VRel W' (.rc [.fn b] 0 ρ) x ∧
      ∀ acc fin, Halts L ((F.push [.v x]).st C x h') fin →
        Halts L (F.st (compOne (bind ce d (F.sz + 1)) F.sf F.sz d [clo (d + 1) f] C k).1 acc h) fin := by
  obtain ⟨C0, k0, hcode, _⟩ := hP f hf.mem
  generalize (if f.nargs > 1 then _ else _) = c at hcode
  have hre : recEnv [.fn b] ρ = .rc [.fn b] 0 ρ :: ρ := rfl
  have hlen : (recEnv [.fn b] ρ).length = m + (d + 1) := by rw [hre]; simp [hρ]; omega
  have hasc : asClos (.rc [.fn b] 0 ρ) = some (recEnv [.fn b] ρ, b) := rfl
  have hv : VRel (W ++ [.rc [.fn b] 0 ρ]) (.rc [.fn b] 0 ρ) (.addr h.length) :=
    .rc (by rw [← hO.len]; simp)
  -- the free variables other than the function itself
  have rest : ∀ ids : List Int, (∀ id ∈ ids, id ∈ f.fv ∧ id < -1) →
      ∃ xs, List.Forall₂ (Reads (bind ce d (F.sz + 1)) F h)
        (ids.map fun id => ((d + 1 : Nat) : Int) + id) xs ∧
        Fields (W ++ [.rc [.fn b] 0 ρ]) (recEnv [.fn b] ρ) ids xs := by
    intro ids hids
    obtain ⟨xs, h1, h2⟩ := reads_list hF.env (ids.map (· + 1)) (by
      intro id hid
      simp only [List.mem_map] at hid
      obtain ⟨i, hi, rfl⟩ := hid
      obtain ⟨g1, g2⟩ := hids i hi
      have g3 := hf.neg i g1
      have g4 := hf.sub i g1
      refine ⟨by omega, by rw [hρ]; push_cast at g3 ⊢; omega, ?_⟩
      intro hneg
      rw [hfv]
      have := g4 (by push_cast; omega)
      rwa [show ((d + 1 : Nat) : Int) + i = (d : Int) + (i + 1) by push_cast; omega] at this)
    refine ⟨xs, ?_, ?_⟩
    · rw [List.map_map] at h1
      have e : ((fun id => (d : Int) + id) ∘ fun x => x + 1) = fun id => ((d + 1 : Nat) : Int) + id := by
        funext i; simp only [Function.comp_apply]; push_cast; omega
      rw [e] at h1
      rw [List.forall₂_map_left_iff] at h1 ⊢
      have : List.Forall₂ (fun id x => (id ∈ ids) ∧
          Reads ce F h (((d + 1 : Nat) : Int) + id) x) ids xs := by
        clear h2 e
        induction h1 with
        | nil => exact .nil
        | cons a1 a2 ih =>
          refine .cons ⟨by simp, a1⟩ ?_
          exact (ih (fun id h => hids id (by simp [h]))).imp (fun i x ⟨q1, q2⟩ => ⟨by simp [q1], q2⟩)
      refine this.imp ?_
      intro i x ⟨q1, q2⟩
      refine reads_bind ?_ q2
      have := (hids i q1).2
      push_cast
      omega
    · rw [Fields, List.forall₂_map_left_iff] at h2
      have h2' : List.Forall₂ (fun id x => id ∈ ids ∧
          ∃ v, ρ[(-1 - (id + 1) : Int).toNat]? = some v ∧ VRel W v x) ids xs := by
        clear h1
        induction h2 with
        | nil => exact .nil
        | cons a1 a2 ih =>
          refine .cons ⟨by simp, a1⟩ ?_
          exact (ih (fun id h => hids id (by simp [h]))).imp (fun i x ⟨q1, q2⟩ => ⟨by simp [q1], q2⟩)
      refine h2'.imp ?_
      intro i x ⟨q1, v, q2, q3⟩
      refine ⟨v, ?_, q3.mono (List.prefix_append _ _)⟩
      have := (hids i q1).2
      rw [hre, show (-1 - i).toNat = (-1 - (i + 1)).toNat + 1 by omega, List.getElem?_cons_succ]
      exact q2
  have plain : (∀ id ∈ f.fv, id < -1) →
      (∀ C k, compOne (bind ce d (F.sz + 1)) F.sf F.sz d [clo (d + 1) f] C k =
        compRL (bind ce d (F.sz + 1)) F.sf (F.sz + f.fv.length - 1) d
          ((f.fv.map fun id => ((d + 1 : Nat) : Int) + id).map .var)
          (.closure f.lbl f.fv.length :: .push :: C) k) →
      ∃ W' h' x, W <+: W' ∧ h <+: h' ∧ HOk L T W' h' ∧ VRel W' (.rc [.fn b] 0 ρ) x ∧
      ∀ acc fin, Halts L ((F.push [.v x]).st C x h') fin →
        Halts L (F.st (compOne (bind ce d (F.sz + 1)) F.sf F.sz d [clo (d + 1) f] C k).1 acc h) fin := by
    intro hlt heq
    obtain ⟨xs, h1, h2⟩ := rest f.fv (fun id hi => ⟨hi, hlt id hi⟩)
    refine ⟨W ++ [.rc [.fn b] 0 ρ], h ++ [⟨c, xs⟩], .addr h.length, List.prefix_append _ _,
      List.prefix_append _ _, hO.snoc (funObj hf hlen hcode h2 hasc _), hv, ?_⟩
    intro acc fin hfin
    rw [heq]
    have := halts_closure (L := L) (F := F) (C := .push :: C) (fin := fin) (sf := F.sf) (dp := d) (k := k)
      (acc := acc) (sz := F.sz + (f.fv.map fun id => ((d + 1 : Nat) : Int) + id).length - 1) h1 hcode rfl
      (.next rfl hfin)
    simpa only [List.length_map] using this
  have hs := hf.sorted
  have hneg := hf.neg
  cases hfvs : f.fv with
  | nil =>
    refine plain (by simp [hfvs]) ?_
    intro C k
    have hc : clo (d + 1) f = .prim (.closure f.lbl 0) [] := by simp [clo, hfvs]
    rw [hc, hfvs]
    simp only [List.map_nil, List.length_nil, compOne, compRL]
  | cons i0 is =>
    rw [hfvs] at hs hneg
    have hlt : ∀ i ∈ is, i < i0 := fun i hi => List.rel_of_pairwise_cons hs hi
    by_cases h0 : i0 = -1
    · -- the function uses itself
      subst h0
      obtain ⟨xs, h1, h2⟩ := rest is (fun id hi => ⟨by simp [hfvs, hi], hlt id hi⟩)
      refine ⟨W ++ [.rc [.fn b] 0 ρ], h ++ [⟨c, .addr h.length :: xs⟩], .addr h.length,
        List.prefix_append _ _, List.prefix_append _ _, hO.snoc (funObj hf hlen hcode ?_ hasc _), hv, ?_⟩
      · rw [hfvs]
        exact .cons ⟨_, rfl, hv⟩ h2
      · intro acc fin hfin
        have := halts_closurerec (L := L) (F := F) (C := .push :: C) (fin := fin) (sf := F.sf) (dp := d)
          (k := k) (acc := acc) (sz := F.sz + (is.map fun id => ((d + 1 : Nat) : Int) + id).length - 1)
          h1 hcode rfl (.next rfl hfin)
        have hc : clo (d + 1) f = .prim (.closure f.lbl (is.length + 1))
            (.var (((d + 1 : Nat) : Int) + -1) :: is.map fun id => .var (((d + 1 : Nat) : Int) + id)) := by
          simp [clo, hfvs]
        rw [hc]
        simp only [compOne]
        rw [if_pos (by push_cast; omega)]
        simpa only [List.map_map, Function.comp_def, List.length_map] using this
    · have h1 : i0 < -1 := by have := (hneg i0 (by simp)).1; omega
      refine plain ?_ ?_
      · intro id hi
        rw [hfvs] at hi
        simp only [List.mem_cons] at hi
        rcases hi with rfl | hi
        · exact h1
        · have := hlt id hi; omega
      · intro C k
        have hc : clo (d + 1) f = .prim (.closure f.lbl (is.length + 1))
            (.var (((d + 1 : Nat) : Int) + i0) :: is.map fun id => .var (((d + 1 : Nat) : Int) + id)) := by
          simp [clo, hfvs]
        rw [hc, hfvs]
        simp only [compOne]
        rw [if_neg (by push_cast; omega)]
        simp only [List.map_cons, List.length_cons, List.map_map, Function.comp_def, List.length_map]

/-! ## Several recursive functions -/

theorem halts_dummies {L} (d : Nat) : ∀ (fl : List Func) (F : Fr) (h : List Obj) (C : Code) (fin : Fin),
    (∀ acc, Halts L ((F.push (((List.range fl.length).map
      (fun j => MVal.addr (h.length + j))).reverse.map .v)).st C acc
      (h ++ fl.map (fun f => ⟨[], List.replicate f.fv.length (.int 0)⟩))) fin) →
    ∀ acc, Halts L (F.st (dummies (fl.map (clo d)) C) acc h) fin := by
  intro fl
  induction fl with
  | nil => intro F h C fin hh acc; simpa [Fr.push, dummies] using hh acc
  | cons f fl ih =>
    intro F h C fin hh acc
    simp only [List.map_cons, clo, dummies]
    refine .next rfl (.next rfl ?_)
    refine ih (F.push [.v (.addr h.length)])
      (h ++ [⟨[], List.replicate f.fv.length (.int 0)⟩]) C fin ?_ _
    intro acc
    have := hh acc
    rw [Fr.push_push]
    rw [List.length_cons, List.range_succ_eq_map] at this
    simpa [List.map_map, Function.comp_def, Nat.add_assoc, Nat.add_comm 1] using this

/-- The closures of the functions. -/
theorem simRecs {L T} (hP : Prog L T) {m fv d ρ} {ce : CEnv} {F : Fr} {W h}
    (hfv : ce.fv = fv) (hρ : ρ.length = m + d) (hE : EnvRel W h ce d ρ F) (C : Code) (k : Nat) :
    ∀ (bs : List Lam) (fl : List Func), List.Forall₂ (FnOk T m fv d) bs fl →
    ∀ (O E : List Obj), O.length = E.length →
    (∀ t, t < fl.length → F.S[fl.length - 1 - t]? = some (.v (.addr (h.length + O.length + t)))) →
    ∃ os : List Obj, List.Forall₂ (fun f (o : Obj) => L f.lbl = some o.code ∧ Fields W ρ f.fv o.fields) fl os ∧
      ∀ fin, (∀ acc, Halts L (F.st C acc (h ++ O ++ os ++ E ++ os)) fin) →
        ∀ acc, Halts L (F.st (compRecs ce F.sf F.sz d fl.length (fl.map (clo d)) C k).1 acc
          (h ++ O ++ fl.map (fun f => ⟨[], List.replicate f.fv.length (.int 0)⟩) ++ E)) fin := by
  intro bs fl hbf
  induction hbf with
  | nil =>
    intro O E hOE hS
    refine ⟨[], .nil, ?_⟩
    intro fin hh acc
    simpa [compRecs] using hh acc
  | @cons b f bs fl hf hfl ih =>
    intro O E hOE hS
    obtain ⟨C0, k0, hcode, _⟩ := hP f hf.mem
    generalize (if f.nargs > 1 then _ else _) = c at hcode
    let D : List Obj := fl.map (fun f => ⟨[], List.replicate f.fv.length (.int 0)⟩)
    let H : List Obj := h ++ O ++ (⟨[], List.replicate f.fv.length (.int 0)⟩ :: D) ++ E
    have hpre : h <+: H := by simp only [H, List.append_assoc]; exact List.prefix_append _ _
    obtain ⟨xs, h1, h2⟩ := reads_list (hE.mono (List.prefix_refl W) hpre) f.fv (fun id hi =>
      ⟨(hf.neg id hi).1, by rw [hρ]; exact (hf.neg id hi).2, by rw [hfv]; exact hf.sub id hi⟩)
    obtain ⟨os, i1, i2⟩ := ih (O ++ [⟨c, xs⟩]) (E ++ [⟨c, xs⟩]) (by simp [hOE]) (by
      intro t ht
      have := hS (t + 1) (by simp; omega)
      simp only [List.length_cons, List.length_append, List.length_nil] at this ⊢
      rw [show fl.length - 1 - t = fl.length + 1 - 1 - (t + 1) by omega, this]
      congr 3
      omega)
    refine ⟨⟨c, xs⟩ :: os, .cons ⟨hcode, h2⟩ i1, ?_⟩
    intro fin hh acc
    have hfin := i2 fin (by
      intro acc
      simpa [List.append_assoc] using hh acc)
    simp only [List.map_cons, List.length_cons, clo, compRecs, Nat.add_sub_cancel]
    have hxl : xs.length = f.fv.length := by have := h2.length_eq; omega
    have hHl : H.length = h.length + O.length + (D.length + 1) + E.length := by
      simp only [H, List.length_append, List.length_cons]
    have hend : Halts L (F.st (.push :: .access (fl.length + 1) :: .prim .update ::
        (compRecs ce F.sf F.sz d fl.length (fl.map (clo d)) C k).1) (.addr H.length)
        (H ++ [⟨c, xs⟩])) fin := by
      refine .next rfl ?_
      have hacc : F.S[fl.length]? = some (.v (.addr (h.length + O.length))) := by
        have := hS 0 (by simp)
        simpa using this
      refine .next (t := (F.push [.v (.addr H.length)]).st (.prim .update ::
        (compRecs ce F.sf F.sz d fl.length (fl.map (clo d)) C k).1) (.addr (h.length + O.length))
        (H ++ [⟨c, xs⟩])) ?_ ?_
      · simp only [step, List.getElem?_cons_succ, hacc, Fr.push, List.singleton_append]
      · refine .next ?_ (hfin munit)
        have g1 : (H ++ [⟨c, xs⟩])[h.length + O.length]? =
            some ⟨[], List.replicate f.fv.length (.int 0)⟩ := by
          rw [List.getElem?_append_left (by omega)]
          simp only [H, List.append_assoc]
          rw [List.getElem?_append_right (by omega), List.getElem?_append_right (by omega)]
          simp
        have g2 : (H ++ [(⟨c, xs⟩ : Obj)])[H.length]? = some ⟨c, xs⟩ := by simp
        simp only [step, Fr.push, List.singleton_append, g1, g2, List.length_replicate, hxl, if_true]
        congr 2
        simp only [H, D]
        rw [show h ++ O ++ (⟨[], List.replicate f.fv.length (MVal.int 0)⟩ ::
              List.map (fun f => (⟨[], List.replicate f.fv.length (MVal.int 0)⟩ : Obj)) fl) ++ E ++ [⟨c, xs⟩] =
            (h ++ O) ++ (⟨[], List.replicate f.fv.length (MVal.int 0)⟩ ::
              (List.map (fun f => (⟨[], List.replicate f.fv.length (MVal.int 0)⟩ : Obj)) fl ++ (E ++ [⟨c, xs⟩])))
            by simp [List.append_assoc]]
        rw [List.set_append_right _ _ (by simp)]
        simp [List.append_assoc]
    have := halts_closure (L := L) (F := F) (fin := fin) (sf := F.sf) (dp := d)
      (k := (compRecs ce F.sf F.sz d fl.length (fl.map (clo d)) C k).2)
      (acc := acc) (sz := F.sz + (f.fv.map fun id => (d : Int) + id).length - 1) h1 hcode rfl hend
    simpa only [List.map_map, Function.comp_def, List.length_map, H, D] using this

theorem lifts_fns {T m fv d} : ∀ (fs fs' : List Lam), fs'.length = fs.length →
    (∀ e ∈ fs, isFn e = true) →
    (∀ (i : Nat) e e', fs[i]? = some e → fs'[i]? = some e' → Lifts T m fv d false e e') →
    ∃ bs fl, fs = bs.map .fn ∧ fs' = fl.map (clo d) ∧ List.Forall₂ (FnOk T m fv d) bs fl := by
  intro fs
  induction fs with
  | nil =>
    intro fs' hlen _ _
    have : fs' = [] := by simpa using hlen
    exact ⟨[], [], rfl, by simp [this], .nil⟩
  | cons e es ih =>
    intro fs' hlen hfn hL
    cases fs' with
    | nil => cases hlen
    | cons e' es' =>
      obtain ⟨bs, fl, rfl, rfl, hbf⟩ := ih es' (by simpa using hlen) (fun e h => hfn e (by simp [h]))
        (lifts_tail hL)
      have h1 := hfn e (by simp)
      have h2 := hL 0 e e' rfl rfl
      cases e with
      | fn b =>
        obtain ⟨f, rfl, hf⟩ := lifts_fn h2
        exact ⟨b :: bs, f :: fl, rfl, rfl, .cons hf hbf⟩
      | _ => cases h1

/-- The functions of a `letrec`. -/
theorem simLetrec {L T} (hP : Prog L T) {m fv d ρ} {ce : CEnv} {F : Fr}
    (hfv : ce.fv = fv) (hρ : ρ.length = m + d) {fs fs' : List Lam} {W h C k}
    (hlen : fs'.length = fs.length) (hfn : ∀ e ∈ fs, isFn e = true)
    (hL : ∀ (i : Nat) e e', fs[i]? = some e → fs'[i]? = some e' →
      Lifts T m fv (d + fs.length) false e e')
    (hF : FOk L W h ce d ρ F) (hO : HOk L T W h) :
    ∃ W' h' X, W <+: W' ∧ h <+: h' ∧ HOk L T W' h' ∧ X.length = fs.length ∧
      EnvRel W' h' (bindMany ce d F.sz fs.length) (d + fs.length) (recEnv fs ρ) (F.push X) ∧
      ∀ fin, (∀ acc, Halts L ((F.push X).st C acc h') fin) →
        ∀ acc, Halts L (F.st (dummies fs' (compRecs (bindMany ce d F.sz fs.length) F.sf
          (F.sz + fs.length) (d + fs.length) fs.length fs' C k).1) acc h) fin := by
  obtain ⟨bs, fl, hfs, rfl, hbf⟩ := lifts_fns fs fs' hlen hfn hL
  have hbl : bs.length = fs.length := by rw [hfs]; simp
  have hfl : fl.length = fs.length := by simpa using hlen
  let rcs : List Val := (List.range fs.length).map (fun i => .rc fs i ρ)
  let addrs : List MVal := (List.range fs.length).map (fun j => .addr (h.length + j))
  let X : List Slot := addrs.reverse.map .v
  have hrl : rcs.length = fs.length := by simp [rcs]
  have hrel : VRels (W ++ rcs) rcs addrs := by
    simp only [VRels, rcs, addrs]
    rw [List.forall₂_map_left_iff, List.forall₂_map_right_iff, List.forall₂_same]
    intro i hi
    refine .rc ?_
    rw [List.getElem?_append_right (by rw [hO.len]; omega), hO.len]
    simp only [List.mem_range] at hi
    simp [hi]
  have hrec : recEnv fs ρ = rcs.reverse ++ ρ := by simp only [recEnv, rcs, List.map_reverse]
  have hE : EnvRel (W ++ rcs) h (bindMany ce d F.sz fs.length) (d + fs.length) (recEnv fs ρ)
      (F.push X) := by
    have := EnvRel.bindMany hrel (hF.env.mono (List.prefix_append W rcs) (List.prefix_refl h))
    rw [hrl] at this
    rw [hrec]
    exact this
  have hlρ : (recEnv fs ρ).length = m + (d + fs.length) := by
    rw [hrec, List.length_append, List.length_reverse, hrl, hρ]; omega
  have hXl : X.length = fs.length := by simp [X, addrs]
  have hXget : ∀ t, t < fl.length → (F.push X).S[fl.length - 1 - t]? =
      some (.v (.addr (h.length + ([] : List Obj).length + t))) := by
    intro t ht
    simp only [Fr.push]
    rw [List.getElem?_append_left (by omega)]
    simp only [X, List.map_reverse]
    rw [List.getElem?_reverse (by simp [addrs]; omega)]
    simp only [List.length_map, addrs, List.length_range, List.length_nil, Nat.add_zero]
    rw [show fs.length - 1 - (fl.length - 1 - t) = t by omega]
    have : t < fs.length := by omega
    simp [this]
  obtain ⟨os, ho1, ho2⟩ := simRecs hP ((bindMany_fv _ _ _ _).trans hfv) hlρ hE C k bs fl hbf [] [] rfl
    hXget
  have hol : os.length = fs.length := by rw [← ho1.length_eq, hfl]
  refine ⟨W ++ rcs ++ rcs, h ++ os ++ os, X, ?_, ?_, ?_, hXl, ?_, ?_⟩
  · rw [List.append_assoc]; exact List.prefix_append _ _
  · rw [List.append_assoc]; exact List.prefix_append _ _
  · -- the heap
    have hobj : ∀ (i : Nat) v o, rcs[i]? = some v → os[i]? = some o →
        ObjOk L T (W ++ rcs ++ rcs) (h ++ os ++ os) v o := by
      intro i v o hv ho
      have hi : i < fs.length := by
        by_contra hh; rw [List.getElem?_eq_none (by omega)] at ho; cases ho
      have hi1 : i < bs.length := by omega
      have hi2 : i < fl.length := by omega
      have hi3 : i < os.length := by omega
      have q1 := List.Forall₂.get hbf hi1 hi2
      have q2 := List.Forall₂.get ho1 hi2 hi3
      simp only [List.get_eq_getElem] at q1 q2
      rw [List.getElem?_eq_getElem hi3] at ho
      cases ho
      simp only [rcs, List.getElem?_map] at hv
      rw [List.getElem?_range hi] at hv
      cases hv
      have hcl : asClos (.rc fs i ρ) = some (recEnv fs ρ, bs[i]) := by
        have : fs[i]? = some (.fn bs[i]) := by
          rw [hfs]; simp [hi1]
        simp only [asClos, this]
      exact funObj (xs := os[i].fields) (c := os[i].code) q1 hlρ q2.1
        (q2.2.mono (List.prefix_append _ _)) hcl _
    refine ⟨by simp [hO.len, hol, hrl], ?_⟩
    intro a v o hv ho
    rcases Nat.lt_or_ge a W.length with ha | ha
    · rw [List.append_assoc, List.getElem?_append_left ha] at hv
      rw [List.append_assoc, List.getElem?_append_left (by rw [← hO.len]; exact ha)] at ho
      exact (hO.obj a v o hv ho).mono (by rw [List.append_assoc]; exact List.prefix_append _ _)
        (by rw [List.append_assoc]; exact List.prefix_append _ _)
    · rw [List.append_assoc, List.getElem?_append_right ha] at hv
      rw [List.append_assoc, List.getElem?_append_right (by rw [← hO.len]; exact ha), ← hO.len] at ho
      rcases Nat.lt_or_ge (a - W.length) fs.length with hb | hb
      · rw [List.getElem?_append_left (by omega)] at hv ho
        exact hobj _ v o hv ho
      · rw [List.getElem?_append_right (by omega), hrl] at hv
        rw [List.getElem?_append_right (by omega), hol] at ho
        exact hobj _ v o hv ho
  · exact hE.mono (List.prefix_append _ _) (by rw [List.append_assoc]; exact List.prefix_append _ _)
  · intro fin hh acc
    have h2 := ho2 fin (by intro acc; simpa using hh acc)
    refine halts_dummies (d + fs.length) fl F h _ fin ?_ acc
    intro acc
    have := h2 acc
    simp only [Fr.push, hXl, hfl, List.append_nil] at this
    rw [hfl]
    exact this

end Mosml.Zam
