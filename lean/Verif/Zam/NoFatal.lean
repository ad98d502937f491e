import Verif.Zam.Whole

/-!
# The code generator does not give up
-/

namespace Mosml.Zam

def NF (C : Code) : Prop := Instr.fatal ∉ C

theorem NF.cons {i : Instr} {C : Code} (h : NF C) (hi : i ≠ .fatal) : NF (i :: C) := by
  unfold NF at *
  simp only [List.mem_cons, not_or]
  exact ⟨fun hh => hi hh.symm, h⟩

theorem NF.tail {i : Instr} {C : Code} (h : NF (i :: C)) : NF C := by
  unfold NF at *
  simp only [List.mem_cons, not_or] at h
  exact h.2

theorem NF.discard {C : Code} (h : NF C) : NF (discard C) := by
  induction C with
  | nil => exact h
  | cons i C ih =>
    cases i <;> first | exact h | exact ih h.tail

theorem NF.addPop : ∀ {C : Code} (n : Nat), NF C → NF (addPop n C) := by
  intro C
  induction C with
  | nil =>
    intro n h
    simp only [Zam.addPop]
    split
    · exact h
    · exact h.cons (by simp)
  | cons i C ih =>
    intro n h
    unfold Zam.addPop
    split
    · rename_i heq
      cases heq
      split
      · exact h
      · exact ih _ h.tail
    · rename_i heq
      cases heq
      split
      · exact h
      · exact h.tail.cons (by simp)
    · rename_i heq
      cases heq
      split
      · exact h
      · exact h.cons (by simp)
    · rename_i heq
      cases heq
      exact h
    · split
      · exact h
      · exact h.cons (by simp)

theorem NF.labelCode {C : Code} (k : Nat) (h : NF C) : NF (labelCode C k).2.1 := by
  unfold Zam.labelCode
  split
  · exact h
  · exact h
  · exact h.cons (by simp)

theorem NF.makeBranch {C : Code} (k : Nat) (h : NF C) :
    NF (makeBranch C k).2.1 ∧ (makeBranch C k).1 ≠ .fatal := by
  unfold Zam.makeBranch
  split <;> refine ⟨?_, by simp⟩ <;> first | exact h | exact h.cons (by simp)

theorem nf_findFv {n : Int} : ∀ {fv : List Int} {i : Nat}, n ∈ fv → findFv n i fv ≠ .fatal := by
  intro fv
  induction fv with
  | nil => intro i h; simp at h
  | cons x r ih =>
    intro i h
    simp only [findFv]
    split
    · simp
    · rename_i hx
      simp only [List.mem_cons] at h
      rcases h with h | h
      · exact absurd h.symm hx
      · exact ih h

/-- The generator knows where the variables are. -/
structure EOk (fv : List Int) (d : Nat) (ce : CEnv) : Prop where
  fv : ce.fv = fv
  va : ∀ a < d, (ce.va a).isSome

theorem EOk.bind {fv d ce} (h : EOk fv d ce) (z : Nat) : EOk fv (d + 1) (bind ce d z) := by
  refine ⟨h.fv, ?_⟩
  intro a ha
  simp only [Zam.bind]
  split
  · rfl
  · exact h.va a (by omega)

theorem EOk.many {fv} : ∀ (n : Nat) {d ce} (z : Nat), EOk fv d ce → EOk fv (d + n) (bindMany ce d z n) := by
  intro n
  induction n with
  | zero => intro d ce z h; exact h
  | succ n ih =>
    intro d ce z h
    have := ih (z + 1) (h.bind (z + 1))
    rwa [show d + 1 + n = d + (n + 1) by omega] at this

theorem nf_findEnv {fv d ce sz} {n : Int} (h : EOk fv d ce) (h1 : n < 0 → n ∈ fv) (h2 : n < d) :
    findEnv ce sz n ≠ .fatal := by
  unfold findEnv
  split
  · rename_i hn
    rw [h.fv]
    exact nf_findFv (h1 hn)
  · have := h.va n.toNat (by omega)
    obtain ⟨z, hz⟩ := Option.isSome_iff_exists.mp this
    rw [hz]
    simp

abbrev NFx (ce : CEnv) (sf : Sf) (dp : Nat) (e : Lam) : Prop :=
  ∀ sz C k, NF C → NF (compexp ce sf sz dp e C k).1

theorem nf_RL {ce sf dp} (es : List Lam) (h : ∀ e ∈ es, NFx ce sf dp e) :
    ∀ sz C k, NF C → NF (compRL ce sf sz dp es C k).1 := by
  induction es with
  | nil => intro sz C k hC; simpa only [compRL] using hC
  | cons e es ih =>
    intro sz C k hC
    cases es with
    | nil => simp only [compRL]; exact h e (by simp) _ _ _ hC
    | cons e2 es =>
      rw [compRL.eq_3 _ _ _ _ _ _ _ _ (by simp)]
      exact ih (fun e he => h e (by simp [he])) _ _ _ ((h e (by simp) _ _ _ hC).cons (by simp))

theorem nf_LR {ce sf dp} (es : List Lam) (h : ∀ e ∈ es, NFx ce sf dp e) :
    ∀ sz C k, NF C → NF (compLR ce sf sz dp es C k).1 := by
  induction es with
  | nil => intro sz C k hC; simpa only [compLR] using hC
  | cons e es ih =>
    intro sz C k hC
    cases es with
    | nil => simp only [compLR]; exact h e (by simp) _ _ _ hC
    | cons e2 es =>
      rw [compLR.eq_3 _ _ _ _ _ _ _ _ (by simp)]
      exact h e (by simp) _ _ _ ((ih (fun e he => h e (by simp [he])) _ _ _ hC).cons (by simp))

theorem nf_vars {fv d ce sf dp} (h : EOk fv d ce) (ids : List Int)
    (h1 : ∀ n ∈ ids, (n < 0 → n ∈ fv) ∧ n < d) :
    ∀ e ∈ ids.map Lam.var, NFx ce sf dp e := by
  intro e he sz C k hC
  simp only [List.mem_map] at he
  obtain ⟨n, hn, rfl⟩ := he
  simp only [compexp]
  exact hC.cons (nf_findEnv h (h1 n hn).1 (h1 n hn).2)

theorem nf_prim {ce sf dp p} (args : List Lam) (hp : primOk p args.length = true)
    (h : ∀ e ∈ args, NFx ce sf dp e) : NFx ce sf dp (.prim p args) := by
  intro sz C k hC
  have hLR := nf_LR args h
  rw [compexp.eq_def]
  dsimp only
  split
  · exact h _ (by simp) _ _ _ (hC.cons (by simp))
  · exact h _ (by simp) _ _ _ (hC.cons (by simp))
  · exact hLR _ _ _ (hC.cons (by simp))
  · exact hLR _ _ _ (hC.cons (by simp))
  · split
    · exact h _ (by simp) _ _ _ (hC.tail.cons (by simp))
    · exact h _ (by simp) _ _ _ (hC.tail.cons (by simp))
    · exact h _ (by simp) _ _ _ (hC.cons (by simp))
  · split
    · exact hLR _ _ _ (hC.tail.cons (by simp))
    · exact hLR _ _ _ (hC.tail.cons (by simp))
    · exact hLR _ _ _ (hC.cons (by simp))
  · exact hLR _ _ _ (hC.discard.cons (by simp))
  · simp [primOk] at hp
  · exact hLR _ _ _ hC
  · exact hLR _ _ _ (hC.cons (by simp))

/-- A lifted function. -/
theorem lifts_isFn {T m fv d sf e e'} (hf : isFn e = true) (h : Lifts T m fv d sf e e') :
    ∃ lbl, ∃ ids : List Int, e' = .prim (.closure lbl ids.length) (ids.map Lam.var) ∧
      ∀ n ∈ ids, (n < 0 → n ∈ fv) ∧ n < d := by
  cases h with
  | @fn _ _ _ _ b f h1 h2 h3 h4 h5 h6 =>
    refine ⟨f.lbl, f.fv.map (fun id => (d : Int) + id), ?_, ?_⟩
    · simp
    · intro n hn
      simp only [List.mem_map] at hn
      obtain ⟨id, hid, rfl⟩ := hn
      exact ⟨h6 id hid, by have := (h4 id hid).1; omega⟩
  | _ => cases hf

theorem nf_dummies : ∀ (fs : List Lam) {C}, (∀ e ∈ fs, ∃ l n args, e = .prim (.closure l n) args) → NF C →
    NF (dummies fs C) := by
  intro fs
  induction fs with
  | nil => intro C _ hC; exact hC
  | cons e fs ih =>
    intro C h hC
    obtain ⟨l, n, args, rfl⟩ := h e (by simp)
    simp only [dummies]
    exact ((ih (fun e he => h e (by simp [he])) hC).cons (by simp)).cons (by simp)

theorem nf_Recs {ce sf dp} : ∀ (fs : List Lam),
    (∀ e ∈ fs, ∃ l n args, e = .prim (.closure l n) args ∧ ∀ a ∈ args, NFx ce sf dp a) →
    ∀ sz i C k, NF C → NF (compRecs ce sf sz dp i fs C k).1 := by
  intro fs
  induction fs with
  | nil => intro _ sz i C k hC; simpa only [compRecs] using hC
  | cons e fs ih =>
    intro h sz i C k hC
    obtain ⟨l, n, args, rfl, ha⟩ := h e (by simp)
    simp only [compRecs]
    exact nf_RL args ha _ _ _ ((((ih (fun e he => h e (by simp [he])) _ _ _ _ hC).cons
      (by simp)).cons (by simp)).cons (by simp) |>.cons (by simp))

theorem nf_comp {T} : ∀ N m fv d sfb e e', sizeOf e' < N → Lifts T m fv d sfb e e' →
    ∀ ce sf, EOk fv d ce → (sfb = true → sf.isSome) → NFx ce sf d e' := by
  intro N
  induction N with
  | zero => intro m fv d sfb e e' h; omega
  | succ N ih =>
    intro m fv d sfb e e' he hL ce sf hE hsf sz C k hC
    have mem : ∀ {m fv d sfb} {args args' : List Lam}, sizeOf args' < N → args'.length = args.length →
        (∀ (i : Nat) e e', args[i]? = some e → args'[i]? = some e' → Lifts T m fv d sfb e e') →
        ∀ ce sf, EOk fv d ce → (sfb = true → sf.isSome) → ∀ e ∈ args', NFx ce sf d e := by
      intro m fv d sfb args args' hs hlen h ce sf hE hsf e' he'
      obtain ⟨e, hle⟩ := mem_of_lists hlen h e' he'
      have := List.sizeOf_lt_of_mem he'
      exact ih _ _ _ _ e e' (by omega) hle ce sf hE hsf
    have hnone : ∀ {sf : Sf}, false = true → sf.isSome := by simp
    cases hL with
    | @var _ _ _ _ n h1 h2 =>
      simp only [compexp]
      exact hC.cons (nf_findEnv hE (fun h => h2 (by omega)) (by omega))
    | const =>
      simp only [compexp, quoteOr]
      split <;> first | exact hC | exact hC.cons (by simp)
    | @fn _ _ _ _ b f h1 h2 h3 h4 h5 h6 =>
      rw [compexp.eq_def]
      dsimp only
      have := nf_vars (sf := sf) (dp := d) hE (f.fv.map fun id => (d : Int) + id) (by
        intro n hn
        simp only [List.mem_map] at hn
        obtain ⟨id, hid, rfl⟩ := hn
        exact ⟨h6 id hid, by have := (h4 id hid).1; omega⟩)
      simp only [List.map_map] at this
      exact nf_RL _ this _ _ _ (hC.cons (by simp))
    | @apply _ _ _ _ f f' args args' hne hf hlen hargs =>
      simp only [Lam.apply.sizeOf_spec] at he
      have hRL := nf_RL args' (mem (by omega) hlen hargs ce sf hE hsf)
      have hF := ih _ _ _ _ _ f' (by omega) hf ce sf hE hsf
      simp only [compexp]
      split
      · exact hRL _ _ _ ((hF _ _ _ (hC.discard.cons (by simp))).cons (by simp))
      · split
        · exact hRL _ _ _ ((hF _ _ _ (hC.cons (by simp))).cons (by simp))
        · exact (hRL _ _ _ ((hF _ _ _ ((hC.labelCode k).cons (by simp))).cons (by simp))).cons (by simp)
    | @lett _ _ _ _ args args' body body' _ hlen hargs hbody =>
      simp only [Lam.lett.sizeOf_spec] at he
      simp only [compexp]
      rw [← hlen] at hbody
      have hb := ih _ _ _ _ _ body' (by omega) hbody _ sf (hE.many args'.length sz) hsf
        (sz + args'.length) _ k (hC.addPop args'.length)
      have key : ∀ (es' es : List Lam) d ce sz C k, sizeOf es' < N → es'.length = es.length →
          (∀ (i : Nat) e e', es[i]? = some e → es'[i]? = some e' → Lifts T m fv (d + i) sfb e e') →
          EOk fv d ce → NF C → NF (compLets ce sf sz d es' C k).1 := by
        intro es'
        induction es' with
        | nil => intro es d ce sz C k _ _ _ _ hC; simpa only [compLets] using hC
        | cons e' es' ihl =>
          intro es d ce sz C k hs hlen h hE hC
          cases es with
          | nil => simp at hlen
          | cons e es =>
            simp only [List.cons.sizeOf_spec] at hs
            simp only [compLets]
            refine ih _ _ _ _ _ e' (by omega) (h 0 e e' rfl rfl) ce sf hE hsf _ _ _ (NF.cons ?_ (by simp))
            refine ihl es (d + 1) _ _ _ _ (by omega) (by simpa using hlen) ?_ (hE.bind _) hC
            intro i a a' ha ha'
            have := h (i + 1) a a' ha ha'
            rwa [show d + (i + 1) = d + 1 + i by omega] at this
      exact key args' args d ce sz _ _ (by omega) hlen hargs hE hb
    | @lett1 _ _ _ _ p arg arg' hp harg =>
      simp only [Lam.prim.sizeOf_spec, List.cons.sizeOf_spec, List.nil.sizeOf_spec] at he
      refine nf_prim [arg'] hp ?_ _ _ _ hC
      intro e' he'
      simp only [List.mem_singleton] at he'
      subst he'
      exact ih _ _ _ _ _ _ (by omega) harg ce sf hE hsf
    | @letrec _ _ _ _ fs fs' body body' hne hlen hfn hfs hbody =>
      simp only [Lam.letrec.sizeOf_spec] at he
      simp only [compexp]
      rw [← hlen] at hbody
      have hE' := hE.many fs'.length sz
      have hb := ih _ _ _ _ _ body' (by omega) hbody _ sf hE' hsf
        (sz + fs'.length) _ k (hC.addPop fs'.length)
      have hcl : ∀ e ∈ fs', ∃ lbl ids, e = .prim (.closure lbl (ids : List Int).length) (ids.map Lam.var) ∧
          ∀ n ∈ ids, (n < 0 → n ∈ fv) ∧ n < (d + fs'.length : Nat) := by
        intro e' he'
        obtain ⟨i, hi⟩ := List.mem_iff_getElem?.mp he'
        have hlt : i < fs'.length := (List.getElem?_eq_some_iff.mp hi).1
        have hi' : fs[i]? = some (fs[i]'(by omega)) := List.getElem?_eq_getElem _
        have := lifts_isFn (hfn _ (List.getElem_mem _)) (hfs i _ e' hi' hi)
        rwa [← hlen] at this
      split
      · rename_i hc
        match fs', hc, hcl, hE' , hb with
        | [e'], hc, hcl, hE', hb =>
          obtain ⟨lbl, ids, rfl, hids⟩ := hcl e' (by simp)
          cases ids with
          | nil =>
            simp only [List.map_nil, compOne]
            exact (hb.cons (by simp)).cons (by simp)
          | cons n rest =>
            have hv := fun dp => nf_vars (sf := sf) (dp := dp) hE' (n :: rest) hids
            simp only [List.map_cons] at hv ⊢
            simp only [compOne]
            split
            · exact nf_RL _ (fun e he => hv d e (by simp only [List.mem_cons]; exact .inr he)) _ _ _
                ((hb.cons (by simp)).cons (by simp))
            · exact nf_RL _ (hv d) _ _ _ ((hb.cons (by simp)).cons (by simp))
      · refine nf_dummies fs' ?_ (nf_Recs fs' ?_ _ _ _ _ hb)
        · intro e' he'
          obtain ⟨lbl, ids, rfl, _⟩ := hcl e' he'
          exact ⟨_, _, _, rfl⟩
        · intro e' he'
          obtain ⟨lbl, ids, rfl, h⟩ := hcl e' he'
          exact ⟨_, _, _, rfl, nf_vars hE' ids h⟩
    | @prim _ _ _ _ p args args' hp hlen hargs =>
      simp only [Lam.prim.sizeOf_spec] at he
      exact nf_prim args' (by rw [hlen]; exact hp) (mem (by omega) hlen hargs ce sf hE hsf) _ _ _ hC
    | staticfail =>
      obtain ⟨⟨l, tsz⟩, hl⟩ := Option.isSome_iff_exists.mp (hsf rfl)
      subst hl
      simp only [compexp]
      exact (hC.discard.cons (by simp)).addPop _
    | @statichandle _ _ _ _ a a' b b' ha hb =>
      simp only [Lam.statichandle.sizeOf_spec] at he
      simp only [compexp]
      split
      · rename_i hc
        refine ih _ _ _ _ _ a' (by omega) ha ce sf hE ?_ _ _ _ hC
        intro _
        apply hsf
        cases hb with
        | staticfail => rfl
        | _ => cases hc
      · have h1 := hC.makeBranch k
        have h2 := ih _ _ _ _ _ b' (by omega) hb ce sf hE hsf sz _ (makeBranch C k).2.2 h1.1
        exact ih _ _ _ _ _ a' (by omega) ha ce _ hE (fun _ => rfl) _ _ _
          ((h2.labelCode _).discard.cons h1.2)
    | @handle _ _ _ _ a a' b b' ha hb =>
      simp only [Lam.handle.sizeOf_spec] at he
      simp only [compexp]
      have h1 := hC.makeBranch k
      have h2 := ih _ _ _ _ _ b' (by omega) hb _ sf (hE.bind (sz + 1)) hsf (sz + 1) _
        ((makeBranch C k).2.2 + 1) (h1.1.addPop 1)
      exact (ih _ _ _ _ _ a' (by omega) ha ce sf hE hnone _ _ _
        ((((h2.cons (by simp)).cons (by simp)).cons h1.2).cons (by simp))).cons (by simp)
    | @cond _ _ _ _ c c' a a' b b' hc ha hb =>
      simp only [Lam.cond.sizeOf_spec] at he
      have hc := ih _ _ _ _ _ c' (by omega) hc ce sf hE hsf
      have ha := ih _ _ _ _ _ a' (by omega) ha ce sf hE hsf
      have hb := ih _ _ _ _ _ b' (by omega) hb ce sf hE hsf
      simp only [compexp]
      split
      · exact hc _ _ _ ((hb _ _ _ hC).cons (by simp))
      · split
        · exact hc _ _ _ ((ha _ _ _ hC).cons (by simp))
        · have h1 := hC.makeBranch k
          exact hc _ _ _ ((ha _ _ _ (((hb _ _ _ h1.1).labelCode _).discard.cons h1.2)).cons (by simp))
    | @seq _ _ _ _ a a' b b' ha hb =>
      simp only [Lam.seq.sizeOf_spec] at he
      simp only [compexp]
      exact ih _ _ _ _ _ a' (by omega) ha ce sf hE hsf _ _ _
        (ih _ _ _ _ _ b' (by omega) hb ce sf hE hsf _ _ _ hC)
    | @andalso _ _ _ _ a a' b b' ha hb =>
      simp only [Lam.andalso.sizeOf_spec] at he
      have ha := ih _ _ _ _ _ a' (by omega) ha ce sf hE hsf
      have hb := ih _ _ _ _ _ b' (by omega) hb ce sf hE hsf
      simp only [compexp]
      split
      · exact ha _ _ _ ((hb _ _ _ hC).cons (by simp))
      · exact ha _ _ _ ((hb _ _ _ hC).cons (by simp))
      · exact ha _ _ _ ((hb _ _ _ ((hC.tail.labelCode k).cons (by simp))).cons (by simp))
      · exact ha _ _ _ ((hb _ _ _ hC).cons (by simp))
      · exact ha _ _ _ ((hb _ _ _ (hC.cons (by simp))).cons (by simp))
    | @orelse _ _ _ _ a a' b b' ha hb =>
      simp only [Lam.orelse.sizeOf_spec] at he
      have ha := ih _ _ _ _ _ a' (by omega) ha ce sf hE hsf
      have hb := ih _ _ _ _ _ b' (by omega) hb ce sf hE hsf
      simp only [compexp]
      split
      · exact ha _ _ _ ((hb _ _ _ hC).cons (by simp))
      · exact ha _ _ _ ((hb _ _ _ hC).cons (by simp))
      · exact ha _ _ _ ((hb _ _ _ ((hC.tail.labelCode k).cons (by simp))).cons (by simp))
      · exact ha _ _ _ ((hb _ _ _ hC).cons (by simp))
      · exact ha _ _ _ ((hb _ _ _ (hC.cons (by simp))).cons (by simp))

theorem nf_func {T m b} {f : Func} (h : Lifts T m f.fv f.nargs false b f.body) {C} (k : Nat) (hC : NF C) :
    NF (compileFunc f C k).1 := by
  have hE : EOk f.fv f.nargs (iniEnv f.fv f.nargs) := by
    refine ⟨rfl, ?_⟩
    intro a ha
    simp [iniEnv, ha]
  have := nf_comp _ m f.fv f.nargs false b f.body (Nat.lt_succ_self _) h _ none hE (by simp) f.nargs
    (.ret f.nargs :: discard C) k (hC.discard.cons (by simp))
  simp only [compileFunc]
  split
  · exact ((this.cons (by simp)).cons (by simp)).cons (by simp)
  · exact this.cons (by simp)

theorem nf_rest {T} : ∀ (fs : List Func) C k, (∀ f ∈ fs, ∃ m b, Lifts T m f.fv f.nargs false b f.body) →
    NF C → NF (compileRest fs C k).1 := by
  intro fs
  induction fs with
  | nil => intro C k _ hC; exact hC
  | cons f fs ih =>
    intro C k h hC
    simp only [compileRest]
    obtain ⟨m, b, hf⟩ := h f (by simp)
    exact ih _ _ (fun f hf => h f (by simp [hf])) (nf_func hf k hC)

theorem nf_phrase (e : Lam) (hok : Ok 0 false e) :
    NF (compileLambda e).inits ∧ NF (compileLambda e).funcs := by
  obtain ⟨_, _, hL⟩ := phrase_ok e hok
  obtain ⟨h1, _⟩ := lft_ok _ e (Nat.lt_succ_self _) 0 0 false hok { fv := [], lbl := 0, funs := [] }
  obtain ⟨new, n1, _, _, n4⟩ := h1.funs
  constructor
  · exact nf_comp _ _ _ _ _ _ _ (Nat.lt_succ_self _) hL _ none ⟨rfl, by simp⟩ (by simp) 0 []
      _ (by simp [NF])
  · refine nf_rest (T := (lft 0 false e { fv := [], lbl := 0, funs := [] }).2.funs) _ _ _ ?_ (by simp [NF])
    intro f hf
    refine n4 f ?_ _ (fun _ h => h)
    rw [n1] at hf
    simpa using hf

end Mosml.Zam
