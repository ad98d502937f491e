import Verif.Match.Lambda
import Verif.Match.Bind

/-!
C50: the theorems.
-/
namespace Mosml.Match

/-- the arguments of a match and its rules: all have the same number of arguments, of one type each; the exception names are what `nm` says.
The arguments are the last variables bound, the last argument the last of them. -/
structure Applied (γ : Nat → R) (ρ : List R) (nm : Acc → Nat) (vs : List V) (mrules : List (List Pat)) : Prop where
  len : ∀ ps ∈ mrules, ps.length = vs.length
  fits : ∀ ps ∈ mrules, FitsAll nm ps vs
  names : ∀ ps ∈ mrules, NamesAll (fun a => evalAcc γ ρ a = some (.name (nm a))) ps
  args : ∃ ρ', ρ = (reps vs).reverse ++ ρ'

theorem sel_first (nm : Acc → Nat) (vs : List V) (mrules : List (List Pat)) (i : Nat) : sel nm 0 vs (mrules.zipIdx i) = match firstRule nm vs mrules with
    | some (k, _) => k + i
    | none => 0 := by
  induction mrules generalizing i with
  | nil => rfl
  | cons ps rules ih =>
    rw [List.zipIdx_cons, sel, firstRule]
    unfold mms
    cases h : matchVs nm ps vs with
    | some b => simp
    | none =>
      simp only [Option.isSome_none, Bool.false_eq_true, if_false]
      rw [ih]
      cases firstRule nm vs rules with
      | none => rfl
      | some x =>
        obtain ⟨k, b⟩ := x
        show k + (i + 1) = k + 1 + i
        omega

theorem args_ok {γ} (vs : List V) (ρ' : List R) :
    List.Forall₂ (ObjOk γ ((reps vs).reverse ++ ρ')) ((List.range vs.length).map Acc.var).reverse vs := by
  rw [List.forall₂_iff_get]
  refine ⟨by simp, fun i h1 h2 => ?_⟩
  have e : (((List.range vs.length).map Acc.var).reverse).get ⟨i, h1⟩ = .var (vs.length - 1 - i) := by simp
  rw [e]
  have hlt : i < vs.length := h2
  refine ⟨rep (vs.get ⟨i, h2⟩), ?_, .inl rfl⟩
  rw [evalAcc, reps_eq_map, List.getElem?_append_left (by simp; omega), List.getElem?_reverse (by simp; omega), List.length_map, List.getElem?_map,
    show vs.length - 1 - (vs.length - 1 - i) = i by omega, List.getElem?_eq_getElem hlt]
  rfl

/-- the dag at the start -/
def dag0 (n : Nat) : Dag := { nodes := .failure :: (List.range n).map .success, refs := List.replicate (n + 1) 0 }

theorem dag0_wf (n : Nat) : WfG (dag0 n) := by
  refine ⟨by simp [dag0], fun i a c t e h => ?_⟩
  have := List.mem_of_getElem? h
  simp [dag0] at this

/-- the whole: what the dag is, and where it leads -/
theorem compiled {mrules res} (h : translateMatch mrules = some res) :
    ∃ root g, WfG g ∧ 0 < g.refs.getD root 0 ∧ (dag0 mrules.length).nodes <+: g.nodes ∧ res.inexhaustive = decide (0 < g.refs.getD 0 0) ∧
      res.unusedCases = (List.range mrules.length).any (fun k => decide (g.refs.getD (k + 1) 0 = 0)) ∧
      (∀ γ ρ nm vs, Applied γ ρ nm vs mrules → Leads γ ρ g.nodes root (sel nm 0 vs (mrules.zipIdx 1)) ∧
        evalLam γ ρ res.code = leafOut γ ρ (if res.inexhaustive then .failLam else .unspec) g (sel nm 0 vs (mrules.zipIdx 1))) := by
  unfold translateMatch at h
  simp only [Option.bind_eq_some_iff, Prod.exists, Option.map_eq_some_iff] at h
  obtain ⟨root, g, hm, l, ht, rfl⟩ := h
  change makedag 0 (mrules.zipIdx 1) (dag0 mrules.length) = _ at hm
  cases mrules with
  | nil => simp [makedag] at hm
  | cons ps rules =>
    rw [List.zipIdx_cons] at hm
    simp only [makedag] at hm
    rw [← List.zipIdx_cons] at hm
    generalize hrules : ps :: rules = mrules at *
    have hlen : (dag0 mrules.length).nodes.length = mrules.length + 1 := by simp [dag0]
    have hrs : ∀ r ∈ mrules.zipIdx 1, r.2 < mrules.length + 1 := by
      intro r hr
      have := List.snd_lt_of_mem_zipIdx hr
      omega
    have hb := (build_all 0 _ _ (mrules.length + 1) _).1 _ _ _ _ _ (by omega) hrs (by rw [hlen]) hm
    have wf := hb.wf (dag0_wf _)
    refine ⟨root, incrnode g root, wf.incr root, getD_modify_self _ _ (by rw [wf.len]; exact hb.lt), hb.pre, rfl, rfl, fun γ ρ nm vs ap => ?_⟩
    have hleaf : ∀ k, k < mrules.length + 1 → LeafAt (dag0 mrules.length).nodes k := by
      intro k hk
      cases k with
      | zero => exact ⟨.failure, rfl, rfl⟩
      | succ k =>
        refine ⟨.success k, ?_, rfl⟩
        simp only [dag0, List.getElem?_cons_succ, List.getElem?_map]
        rw [List.getElem?_range (by omega)]
        rfl
    have hps : ps.length = vs.length := ap.len ps (by rw [← hrules]; exact List.mem_cons_self)
    rw [hps] at hm
    obtain ⟨ρ', rfl⟩ := ap.args
    have hl : Leads γ ((reps vs).reverse ++ ρ') g.nodes root (sel nm 0 vs (mrules.zipIdx 1)) := by
      refine (main (hleaf 0 (by omega)) _).1 _ _ _ _ _ ?_ ?_ (fun r hr => hleaf _ (hrs r hr)) List.prefix_rfl hm
      · rw [Desc]; exact ⟨rfl, desc_bots nm vs⟩
      · intro r hr
        have hmem : r.1 ∈ mrules := by
          have := List.fst_mem_of_mem_zipIdx hr
          exact this
        exact ⟨ap.len _ hmem, ap.fits _ hmem, ap.names _ hmem, args_ok vs ρ'⟩
    refine ⟨hl, ?_⟩
    have := (toseq_ok (γ := γ) (ρ := (reps vs).reverse ++ ρ') (g := incrnode g root) (fl := if decide (0 < (incrnode g root).refs.getD 0 0) then .failLam else .unspec)
      (by split <;> simp) _).1 _ _ _ ht hl
    exact this

/-- The code made for a match ends in the right-hand side of the first rule that matches, and in the code for a match failure if there is none. -/
theorem C50_select (mrules : List (List Pat)) (res : Result) (h : translateMatch mrules = some res) (γ : Nat → R) (ρ : List R) (nm : Acc → Nat) (vs : List V)
    (ap : Applied γ ρ nm vs mrules) : evalLam γ ρ res.code = match firstRule nm vs mrules with
    | some (k, _) => .rhs k
    | none => .failed := by
  obtain ⟨root, g, wf, used, pre, e1, e2, ok⟩ := compiled h
  obtain ⟨hl, hv⟩ := ok γ ρ nm vs ap
  rw [hv]
  rw [sel_first] at hl ⊢
  unfold leafOut
  cases hf : firstRule nm vs mrules with
  | none =>
    rw [hf] at hl
    have hu := leads_used wf used hl
    simp only at hu ⊢
    have h0 : g.nodes[0]? = some .failure := get_prefix pre rfl
    rw [h0, e1, decide_eq_true hu]
    rfl
  | some x =>
    obtain ⟨k, b⟩ := x
    have hk : k < mrules.length := by
      clear * - hf
      induction mrules generalizing k b with
      | nil => simp [firstRule] at hf
      | cons ps rules ih =>
        rw [firstRule] at hf
        split at hf
        · cases hf; simp
        · simp only [Option.map_eq_some_iff, Prod.exists, Prod.mk.injEq] at hf
          obtain ⟨k', b', h1, rfl, -⟩ := hf
          have := ih _ _ h1
          simp; omega
    have hn : g.nodes[k + 1]? = some (.success k) := get_prefix pre (by
      simp only [dag0, List.getElem?_cons_succ, List.getElem?_map]
      rw [List.getElem?_range hk]
      rfl)
    simp only
    rw [hn]

/-- Without the warning that the match is not exhaustive, every value matches. -/
theorem C50_exhaustive (mrules : List (List Pat)) (res : Result) (h : translateMatch mrules = some res) (hx : res.inexhaustive = false)
    (γ : Nat → R) (ρ : List R) (nm : Acc → Nat) (vs : List V) (ap : Applied γ ρ nm vs mrules) : firstRule nm vs mrules ≠ none := by
  intro hf
  obtain ⟨root, g, wf, used, pre, e1, e2, ok⟩ := compiled h
  obtain ⟨hl, -⟩ := ok γ ρ nm vs ap
  rw [sel_first, hf] at hl
  have hu := leads_used wf used hl
  rw [e1, decide_eq_false_iff_not] at hx
  exact hx hu

/-- The warning that a case is not used is right: there is a rule that is not the first to match for any value. -/
theorem C50_unused (mrules : List (List Pat)) (res : Result) (h : translateMatch mrules = some res) (hx : res.unusedCases = true) :
    ∃ k < mrules.length, ∀ γ ρ nm vs, Applied γ ρ nm vs mrules → ∀ b, firstRule nm vs mrules ≠ some (k, b) := by
  obtain ⟨root, g, wf, used, pre, e1, e2, ok⟩ := compiled h
  rw [e2, List.any_eq_true] at hx
  obtain ⟨k, hk, h0⟩ := hx
  rw [decide_eq_true_eq] at h0
  refine ⟨k, List.mem_range.1 hk, fun γ ρ nm vs ap b hf => ?_⟩
  obtain ⟨hl, -⟩ := ok γ ρ nm vs ap
  rw [sel_first, hf] at hl
  have hu := leads_used wf used hl
  simp only at hu
  omega

/-- The variables of a rule that matches are bound to what they match: after the `Llet` for the variables inside of references, the access that the
environment has for a variable gives the value that the variable matches. -/
theorem C50_bindings (γ : Nat → R) (ρ' : List R) (nm : Acc → Nat) (ps : List Pat) (vs : List V) (b : List (String × V)) (hm : matchVs nm ps vs = some b)
    (hf : FitsAll nm ps vs) (distinct : (b.map Prod.fst).Nodup) :
    ∃ ts ρ'', (mkEnvOfPats ρ'.length ps).2 = some ts ∧ evalLets γ ((reps vs).reverse ++ ρ') ts = some ρ'' ∧ ρ''.length = (mkEnvOfPats ρ'.length ps).1.2 ∧
      ∀ x v, (x, v) ∈ b → ∃ π, lookupEnv x (mkEnvOfPats ρ'.length ps).1.1 = some π ∧
        evalTop γ ρ'' (translateTop (mkEnvOfPats ρ'.length ps).1.2 π) = some (rep v) := by
  have hlen : ps.length = vs.length := mms_length (nm := nm) (by rw [mms, hm]; rfl)
  have hd := rec_depth ps ρ'.length []
  obtain ⟨L, L', e, pm, ok⟩ := rec_ok (γ := γ) (ρ := (reps vs).reverse ++ ρ') (D := ρ'.length + ps.length) ps vs b ρ'.length [] hm hf (fun j v hv => by
    have hj : j < vs.length := (List.getElem?_eq_some_iff.1 hv).1
    have hev : evalAcc γ ((reps vs).reverse ++ ρ') (.var (ρ'.length + ps.length - (ρ'.length + j + 1))) = some (rep v) := by
      rw [evalAcc, reps_eq_map, List.getElem?_append_left (by simp; omega), List.getElem?_reverse (by simp; omega), List.length_map, List.getElem?_map,
        show vs.length - 1 - (ρ'.length + ps.length - (ρ'.length + j + 1)) = j by omega, hv]
      rfl
    exact ⟨by show ρ'.length + j < _; omega, ⟨rep v, hev, .inl rfl⟩, hev⟩)
  rw [List.append_nil] at e
  have hnames : L'.map Prod.fst = b.map Prod.fst := by
    clear * - ok
    induction ok with
    | nil => rfl
    | cons h _ ih => rw [List.map_cons, List.map_cons, ih, h.1]
  have hnd : (L.map Prod.fst).Nodup := by
    rw [(pm.map Prod.fst).nodup_iff, hnames]; exact distinct
  have hlook : ∀ x v, (x, v) ∈ b → LookOk γ ((reps vs).reverse ++ ρ') (mkEnvOfRecPats ρ'.length ps []).1 (ρ'.length + ps.length) x v := by
    intro x v hx
    have : ∃ π, (x, π) ∈ L' ∧ PathOk γ ((reps vs).reverse ++ ρ') (ρ'.length + ps.length) π v := by
      clear * - ok hx
      induction ok with
      | nil => simp at hx
      | @cons e be l lb h _ ih =>
        rcases List.mem_cons.1 hx with rfl | hx
        · exact ⟨e.2, by have e1 : e.1 = x := h.1; rw [← e1]; exact List.mem_cons_self, h.2⟩
        · obtain ⟨π, h1, h2⟩ := ih hx
          exact ⟨π, List.mem_cons_of_mem _ h1, h2⟩
    obtain ⟨π, h1, h2⟩ := this
    rw [e]
    exact ⟨π, lookup_mem hnd (pm.mem_iff.2 h1), h2.below, h2.top⟩
  have hmu : ∀ x ∈ mutAccs ps [], x ∈ b.map Prod.fst := by
    intro x hx
    rcases muts_paths x ps [] hx with h | ⟨-, p, hp, h⟩
    · simp at h
    · have := rec_mem x ps ρ'.length [] p hp h
      rw [e] at this
      rw [← hnames]
      exact (pm.map Prod.fst).mem_iff.1 this
  obtain ⟨ts, ρ'', h1, h2, h3, h4⟩ := lets_ok (γ := γ) distinct (mutAccs ps []) hmu (mkEnvOfRecPats ρ'.length ps []).1 ((reps vs).reverse ++ ρ') (ρ'.length + ps.length)
    (by simp [reps_length, hlen]; omega) hlook hlook
  have henv : mkEnvOfRecPats ρ'.length ps [] = ((mkEnvOfRecPats ρ'.length ps []).1, ρ'.length + ps.length) := by rw [← hd]
  refine ⟨ts, ρ'', ?_, h2, ?_, fun x v hx => ?_⟩
  · show letExps (mkEnvOfRecPats ρ'.length ps []).1 (mkEnvOfRecPats ρ'.length ps []).2 _ = _
    rw [hd]; exact h1
  · show _ = (addLetsToEnv (mutAccs ps []) (mkEnvOfRecPats ρ'.length ps [])).2
    rw [henv]; exact h3
  · obtain ⟨π, q1, -, q3⟩ := h4 x v hx
    show ∃ π, lookupEnv x (addLetsToEnv (mutAccs ps []) (mkEnvOfRecPats ρ'.length ps [])).1 = _ ∧ evalTop γ ρ'' (translateTop (addLetsToEnv (mutAccs ps []) (mkEnvOfRecPats ρ'.length ps [])).2 π) = _
    rw [henv]
    exact ⟨π, q1, q3⟩

/-- `exception A of int * int; exception B of int * int * int; fun f (A (1, 2)) = .. | f (B (2, 2, 3)) = .. | f _ = ..` is a right program, but the compiler stops with
`fatalError "Match.succeed"`. -/
theorem C50_fatal_violation : translateMatch [[.excons (.global 1) (.tup [.scon (.int 1), .scon (.int 2)])],
    [.excons (.global 2) (.tup [.scon (.int 2), .scon (.int 2), .scon (.int 3)])], [.wild]] = none := by
  decide +kernel

/-! ### a case for each: `datatype d = A | B of int | C of int * d`,
`fun f A (E1 a, _) = .. | f (C (p as (7, B x))) (_, ref r) = .. | f _ (E2, _) = ..` -/

def exDecl : Decl := [.nullary, .unary, .greedy 2]
def exRules : List (List Pat) := [
  [.nil (infoOf exDecl 0), .tup [.excons (.global 1) (.var "a"), .wild]],
  [.cons (infoOf exDecl 2) (.layered "p" (.tup [.scon (.int 7), .cons (infoOf exDecl 1) (.var "x")])), .tup [.wild, .ref (.var "r")]],
  [.wild, .tup [.exnil (.global 2), .wild]] ]
/-- `C (7, B 3)` and `(E2, ref 5)` -/
def exArgs : List V := [.con1 exDecl 2 (.tup 0 [.scon (.int 7), .con1 exDecl 1 (.scon (.int 3))]), .tup 0 [.tup 0 [.name 2, .tup 0 []], .tup 250 [.scon (.int 5)]]]
def exNm : Acc → Nat
  | .global g => g
  | _ => 0

theorem ex_applied : Applied (fun g => .name g) ((reps exArgs).reverse ++ [.imm 9]) exNm exArgs exRules where
  len := by decide
  fits := by
    have hA : ∀ t v, exDecl[t]? ≠ some (.greedy 2) → ArgOk exDecl t v := by
      intro t v h n hn
      have : n = 2 := by
        match t, hn with
        | 0, hn => simp [exDecl] at hn
        | 1, hn => simp [exDecl] at hn
        | 2, hn => simp [exDecl] at hn; exact hn.symm
        | t + 3, hn => simp [exDecl] at hn
      subst this
      exact (h hn).elim
    have hC : ArgOk exDecl 2 (.tup 0 [.scon (.int 7), .con1 exDecl 1 (.scon (.int 3))]) := by
      intro n hn
      refine ⟨_, rfl, ?_⟩
      simp [exDecl] at hn
      exact hn
    intro ps hps
    simp only [exRules, List.mem_cons, List.not_mem_nil, or_false] at hps
    rcases hps with rfl | rfl | rfl
    · simp only [exArgs, FitsAll, Fits, exNm]
      refine ⟨⟨⟨0, by decide, by decide, rfl⟩, by decide, by decide, hC⟩, ⟨rfl, ?_, trivial, trivial⟩, trivial⟩
      intro h; simp at h
    · simp only [exArgs, FitsAll, Fits, SameKind, List.length_cons, List.length_nil]
      exact ⟨⟨⟨2, by decide, by decide, rfl⟩, by decide, by decide, hC, fun _ => ⟨by simp, trivial, ⟨⟨1, by decide, by decide, rfl⟩, by decide, by decide, hA 1 _ (by decide), fun _ => trivial⟩, trivial⟩⟩,
        ⟨by simp, trivial, trivial, trivial⟩, trivial⟩
    · simp only [exArgs, FitsAll, Fits, List.length_cons, List.length_nil]
      exact ⟨trivial, ⟨by simp, trivial, trivial, trivial⟩, trivial⟩
  names := by
    intro ps hps
    simp only [exRules, List.mem_cons, List.not_mem_nil, or_false] at hps
    rcases hps with rfl | rfl | rfl <;> simp [NamesAll, Names, evalAcc, exNm]
  args := ⟨_, rfl⟩

example : ∃ res, translateMatch exRules = some res ∧ evalLam (fun g => .name g) ((reps exArgs).reverse ++ [.imm 9]) res.code = .rhs 1 ∧ res.inexhaustive = true ∧ res.unusedCases = false := by
  have h : (translateMatch exRules).isSome = true := by decide +kernel
  obtain ⟨res, hr⟩ := Option.isSome_iff_exists.1 h
  have h2 : (translateMatch exRules).map (fun r => (r.inexhaustive, r.unusedCases)) = some (true, false) := by decide +kernel
  rw [hr] at h2
  simp only [Option.map_some, Option.some.injEq, Prod.mk.injEq] at h2
  refine ⟨res, hr, ?_, h2⟩
  rw [C50_select exRules res hr _ _ _ _ ex_applied]
  have hf : (firstRule exNm exArgs exRules).map Prod.fst = some 1 := by decide +kernel
  obtain ⟨x, hx, hx1⟩ := Option.map_eq_some_iff.1 hf
  obtain ⟨k, b⟩ := x
  simp only at hx1
  subst hx1
  rw [hx]

example : matchVs exNm [.cons (infoOf exDecl 2) (.layered "p" (.tup [.scon (.int 7), .cons (infoOf exDecl 1) (.var "x")])), .tup [.wild, .ref (.var "r")]] exArgs =
    some [("p", .tup 0 [.scon (.int 7), .con1 exDecl 1 (.scon (.int 3))]), ("x", .scon (.int 3)), ("r", .scon (.int 5))] ∧ ["p", "x", "r"].Nodup :=
  ⟨by simp [matchVs, matchV, exArgs, infoOf, exDecl], by decide⟩

/-- `fn false => .. | true => ..` is exhaustive, and a third rule is not used -/
example : (translateMatch [[.nil (infoOf [.nullary, .nullary] 0)], [.nil (infoOf [.nullary, .nullary] 1)]]).map (fun r => (r.inexhaustive, r.unusedCases)) = some (false, false) ∧
    (translateMatch [[.nil (infoOf [.nullary, .nullary] 0)], [.nil (infoOf [.nullary, .nullary] 1)], [.wild]]).map (fun r => (r.inexhaustive, r.unusedCases)) = some (false, true) := by
  decide +kernel

end Mosml.Match
