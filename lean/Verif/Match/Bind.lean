import Verif.Match.Main

/-!
C50: model of src/compiler/Tr_env.sml, lines 7-13, 54-76, 128-166, 168-235: how the variables of patterns are bound.
-/
namespace Mosml.Match

/-- Tr_env.sml:7-13, without `Path_rec` and `Path_global` (not made for patterns) -/
inductive Path where
  | loc (i : Nat)
  | son (n : Nat) (p : Path)
  | virt (arity : Nat) (p : Path)

/-- Tr_env.sml:51-63 -/
def translatePath (depth : Nat) : Path → Acc
  | .loc i => .var (depth - (i + 1))
  | .virt _ p => translatePath depth p
  | .son n p => .field n (translatePath depth p)

/-- an access, or a tuple made anew of the fields of a block -/
inductive Top where
  | acc (a : Acc)
  | rebuild (arity : Nat) (a : Acc)

/-- Tr_env.sml:66-77; the block is evaluated once, in a `Llet`, unless it is a variable -/
def translateTop (depth : Nat) : Path → Top
  | .virt arity p => .rebuild arity (translatePath depth p)
  | p => .acc (translatePath depth p)

/-- Mixture.sml:167-179 -/
abbrev Env := List (String × Path)
def lookupEnv (x : String) : Env → Option Path
  | [] => none
  | (y, p) :: env => if x = y then some p else lookupEnv x env

mutual
/-- Tr_env.sml:128-164 (`EXNAMEpat` is made only inside of Match.sml) -/
def pathsAcc (path : Path) : Pat → Env → Env
  | .scon _, acc => acc
  | .var x, acc => (x, path) :: acc
  | .wild, acc => acc
  | .nil _, acc => acc
  | .cons ci p, acc =>
    if ci.span = 1 then pathsAcc path p acc
    else if ci.greedy then (if ci.tag = 0 then pathsAcc path p acc else pathsAcc (.virt ci.arity path) p acc)
    else pathsAcc (.son 0 path) p acc
  | .exnil _, acc => acc
  | .excons _ p, acc => pathsAcc (.son 1 path) p acc
  | .exname _, acc => acc
  | .ref p, acc => pathsAcc (.son 0 path) p acc
  | .tup ps, acc => pathsAccs path 0 ps acc
  | .vec ps, acc => pathsAccs path 0 ps acc
  | .par p, acc => pathsAcc path p acc
  | .typed p, acc => pathsAcc path p acc
  | .layered x p, acc => (x, path) :: pathsAcc path p acc
/-- `foldR` over the components, Tr_env.sml:152-158 -/
def pathsAccs (path : Path) (i : Nat) : List Pat → Env → Env
  | [], acc => acc
  | p :: ps, acc => pathsAcc (.son i path) p (pathsAccs path (i + 1) ps acc)
end

mutual
/-- Asyntfn.sml:132-153 -/
def domAcc : Pat → List String → List String
  | .var x, ids => x :: ids
  | .cons _ p, ids => domAcc p ids
  | .excons _ p, ids => domAcc p ids
  | .ref p, ids => domAcc p ids
  | .tup ps, ids => domAccs ps ids
  | .vec ps, ids => domAccs ps ids
  | .par p, ids => domAcc p ids
  | .typed p, ids => domAcc p ids
  | .layered x p, ids => domAcc p (x :: ids)
  | _, ids => ids
def domAccs : List Pat → List String → List String
  | [], ids => ids
  | p :: ps, ids => domAccs ps (domAcc p ids)
end

mutual
/-- Tr_env.sml:168-193: the variables inside of a `ref` -/
def mutAcc : Pat → List String → List String
  | .cons _ p, acc => mutAcc p acc
  | .excons _ p, acc => mutAcc p acc
  | .ref p, acc => domAcc p acc
  | .tup ps, acc => mutAccs ps acc
  | .vec ps, acc => mutAccs ps acc
  | .par p, acc => mutAcc p acc
  | .typed p, acc => mutAcc p acc
  | .layered _ p, acc => mutAcc p acc
  | _, acc => acc
/-- `foldR mutableVarsOfPatAcc` -/
def mutAccs : List Pat → List String → List String
  | [], acc => acc
  | p :: ps, acc => mutAcc p (mutAccs ps acc)
end

/-- Tr_env.sml:202-206 -/
def mkEnvOfRecPats (depth : Nat) : List Pat → Env → Env × Nat
  | [], rho => (rho, depth)
  | p :: ps, rho => mkEnvOfRecPats (depth + 1) ps (pathsAcc (.loc depth) p rho)

/-- Tr_env.sml:213-218 -/
def addLetsToEnv : List String → Env × Nat → Env × Nat
  | [], env => env
  | x :: rest, (rho, depth) => addLetsToEnv rest ((x, .loc depth) :: rho, depth + 1)

/-- Tr_env.sml:220-227: the expressions of the `Llet`; `none` is `fatalError` (Tr_env.sml:80-84) -/
def letExps (rho : Env) : Nat → List String → Option (List Top)
  | _, [] => some []
  | i, x :: rest => (lookupEnv x rho).bind fun p => (letExps rho (i + 1) rest).map (translateTop i p :: ·)

/-- Tr_env.sml:229-234 -/
def mkEnvOfPats (depth : Nat) (pats : List Pat) : (Env × Nat) × Option (List Top) :=
  let env := mkEnvOfRecPats depth pats []
  let muts := mutAccs pats []
  (addLetsToEnv muts env, letExps env.1 env.2 muts)

/-! ### what the code does -/

def evalTop (γ : Nat → R) (ρ : List R) : Top → Option R
  | .acc a => evalAcc γ ρ a
  | .rebuild n a => ((List.range n).mapM (fun i => evalAcc γ ρ (.field i a))).map (R.block 0)

/-- `Llet`: each expression sees the values of those before it -/
def evalLets (γ : Nat → R) (ρ : List R) : List Top → Option (List R)
  | [] => some ρ
  | t :: ts => (evalTop γ ρ t).bind fun r => evalLets γ (r :: ρ) ts

/-! ### lemmas -/

/-- the local variable of a path is one of the first `d` -/
def Below (d : Nat) : Path → Prop
  | .loc i => i < d
  | .son _ p => Below d p
  | .virt _ p => Below d p

/-- the path leads to the value -/
structure PathOk (γ : Nat → R) (ρ : List R) (d : Nat) (π : Path) (v : V) : Prop where
  below : Below d π
  obj : ObjOk γ ρ (translatePath d π) v
  top : evalTop γ ρ (translateTop d π) = some (rep v)

theorem PathOk.son {γ ρ d π v t vs i w} (h : PathOk γ ρ d π v) (hv : evalAcc γ ρ (translatePath d π) = some (.block t (reps vs))) (hw : vs[i]? = some w) :
    PathOk γ ρ d (.son i π) w := by
  have e : evalAcc γ ρ (.field i (translatePath d π)) = some (rep w) := by
    rw [evalAcc_field hv, reps_eq_map, List.getElem?_map, hw]; rfl
  exact ⟨h.below, ⟨rep w, e, .inl rfl⟩, e⟩

theorem mapM_field {γ ρ a t fs} (h : evalAcc γ ρ a = some (.block t fs)) : (List.range fs.length).mapM (fun i => evalAcc γ ρ (.field i a)) = some fs := by
  have : ∀ k, k ≤ fs.length → (List.range k).mapM (fun i => evalAcc γ ρ (.field i a)) = some (fs.take k) := by
    intro k
    induction k with
    | zero => simp
    | succ k ih =>
      intro hk
      rw [List.range_succ, List.mapM_append, ih (by omega)]
      have hlt : k < fs.length := by omega
      simp only [List.mapM_cons, List.mapM_nil, evalAcc_field h, List.getElem?_eq_getElem hlt]
      rw [List.take_succ_eq_append_getElem hlt]
      rfl
  rw [this _ le_rfl, List.take_length]

def BindOk (γ : Nat → R) (ρ : List R) (d : Nat) (e : String × Path) (b : String × V) : Prop := e.1 = b.1 ∧ PathOk γ ρ d e.2 b.2

theorem cons_path {γ ρ d π dc t t' w} (h : PathOk γ ρ d π (.con1 dc t w)) (ht : t < dc.length) (ht' : dc[t]? ≠ some .nullary) (ha : ArgOk dc t w) (hi : (infoOf dc t').tag = t) :
    PathOk γ ρ d (if (infoOf dc t').span = 1 then π else if (infoOf dc t').greedy then (if (infoOf dc t').tag = 0 then π else .virt (infoOf dc t').arity π) else .son 0 π) w := by
  have e : t' = t := by rw [infoOf_tag] at hi; exact hi
  subst e
  obtain ⟨hb, ⟨r, he, hr⟩, htop⟩ := h
  rcases hr with rfl | ⟨t1, vs1, t', e, rfl⟩
  swap
  · cases e
  rw [infoOf_tag, infoOf_span]
  rw [rep] at he htop
  unfold conR at he htop
  cases hd : dc[t']? with
  | none => rw [List.getElem?_eq_none_iff] at hd; omega
  | some c =>
    cases c with
    | nullary => exact (ht' hd).elim
    | unary =>
      rw [hd] at he htop
      simp only at he htop
      have hg : (infoOf dc t').greedy = false := by simp [infoOf, hd]
      rw [hg]
      by_cases h1 : dc.length = 1
      · rw [if_pos h1] at he htop
        rw [if_pos h1]
        exact ⟨hb, ⟨_, he, .inl rfl⟩, htop⟩
      · rw [if_neg h1] at he
        rw [if_neg h1, if_neg (by simp)]
        have : evalAcc γ ρ (.field 0 (translatePath d π)) = some (rep w) := by rw [evalAcc_field he]; rfl
        exact ⟨hb, ⟨_, this, .inl rfl⟩, this⟩
    | greedy n =>
      obtain ⟨vs, rfl, hn⟩ := ha n hd
      rw [hd] at he htop
      simp only [rep] at he htop
      have hg : (infoOf dc t').greedy = true := by simp [infoOf, hd]
      have har : (infoOf dc t').arity = n := by simp [infoOf, hd]
      rw [hg, har]
      by_cases h1 : dc.length = 1
      · rw [if_pos h1]
        have : t' = 0 := by omega
        subst this
        exact ⟨hb, ⟨_, he, .inl (by rw [rep])⟩, by rw [htop, rep]⟩
      · rw [if_neg h1, if_pos rfl]
        by_cases h2 : t' = 0
        · rw [if_pos h2]
          subst h2
          exact ⟨hb, ⟨_, he, .inl (by rw [rep])⟩, by rw [htop, rep]⟩
        · rw [if_neg h2]
          refine ⟨hb, ⟨_, he, .inr ⟨0, vs, t', rfl, rfl⟩⟩, ?_⟩
          rw [translateTop, evalTop, ← hn, ← reps_length vs, mapM_field he, rep]
          rfl

theorem pathsAcc_cons (π ci p acc) : pathsAcc π (.cons ci p) acc =
    pathsAcc (if ci.span = 1 then π else if ci.greedy then (if ci.tag = 0 then π else .virt ci.arity π) else .son 0 π) p acc := by
  rw [pathsAcc]
  split
  · rfl
  · split
    · split <;> rfl
    · rfl

mutual
theorem paths_ok {γ ρ d nm} : ∀ (p : Pat) (v : V) (b) (π) (acc), matchV nm p v = some b → Fits nm p v → PathOk γ ρ d π v →
    ∃ L, pathsAcc π p acc = L ++ acc ∧ List.Forall₂ (BindOk γ ρ d) L b
  | .scon c, v, b, π, acc, hm, hf, hp => by
    cases v <;> simp [matchV] at hm
    exact ⟨[], by rw [pathsAcc]; rfl, by rw [hm.2]; exact .nil⟩
  | .var x, v, b, π, acc, hm, hf, hp => by
    simp only [matchV, Option.some.injEq] at hm
    subst hm
    exact ⟨[(x, π)], by rw [pathsAcc]; rfl, .cons ⟨rfl, hp⟩ .nil⟩
  | .wild, v, b, π, acc, hm, hf, hp => by
    simp only [matchV, Option.some.injEq] at hm
    subst hm
    exact ⟨[], by rw [pathsAcc]; rfl, .nil⟩
  | .nil ci, v, b, π, acc, hm, hf, hp => by
    cases v <;> simp [matchV] at hm
    exact ⟨[], by rw [pathsAcc]; rfl, by rw [hm.2]; exact .nil⟩
  | .cons ci p, v, b, π, acc, hm, hf, hp => by
    cases v with
    | con1 dc t w =>
      simp only [Fits] at hf
      obtain ⟨⟨t', h1, h2, rfl⟩, h3, h4, h5, h6⟩ := hf
      simp only [matchV] at hm
      split at hm
      · rename_i htag
        rw [pathsAcc_cons]
        exact paths_ok p w b _ acc hm (h6 htag) (cons_path hp h3 h4 h5 htag)
      · simp at hm
    | _ => simp [matchV] at hm
  | .exnil a, v, b, π, acc, hm, hf, hp => by
    obtain ⟨t, n, w, rfl⟩ := fits_exnil hf
    simp only [matchV] at hm
    split at hm
    · cases hm; exact ⟨[], by rw [pathsAcc]; rfl, .nil⟩
    · simp at hm
  | .excons a p, v, b, π, acc, hm, hf, hp => by
    obtain ⟨t, n, w, rfl, hfp⟩ := fits_excons hf
    simp only [matchV] at hm
    split at hm
    · rename_i e
      obtain ⟨t', hb⟩ := tup_block hp.obj
      rw [pathsAcc]
      exact paths_ok p w b _ acc hm (hfp e) (hp.son hb rfl)
    · simp at hm
  | .exname a, v, b, π, acc, hm, hf, hp => by
    cases v <;> simp [matchV] at hm
    exact ⟨[], by rw [pathsAcc]; rfl, by rw [hm.2]; exact .nil⟩
  | .ref p, v, b, π, acc, hm, hf, hp => by
    obtain ⟨t, w, rfl, hfp⟩ := fits_ref hf
    simp only [matchV] at hm
    obtain ⟨t', hb⟩ := tup_block hp.obj
    rw [pathsAcc]
    exact paths_ok p w b _ acc hm hfp (hp.son hb rfl)
  | .tup ps, v, b, π, acc, hm, hf, hp => by
    cases v with
    | tup t ws =>
      simp only [Fits] at hf
      simp only [matchV] at hm
      obtain ⟨t', hb⟩ := tup_block hp.obj
      rw [pathsAcc]
      exact pathss_ok ps ws b π 0 acc hm hf.2 (fun i w hw => hp.son hb (by simpa using hw))
    | _ => simp [matchV] at hm
  | .vec ps, v, b, π, acc, hm, hf, hp => by
    cases v with
    | vec ws =>
      simp only [Fits] at hf
      simp only [matchV] at hm
      obtain ⟨t', hb⟩ := vec_block hp.obj
      rw [pathsAcc]
      have hlen : ps.length = ws.length := mms_length (nm := nm) (by rw [mms, hm]; rfl)
      exact pathss_ok ps ws b π 0 acc hm (hf hlen) (fun i w hw => hp.son hb (by simpa using hw))
    | _ => simp [matchV] at hm
  | .par p, v, b, π, acc, hm, hf, hp => by
    simp only [matchV] at hm
    simp only [Fits] at hf
    rw [pathsAcc]
    exact paths_ok p v b π acc hm hf hp
  | .typed p, v, b, π, acc, hm, hf, hp => by
    simp only [matchV] at hm
    simp only [Fits] at hf
    rw [pathsAcc]
    exact paths_ok p v b π acc hm hf hp
  | .layered x p, v, b, π, acc, hm, hf, hp => by
    simp only [matchV, Option.map_eq_some_iff] at hm
    obtain ⟨b', hm, rfl⟩ := hm
    simp only [Fits] at hf
    obtain ⟨L, h1, h2⟩ := paths_ok p v b' π acc hm hf hp
    rw [pathsAcc, h1]
    exact ⟨(x, π) :: L, rfl, .cons ⟨rfl, hp⟩ h2⟩
theorem pathss_ok {γ ρ d nm} : ∀ (ps : List Pat) (vs : List V) (b) (π) (i : Nat) (acc), matchVs nm ps vs = some b → FitsAll nm ps vs →
    (∀ j w, vs[j]? = some w → PathOk γ ρ d (.son (i + j) π) w) → ∃ L, pathsAccs π i ps acc = L ++ acc ∧ List.Forall₂ (BindOk γ ρ d) L b
  | [], vs, b, π, i, acc, hm, hf, hp => by
    cases vs <;> simp [matchVs] at hm
    subst hm
    exact ⟨[], by rw [pathsAccs]; rfl, .nil⟩
  | p :: ps, [], b, π, i, acc, hm, hf, hp => by simp [matchVs] at hm
  | p :: ps, v :: vs, b, π, i, acc, hm, hf, hp => by
    simp only [matchVs, Option.bind_eq_some_iff, Option.map_eq_some_iff] at hm
    obtain ⟨b1, h1, b2, h2, rfl⟩ := hm
    obtain ⟨hf1, hf2⟩ := fitsAll_elim hf
    have hf2 := hf2 (fun _ _ => by rw [mm, h1]; rfl)
    obtain ⟨L2, e2, o2⟩ := pathss_ok ps vs b2 π (i + 1) acc h2 hf2 (fun j w hw => by
      have := hp (j + 1) w (by simpa using hw)
      rwa [show i + 1 + j = i + (j + 1) by omega])
    obtain ⟨L1, e1, o1⟩ := paths_ok p v b1 (.son i π) (L2 ++ acc) h1 hf1 (by simpa using hp 0 v rfl)
    refine ⟨L1 ++ L2, ?_, List.rel_append o1 o2⟩
    rw [pathsAccs, e2, e1, List.append_assoc]
end

/-! ### environments -/

mutual
theorem paths_keep (x : String) : ∀ (p : Pat) (π : Path) (acc : Env), x ∈ acc.map Prod.fst → x ∈ (pathsAcc π p acc).map Prod.fst
  | .scon _, π, acc, h => by rw [pathsAcc]; exact h
  | .var _, π, acc, h => by rw [pathsAcc]; exact List.mem_cons_of_mem _ h
  | .wild, π, acc, h => by rw [pathsAcc]; exact h
  | .nil _, π, acc, h => by rw [pathsAcc]; exact h
  | .cons ci p, π, acc, h => by rw [pathsAcc_cons]; exact paths_keep x p _ acc h
  | .exnil _, π, acc, h => by rw [pathsAcc]; exact h
  | .excons _ p, π, acc, h => by rw [pathsAcc]; exact paths_keep x p _ acc h
  | .exname _, π, acc, h => by rw [pathsAcc]; exact h
  | .ref p, π, acc, h => by rw [pathsAcc]; exact paths_keep x p _ acc h
  | .tup ps, π, acc, h => by rw [pathsAcc]; exact pathss_keep x ps _ _ acc h
  | .vec ps, π, acc, h => by rw [pathsAcc]; exact pathss_keep x ps _ _ acc h
  | .par p, π, acc, h => by rw [pathsAcc]; exact paths_keep x p _ acc h
  | .typed p, π, acc, h => by rw [pathsAcc]; exact paths_keep x p _ acc h
  | .layered _ p, π, acc, h => by rw [pathsAcc]; exact List.mem_cons_of_mem _ (paths_keep x p _ acc h)
theorem pathss_keep (x : String) : ∀ (ps : List Pat) (π : Path) (i : Nat) (acc : Env), x ∈ acc.map Prod.fst → x ∈ (pathsAccs π i ps acc).map Prod.fst
  | [], π, i, acc, h => by rw [pathsAccs]; exact h
  | p :: ps, π, i, acc, h => by rw [pathsAccs]; exact paths_keep x p _ _ (pathss_keep x ps _ _ acc h)
end

mutual
theorem dom_paths (x : String) : ∀ (p : Pat) (ids : List String), x ∈ domAcc p ids → x ∈ ids ∨ ∀ π acc, x ∈ (pathsAcc π p acc).map Prod.fst
  | .scon _, ids, h => by simp only [domAcc] at h; exact .inl h
  | .var y, ids, h => by
    simp only [domAcc, List.mem_cons] at h
    rcases h with rfl | h
    · exact .inr fun π acc => by rw [pathsAcc]; exact List.mem_cons_self
    · exact .inl h
  | .wild, ids, h => by simp only [domAcc] at h; exact .inl h
  | .nil _, ids, h => by simp only [domAcc] at h; exact .inl h
  | .cons ci p, ids, h => by
    simp only [domAcc] at h
    rcases dom_paths x p ids h with h | h
    · exact .inl h
    · exact .inr fun π acc => by rw [pathsAcc_cons]; exact h _ _
  | .exnil _, ids, h => by simp only [domAcc] at h; exact .inl h
  | .excons _ p, ids, h => by
    simp only [domAcc] at h
    rcases dom_paths x p ids h with h | h
    · exact .inl h
    · exact .inr fun π acc => by rw [pathsAcc]; exact h _ _
  | .exname _, ids, h => by simp only [domAcc] at h; exact .inl h
  | .ref p, ids, h => by
    simp only [domAcc] at h
    rcases dom_paths x p ids h with h | h
    · exact .inl h
    · exact .inr fun π acc => by rw [pathsAcc]; exact h _ _
  | .tup ps, ids, h => by
    simp only [domAcc] at h
    rcases doms_paths x ps ids h with h | h
    · exact .inl h
    · exact .inr fun π acc => by rw [pathsAcc]; exact h _ _ _
  | .vec ps, ids, h => by
    simp only [domAcc] at h
    rcases doms_paths x ps ids h with h | h
    · exact .inl h
    · exact .inr fun π acc => by rw [pathsAcc]; exact h _ _ _
  | .par p, ids, h => by
    simp only [domAcc] at h
    rcases dom_paths x p ids h with h | h
    · exact .inl h
    · exact .inr fun π acc => by rw [pathsAcc]; exact h _ _
  | .typed p, ids, h => by
    simp only [domAcc] at h
    rcases dom_paths x p ids h with h | h
    · exact .inl h
    · exact .inr fun π acc => by rw [pathsAcc]; exact h _ _
  | .layered y p, ids, h => by
    simp only [domAcc] at h
    rcases dom_paths x p _ h with h | h
    · rcases List.mem_cons.1 h with rfl | h
      · exact .inr fun π acc => by rw [pathsAcc]; exact List.mem_cons_self
      · exact .inl h
    · exact .inr fun π acc => by rw [pathsAcc]; exact List.mem_cons_of_mem _ (h _ _)
theorem doms_paths (x : String) : ∀ (ps : List Pat) (ids : List String), x ∈ domAccs ps ids → x ∈ ids ∨ ∀ π i acc, x ∈ (pathsAccs π i ps acc).map Prod.fst
  | [], ids, h => by simp only [domAccs] at h; exact .inl h
  | p :: ps, ids, h => by
    simp only [domAccs] at h
    rcases doms_paths x ps _ h with h | h
    · rcases dom_paths x p _ h with h | h
      · exact .inl h
      · exact .inr fun π i acc => by rw [pathsAccs]; exact h _ _
    · exact .inr fun π i acc => by rw [pathsAccs]; exact paths_keep x p _ _ (h _ _ _)
end

mutual
theorem mut_paths (x : String) : ∀ (p : Pat) (ids : List String), x ∈ mutAcc p ids → x ∈ ids ∨ ∀ π acc, x ∈ (pathsAcc π p acc).map Prod.fst
  | .scon _, ids, h => by simp only [mutAcc] at h; exact .inl h
  | .var y, ids, h => by simp only [mutAcc] at h; exact .inl h
  | .wild, ids, h => by simp only [mutAcc] at h; exact .inl h
  | .nil _, ids, h => by simp only [mutAcc] at h; exact .inl h
  | .cons ci p, ids, h => by
    simp only [mutAcc] at h
    rcases mut_paths x p ids h with h | h
    · exact .inl h
    · exact .inr fun π acc => by rw [pathsAcc_cons]; exact h _ _
  | .exnil _, ids, h => by simp only [mutAcc] at h; exact .inl h
  | .excons _ p, ids, h => by
    simp only [mutAcc] at h
    rcases mut_paths x p ids h with h | h
    · exact .inl h
    · exact .inr fun π acc => by rw [pathsAcc]; exact h _ _
  | .exname _, ids, h => by simp only [mutAcc] at h; exact .inl h
  | .ref p, ids, h => by
    simp only [mutAcc] at h
    rcases dom_paths x p ids h with h | h
    · exact .inl h
    · exact .inr fun π acc => by rw [pathsAcc]; exact h _ _
  | .tup ps, ids, h => by
    simp only [mutAcc] at h
    rcases muts_paths x ps ids h with h | h
    · exact .inl h
    · exact .inr fun π acc => by rw [pathsAcc]; exact h.1 _ _ _
  | .vec ps, ids, h => by
    simp only [mutAcc] at h
    rcases muts_paths x ps ids h with h | h
    · exact .inl h
    · exact .inr fun π acc => by rw [pathsAcc]; exact h.1 _ _ _
  | .par p, ids, h => by
    simp only [mutAcc] at h
    rcases mut_paths x p ids h with h | h
    · exact .inl h
    · exact .inr fun π acc => by rw [pathsAcc]; exact h _ _
  | .typed p, ids, h => by
    simp only [mutAcc] at h
    rcases mut_paths x p ids h with h | h
    · exact .inl h
    · exact .inr fun π acc => by rw [pathsAcc]; exact h _ _
  | .layered y p, ids, h => by
    simp only [mutAcc] at h
    rcases mut_paths x p _ h with h | h
    · exact .inl h
    · exact .inr fun π acc => by rw [pathsAcc]; exact List.mem_cons_of_mem _ (h _ _)
theorem muts_paths (x : String) : ∀ (ps : List Pat) (ids : List String), x ∈ mutAccs ps ids →
    x ∈ ids ∨ (∀ π i acc, x ∈ (pathsAccs π i ps acc).map Prod.fst) ∧ ∃ p ∈ ps, ∀ π acc, x ∈ (pathsAcc π p acc).map Prod.fst
  | [], ids, h => by simp only [mutAccs] at h; exact .inl h
  | p :: ps, ids, h => by
    simp only [mutAccs] at h
    rcases mut_paths x p _ h with h | h
    · rcases muts_paths x ps _ h with h | ⟨h, q, hq, hq'⟩
      · exact .inl h
      · exact .inr ⟨fun π i acc => by rw [pathsAccs]; exact paths_keep x p _ _ (h _ _ _), q, List.mem_cons_of_mem _ hq, hq'⟩
    · exact .inr ⟨fun π i acc => by rw [pathsAccs]; exact h _ _, p, List.mem_cons_self, h⟩
end

theorem rec_keep (x : String) (ps : List Pat) (d : Nat) (acc : Env) (h : x ∈ acc.map Prod.fst) : x ∈ (mkEnvOfRecPats d ps acc).1.map Prod.fst := by
  induction ps generalizing d acc with
  | nil => exact h
  | cons p ps ih => rw [mkEnvOfRecPats]; exact ih _ _ (paths_keep x p _ _ h)

theorem rec_mem (x : String) (ps : List Pat) (d : Nat) (acc : Env) (p : Pat) (hp : p ∈ ps) (h : ∀ π acc, x ∈ (pathsAcc π p acc).map Prod.fst) :
    x ∈ (mkEnvOfRecPats d ps acc).1.map Prod.fst := by
  induction ps generalizing d acc with
  | nil => simp at hp
  | cons q ps ih =>
    rw [mkEnvOfRecPats]
    rcases List.mem_cons.1 hp with rfl | hp
    · exact rec_keep x ps _ _ (h _ _)
    · exact ih _ _ hp

theorem rec_depth (ps : List Pat) (d : Nat) (acc : Env) : (mkEnvOfRecPats d ps acc).2 = d + ps.length := by
  induction ps generalizing d acc with
  | nil => rfl
  | cons p ps ih => rw [mkEnvOfRecPats, ih]; simp; omega

theorem rec_ok {γ ρ nm D} (ps : List Pat) (vs : List V) (b) (d : Nat) (acc : Env) (hm : matchVs nm ps vs = some b) (hf : FitsAll nm ps vs)
    (hv : ∀ j v, vs[j]? = some v → PathOk γ ρ D (.loc (d + j)) v) :
    ∃ L L', (mkEnvOfRecPats d ps acc).1 = L ++ acc ∧ L.Perm L' ∧ List.Forall₂ (BindOk γ ρ D) L' b := by
  induction ps generalizing vs b d acc with
  | nil =>
    cases vs <;> simp [matchVs] at hm
    subst hm
    exact ⟨[], [], rfl, List.Perm.nil, .nil⟩
  | cons p ps ih =>
    cases vs with
    | nil => simp [matchVs] at hm
    | cons v vs =>
      simp only [matchVs, Option.bind_eq_some_iff, Option.map_eq_some_iff] at hm
      obtain ⟨b1, h1, b2, h2, rfl⟩ := hm
      obtain ⟨hf1, hf2⟩ := fitsAll_elim hf
      have hf2 := hf2 (fun _ _ => by rw [mm, h1]; rfl)
      obtain ⟨L1, e1, o1⟩ := paths_ok p v b1 (.loc d) acc h1 hf1 (by simpa using hv 0 v rfl)
      obtain ⟨L2, L2', e2, pm, o2⟩ := ih vs b2 (d + 1) (L1 ++ acc) h2 hf2 (fun j w hw => by
        have := hv (j + 1) w (by simpa using hw)
        rwa [show d + 1 + j = d + (j + 1) by omega])
      refine ⟨L2 ++ L1, L1 ++ L2', ?_, (List.perm_append_comm).trans (pm.append_left L1), List.rel_append o1 o2⟩
      rw [mkEnvOfRecPats, e1, e2, List.append_assoc]

theorem lookup_mem {x : String} {π : Path} : ∀ {E : Env}, (E.map Prod.fst).Nodup → (x, π) ∈ E → lookupEnv x E = some π
  | [], _, h => by simp at h
  | (y, q) :: E, hn, h => by
    rw [List.map_cons, List.nodup_cons] at hn
    rw [lookupEnv]
    rcases List.mem_cons.1 h with e | hm
    · cases e; rw [if_pos rfl]
    · rw [if_neg]
      · exact lookup_mem hn.2 hm
      · rintro rfl
        exact hn.1 (List.mem_map.2 ⟨_, hm, rfl⟩)

theorem translatePath_shift {γ ρ d r} : ∀ {π : Path}, Below d π → evalAcc γ (r :: ρ) (translatePath (d + 1) π) = evalAcc γ ρ (translatePath d π)
  | .loc i, h => by
    have : d + 1 - (i + 1) = (d - (i + 1)) + 1 := by have : i < d := h; omega
    rw [translatePath, this, evalAcc, translatePath, evalAcc, List.getElem?_cons_succ]
  | .son n p, h => by rw [translatePath, translatePath, evalAcc, evalAcc, translatePath_shift (π := p) h]
  | .virt n p, h => translatePath_shift (π := p) h

theorem translateTop_shift {γ ρ d r π} (h : Below d π) : evalTop γ (r :: ρ) (translateTop (d + 1) π) = evalTop γ ρ (translateTop d π) := by
  cases π with
  | virt n p =>
    simp only [translateTop, evalTop, evalAcc]
    rw [translatePath_shift (π := p) h]
  | loc i => exact translatePath_shift h
  | son i p => exact translatePath_shift h

theorem Below.mono {d d' : Nat} (hd : d ≤ d') : ∀ {π}, Below d π → Below d' π
  | .loc i, h => by have : i < d := h; show i < d'; omega
  | .son _ p, h => Below.mono (π := p) hd h
  | .virt _ p, h => Below.mono (π := p) hd h

/-- the environment leads to the value of a variable -/
def LookOk (γ : Nat → R) (ρ : List R) (rho : Env) (d : Nat) (x : String) (v : V) : Prop :=
  ∃ π, lookupEnv x rho = some π ∧ Below d π ∧ evalTop γ ρ (translateTop d π) = some (rep v)

theorem LookOk.push {γ ρ rho d x v r} (h : LookOk γ ρ rho d x v) : LookOk γ (r :: ρ) rho (d + 1) x v := by
  obtain ⟨π, h1, h2, h3⟩ := h
  exact ⟨π, h1, h2.mono (by omega), by rw [translateTop_shift h2]; exact h3⟩

theorem lets_ok {γ} {b : List (String × V)} {rho0 : Env} (hb : (b.map Prod.fst).Nodup) (muts : List String) (hmu : ∀ x ∈ muts, x ∈ b.map Prod.fst) (rho : Env) (ρ : List R) (d : Nat)
    (hd : ρ.length = d) (h0 : ∀ x v, (x, v) ∈ b → LookOk γ ρ rho0 d x v) (h1 : ∀ x v, (x, v) ∈ b → LookOk γ ρ rho d x v) :
    ∃ ts ρ', letExps rho0 d muts = some ts ∧ evalLets γ ρ ts = some ρ' ∧ ρ'.length = (addLetsToEnv muts (rho, d)).2 ∧
      ∀ x v, (x, v) ∈ b → LookOk γ ρ' (addLetsToEnv muts (rho, d)).1 (addLetsToEnv muts (rho, d)).2 x v := by
  induction muts generalizing rho ρ d with
  | nil => exact ⟨[], ρ, rfl, rfl, hd, h1⟩
  | cons y muts ih =>
    obtain ⟨⟨y', w⟩, hy, e⟩ := List.mem_map.1 (hmu y List.mem_cons_self)
    simp only at e
    subst e
    obtain ⟨π, l1, l2, l3⟩ := h0 _ _ hy
    obtain ⟨ts, ρ', i1, i2, i3, i4⟩ := ih (fun x hx => hmu x (List.mem_cons_of_mem _ hx)) ((y', .loc d) :: rho) (rep w :: ρ) (d + 1) (by simp [hd])
      (fun x v hx => (h0 x v hx).push) (fun x v hx => by
        by_cases e : x = y'
        · subst e
          have : v = w := by
            have h1 := List.inj_on_of_nodup_map hb hx hy rfl
            exact (Prod.mk.inj h1).2
          subst this
          refine ⟨.loc d, by rw [lookupEnv, if_pos rfl], by show d < d + 1; omega, ?_⟩
          simp [translateTop, translatePath, evalTop, evalAcc]
        · obtain ⟨π', l1', l2', l3'⟩ := (h1 x v hx).push (r := rep w)
          exact ⟨π', by rw [lookupEnv, if_neg e]; exact l1', l2', l3'⟩)
    refine ⟨translateTop d π :: ts, ρ', ?_, ?_, i3, i4⟩
    · rw [letExps, l1, Option.bind_some, i1]; rfl
    · rw [evalLets, l3, Option.bind_some, i2]

end Mosml.Match
