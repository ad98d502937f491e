import Verif.Match.Dag
import Mathlib.Data.List.Nodup
import Mathlib.Data.List.Perm.Subperm

/-!
C50: term descriptions and the values they describe; static matching; the tests of the dag.
-/
namespace Mosml.Match

/-- the components of a value -/
def kids : V → List V
  | .tup _ vs => vs
  | .vec vs => vs
  | .con1 _ _ v => [v]
  | _ => []

/-- the constructor of the value -/
def HeadIs (nm : Acc → Nat) : Con → V → Prop
  | .scon c, .scon c' => c = c'
  | .tup n, .tup _ vs => vs.length = n
  | .vec n, .vec vs => vs.length = n
  | .ccon tg sp ar, .con0 d t => tg = t ∧ sp = d.length ∧ ar = 0
  | .ccon tg sp ar, .con1 d t _ => tg = t ∧ sp = d.length ∧ ar = 1
  | .eexn a, .name n => nm a = n
  | _, _ => False

def arOf (d : Decl) (t : Nat) : Nat := if d[t]? = some .nullary then 0 else 1

/-- the constructor is one of the type of the value -/
def ConFits : Con → V → Prop
  | .scon c, .scon c' => SameKind c c'
  | .scon (.real _), .other _ => True
  | .vec _, .vec _ => True
  | .ccon tg sp ar, .con0 d t => (tg < d.length ∧ sp = d.length ∧ ar = arOf d tg) ∧ d[t]? = some .nullary
  | .ccon tg sp ar, .con1 d t v => (tg < d.length ∧ sp = d.length ∧ ar = arOf d tg) ∧ t < d.length ∧ d[t]? ≠ some .nullary ∧ ArgOk d t v
  | .eexn _, .name _ => True
  | _, _ => False

mutual
/-- the description holds for the value -/
def Desc (nm : Acc → Nat) : Termd → V → Prop
  | .neg cs, v => cs.Nodup ∧ ∀ c ∈ cs, ConFits c v ∧ ¬ HeadIs nm c v
  | .pos c args, v => HeadIs nm c v ∧ DescAll nm args (kids v)
def DescAll (nm : Acc → Nat) : List Termd → List V → Prop
  | [], [] => True
  | d :: ds, v :: vs => Desc nm d v ∧ DescAll nm ds vs
  | _, _ => False
end

theorem DescAll.length {nm} : ∀ {ds vs}, DescAll nm ds vs → ds.length = vs.length
  | [], [], _ => rfl
  | _ :: _, _ :: _, h => by rw [DescAll] at h; simp [h.2.length]
  | [], _ :: _, h => by simp [DescAll] at h
  | _ :: _, [], h => by simp [DescAll] at h

theorem DescAll.append {nm} : ∀ {ds vs ds' vs'}, DescAll nm ds vs → DescAll nm ds' vs' → DescAll nm (ds ++ ds') (vs ++ vs')
  | [], [], _, _, _, h => h
  | d :: ds, v :: vs, _, _, h, h' => by rw [DescAll] at h; exact ⟨h.1, h.2.append h'⟩
  | [], _ :: _, _, _, h, _ => by simp [DescAll] at h
  | _ :: _, [], _, _, h, _ => by simp [DescAll] at h

theorem DescAll.reverse {nm} : ∀ {ds vs}, DescAll nm ds vs → DescAll nm ds.reverse vs.reverse
  | [], [], h => h
  | d :: ds, v :: vs, h => by
    rw [DescAll] at h
    rw [List.reverse_cons, List.reverse_cons]
    exact h.2.reverse.append ⟨h.1, trivial⟩
  | [], _ :: _, h => by simp [DescAll] at h
  | _ :: _, [], h => by simp [DescAll] at h

theorem desc_bot (nm : Acc → Nat) (v : V) : Desc nm bot v := by
  rw [bot, Desc]; exact ⟨List.nodup_nil, by simp⟩

theorem desc_bots (nm : Acc → Nat) (vs : List V) : DescAll nm (bots vs.length) vs := by
  induction vs with
  | nil => exact trivial
  | cons v vs ih => exact ⟨desc_bot nm v, ih⟩

theorem head_arity {nm c v} (h : HeadIs nm c v) : arity c = (kids v).length := by
  cases c <;> cases v <;> simp_all [HeadIs, arity, kids]

/-- different constructors of one value are names of one exception -/
theorem head_unique {nm c c' v} (h : HeadIs nm c v) (h' : HeadIs nm c' v) : c = c' ∨ (∃ a, c = .eexn a) ∧ (∃ a, c' = .eexn a) := by
  cases c <;> cases v <;> cases c' <;> simp_all [HeadIs]

theorem getsargs_desc {nm dsc v n} (h : Desc nm dsc v) (hn : n = (kids v).length) : DescAll nm (getsargs n dsc) (kids v) := by
  subst hn
  cases dsc with
  | neg cs => exact desc_bots nm _
  | pos c args => rw [Desc] at h; exact h.2

/-- the constructors of a datatype, in the form of the match compiler -/
def allCons (d : Decl) : List Con := (List.range d.length).map (fun t => .ccon t d.length (arOf d t))

theorem mem_of_full {α} [DecidableEq α] {l cs : List α} (nd : cs.Nodup) (sub : ∀ c ∈ cs, c ∈ l) (len : l.length ≤ cs.length) {x : α} (hx : x ∈ l) : x ∈ cs := by
  by_contra hc
  have nd2 : (x :: cs).Nodup := List.nodup_cons.2 ⟨hc, nd⟩
  have hsub : (x :: cs) ⊆ l := by
    intro y hy
    rcases List.mem_cons.1 hy with rfl | hy
    · exact hx
    · exact sub y hy
  have := (nd2.subperm hsub).length_le
  simp at this
  omega

def allChars : List Con := (List.range 256).map (fun c => .scon (.char c))

theorem mem_allCons {d : Decl} {tg sp ar : Nat} (h : tg < d.length ∧ sp = d.length ∧ ar = arOf d tg) : Con.ccon tg sp ar ∈ allCons d := by
  obtain ⟨h1, rfl, rfl⟩ := h
  exact List.mem_map.2 ⟨tg, List.mem_range.2 h1, rfl⟩

/-- a constructor of a finite type: all constructors of the type, and that of the value among them -/
theorem conFits_all {c v} (h : ConFits c v) (hs : span c ≠ 0) :
    ∃ L : List Con, L.length = span c ∧ (∀ c', ConFits c' v → c' ∈ L) ∧ ∃ hd ∈ L, ∀ nm, HeadIs nm hd v := by
  cases v with
  | con0 d t =>
    cases c <;> simp only [ConFits] at h
    obtain ⟨h1, h2⟩ := h
    refine ⟨allCons d, by simp [allCons, span, h1.2.1], fun c' h' => ?_, .ccon t d.length (arOf d t),
      mem_allCons ⟨(List.getElem?_eq_some_iff.1 h2).1, rfl, rfl⟩, fun nm => ⟨rfl, rfl, by simp [arOf, h2]⟩⟩
    cases c' <;> simp only [ConFits] at h'
    exact mem_allCons h'.1
  | con1 d t v =>
    cases c <;> simp only [ConFits] at h
    obtain ⟨h1, h2, h3, -⟩ := h
    refine ⟨allCons d, by simp [allCons, span, h1.2.1], fun c' h' => ?_, .ccon t d.length (arOf d t), mem_allCons ⟨h2, rfl, rfl⟩, fun nm => ⟨rfl, rfl, by simp [arOf, h3]⟩⟩
    cases c' <;> simp only [ConFits] at h'
    exact mem_allCons h'.1
  | scon k =>
    cases c with
    | scon k' =>
      cases k' with
      | char x' =>
        cases k with
        | char x =>
          refine ⟨allChars, by simp [allChars, span], fun c' h' => ?_, .scon (.char x), List.mem_map.2 ⟨x, List.mem_range.2 h.2, rfl⟩, fun nm => rfl⟩
          cases c' with
          | scon k'' =>
            cases k'' with
            | char x'' => exact List.mem_map.2 ⟨x'', List.mem_range.2 h'.1, rfl⟩
            | _ => exact h'.elim
          | _ => exact h'.elim
        | _ => exact h.elim
      | _ => exact (hs rfl).elim
    | _ => exact h.elim
  | tup _ _ => cases c <;> exact h.elim
  | vec _ => cases c <;> first | exact h.elim | exact (hs rfl).elim
  | name _ => cases c <;> first | exact h.elim | exact (hs rfl).elim
  | other _ =>
    cases c with
    | scon k => cases k <;> first | exact h.elim | exact (hs rfl).elim
    | _ => exact h.elim

theorem static_yes {nm pcon dsc v} (h : Desc nm dsc v) (hf : ConFits pcon v) (hs : staticmatch pcon dsc = .yes) : HeadIs nm pcon v := by
  cases dsc with
  | pos c args =>
    rw [Desc] at h
    simp only [staticmatch] at hs
    split at hs
    · rename_i e; rw [e]; exact h.1
    · split at hs <;> simp at hs
  | neg cs =>
    rw [Desc] at h
    simp only [staticmatch] at hs
    split at hs
    · simp at hs
    rename_i hnot
    split at hs
    · rename_i hsp
      have nd : (pcon :: cs).Nodup := List.nodup_cons.2 ⟨hnot, h.1⟩
      obtain ⟨L, hL, hall, hd, hmem, hh⟩ := conFits_all hf (by omega)
      have : hd ∈ pcon :: cs := mem_of_full nd (fun c hc => by
        rcases List.mem_cons.1 hc with rfl | hc
        · exact hall _ hf
        · exact hall _ (h.2 c hc).1) (by simp; omega) hmem
      rcases List.mem_cons.1 this with e | e
      · rw [← e]; exact hh nm
      · exact ((h.2 _ e).2 (hh nm)).elim
    · simp at hs

theorem static_no {nm pcon dsc v} (h : Desc nm dsc v) (hs : staticmatch pcon dsc = .no) : ¬ HeadIs nm pcon v := by
  cases dsc with
  | pos c args =>
    rw [Desc] at h
    simp only [staticmatch] at hs
    split at hs
    · simp at hs
    rename_i hne
    intro hh
    rcases head_unique hh h.1 with e | ⟨⟨a, rfl⟩, -⟩
    · exact hne e
    · simp at hs
  | neg cs =>
    rw [Desc] at h
    simp only [staticmatch] at hs
    split at hs
    · rename_i hm; exact (h.2 _ hm).2
    · split at hs <;> simp at hs

theorem desc_pos {nm pcon v} (h : HeadIs nm pcon v) : Desc nm (.pos pcon (bots (arity pcon))) v := by
  rw [Desc]; refine ⟨h, ?_⟩; rw [head_arity h]; exact desc_bots nm _

/-- after a test that has failed -/
theorem desc_addneg {nm pcon dsc v} (h : Desc nm dsc v) (hf : ConFits pcon v) (hs : staticmatch pcon dsc = .maybe) (hn : ¬ HeadIs nm pcon v) : Desc nm (addneg dsc pcon) v := by
  cases dsc with
  | pos c args => exact h
  | neg cs =>
    rw [Desc] at h
    rw [addneg, Desc]
    simp only [staticmatch] at hs
    split at hs
    · simp at hs
    rename_i hm
    refine ⟨List.nodup_cons.2 ⟨hm, h.1⟩, fun c hc => ?_⟩
    rcases List.mem_cons.1 hc with rfl | hc
    · exact ⟨hf, hn⟩
    · exact h.2 c hc

/-- a datatype with one constructor is never tested -/
theorem maybe_span {nm tg sp ar dsc v} (h : Desc nm dsc v) (hf : ConFits (.ccon tg sp ar) v) (hs : staticmatch (.ccon tg sp ar) dsc = .maybe) : sp ≠ 1 := by
  rintro rfl
  cases dsc with
  | pos c args =>
    simp only [staticmatch] at hs
    split at hs <;> simp at hs
  | neg cs =>
    rw [Desc] at h
    simp only [staticmatch, span] at hs
    split at hs
    · simp at hs
    have hlen : ¬ 1 = 1 + cs.length := fun h => by simp [← h] at hs
    obtain ⟨L, hL, hall, hd, hmem, hh⟩ := conFits_all hf (by simp [span])
    obtain ⟨x, rfl⟩ := List.length_eq_one_iff.1 hL
    cases cs with
    | nil => simp at hlen
    | cons c cs =>
      have h1 := hall c (h.2 c List.mem_cons_self).1
      rw [List.mem_singleton] at h1 hmem
      exact (h.2 c List.mem_cons_self).2 (by rw [h1, ← hmem]; exact hh nm)

/-! ### representations -/

/-- the runtime value stands for the value; the tag of a tuple can be that of a constructor -/
def RepAs (r : R) (v : V) : Prop := r = rep v ∨ ∃ t vs t', v = .tup t vs ∧ r = .block t' (reps vs)

theorem reps_eq_map (vs : List V) : reps vs = vs.map rep := by
  induction vs with
  | nil => rfl
  | cons v vs ih => rw [reps, ih]; rfl

theorem reps_length (vs : List V) : (reps vs).length = vs.length := by rw [reps_eq_map, List.length_map]

theorem sconEq_rep {c c'} (h : SameKind c c') : sconEq c (sconR c') = decide (c = c') := by
  cases c <;> cases c' <;> simp_all [SameKind, sconEq, sconR]

/-- the access that is tested for a constructor -/
def testAcc (obj : Acc) : Con → Acc
  | .vec _ => .vectlen obj
  | _ => obj

/-- a test answers whether the constructor is that of the value -/
theorem test_ok {γ ρ nm obj r c v} (he : evalAcc γ ρ obj = some r) (hr : RepAs r v) (hf : ConFits c v) (hsp : ∀ tg sp ar, c = .ccon tg sp ar → sp ≠ 1)
    (hn : ∀ a, c = .eexn a → evalAcc γ ρ a = some (.name (nm a))) : ∃ b, testR γ ρ (testAcc obj c) c = some b ∧ (b = true ↔ HeadIs nm c v) := by
  cases c with
  | scon k =>
    rcases hr with rfl | ⟨t, vs, t', rfl, rfl⟩
    · cases v with
      | scon k' => exact ⟨_, by show testR γ ρ obj _ = _; rw [testR, he]; rfl, by rw [rep, sconEq_rep hf]; simp [HeadIs]⟩
      | other n =>
        cases k <;> first | exact hf.elim | skip
        exact ⟨_, by show testR γ ρ obj _ = _; rw [testR, he]; rfl, by simp [rep, sconEq, HeadIs]⟩
      | _ => exact hf.elim
    · exact hf.elim
  | tup n => cases v <;> exact hf.elim
  | vec n =>
    rcases hr with rfl | ⟨t, vs, t', rfl, rfl⟩
    · cases v with
      | vec vs =>
        refine ⟨_, by rw [testAcc, testR, evalAcc, he, rep]; rfl, ?_⟩
        simp only [sconEq, reps_length, HeadIs, decide_eq_true_eq]
        constructor
        · intro h; exact_mod_cast h.symm
        · intro h; exact_mod_cast h.symm
      | _ => exact hf.elim
    · exact hf.elim
  | ccon tg sp ar =>
    have hsp := hsp _ _ _ rfl
    rcases hr with rfl | ⟨t, vs, t', rfl, rfl⟩
    · cases v with
      | con0 d t =>
        obtain ⟨⟨h1, h2, h3⟩, h4⟩ := hf
        have hlt : t < sp := by rw [h2]; exact (List.getElem?_eq_some_iff.1 h4).1
        refine ⟨decide (tg = t), by show testR γ ρ obj _ = _; rw [testR, he, rep]; simp only [hlt, if_true], ?_⟩
        simp only [decide_eq_true_eq, HeadIs]
        constructor
        · rintro rfl; exact ⟨rfl, h2, by simp [h3, arOf, h4]⟩
        · exact fun h => h.1
      | con1 d t v' =>
        obtain ⟨⟨h1, h2, h3⟩, h4, h5, h6⟩ := hf
        have hlt : t < sp := by omega
        have hrep : ∃ fs, conR d t (rep v') = .block t fs := by
          unfold conR
          split
          · obtain ⟨vs, rfl, -⟩ := h6 _ (by assumption)
            exact ⟨reps vs, rfl⟩
          · rw [if_neg (by omega)]; exact ⟨_, rfl⟩
        obtain ⟨fs, hfs⟩ := hrep
        refine ⟨decide (tg = t), by show testR γ ρ obj _ = _; rw [testR, he, rep, hfs]; simp only [hlt, if_true], ?_⟩
        simp only [decide_eq_true_eq, HeadIs]
        constructor
        · rintro rfl; exact ⟨rfl, h2, by simp [h3, arOf, h5]⟩
        · exact fun h => h.1
      | _ => exact hf.elim
    · exact hf.elim
  | eexn a =>
    have hn := hn a rfl
    rcases hr with rfl | ⟨t, vs, t', rfl, rfl⟩
    · cases v with
      | name n =>
        refine ⟨decide (n = nm a), by show testR γ ρ obj _ = _; rw [testR, he, hn, rep], ?_⟩
        simp only [decide_eq_true_eq, HeadIs]
        exact eq_comm
      | _ => exact hf.elim
    · exact hf.elim

end Mosml.Match
