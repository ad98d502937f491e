import Verif.Zam.NoFatal

/-!
# A checker for `Ok`, for the examples
-/

namespace Mosml.Zam

def oneField : Lam → Bool
  | .prim (.makeblock _ 1) [_] => true
  | _ => false

def arity : Prim → Option Nat
  | .field _ | .raise | .not | .identity => some 1
  | .test _ | .arith _ => some 2
  | _ => none

def primB (p : Prim) (n : Nat) : Bool :=
  match p with
  | .makeblock _ _ => decide (n ≠ 0)
  | p => decide (arity p = some n)

mutual
def okB (d : Nat) (sf : Bool) : Lam → Bool
  | .var n => decide (0 ≤ n ∧ n < d)
  | .const _ => true
  | .fn b => okB (d + 1) false b
  | .apply f args => !args.isEmpty && (okB d sf f && okL d sf args)
  | .lett args body => okA d sf args && (!args.any oneField && okB (d + args.length) sf body)
  | .letrec fs body =>
    !fs.isEmpty && (fs.all isFn && (okL (d + fs.length) false fs && okB (d + fs.length) sf body))
  | .prim p args => primB p args.length && okL d sf args
  | .staticfail => sf
  | .statichandle a b => okB d true a && okB d sf b
  | .handle a b => okB d false a && okB (d + 1) sf b
  | .cond c a b => okB d sf c && (okB d sf a && okB d sf b)
  | .seq a b => okB d sf a && okB d sf b
  | .andalso a b => okB d sf a && okB d sf b
  | .orelse a b => okB d sf a && okB d sf b
def okL (d : Nat) (sf : Bool) : List Lam → Bool
  | [] => true
  | e :: es => okB d sf e && okL d sf es
def okA (d : Nat) (sf : Bool) : List Lam → Bool
  | [] => true
  | e :: es => okB d sf e && okA (d + 1) sf es
end

theorem okL_mem {d sf} : ∀ {es : List Lam}, okL d sf es = true → ∀ e ∈ es, okB d sf e = true := by
  intro es
  induction es with
  | nil => intro _ e h; simp at h
  | cons a es ih =>
    intro h e he
    simp only [okL, Bool.and_eq_true] at h
    simp only [List.mem_cons] at he
    rcases he with rfl | he
    · exact h.1
    · exact ih h.2 e he

theorem okA_get {sf} : ∀ {es : List Lam} {d}, okA d sf es = true → ∀ (i : Nat) e, es[i]? = some e →
    okB (d + i) sf e = true := by
  intro es
  induction es with
  | nil => intro d _ i e h; simp at h
  | cons a es ih =>
    intro d h i e he
    simp only [okA, Bool.and_eq_true] at h
    cases i with
    | zero => cases he; exact h.1
    | succ i =>
      have := ih h.2 i e he
      rwa [show d + 1 + i = d + (i + 1) by omega] at this

theorem okB_size : ∀ (N : Nat) (e : Lam), sizeOf e < N → ∀ d sf, okB d sf e = true → Ok d sf e := by
  intro N
  induction N with
  | zero => intro e h; omega
  | succ N ih =>
    intro e he d sf h
    cases e with
    | var n =>
      simp only [okB, decide_eq_true_eq] at h
      obtain ⟨n, rfl⟩ := Int.eq_ofNat_of_zero_le h.1
      exact .var (by omega)
    | const c => exact .const
    | fn b =>
      simp only [Lam.fn.sizeOf_spec] at he
      exact .fn (ih b (by omega) _ _ h)
    | apply f args =>
      simp only [Lam.apply.sizeOf_spec] at he
      simp only [okB, Bool.and_eq_true, Bool.not_eq_true', List.isEmpty_eq_false_iff] at h
      exact .apply h.1 (ih f (by omega) _ _ h.2.1) (fun e hm =>
        ih e (by have := List.sizeOf_lt_of_mem hm; omega) _ _ (okL_mem h.2.2 e hm))
    | lett args body =>
      simp only [Lam.lett.sizeOf_spec] at he
      simp only [okB, Bool.and_eq_true, Bool.not_eq_true'] at h
      refine .lett (fun i e hi => ih e (by have := size_get hi; omega) _ _ (okA_get h.1 i e hi)) ?_
        (ih body (by omega) _ _ h.2.2)
      intro e he t a heq
      subst heq
      have := h.2.1
      rw [List.any_eq_false] at this
      exact absurd rfl (this _ he)
    | letrec fs body =>
      simp only [Lam.letrec.sizeOf_spec] at he
      simp only [okB, Bool.and_eq_true, Bool.not_eq_true', List.isEmpty_eq_false_iff, List.all_eq_true] at h
      exact .letrec h.1 h.2.1 (fun e hm =>
        ih e (by have := List.sizeOf_lt_of_mem hm; omega) _ _ (okL_mem h.2.2.1 e hm))
        (ih body (by omega) _ _ h.2.2.2)
    | prim p args =>
      simp only [Lam.prim.sizeOf_spec] at he
      simp only [okB, Bool.and_eq_true] at h
      obtain ⟨h1, h2⟩ := h
      have hm : ∀ e ∈ args, Ok d sf e := fun e hm =>
        ih e (by have := List.sizeOf_lt_of_mem hm; omega) _ _ (okL_mem h2 e hm)
      cases p with
      | makeblock t s =>
        simp only [primB, decide_eq_true_eq] at h1
        exact .makeblock (by intro hh; subst hh; exact h1 rfl) hm
      | field i =>
        simp only [primB, arity, decide_eq_true_eq, Option.some.injEq] at h1
        match args, h1, hm with
        | [a], _, hm => exact .field (hm a (by simp))
      | raise =>
        simp only [primB, arity, decide_eq_true_eq, Option.some.injEq] at h1
        match args, h1, hm with
        | [a], _, hm => exact .raise (hm a (by simp))
      | not =>
        simp only [primB, arity, decide_eq_true_eq, Option.some.injEq] at h1
        match args, h1, hm with
        | [a], _, hm => exact .not (hm a (by simp))
      | identity =>
        simp only [primB, arity, decide_eq_true_eq, Option.some.injEq] at h1
        match args, h1, hm with
        | [a], _, hm => exact .identity (hm a (by simp))
      | test t =>
        simp only [primB, arity, decide_eq_true_eq, Option.some.injEq] at h1
        match args, h1, hm with
        | [a, b], _, hm => exact .test (hm a (by simp)) (hm b (by simp))
      | arith t =>
        simp only [primB, arity, decide_eq_true_eq, Option.some.injEq] at h1
        match args, h1, hm with
        | [a, b], _, hm => exact .arith (hm a (by simp)) (hm b (by simp))
      | _ => simp [primB, arity] at h1
    | staticfail =>
      simp only [okB] at h
      subst h
      exact .staticfail
    | statichandle a b =>
      simp only [Lam.statichandle.sizeOf_spec] at he
      simp only [okB, Bool.and_eq_true] at h
      exact .statichandle (ih a (by omega) _ _ h.1) (ih b (by omega) _ _ h.2)
    | handle a b =>
      simp only [Lam.handle.sizeOf_spec] at he
      simp only [okB, Bool.and_eq_true] at h
      exact .handle (ih a (by omega) _ _ h.1) (ih b (by omega) _ _ h.2)
    | cond c a b =>
      simp only [Lam.cond.sizeOf_spec] at he
      simp only [okB, Bool.and_eq_true] at h
      exact .cond (ih c (by omega) _ _ h.1) (ih a (by omega) _ _ h.2.1) (ih b (by omega) _ _ h.2.2)
    | seq a b =>
      simp only [Lam.seq.sizeOf_spec] at he
      simp only [okB, Bool.and_eq_true] at h
      exact .seq (ih a (by omega) _ _ h.1) (ih b (by omega) _ _ h.2)
    | andalso a b =>
      simp only [Lam.andalso.sizeOf_spec] at he
      simp only [okB, Bool.and_eq_true] at h
      exact .andalso (ih a (by omega) _ _ h.1) (ih b (by omega) _ _ h.2)
    | orelse a b =>
      simp only [Lam.orelse.sizeOf_spec] at he
      simp only [okB, Bool.and_eq_true] at h
      exact .orelse (ih a (by omega) _ _ h.1) (ih b (by omega) _ _ h.2)

theorem okB_sound {e d sf} (h : okB d sf e = true) : Ok d sf e :=
  okB_size _ e (Nat.lt_succ_self _) d sf h

end Mosml.Zam
