import Verif.Equal.Lemmas
import Mathlib.Data.List.Forall2

namespace Mosml.Equal
open Mosml.Strings (Bytes)

theorem hashFields_congr {f g : Val → HSt → Option HSt} : ∀ {xs ys : List Val},
    List.Forall₂ (fun x y => ∀ st, f x st = g y st) xs ys → ∀ st, hashFields f xs st = hashFields g ys st := by
  intro xs ys h
  induction h with
  | nil => intro st; rfl
  | cons h _ ih =>
    intro st
    rw [hashFields, hashFields, h]
    congr 1
    funext st
    exact ih st

theorem hashAux_succ (n : Nat) (h : Heap) (v : Val) (st : HSt) :
    hashAux (n + 1) h v st =
      if st.count < 0 ∨ st.limit - 1 < 0 then some { st with limit := st.limit - 1 }
      else hashStep (hashAux n h) h v { st with limit := st.limit - 1 } := rfl

mutual
theorem hash_shape (h h' : Heap) : ∀ (t t' : Tree) (v v' : Val), Shape t t' → Reps h v t → Reps h' v' t' →
    ∀ n st, hashAux n h v st = hashAux n h' v' st
  | t, t', v, v', hs, h1, h2, 0, st => rfl
  | t, t', v, v', hs, h1, h2, n + 1, st => by
    rw [hashAux_succ, hashAux_succ]
    congr 1
    generalize ({ st with limit := st.limit - 1 } : HSt) = st
    match t, t', hs, h1, h2 with
    | _, _, .int k, h1, h2 =>
      simp only [Reps] at h1 h2
      subst h1; subst h2; rfl
    | _, _, .con k (as := .nil) .nil, h1, h2 =>
      simp only [Reps] at h1 h2
      subst h1; subst h2; rfl
    | _, _, .con k (as := .cons t0 ts) (bs := .cons u0 us) (.cons hs0 hss), h1, h2 =>
      simp only [Reps] at h1 h2
      obtain ⟨hk, a, x, xs, rfl, ha, hx, hxs⟩ := h1
      obtain ⟨-, b, y, ys, rfl, hb, hy, hys⟩ := h2
      unfold hashStep
      simp only [ha, hb]
      rw [if_neg (by omega), if_neg (by omega)]
      apply hashFields_congr
      rw [List.forall₂_reverse_iff]
      exact .cons (fun st => hash_shape h h' t0 u0 x y hs0 hx hy n st)
        ((hash_shapes h h' ts us xs ys hss hxs hys).imp fun _ _ hh st => hh n st)
    | _, _, .str s, h1, h2 =>
      simp only [Reps] at h1 h2
      obtain ⟨a, rfl, ha⟩ := h1
      obtain ⟨b, rfl, hb⟩ := h2
      unfold hashStep
      simp only [ha, hb]
    | _, _, .real d, h1, h2 =>
      simp only [Reps] at h1 h2
      obtain ⟨a, rfl, ha⟩ := h1
      obtain ⟨b, rfl, hb⟩ := h2
      unfold hashStep
      simp only [ha, hb]
    | _, _, .ident a b, h1, h2 =>
      simp only [Reps] at h1 h2
      obtain ⟨rfl, fs, ha⟩ := h1
      obtain ⟨rfl, gs, hb⟩ := h2
      unfold hashStep
      simp only [ha, hb, if_true]
theorem hash_shapes (h h' : Heap) : ∀ (ts ts' : Trees) (vs vs' : List Val), Shapes ts ts' → RepsL h vs ts →
    RepsL h' vs' ts' → List.Forall₂ (fun x y => ∀ n st, hashAux n h x st = hashAux n h' y st) vs vs'
  | .nil, _, vs, vs', hs, h1, h2 => by
    cases hs
    simp only [RepsL] at h1 h2
    subst h1; subst h2; exact .nil
  | .cons t ts, ts', vs, vs', hs, h1, h2 => by
    match ts', hs with
    | .cons u us, .cons h0 hs =>
      simp only [RepsL] at h1 h2
      obtain ⟨x, xs, rfl, hx, hxs⟩ := h1
      obtain ⟨y, ys, rfl, hy, hys⟩ := h2
      exact .cons (fun n st => hash_shape h h' t u x y h0 hx hy n st) (hash_shapes h h' ts us xs ys hs hxs hys)
end

mutual
theorem shape_of_treeEq : ∀ {t u : Tree}, TreeEq t u → t.All (fun _ => False) (fun _ => True) → Shape t u
  | _, _, .int n, _ => .int n
  | _, _, .con k h, hn => .con k (shapes_of_treesEq h (by simpa only [Tree.All] using hn))
  | _, _, .str s, _ => .str s
  | _, _, .real _, hn => by simp only [Tree.All] at hn
  | _, _, .ident a, _ => .ident a a
theorem shapes_of_treesEq : ∀ {t u : Trees}, TreesEq t u → t.All (fun _ => False) (fun _ => True) → Shapes t u
  | _, _, .nil, _ => .nil
  | _, _, .cons h1 h2, hn => by
    simp only [Trees.All] at hn
    exact .cons (shape_of_treeEq h1 hn.1) (shapes_of_treesEq h2 hn.2)
end

theorem combineBytes_keep (bs : Bytes) : ∀ st, (combineBytes st bs).limit = st.limit ∧ (combineBytes st bs).count = st.count := by
  induction bs with
  | nil => intro st; exact ⟨rfl, rfl⟩
  | cons b bs ih => intro st; exact ih (combineSmall st b)

theorem combineTail_keep (s : Bytes) (n : Nat) : ∀ i st, (combineTail s n i st).limit = st.limit ∧
    (combineTail s n i st).count = st.count := by
  induction n with
  | zero => intro i st; exact ⟨rfl, rfl⟩
  | succ n ih =>
    intro i st
    rw [combineTail]
    by_cases h : i + 127 < s.length
    · rw [if_pos h]; exact ih _ _
    · rw [if_neg h]; exact ⟨rfl, rfl⟩

/-- what holds of a hashing function `f` for all states with limit at most `m` -/
def Good (h : Heap) (g : Heap → Val → HSt → Option HSt) (m : Int) : Prop :=
  ∀ v st, st.limit ≤ m → ∃ st', g h v st = some st' ∧ st'.limit < st.limit ∧
    ∃ L : List Nat, (L.length : Int) ≤ max st.limit 0 - max st'.limit 0 ∧
      ∀ h' : Heap, (∀ a ∈ L, h' a = h a) → g h' v st = some st'

theorem hashFields_good (h : Heap) (g : Heap → Val → HSt → Option HSt) (m : Int) (hg : Good h g m) (vs : List Val) :
    ∀ st, st.limit ≤ m → ∃ st', hashFields (g h) vs st = some st' ∧ st'.limit ≤ st.limit ∧
    ∃ L : List Nat, (L.length : Int) ≤ max st.limit 0 - max st'.limit 0 ∧
      ∀ h' : Heap, (∀ a ∈ L, h' a = h a) → hashFields (g h') vs st = some st' := by
  induction vs with
  | nil => intro st _; exact ⟨st, rfl, by omega, [], by simp, fun _ _ => rfl⟩
  | cons v vs ih =>
    intro st hst
    obtain ⟨st1, e1, hl1, L1, hL1, hh1⟩ := hg v st hst
    obtain ⟨st2, e2, hl2, L2, hL2, hh2⟩ := ih st1 (by omega)
    refine ⟨st2, by rw [hashFields, e1, Option.bind_some, e2], by omega, L1 ++ L2, by simp; omega, ?_⟩
    intro h' ha
    rw [hashFields, hh1 h' (fun a hm => ha a (by simp [hm])), Option.bind_some,
      hh2 h' (fun a hm => ha a (by simp [hm]))]

theorem hash_good (h : Heap) (n : Nat) : Good h (fun h => hashAux (n + 1) h) n := by
  induction n with
  | zero =>
    intro v st hst
    refine ⟨{ st with limit := st.limit - 1 }, ?_, by simp only; omega, [], by simp only [List.length_nil]; omega, ?_⟩
    · dsimp only; rw [hashAux_succ, if_pos (by omega)]
    · intro h' _; dsimp only; rw [hashAux_succ, if_pos (by omega)]
  | succ n ih =>
    intro v st hst
    by_cases hc : st.count < 0 ∨ st.limit - 1 < 0
    · refine ⟨{ st with limit := st.limit - 1 }, ?_, by simp only; omega, [], by simp only [List.length_nil]; omega, ?_⟩
      · dsimp only; rw [hashAux_succ, if_pos hc]
      · intro h' _; dsimp only; rw [hashAux_succ, if_pos hc]
    · simp only [hashAux_succ (n + 1), if_neg hc]
      match v with
      | .long k =>
        exact ⟨_, rfl, by simp only [combine]; omega, [], by simp only [List.length_nil, combine]; omega, fun _ _ => rfl⟩
      | .atom k =>
        exact ⟨_, rfl, by simp only [combineSmall]; omega, [], by simp only [List.length_nil, combineSmall]; omega, fun _ _ => rfl⟩
      | .ptr a =>
        cases ha : h a with
        | none =>
          refine ⟨_, by unfold hashStep; simp only [ha]; rfl, by simp only [combine]; omega, [a],
            by simp only [List.length_singleton, combine]; omega, fun h' hh => ?_⟩
          have := hh a (by simp)
          rw [ha] at this
          unfold hashStep; simp only [this]
        | some o =>
          match o with
          | .str s =>
            refine ⟨_, by unfold hashStep; simp only [ha]; rfl, ?_, [a], ?_, fun h' hh => ?_⟩
            · rw [(combineTail_keep _ _ _ _).1, (combineBytes_keep _ _).1]; simp only; omega
            · rw [(combineTail_keep _ _ _ _).1, (combineBytes_keep _ _).1]
              simp only [List.length_singleton]; omega
            · have := hh a (by simp)
              rw [ha] at this
              unfold hashStep; simp only [this]
          | .dbl b =>
            refine ⟨_, by unfold hashStep; simp only [ha]; rfl, ?_, [a], ?_, fun h' hh => ?_⟩
            · rw [(combineBytes_keep _ _).1]; simp only; omega
            · rw [(combineBytes_keep _ _).1]
              simp only [List.length_singleton]; omega
            · have := hh a (by simp)
              rw [ha] at this
              unfold hashStep; simp only [this]
          | .raw k =>
            refine ⟨_, by unfold hashStep; simp only [ha]; rfl, by simp only; omega, [a],
              by simp only [List.length_singleton]; omega, fun h' hh => ?_⟩
            have := hh a (by simp)
            rw [ha] at this
            unfold hashStep; simp only [this]
          | .block t vs =>
            by_cases ht : t = 250
            · refine ⟨_, by unfold hashStep; simp only [ha, if_pos ht]; rfl, by simp only [combineSmall]; omega, [a],
                by simp only [List.length_singleton, combineSmall]; omega, fun h' hh => ?_⟩
              have := hh a (by simp)
              rw [ha] at this
              unfold hashStep; simp only [this, if_pos ht]
            · obtain ⟨st', e, hl, L, hL, hh⟩ := hashFields_good h _ n ih vs.reverse
                (combineSmall { st with limit := st.limit - 1, count := st.count - 1 } t)
                (by simp only [combineSmall]; omega)
              refine ⟨st', by unfold hashStep; simp only [ha, if_neg ht]; exact e, by simp only [combineSmall] at hl; omega,
                a :: L, by simp only [combineSmall] at hL hl; simp only [List.length_cons]; push_cast; omega, fun h' hh' => ?_⟩
              have := hh' a (by simp)
              rw [ha] at this
              unfold hashStep; simp only [this, if_neg ht]
              exact hh h' (fun b hb => hh' b (by simp [hb]))

/-- more fuel gives the same answer -/
theorem hashFields_mono {f g : Val → HSt → Option HSt} (hfg : ∀ v st r, f v st = some r → g v st = some r)
    (vs : List Val) : ∀ st r, hashFields f vs st = some r → hashFields g vs st = some r := by
  induction vs with
  | nil => intro st r h; exact h
  | cons v vs ih =>
    intro st r h
    rw [hashFields, Option.bind_eq_some_iff] at h
    obtain ⟨s1, h1, h2⟩ := h
    rw [hashFields, hfg v st s1 h1, Option.bind_some]
    exact ih s1 r h2

theorem hash_mono (h : Heap) (n : Nat) : ∀ v st r, hashAux n h v st = some r → hashAux (n + 1) h v st = some r := by
  induction n with
  | zero => intro v st r hr; simp [hashAux] at hr
  | succ n ih =>
    intro v st r hr
    rw [hashAux_succ] at hr ⊢
    by_cases hc : st.count < 0 ∨ st.limit - 1 < 0
    · rw [if_pos hc] at hr ⊢; exact hr
    · rw [if_neg hc] at hr ⊢
      unfold hashStep at *
      dsimp only at *
      split at hr
      · exact hr
      · exact hr
      · split at hr
        · exact hr
        · exact hr
        · exact hr
        · exact hr
        · rename_i t vs _
          by_cases ht : t = 250
          · rw [if_pos ht] at hr ⊢; exact hr
          · rw [if_neg ht] at hr ⊢
            exact hashFields_mono (fun v st r => ih v st r) _ _ _ hr

end Mosml.Equal
