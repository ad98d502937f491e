import Verif.Matrix.Traverse

namespace Mosml.Matrix

open Mosml.Arrays

variable {V X : Type}

theorem results_cons {W ι β : Type} (g : ι → Prog W β) (k : ι) (ks : List ι) (w : W) :
    results g (k :: ks) w = match g k w with
      | .ok y w' => (match results g ks w' with
        | .ok ys w'' => .ok (y :: ys) w''
        | .raise e w'' => .raise e w''
        | .bad => .bad)
      | .raise e w' => .raise e w'
      | .bad => .bad := by
  simp only [results, bind_apply]
  cases g k w with
  | bad => rfl
  | raise e w' => rfl
  | ok y w' =>
    simp only
    cases results g ks w' <;> rfl

theorem collect_results {W β : Type} (g : Int → Prog W β) (js : List Int) (w : W) :
    collect g js w = results g js w := by
  induction js generalizing w with
  | nil => rfl
  | cons j js ih =>
    rw [results_cons]
    simp only [collect, bind_apply, ih]
    cases g j w with
    | bad => rfl
    | raise e w' => rfl
    | ok y w' =>
      simp only
      cases results g js w' <;> rfl

theorem results_inner {W β : Type} (g : Int → Prog W β) (h : List (List Nat)) (js : List Int)
    (w : W) : results (fun j => inner (g j)) js ⟨h, w⟩ = liftOut h (results g js w) := by
  induction js generalizing w with
  | nil => rfl
  | cons j js ih =>
    rw [results_cons, results_cons, inner_apply]
    cases g j w with
    | bad => rfl
    | raise e w' => rfl
    | ok y w' =>
      simp only [liftOut, ih]
      cases results g js w' <;> rfl

theorem vecTab (m : Int) (g : Int → Prog (World V X) Nat) (w : World V X) :
    vecOp (Arrays.tabulate m (fun i => inner (g i))) w =
      if 0 ≤ m ∧ m ≤ maxLen then results g (idx 0 m.toNat) w else .raise .size w := by
  refine vecOp_lift _ _ _ ?_
  rw [(C75_tabulate _ m _).1]
  split
  · rw [collect_results, results_inner]
  · rfl

/-- The outcome when the arrays are `h`. -/
def withHeap {α : Type} (h : List (List V)) : Out X α → Out (World V X) α
  | .ok a x => .ok a ⟨h, x⟩
  | .raise e x => .raise e ⟨h, x⟩
  | .bad => .bad

theorem effect_apply {α : Type} (p : Prog X α) (h : List (List V)) (x : X) :
    effect p ⟨h, x⟩ = withHeap h (p x) := by
  simp only [effect]
  cases p x <;> rfl

theorem results_effect {ι β : Type} (g : ι → Prog X β) (h : List (List V)) (js : List ι) (x : X) :
    results (fun j => effect (g j)) js ⟨h, x⟩ = withHeap h (results g js x) := by
  induction js generalizing x with
  | nil => rfl
  | cons j js ih =>
    rw [results_cons, results_cons, effect_apply]
    cases g j x with
    | bad => rfl
    | raise e w' => rfl
    | ok y w' =>
      simp only [withHeap, ih]
      cases results g js w' <;> rfl

theorem results_append {W ι β : Type} (g : ι → Prog W β) (ks ks' : List ι) (w : W) :
    results g (ks ++ ks') w = match results g ks w with
      | .ok ys w' => (match results g ks' w' with
        | .ok ys' w'' => .ok (ys ++ ys') w''
        | .raise e w'' => .raise e w''
        | .bad => .bad)
      | .raise e w' => .raise e w'
      | .bad => .bad := by
  induction ks generalizing w with
  | nil =>
    simp only [List.nil_append, results, pure_apply]
    cases results g ks' w <;> rfl
  | cons k ks ih =>
    rw [List.cons_append, results_cons, results_cons]
    cases g k w with
    | bad => rfl
    | raise e w' => rfl
    | ok y w' =>
      simp only [ih]
      cases results g ks w' with
      | bad => rfl
      | raise e w' => rfl
      | ok ys w'' =>
        simp only
        cases results g ks' w'' <;> rfl

theorem results_map {W ι κ β : Type} (g : κ → Prog W β) (q : ι → κ) (ks : List ι) (w : W) :
    results g (ks.map q) w = results (fun k => g (q k)) ks w := by
  induction ks generalizing w with
  | nil => rfl
  | cons k ks ih =>
    rw [List.map_cons, results_cons, results_cons]
    simp only [ih]

theorem results_flatMap {W ι κ β : Type} (g : κ → Prog W β) (q : ι → List κ) (ks : List ι) (w : W) :
    results g (ks.flatMap q) w = match results (fun k => results g (q k)) ks w with
      | .ok yss w' => .ok yss.flatten w'
      | .raise e w' => .raise e w'
      | .bad => .bad := by
  induction ks generalizing w with
  | nil => rfl
  | cons k ks ih =>
    rw [List.flatMap_cons, results_append, results_cons]
    cases results g (q k) w with
    | bad => rfl
    | raise e w' => rfl
    | ok ys w' =>
      simp only [ih]
      cases results (fun k => results g (q k)) ks w' <;> rfl

theorem results_length {W ι β : Type} (g : ι → Prog W β) (ks : List ι) (w w' : W) (ys : List β)
    (h : results g ks w = .ok ys w') : ys.length = ks.length := by
  induction ks generalizing w ys with
  | nil => cases h; rfl
  | cons k ks ih =>
    rw [results_cons] at h
    cases e : g k w with
    | bad => rw [e] at h; cases h
    | raise x w1 => rw [e] at h; cases h
    | ok y w1 =>
      rw [e] at h
      simp only at h
      cases e' : results g ks w1 with
      | bad => rw [e'] at h; cases h
      | raise x w2 => rw [e'] at h; cases h
      | ok zs w2 =>
        rw [e'] at h
        cases h
        simp [ih _ _ e']

theorem results_each {W ι β : Type} (g : ι → Prog W β) (P : β → Prop) (ks : List ι) (w w' : W)
    (ys : List β) (hg : ∀ k ∈ ks, ∀ w y w', g k w = .ok y w' → P y)
    (h : results g ks w = .ok ys w') : ∀ y ∈ ys, P y := by
  induction ks generalizing w ys with
  | nil => cases h; simp
  | cons k ks ih =>
    rw [results_cons] at h
    cases e : g k w with
    | bad => rw [e] at h; cases h
    | raise x w1 => rw [e] at h; cases h
    | ok y w1 =>
      rw [e] at h
      simp only at h
      cases e' : results g ks w1 with
      | bad => rw [e'] at h; cases h
      | raise x w2 => rw [e'] at h; cases h
      | ok zs w2 =>
        rw [e'] at h
        cases h
        intro z hz
        rcases List.mem_cons.1 hz with rfl | hz
        · exact hg k (by simp) _ _ _ e
        · exact ih _ _ (fun k' hk' => hg k' (by simp [hk'])) e' z hz

/-! ## New rows -/

/-- The locations of `k` new arrays. -/
def locs (h : List (List V)) (k : Nat) : List Nat := List.range' h.length k

theorem made_new (h xss : List (List V)) (x : X) (n : Int) (h0 : 0 ≤ n) (hn : n ≤ maxLen)
    (hm : (xss.length : Int) ≤ maxLen) (hx : ∀ xs ∈ xss, (xs.length : Int) = n) :
    Made (⟨h ++ xss, x⟩ : World V X) ⟨locs h xss.length, xss.length, n⟩ ∧
    mat (⟨h ++ xss, x⟩ : World V X) ⟨locs h xss.length, xss.length, n⟩ = xss ∧
    ∀ x', New ⟨h, x'⟩ (⟨h ++ xss, x⟩ : World V X) ⟨locs h xss.length, xss.length, n⟩ := by
  have hget : ∀ r ∈ locs h xss.length, ∃ hr : r - h.length < xss.length,
      (h ++ xss).getD r [] = xss[r - h.length] ∧ h.length ≤ r := by
    intro r hr
    simp only [locs, List.mem_range'_1] at hr
    refine ⟨by omega, ?_, hr.1⟩
    rw [List.getD_eq_getElem?_getD, List.getElem?_append_right hr.1,
      List.getElem?_eq_getElem (by omega)]
    rfl
  refine ⟨⟨?_, ?_, ?_, ?_, h0, hm, hn⟩, ?_, ?_⟩
  · simp [locs]
  · intro r hr
    obtain ⟨h1, h2, _⟩ := hget r hr
    rw [h2]
    exact hx _ (List.getElem_mem _)
  · intro r hr
    simp only [locs, List.mem_range'_1] at hr
    simp only [List.length_append]
    omega
  · exact List.nodup_range'
  · simp only [mat, locs]
    refine List.ext_getElem (by simp) ?_
    intro i h1 h2
    simp only [List.getElem_map, List.getElem_range', one_mul, List.getD_eq_getElem?_getD]
    rw [List.getElem?_append_right (by omega)]
    have e : h.length + i - h.length = i := by omega
    rw [e, List.getElem?_eq_getElem h2]
    rfl
  · intro x'
    refine ⟨List.prefix_append _ _, ?_⟩
    intro r hr
    simp only [locs, List.mem_range'_1] at hr
    exact hr.1

theorem alloc_apply (h : List (List V)) (x : X) (xs : List V) :
    alloc xs (⟨h, x⟩ : World V X) = .ok h.length ⟨h ++ [xs], x⟩ := rfl

/-- `m` equal rows. -/
theorem results_array (n : Int) (v : V) (hn : 0 ≤ n ∧ n ≤ maxLen) (js : List Int)
    (h : List (List V)) (x : X) :
    results (fun _ : Int => (Arrays.array n v : Prog (World V X) Nat)) js ⟨h, x⟩ =
      .ok (locs h js.length) ⟨h ++ List.replicate js.length (List.replicate n.toNat v), x⟩ := by
  induction js generalizing h with
  | nil => simp [results, pure_apply, locs]
  | cons j js ih =>
    rw [results_cons]
    have e : Arrays.array n v (⟨h, x⟩ : World V X) =
        .ok h.length ⟨h ++ [List.replicate n.toNat v], x⟩ := by
      simp only [Arrays.array]
      rw [if_neg (by omega)]
      rfl
    rw [e]
    simp only [ih]
    congr 1
    · simp [locs, List.range'_succ]
    · simp [List.replicate_succ]

theorem array_eq (m n : Int) (v : V) (hm : 0 ≤ m ∧ m ≤ maxLen) (hn : 0 ≤ n ∧ n ≤ maxLen)
    (w : World V X) :
    array m n v w = .ok ⟨locs w.heap m.toNat, m, n⟩
      ⟨w.heap ++ List.replicate m.toNat (List.replicate n.toNat v), w.ext⟩ := by
  simp only [array, bind_apply]
  rw [vecTab, if_pos hm, results_array n v hn]
  simp [pure_apply, idx]

/-! ## fromList -/

theorem fromListArray_eq (xs : List V) (h : (xs.length : Int) ≤ maxLen) (w : World V X) :
    fromListArray xs w = .ok w.heap.length ⟨w.heap ++ [xs], w.ext⟩ := by
  simp only [fromListArray, Arrays.fromList, bind_apply]
  rw [if_neg (by omega), bind_apply]
  have := lrInit_eq w xs [] 0 (by simp) (by omega)
  simp only [List.map_nil, List.nil_append] at this
  simp only [blank, Int.toNat_natCast, this, handOut_some, alloc]

theorem fromListArray_raise (xs : List V) (h : ¬ (xs.length : Int) ≤ maxLen) (w : World V X) :
    fromListArray xs w = .raise .size w := by
  simp only [fromListArray, Arrays.fromList, bind_apply]
  rw [if_pos (by omega)]
  rfl

theorem mkRows_eq (xss : List (List V)) (hx : ∀ xs ∈ xss, (xs.length : Int) ≤ maxLen)
    (h : List (List V)) (x : X) :
    mkRows xss ⟨h, x⟩ = .ok (locs h xss.length) (⟨h ++ xss, x⟩ : World V X) := by
  induction xss generalizing h with
  | nil => simp [mkRows, pure_apply, locs]
  | cons xs xss ih =>
    simp only [mkRows, bind_apply]
    rw [fromListArray_eq xs (hx xs (by simp))]
    simp only
    rw [ih (fun ys hy => hx ys (by simp [hy]))]
    simp only [pure_apply]
    congr 1
    · simp [locs, List.range'_succ]
    · simp

theorem mkRows_cases (xss : List (List V)) (h : List (List V)) (x : X) :
    mkRows xss ⟨h, x⟩ = .ok (locs h xss.length) (⟨h ++ xss, x⟩ : World V X) ∨
    ∃ h', mkRows xss ⟨h, x⟩ = .raise .size (⟨h', x⟩ : World V X) ∧ h <+: h' := by
  induction xss generalizing h with
  | nil => left; simp [mkRows, pure_apply, locs]
  | cons xs xss ih =>
    by_cases hl : (xs.length : Int) ≤ maxLen
    · rcases ih (h ++ [xs]) with e | ⟨h', e, hp⟩
      · left
        simp only [mkRows, bind_apply]
        rw [fromListArray_eq xs hl]
        simp only
        rw [e]
        simp only [pure_apply]
        congr 1
        · simp [locs, List.range'_succ]
        · simp
      · right
        refine ⟨h', ?_, (List.prefix_append _ _).trans hp⟩
        simp only [mkRows, bind_apply]
        rw [fromListArray_eq xs hl]
        simp only
        rw [e]
    · right
      refine ⟨h, ?_, List.prefix_rfl⟩
      simp only [mkRows, bind_apply]
      rw [fromListArray_raise xs hl]

theorem sameLen_eq (cols : Int) (rs : List Nat) (w : World V X) :
    sameLen cols rs w =
      .ok (decide (∀ r ∈ rs, ((w.heap.getD r []).length : Int) = cols)) w := by
  induction rs with
  | nil => simp [sameLen, pure_apply]
  | cons r rs ih =>
    simp only [sameLen, bind_apply, len, cells]
    by_cases h : ((w.heap.getD r []).length : Int) = cols
    · rw [if_pos h, ih]
      simp only [List.mem_cons, forall_eq_or_imp, h, true_and]
    · rw [if_neg h]
      simp only [List.mem_cons, forall_eq_or_imp, h, false_and, pure_apply, decide_false]

theorem vecFromList (rs : List Nat) (h : (rs.length : Int) ≤ maxLen) (w : World V X) :
    vecOp (Arrays.fromList rs) w = .ok rs w := by
  refine vecOp_lift _ _ _ ?_
  simp only [Arrays.fromList]
  rw [if_neg (by omega), bind_apply]
  have := lrInit_eq (⟨[], w⟩ : World Nat (World V X)) rs [] 0 (by simp) (by omega)
  simp only [List.map_nil, List.nil_append] at this
  simp only [blank, Int.toNat_natCast, this, handOut_some]
  rfl

theorem fromList_eq (xss : List (List V)) (hne : xss ≠ []) (n : Nat)
    (hx : ∀ xs ∈ xss, xs.length = n) (hn : (n : Int) ≤ maxLen) (hm : (xss.length : Int) ≤ maxLen)
    (w : World V X) :
    fromList xss w = .ok ⟨locs w.heap xss.length, xss.length, n⟩ ⟨w.heap ++ xss, w.ext⟩ := by
  obtain ⟨h, x⟩ := w
  cases xss with
  | nil => exact absurd rfl hne
  | cons xs xsr =>
    have h1 := hx xs (by simp)
    simp only [fromList, bind_apply]
    rw [fromListArray_eq xs (by omega)]
    simp only
    rw [mkRows_eq xsr (fun ys hy => by rw [hx ys (by simp [hy])]; exact hn)]
    simp only [len, cells, sameLen_eq]
    have e0 : (h ++ [xs] ++ xsr).getD h.length [] = xs := by
      rw [List.getD_eq_getElem?_getD, List.append_assoc, List.getElem?_append_right le_rfl]
      simp
    rw [e0]
    have e1 : decide (∀ r ∈ locs (h ++ [xs]) xsr.length,
        (((h ++ [xs] ++ xsr).getD r []).length : Int) = xs.length) = true := by
      rw [decide_eq_true_eq]
      intro r hr
      simp only [locs, List.mem_range'_1, List.length_append, List.length_cons,
        List.length_nil] at hr
      rw [List.getD_eq_getElem?_getD, List.getElem?_append_right (by simp; omega),
        List.getElem?_eq_getElem (by simp; omega)]
      simp only [Option.getD_some]
      rw [hx _ (List.mem_cons_of_mem _ (List.getElem_mem _)), h1]
    rw [e1]
    simp only [if_true, bind_apply]
    have e2 : h.length :: locs (h ++ [xs]) xsr.length = locs h (xs :: xsr).length := by
      simp [locs, List.range'_succ]
    rw [e2, vecFromList _ (by simpa [locs] using hm)]
    simp only
    have e3 : ∀ w : World V X, vecOp (len (.vec (locs h (xs :: xsr).length))) w =
        .ok (((xs :: xsr).length : Nat) : Int) w := by
      intro w
      refine vecOp_lift _ _ _ ?_
      simp [len, cells, locs, liftOut]
    rw [e3]
    simp [pure_apply, h1]

theorem fromList_size (xss : List (List V)) (xs ys : List V) (h1 : xs ∈ xss) (h2 : ys ∈ xss)
    (hd : xs.length ≠ ys.length) (w : World V X) :
    ∃ w', fromList xss w = .raise .size w' ∧ w.heap <+: w'.heap ∧ w'.ext = w.ext := by
  obtain ⟨h, x⟩ := w
  cases xss with
  | nil => cases h1
  | cons zs xsr =>
    by_cases hl : (zs.length : Int) ≤ maxLen
    · rcases mkRows_cases xsr (h ++ [zs]) x with e | ⟨h', e, hp⟩
      · refine ⟨⟨h ++ [zs] ++ xsr, x⟩, ?_, ?_, rfl⟩
        · simp only [fromList, bind_apply]
          rw [fromListArray_eq zs hl]
          simp only
          rw [e]
          simp only [len, cells, sameLen_eq]
          have e0 : (h ++ [zs] ++ xsr).getD h.length [] = zs := by
            rw [List.getD_eq_getElem?_getD, List.append_assoc, List.getElem?_append_right le_rfl]
            simp
          rw [e0]
          have e1 : decide (∀ r ∈ locs (h ++ [zs]) xsr.length,
              (((h ++ [zs] ++ xsr).getD r []).length : Int) = zs.length) = false := by
            rw [decide_eq_false_iff_not]
            intro hall
            have key : ∀ us ∈ zs :: xsr, us.length = zs.length := by
              intro us hu
              rcases List.mem_cons.1 hu with rfl | hu
              · rfl
              · obtain ⟨i, hi, rfl⟩ := List.getElem_of_mem hu
                have := hall (h.length + 1 + i) (by
                  simp only [locs, List.mem_range'_1, List.length_append, List.length_cons,
                    List.length_nil]
                  omega)
                rw [List.getD_eq_getElem?_getD, List.getElem?_append_right (by simp)] at this
                have e4 : h.length + 1 + i - (h ++ [zs]).length = i := by simp
                rw [e4, List.getElem?_eq_getElem hi] at this
                simpa using this
            exact hd ((key xs h1).trans (key ys h2).symm)
          rw [e1]
          rfl
        · exact (List.prefix_append _ _).trans (List.prefix_append _ _)
      · refine ⟨⟨h', x⟩, ?_, (List.prefix_append _ _).trans hp, rfl⟩
        simp only [fromList, bind_apply]
        rw [fromListArray_eq zs hl]
        simp only
        rw [e]
    · refine ⟨⟨h, x⟩, ?_, List.prefix_rfl, rfl⟩
      simp only [fromList, bind_apply]
      rw [fromListArray_raise zs hl]

end Mosml.Matrix
